import Verif.Dense.Wild
import Verif.Ordered.DenseCopy

/-!
# Hash functions and comparisons that answer arbitrarily (ordered dense table)

As in `Verif.Dense.Wild` the operations get the hashes that they compute and the answers to the comparisons of their search, the element is stored in
the field `val` of a node, and the field `key` is a ghost: for each component a serial number and the hash computed at the insertion.
-/

set_option linter.unusedSectionVars false

namespace Tpp.ODense

open Tpp.Dense (Elem LF Table GTable Inv Below swapRemove)
open Tpp.Ordered

variable {k : Nat} {K V : Type}

/-- An ordered table with ghost keys (dense_table.hpp 904-912 and `link_base`). -/
abbrev GOTable (k : Nat) (K V : Type) := OTable k (Nat × Nat) (Elem k K V)

/-- The functions of the container (dense_table.hpp 304-457); positions count from `begin()`. -/
inductive WildOp (k : Nat) (K V : Type)
  | insert (h : Fin k → Nat) (p : Fin k → Nat → K → Bool) (key : Fin k → K) (v : V)
  | emplace (h : Fin k → Nat) (p : Fin k → Nat → K → Bool) (key : Fin k → K) (v : V)
  | assign (hk : k = 1) (h : Nat) (p : Nat → K → Bool) (x : K) (v : V)
  | erase (j : Fin k) (h : Nat) (p : Nat → K → Bool)
  | find (j : Fin k) (h : Nat) (p : Nat → K → Bool)
  | contains (j : Fin k) (h : Nat) (p : Nat → K → Bool)
  | eraseNth (n : Nat)
  | clear
  | reserve (n : Nat)
  | rehash (n : Nat)
  | setLoad (lf : LF)
  | size
  | front
  | back
  | iterate
  | reverse

/-- What remains of an answer without the serial numbers (not in /repo). -/
def Out.strip : Out k (Nat × Nat) (Elem k K V) → Out k K V
  | .unit => .unit
  | .bool b => .bool b
  | .nat n => .nat n
  | .ins x b => .ins x.2 b
  | .elem x => .elem (x.map Prod.snd)
  | .list l => .list (l.map Prod.snd)

namespace OTable

/-- An operation that calls neither function: the one of `OTable.step`. -/
def stepSame (sz : Int) (A : Alloc) (m : Mem) (t : GOTable k K V) (op : Op k (Nat × Nat) (Elem k K V)) : M (Mem × GOTable k K V × Out k K V) :=
  (t.step Prod.snd sz A m op).map fun r => (r.1, r.2.1, r.2.2.strip)

/-- An insertion in a history (dense_table.hpp 372-404): the returned iterator is dereferenced. -/
def insertStep (sz : Int) (A : Alloc) (m : Mem) (t : GOTable k K V) (op : GTable k K V → M (GTable k K V × Nat × Bool)) :
    M (Mem × GOTable k K V × Out k K V) := do
  let r ← t.insertWith sz A m op none
  let e ← r.2.1.elemAt sz r.2.2.1
  .ok (r.1, r.2.1, .ins e.2 r.2.2.2)

/-- `erase(key)` (dense_table.hpp 428-429, 740-762). -/
def eraseWild (sz : Int) (m : Mem) (t : GOTable k K V) (j : Fin k) (h : Nat) (p : Nat → K → Bool) : M (Mem × GOTable k K V × Bool) := do
  let c ← t.core.eraseWild j h p
  if c.2.2 then do
    let r ← t.eraseLinks sz m c.2.1
    .ok (r.1, { t with core := c.1 }, true)
  else .ok (m, { t with core := c.1 }, false)

/-- One operation (dense_table.hpp 304-457). -/
def stepWild (sz : Int) (A : Alloc) (g : Nat) (m : Mem) (t : GOTable k K V) : WildOp k K V → M (Mem × GOTable k K V × Out k K V)
  | .insert h p key v => t.insertStep sz A m fun c => c.insertWild g h p key v
  | .emplace h p key v => t.insertStep sz A m fun c => c.emplaceWild g h p key v
  | .assign hk h p x v => t.insertStep sz A m fun c => Table.assignStepWild g hk c h p x v
  | .erase j h p => do
    let r ← t.eraseWild sz m j h p
    .ok (r.1, r.2.1, .bool r.2.2)
  | .find j h p => do
    let (i, _) ← t.core.findNodeWild p j h
    match i with
    | none => .ok (m, t, .elem none)
    | some i =>
      let e ← t.elemAt sz (t.addr sz i)
      .ok (m, t, .elem (some e.2))
  | .contains j h p => do
    let (i, _) ← t.core.findNodeWild p j h
    .ok (m, t, .bool i.isSome)
  | .eraseNth n => t.stepSame sz A m (.eraseNth n)
  | .clear => t.stepSame sz A m .clear
  | .reserve n => t.stepSame sz A m (.reserve n)
  | .rehash n => t.stepSame sz A m (.rehash n)
  | .setLoad lf => t.stepSame sz A m (.setLoad lf)
  | .size => t.stepSame sz A m .size
  | .front => t.stepSame sz A m .front
  | .back => t.stepSame sz A m .back
  | .iterate => t.stepSame sz A m .iterate
  | .reverse => t.stepSame sz A m .reverse

/-- A history (dense_table.hpp 304-457); `g` is the next serial number. -/
def runWild (sz : Int) (A : Alloc) (g : Nat) (m : Mem) (t : GOTable k K V) : List (WildOp k K V) → M (Mem × GOTable k K V × List (Out k K V))
  | [] => .ok (m, t, [])
  | op :: ops => do
    let r ← t.stepWild sz A g m op
    let r' ← r.2.1.runWild sz A (g + 1) r.1 ops
    .ok (r'.1, r'.2.1, r.2.2 :: r'.2.2)

end OTable

/-- What an operation with arbitrary answers may do to a container with the sequence `l`: `l'` is the sequence afterwards. -/
def Does (l l' : List (Elem k K V)) (out : Out k K V) : WildOp k K V → Prop
  | .insert _ p key v | .emplace _ p key v => (l' = l ++ [(key, v)] ∧ out = .ins (key, v) true) ∨
      (l' = l ∧ ∃ e ∈ l, (∃ j i, p j i (e.1 j) = true) ∧ out = .ins e false)
  | .assign hk _ p x v => (l' = l ++ [((fun _ => x, v) : Elem k K V)] ∧ out = .ins (fun _ => x, v) true) ∨
      ∃ a e b, (∃ i, p i (e.1 ⟨0, by omega⟩) = true) ∧ l = a ++ e :: b ∧ l' = a ++ (e.1, v) :: b ∧ out = .ins (e.1, v) false
  | .erase j _ p => (l' = l ∧ out = .bool false) ∨
      ∃ a e b, (∃ i, p i (e.1 j) = true) ∧ l = a ++ e :: b ∧ l' = a ++ b ∧ out = .bool true
  | .find j _ p => l' = l ∧ (out = .elem none ∨ ∃ e ∈ l, (∃ i, p i (e.1 j) = true) ∧ out = .elem (some e))
  | .contains j _ p => l' = l ∧ (out = .bool false ∨ ∃ e ∈ l, (∃ i, p i (e.1 j) = true) ∧ out = .bool true)
  | .eraseNth n => l' = l.eraseIdx n ∧ out = .bool (n < l.length)
  | .clear => l' = [] ∧ out = .unit
  | .reserve _ | .rehash _ | .setLoad _ => l' = l ∧ out = .unit
  | .size => l' = l ∧ out = .nat l.length
  | .front => l' = l ∧ out = .elem l.head?
  | .back => l' = l ∧ out = .elem l.getLast?
  | .iterate => l' = l ∧ out = .list l
  | .reverse => l' = l ∧ out = .list l.reverse

/-- Whether there are buckets after an operation, given whether there are before. -/
def WildOp.buckets : WildOp k K V → Bool → Bool
  | .insert _ _ _ _, _ | .emplace _ _ _ _, _ | .assign _ _ _ _ _, _ => true
  | .rehash n, b => b || n ≠ 0
  | _, b => b

/-- The operation needs buckets. -/
def WildOp.needs : WildOp k K V → Bool
  | .erase _ _ _ => true
  | _ => false

/-- The container holds the elements `l` in this order; the serial numbers are below `g`. -/
def Has (g : Nat) (sz : Int) (m : Mem) (t : GOTable k K V) (l : List (Elem k K V)) : Prop :=
  ∃ s, Holds Prod.snd sz m t s ∧ Below g s ∧ s.map Prod.snd = l

theorem seq_map {E F : Type} (f : E → F) (l : List E) (o : List Nat) : (seq l o).map f = seq (l.map f) o := by
  unfold seq
  rw [List.map_filterMap]
  refine List.filterMap_congr fun i _ => ?_
  rw [List.getElem?_map]

theorem below_perm {g : Nat} {l l' : List (Elem k (Nat × Nat) (Elem k K V))} (h : Below g l) (hp : l.Perm l') : Below g l' :=
  fun x hx => h x (hp.mem_iff.mpr hx)

theorem seq_has {E : Type} {l : List E} {o : List Nat} (h : o.Perm (List.range l.length)) {i : Nat} {e : E} (he : l[i]? = some e) : e ∈ seq l o :=
  (seq_perm h).mem_iff.mpr (List.mem_of_getElem? he)

variable {sz : Int} {A : Alloc} {g : Nat} {m : Mem} {t : GOTable k K V} {l : List (Elem k (Nat × Nat) (Elem k K V))} {o : List Nat}

/-- An insertion of either kind, given what it does to the array. -/
theorem insertStep_wild (hsz : 0 < sz) (hA : A.Sound sz) (h : Rep Prod.snd sz m t l o) {op : GTable k K V → M (GTable k K V × Nat × Bool)}
    {r : GTable k K V × Nat × Bool} {l' : List (Elem k (Nat × Nat) (Elem k K V))} (e : op t.core = .ok r)
    (hcap : ∀ t1, t.core.maybeResize = .ok t1 → r.1.cap = t1.cap) (hi : Inv Prod.snd r.1 l') (hb : Below (g + 1) l')
    {P : Nat → Elem k K V → Prop} {f : Elem k K V → Elem k K V} {y : Elem k K V}
    (hd : (l'.map Prod.snd = l.map Prod.snd ++ [y] ∧ r.2 = (l.length, true)) ∨
      ∃ i x, (l.map Prod.snd)[i]? = some x ∧ P i x ∧ l'.map Prod.snd = (l.map Prod.snd).set i (f x) ∧ r.2 = (i, false)) :
    ∃ m' t' s', t'.core = r.1 ∧ Has (g + 1) sz m' t' s' ∧
      ((s' = (seq l o).map Prod.snd ++ [y] ∧ t.insertStep sz A m op = .ok (m', t', .ins y true)) ∨
      ∃ a x b i, P i x ∧ (seq l o).map Prod.snd = a ++ x :: b ∧ s' = a ++ f x :: b ∧ t.insertStep sz A m op = .ok (m', t', .ins (f x) false)) := by
  rcases hd with ⟨d1, d2⟩ | ⟨i, x, d1, d2, d3, d4⟩
  · have hlen : l'.length = l.length + 1 := by
      have := congrArg List.length d1
      simpa using this
    obtain ⟨m', t', e1, e2, -, h3, -⟩ := insertWith_ok (op := op) (l' := l') hsz hA h e
      ⟨hcap, hi, fun _ => ⟨by rw [d2], hlen⟩, fun q => by rw [d2] at q; cases q⟩
    rw [d2] at e1 h3
    simp only [if_true] at h3
    refine ⟨m', t', _, e2, ⟨_, ⟨l', _, h3, rfl⟩, below_perm hb (seq_perm h3.perm).symm, rfl⟩, Or.inl ⟨?_, ?_⟩⟩
    · rw [seq_map, d1, seq_map]
      have := seq_snoc (l := l.map Prod.snd) (o := o) (by rw [List.length_map]; exact h.perm) y
      rw [List.length_map] at this
      exact this
    · unfold OTable.insertStep
      have hl : l.length < l'.length := by omega
      rw [e1, bind_ok]
      simp only
      rw [elemAt_ok hsz h3.core hl, bind_ok]
      have : l'[l.length].2 = y := by
        have q : (l'.map Prod.snd)[l.length]? = some y := by
          rw [d1, List.getElem?_append_right (by simp), List.length_map, Nat.sub_self]
          rfl
        rw [List.getElem?_map, List.getElem?_eq_getElem hl] at q
        exact Option.some.inj q
      rw [this]
  · have hlen : l'.length = l.length := by
      have := congrArg List.length d3
      simpa using this
    have hil : i < l.length := by
      have := (List.getElem?_eq_some_iff.mp d1).1
      simpa using this
    obtain ⟨m', t', e1, e2, -, h3, -⟩ := insertWith_ok (op := op) (l' := l') hsz hA h e
      ⟨hcap, hi, fun q => (by rw [d4] at q; cases q), fun _ => ⟨by rw [d4]; exact hil, hlen⟩⟩
    rw [d4] at e1 h3
    simp only [Bool.false_eq_true, if_false] at h3
    obtain ⟨o1, o2, ho⟩ := h.split hil
    have hn := h.nodup
    rw [ho] at hn
    have hne : ∀ q ∈ o1 ++ o2, q ≠ i := by
      intro q hq e'
      have := (List.perm_middle (a := i) (l₁ := o1) (l₂ := o2)).nodup_iff.mp hn
      rw [List.nodup_cons] at this
      exact this.1 (e' ▸ hq)
    have hset : ∀ o' : List Nat, (∀ q ∈ o', q ≠ i) → seq ((l.map Prod.snd).set i (f x)) o' = seq (l.map Prod.snd) o' := fun o' hq =>
      seq_congr fun q hq' => List.getElem?_set_ne (fun e' => hq q hq' e'.symm)
    refine ⟨m', t', _, e2, ⟨_, ⟨l', _, h3, rfl⟩, below_perm hb (seq_perm h3.perm).symm, rfl⟩,
      Or.inr ⟨seq (l.map Prod.snd) o1, x, seq (l.map Prod.snd) o2, i, d2, ?_, ?_, ?_⟩⟩
    · rw [seq_map, ho, seq_split (by simpa using hil)]
      have := (List.getElem?_eq_some_iff.mp d1).2
      rw [this]
    · rw [seq_map, d3, ho, seq_split (by simpa using hil), hset o1 fun q hq => hne q (List.mem_append_left _ hq),
        hset o2 fun q hq => hne q (List.mem_append_right _ hq), List.getElem_set_self]
    · unfold OTable.insertStep
      have hl : i < l'.length := by omega
      rw [e1, bind_ok]
      simp only
      rw [elemAt_ok hsz h3.core hl, bind_ok]
      have : l'[i].2 = f x := by
        have q : (l'.map Prod.snd)[i]? = some (f x) := by
          rw [d3, List.getElem?_set_self (by simpa using hil)]
        rw [List.getElem?_map, List.getElem?_eq_getElem hl] at q
        exact Option.some.inj q
      rw [this]

theorem eraseWild_ok (hsz : 0 < sz) (h : Rep Prod.snd sz m t l o) (hg : Below g l) (hb : 0 < t.core.bc) (j : Fin k) (h0 : Nat) (p : Nat → K → Bool) :
    ∃ m' t' b s', t.eraseWild sz m j h0 p = .ok (m', t', b) ∧ t'.core.bc = t.core.bc ∧ Has (g + 1) sz m' t' s' ∧
      Does ((seq l o).map Prod.snd) s' (.bool b) (.erase j h0 p) := by
  obtain ⟨c, l', e, h1, h2, h3, -, h4, h5⟩ := Dense.eraseWild_ok h.core hg hb j h0 p
  unfold OTable.eraseWild
  rw [e, bind_ok]
  rcases h5 with ⟨rfl, rfl⟩ | ⟨i, x, h5, h6, h7, rfl⟩
  · exact ⟨m, t, false, _, rfl, rfl, ⟨_, ⟨l', o, h, rfl⟩, below_perm h2 (seq_perm h.perm).symm, rfl⟩, Or.inl ⟨rfl, rfl⟩⟩
  · obtain ⟨hi, hx⟩ := List.getElem?_eq_some_iff.mp h6
    obtain ⟨o1, o2, ho⟩ := h.split hi
    rw [ho] at h ⊢
    obtain ⟨m', next, e', h'⟩ := eraseLinks_ok hsz h h1 h4
    rw [h5]
    simp only [if_true]
    rw [e', bind_ok]
    refine ⟨m', { t with core := c.1 }, true, _, rfl, h3, ⟨_, ⟨_, _, h'.rep, rfl⟩, below_perm h2 (seq_perm h'.rep.perm).symm, rfl⟩,
      Or.inr ⟨(seq l o1).map Prod.snd, x.2, (seq l o2).map Prod.snd, ⟨i, h7⟩, ?_, ?_, rfl⟩⟩
    · rw [seq_split hi, hx, List.map_append, List.map_cons]
    · rw [seq_ren h.perm (fun _ q => q), seq_append, List.map_append]

theorem stepWild_ok (hsz : 0 < sz) (hA : A.Sound sz) {s : List (Elem k K V)} (h : Has g sz m t s) (op : WildOp k K V)
    (hb : op.needs = true → 0 < t.core.bc) : ∃ m' t' out s', t.stepWild sz A g m op = .ok (m', t', out) ∧ Does s s' out op ∧
      Has (g + 1) sz m' t' s' ∧ ∀ b, (b = true → 0 < t.core.bc) → op.buckets b = true → 0 < t'.core.bc := by
  obtain ⟨q, hq, hg, rfl⟩ := h
  have same : ∀ (op' : Op k (Nat × Nat) (Elem k K V)), (∀ j x, op' ≠ .erase j x) → (∀ y ∈ (Spec.step q op').1, y ∈ q) →
      ∃ m' t', t.stepSame sz A m op' = .ok (m', t', (Spec.step q op').2.strip) ∧ Has (g + 1) sz m' t' ((Spec.step q op').1.map Prod.snd) ∧
        ∀ b, (b = true → 0 < t.core.bc) → op'.buckets b = true → 0 < t'.core.bc := by
    intro op' h1 h2
    obtain ⟨m', t', e, h3, h4⟩ := step_ok hsz hA hq op' (fun j x e => absurd e (h1 j x))
    refine ⟨m', t', ?_, ⟨_, h3.holds, fun y hy => hg.mono y (h2 y hy), rfl⟩, h4⟩
    unfold OTable.stepSame
    rw [e]
    rfl
  obtain ⟨l, o, h, rfl⟩ := id hq
  have hgl : Below g l := below_perm hg (seq_perm h.perm)
  have keep : Has (g + 1) sz m t ((seq l o).map Prod.snd) := ⟨_, hq, hg.mono, rfl⟩
  cases op with
  | insert h0 p key v =>
    obtain ⟨r, l', e, i1, i2, i3, i4, i5⟩ := Dense.insertWild_ok h.core hgl h0 p key v
    obtain ⟨m', t', s', e1, e2, e3⟩ := insertStep_wild (op := fun c => c.insertWild g h0 p key v) (P := fun i x => ∃ j, p j i (x.1 j) = true)
      (f := id) (y := (key, v)) hsz hA h e i4 i1 i2 (by
        rcases i5 with ⟨d1, d2⟩ | ⟨d1, i, j, x, d2, d3, d4⟩
        · refine Or.inl ⟨d1, ?_⟩
          injection d2 with d2 d2'
          rw [List.length_map] at d2
          exact Prod.ext d2 d2'
        · refine Or.inr ⟨i, x, d2, ⟨j, d3⟩, ?_, ?_⟩
          · obtain ⟨q1, q2⟩ := List.getElem?_eq_some_iff.mp d2
            rw [d1, id, ← q2, List.set_getElem_self]
          · injection d4 with d4 d4'
            exact Prod.ext d4 d4')
    rcases e3 with ⟨e3, e4⟩ | ⟨a, x, b, i, ⟨j, e3⟩, e4, e5, e6⟩
    · exact ⟨m', t', _, s', e4, Or.inl ⟨e3, rfl⟩, e2, fun _ _ _ => e1 ▸ i3⟩
    · exact ⟨m', t', _, s', e6, Or.inr ⟨by rw [e4, e5]; rfl, x, by rw [e4]; simp, ⟨j, i, e3⟩, rfl⟩, e2, fun _ _ _ => e1 ▸ i3⟩
  | emplace h0 p key v =>
    obtain ⟨r, l', e, i1, i2, i3, i4, i5⟩ := Dense.emplaceWild_ok h.core hgl h0 p key v
    obtain ⟨m', t', s', e1, e2, e3⟩ := insertStep_wild (op := fun c => c.emplaceWild g h0 p key v) (P := fun i x => ∃ j, p j i (x.1 j) = true)
      (f := id) (y := (key, v)) hsz hA h e i4 i1 i2 (by
        rcases i5 with ⟨d1, d2⟩ | ⟨d1, i, j, x, d2, d3, d4⟩
        · refine Or.inl ⟨d1, ?_⟩
          injection d2 with d2 d2'
          rw [List.length_map] at d2
          exact Prod.ext d2 d2'
        · refine Or.inr ⟨i, x, d2, ⟨j, d3⟩, ?_, ?_⟩
          · obtain ⟨q1, q2⟩ := List.getElem?_eq_some_iff.mp d2
            rw [d1, id, ← q2, List.set_getElem_self]
          · injection d4 with d4 d4'
            exact Prod.ext d4 d4')
    rcases e3 with ⟨e3, e4⟩ | ⟨a, x, b, i, ⟨j, e3⟩, e4, e5, e6⟩
    · exact ⟨m', t', _, s', e4, Or.inl ⟨e3, rfl⟩, e2, fun _ _ _ => e1 ▸ i3⟩
    · exact ⟨m', t', _, s', e6, Or.inr ⟨by rw [e4, e5]; rfl, x, by rw [e4]; simp, ⟨j, i, e3⟩, rfl⟩, e2, fun _ _ _ => e1 ▸ i3⟩
  | assign hk h0 p x v =>
    clear hb
    cases hk
    obtain ⟨r, l', e, i1, i2, i3, i4, i5⟩ := Dense.assignWild_ok h.core hgl h0 p x v
    obtain ⟨m', t', s', e1, e2, e3⟩ := insertStep_wild (op := fun c => c.assignWild g h0 p x v) (P := fun i y => p i (y.1 0) = true)
      (f := fun y => (y.1, v)) (y := (fun _ => x, v)) hsz hA h e i4 i1 i2 (by
        rcases i5 with ⟨d1, d2⟩ | ⟨i, y, d2, d3, d1, d4⟩
        · refine Or.inl ⟨d1, ?_⟩
          injection d2 with d2 d2'
          rw [List.length_map] at d2
          exact Prod.ext d2 d2'
        · refine Or.inr ⟨i, y, d2, d3, d1, ?_⟩
          injection d4 with d4 d4'
          exact Prod.ext d4 d4')
    rcases e3 with ⟨e3, e4⟩ | ⟨a, y, b, i, e3, e4, e5, e6⟩
    · exact ⟨m', t', _, s', e4, Or.inl ⟨e3, rfl⟩, e2, fun _ _ _ => e1 ▸ i3⟩
    · exact ⟨m', t', _, s', e6, Or.inr ⟨a, y, b, ⟨i, e3⟩, e4, e5, rfl⟩, e2, fun _ _ _ => e1 ▸ i3⟩
  | erase j h0 p =>
    obtain ⟨m', t', b, s', e1, e2, e3, e4⟩ := eraseWild_ok hsz h hgl (hb rfl) j h0 p
    refine ⟨m', t', .bool b, s', ?_, e4, e3, fun b' hb1 hb2 => e2 ▸ hb1 hb2⟩
    simp only [OTable.stepWild]
    rw [e1, bind_ok]
  | find j h0 p =>
    obtain ⟨r0, -, h1 | ⟨i, r', n, h1, h2, -, h3⟩⟩ := Dense.findNodeWild_cases h.core hgl j h0 p
    · refine ⟨m, t, .elem none, _, ?_, ⟨rfl, Or.inl rfl⟩, keep, fun b hb' hb'' => hb' hb''⟩
      simp only [OTable.stepWild]
      rw [h1, bind_ok]
    · have hl := h.core.toArr.node_elem (Dense.readNode_node h2)
      obtain ⟨hi, hx⟩ := List.getElem?_eq_some_iff.mp hl
      refine ⟨m, t, .elem (some n.val), _, ?_, ⟨rfl, Or.inr ⟨n.val, List.mem_map.mpr ⟨_, seq_has h.perm hl, rfl⟩, ⟨i, h3⟩, rfl⟩⟩, keep,
        fun b hb' hb'' => hb' hb''⟩
      simp only [OTable.stepWild]
      rw [h1, bind_ok]
      simp only
      rw [elemAt_ok hsz h.core hi, bind_ok, hx]
  | contains j h0 p =>
    obtain ⟨r0, -, h1 | ⟨i, r', n, h1, h2, -, h3⟩⟩ := Dense.findNodeWild_cases h.core hgl j h0 p
    · refine ⟨m, t, .bool false, _, ?_, ⟨rfl, Or.inl rfl⟩, keep, fun b hb' hb'' => hb' hb''⟩
      simp only [OTable.stepWild]
      rw [h1, bind_ok]
      rfl
    · have hl := h.core.toArr.node_elem (Dense.readNode_node h2)
      refine ⟨m, t, .bool true, _, ?_, ⟨rfl, Or.inr ⟨n.val, List.mem_map.mpr ⟨_, seq_has h.perm hl, rfl⟩, ⟨i, h3⟩, rfl⟩⟩, keep,
        fun b hb' hb'' => hb' hb''⟩
      simp only [OTable.stepWild]
      rw [h1, bind_ok]
      rfl
  | eraseNth n =>
    obtain ⟨m', t', e, h1, h2⟩ := same (.eraseNth n) (fun j x e => by cases e) (fun y hy => (List.eraseIdx_sublist _ n).subset hy)
    refine ⟨m', t', _, _, e, ⟨?_, ?_⟩, h1, h2⟩
    · simp only [Spec.step]
      rw [List.eraseIdx_map]
    · simp [Spec.step, Out.strip]
  | clear =>
    obtain ⟨m', t', e, h1, h2⟩ := same .clear (fun j x e => by cases e) (fun y hy => by cases hy)
    exact ⟨m', t', _, _, e, ⟨rfl, rfl⟩, h1, h2⟩
  | reserve n =>
    obtain ⟨m', t', e, h1, h2⟩ := same (.reserve n) (fun j x e => by cases e) (fun y hy => hy)
    exact ⟨m', t', _, _, e, ⟨rfl, rfl⟩, h1, h2⟩
  | rehash n =>
    obtain ⟨m', t', e, h1, h2⟩ := same (.rehash n) (fun j x e => by cases e) (fun y hy => hy)
    exact ⟨m', t', _, _, e, ⟨rfl, rfl⟩, h1, h2⟩
  | setLoad lf =>
    obtain ⟨m', t', e, h1, h2⟩ := same (.setLoad lf) (fun j x e => by cases e) (fun y hy => hy)
    exact ⟨m', t', _, _, e, ⟨rfl, rfl⟩, h1, h2⟩
  | size =>
    obtain ⟨m', t', e, h1, h2⟩ := same .size (fun j x e => by cases e) (fun y hy => hy)
    exact ⟨m', t', _, _, e, ⟨rfl, by simp [Spec.step, Out.strip]⟩, h1, h2⟩
  | front =>
    obtain ⟨m', t', e, h1, h2⟩ := same .front (fun j x e => by cases e) (fun y hy => hy)
    exact ⟨m', t', _, _, e, ⟨rfl, by simp [Spec.step, Out.strip]⟩, h1, h2⟩
  | back =>
    obtain ⟨m', t', e, h1, h2⟩ := same .back (fun j x e => by cases e) (fun y hy => hy)
    exact ⟨m', t', _, _, e, ⟨rfl, by simp [Spec.step, Out.strip]⟩, h1, h2⟩
  | iterate =>
    obtain ⟨m', t', e, h1, h2⟩ := same .iterate (fun j x e => by cases e) (fun y hy => hy)
    exact ⟨m', t', _, _, e, ⟨rfl, rfl⟩, h1, h2⟩
  | reverse =>
    obtain ⟨m', t', e, h1, h2⟩ := same .reverse (fun j x e => by cases e) (fun y hy => hy)
    exact ⟨m', t', _, _, e, ⟨rfl, by simp [Spec.step, Out.strip]⟩, h1, h2⟩

end Tpp.ODense
