import Verif.Swiss.Bulk

/-!
# Histories of operations on one swiss table container, and reachable containers
-/

set_option linter.unusedSectionVars false

namespace Tpp

/-- Operations on one container, as a user issues them.  `rehash n` stands for `rehash(n + 1)`. -/
inductive Op (K V : Type)
  | insert (k : K) (v : V)
  | assign (k : K) (v : V)
  | erase (k : K)
  | clear
  | reserve (n : Nat)
  | rehash (n : Nat)
  | find (k : K)
  | contains (k : K)
  | size
  | iterate
  | index (k : K) (dflt : V)
  | extract (k : K)
  | insertNode (x : K × V)
  | eraseIf (pred : K × V → Bool)
  /-- an insertion whose element constructor throws -/
  | insertThrow (k : K)
  /-- range insertion; the flag tells random access iterators -/
  | insertRange (ra : Bool) (xs : List (K × V))

/-- What the user sees of an operation. -/
inductive Out (K V : Type)
  | unit
  | bool (b : Bool)
  | nat (n : Nat)
  | opt (v : Option V)
  /-- the element designated by the returned iterator, and the flag -/
  | ins (x : K × V) (b : Bool)
  | node (x : Option (K × V))
  | list (l : List (K × V))
  /-- number of removed elements and the predicate calls -/
  | count (n : Nat) (calls : List (K × V))
  deriving DecidableEq

/-- Outputs agree; sequences of elements agree up to order. -/
def Out.Agree {K V : Type} : Out K V → Out K V → Prop
  | .list a, .list b => a.Perm b
  | .count n a, .count m b => n = m ∧ a.Perm b
  | .unit, .unit => True
  | .bool a, .bool b => a = b
  | .nat a, .nat b => a = b
  | .opt a, .opt b => a = b
  | .ins x a, .ins y b => x = y ∧ a = b
  | .node a, .node b => a = b
  | _, _ => False

namespace Spec

variable {K V : Type} [DecidableEq K]

/-- The answer of a mathematical map to one operation. -/
def step (m : List (K × V)) : Op K V → List (K × V) × Out K V
  | .insert k v => (insert m k v, .ins (k, (lookup m k).getD v) (lookup m k).isNone)
  | .assign k v => (assign m k v, .ins (k, v) (lookup m k).isNone)
  | .erase k => (erase m k, .unit)
  | .clear => ([], .unit)
  | .reserve _ => (m, .unit)
  | .rehash _ => (m, .unit)
  | .find k => (m, .opt (lookup m k))
  | .contains k => (m, .bool (lookup m k).isSome)
  | .size => (m, .nat m.length)
  | .iterate => (m, .list m)
  | .index k d => (insert m k d, .opt (some ((lookup m k).getD d)))
  | .extract k => (erase m k, .node ((lookup m k).map fun v => (k, v)))
  | .insertNode x => (insert m x.1 x.2, .ins (x.1, (lookup m x.1).getD x.2) (lookup m x.1).isNone)
  | .eraseIf p => (m.filter fun x => !p x, .count (m.filter p).length m)
  | .insertThrow k => (m, .bool (lookup m k).isNone)
  | .insertRange _ xs => (xs.foldl (fun m x => insert m x.1 x.2) m, .unit)

/-- The answers of a mathematical map to a history. -/
def run (m : List (K × V)) : List (Op K V) → List (K × V) × List (Out K V)
  | [] => (m, [])
  | op :: ops =>
    let r := step m op
    let s := run r.1 ops
    (s.1, r.2 :: s.2)

end Spec

namespace Swiss

variable {K V : Type} [DecidableEq K]

/-- One operation on the model; returned iterators are dereferenced to produce the output. -/
def Table.step (isa : Isa) (hash : K → Nat) (t : Table K V) : Op K V → M (Table K V × Out K V)
  | .insert k v => do
    let (t, p, b) ← t.insert isa hash k v
    let n ← t.readNode (← t.toIter isa p)
    .ok (t, .ins (n.key, n.val) b)
  | .assign k v => do
    let (t, p, b) ← t.insertOrAssign isa hash k v
    let n ← t.readNode (← t.toIter isa p)
    .ok (t, .ins (n.key, n.val) b)
  | .erase k => do
    let (t, _) ← t.erase isa hash k
    .ok (t, .unit)
  | .clear => do
    let t ← t.clear isa
    .ok (t, .unit)
  | .reserve n => do
    let t ← t.reserve isa n
    .ok (t, .unit)
  | .rehash n => do
    let t ← t.rehash isa (n + 1)
    .ok (t, .unit)
  | .find k => do
    let v ← t.lookup isa hash k
    .ok (t, .opt v)
  | .contains k => do
    let b ← t.contains isa hash k
    .ok (t, .bool b)
  | .size => .ok (t, .nat t.size)
  | .iterate => do
    let l ← t.iterate isa
    .ok (t, .list l)
  | .index k d => do
    let (t, v) ← t.index isa hash d k
    .ok (t, .opt (some v))
  | .extract k => do
    let (t, x) ← t.extract isa hash k
    .ok (t, .node x)
  | .insertNode x => do
    let (t, p, b, _) ← t.insertNode isa hash x
    let n ← t.readNode (← t.toIter isa p)
    .ok (t, .ins (n.key, n.val) b)
  | .eraseIf p => do
    let (t, n, calls) ← t.eraseIf isa p
    .ok (t, .count n calls)
  | .insertThrow k => do
    let (t, b) ← t.insertThrow isa hash k
    .ok (t, .bool b)
  | .insertRange ra xs => do
    let t ← t.insertRange isa hash ra xs
    .ok (t, .unit)

/-- A history. -/
def Table.run (isa : Isa) (hash : K → Nat) (t : Table K V) : List (Op K V) → M (Table K V × List (Out K V))
  | [] => .ok (t, [])
  | op :: ops => do
    let (t, o) ← t.step isa hash op
    let (t, os) ← Table.run isa hash t ops
    .ok (t, o :: os)

theorem foldl_insert_perm {m m' : List (K × V)} (h : m.Perm m') (hu : Spec.Uniq m) (xs : List (K × V)) :
    (xs.foldl (fun m x => Spec.insert m x.1 x.2) m).Perm (xs.foldl (fun m x => Spec.insert m x.1 x.2) m') := by
  induction xs generalizing m m' with
  | nil => exact h
  | cons x xs ih =>
    simp only [List.foldl_cons]
    have hl := Spec.lookup_perm h hu x.1
    refine ih ?_ ?_
    · unfold Spec.insert
      rw [hl]
      cases Spec.lookup m' x.1 with
      | none => exact h.cons _
      | some _ => exact h
    · unfold Spec.insert
      cases hx : Spec.lookup m x.1 with
      | none =>
        unfold Spec.Uniq
        rw [List.map_cons, List.nodup_cons]
        refine ⟨?_, hu⟩
        intro hmem
        obtain ⟨⟨a, b⟩, h1, h2⟩ := List.mem_map.mp hmem
        simp only at h2
        subst h2
        exact Spec.lookup_none.mp hx b h1
      | some _ => exact hu

theorem deref_spec {isa : Isa} {hash : K → Nat} {t : Table K V} (h : Inv isa hash t) {p : Nat} {x : K × V}
    (hx : t.At p x) : ∃ n, t.toIter isa p = .ok p ∧ t.readNode p = .ok n ∧ (n.key, n.val) = x := by
  obtain ⟨hp, n, hn, e⟩ := hx
  have ho : (t.ctl p).isOccupied = true := by rw [h.tag p hp n hn]; rfl
  exact ⟨n, toIter_stay h (Or.inr ⟨hp, ho⟩), readNode_some hp hn, e⟩

/-- Operations whose result does not depend on making an iterator by skipping free slots. -/
def _root_.Tpp.Op.direct {K V : Type} : Op K V → Bool
  | .erase _ => false
  | .iterate => false
  | .extract _ => false
  | .eraseIf _ => false
  | _ => true

/-- What a correct step is. -/
def StepOk (isa : Isa) (hash : K → Nat) (m : List (K × V)) (op : Op K V) (r : Table K V × Out K V) : Prop :=
  Inv isa hash r.1 ∧ r.1.contents.Perm (Spec.step m op).1 ∧ r.2.Agree (Spec.step m op).2

theorem ok_intro {α : Type} {x : M α} {P : α → Prop} {a : α} (h : x = .ok a) (hp : P a) : ∃ r, x = .ok r ∧ P r :=
  ⟨a, h, hp⟩

/-- With every block implementation, these operations preserve the invariant and answer as the map does. -/
theorem step_direct {isa : Isa} {hash : K → Nat} {t : Table K V} (h : Inv isa hash t) {m : List (K × V)}
    (hm : t.contents.Perm m) (op : Op K V) (hop : op.direct = true) :
    ∃ r, t.step isa hash op = .ok r ∧ StepOk isa hash m op r := by
  have hu := h.contents_uniq
  have hl := fun k => Spec.lookup_perm hm hu k
  cases op with
  | insert k v =>
    obtain ⟨t', p, b, h1, h2, _, h3⟩ := insert_spec h k v
    rcases h3 with ⟨hb, h4, h5, h6, _⟩ | ⟨w, hb, h4, h5, h6⟩
    · obtain ⟨n, d1, d2, d3⟩ := deref_spec h2 h6
      rw [hl] at h4
      refine ok_intro (a := (t', .ins (n.key, n.val) b)) ?_ ⟨h2, ?_, ?_⟩
      · simp only [Table.step, h1, bind_ok, d1, d2]
      · simp only [Spec.step, Spec.insert, h4]; exact h5.trans (hm.cons _)
      · simp [Spec.step, Out.Agree, h4, hb, d3]
    · subst h5
      obtain ⟨n, d1, d2, d3⟩ := deref_spec h2 h6
      rw [hl] at h4
      refine ok_intro (a := (t', .ins (n.key, n.val) b)) ?_ ⟨h2, ?_, ?_⟩
      · simp only [Table.step, h1, bind_ok, d1, d2]
      · simp only [Spec.step, Spec.insert, h4]; exact hm
      · simp [Spec.step, Out.Agree, h4, hb, d3]
  | assign k v =>
    obtain ⟨t', p, b, h1, h2, _, h3⟩ := insertOrAssignWith_spec h k v (fun _ => v)
    rcases h3 with ⟨hb, h4, h5, h6, _⟩ | ⟨w, hb, h4, h5, h6, _⟩
    · obtain ⟨n, d1, d2, d3⟩ := deref_spec h2 h6
      rw [hl] at h4
      refine ok_intro (a := (t', .ins (n.key, n.val) b)) ?_ ⟨h2, ?_, ?_⟩
      · simp only [Table.step, Table.insertOrAssign, h1, bind_ok, d1, d2]
      · simp only [Spec.step, Spec.assign]; rw [Spec.erase_of_absent h4]; exact h5.trans (hm.cons _)
      · simp [Spec.step, Out.Agree, h4, hb, d3]
    · obtain ⟨n, d1, d2, d3⟩ := deref_spec h2 h6
      rw [hl] at h4
      refine ok_intro (a := (t', .ins (n.key, n.val) b)) ?_ ⟨h2, ?_, ?_⟩
      · simp only [Table.step, Table.insertOrAssign, h1, bind_ok, d1, d2]
      · simp only [Spec.step, Spec.assign]; exact h5.trans ((Spec.erase_perm hm k).cons _)
      · simp [Spec.step, Out.Agree, h4, hb, d3]
  | erase k => cases hop
  | clear =>
    obtain ⟨t', h1, h2, h3, h4, h5, _⟩ := clear_spec h
    refine ok_intro (a := (t', .unit)) (by simp only [Table.step, h1, bind_ok]) ⟨h2, ?_, trivial⟩
    simp only [Spec.step, h5]; exact List.Perm.refl _
  | reserve n =>
    obtain ⟨t', h1, h2, h3, h4, h5⟩ := reserve_spec h n
    exact ok_intro (a := (t', .unit)) (by simp only [Table.step, h1, bind_ok])
      ⟨h2, (contents_perm h4).trans hm, trivial⟩
  | rehash n =>
    obtain ⟨t', h1, h2, h3, h4, h5⟩ := rehash_spec h (n := n + 1) (by omega)
    exact ok_intro (a := (t', .unit)) (by simp only [Table.step, h1, bind_ok])
      ⟨h2, (contents_perm h4).trans hm, trivial⟩
  | find k =>
    refine ok_intro (a := (t, .opt (Spec.lookup t.contents k))) ?_ ⟨h, hm, ?_⟩
    · simp only [Table.step, lookup_spec h, bind_ok]
    · simp only [Spec.step, Out.Agree, hl]
  | contains k =>
    refine ok_intro (a := (t, .bool (Spec.lookup t.contents k).isSome)) ?_ ⟨h, hm, ?_⟩
    · simp only [Table.step, contains_spec h, bind_ok]
    · simp only [Spec.step, Out.Agree, hl]
  | size =>
    refine ok_intro (a := (t, .nat t.size)) rfl ⟨h, hm, ?_⟩
    simp only [Spec.step, Out.Agree]
    rw [← h.contents_length, hm.length_eq]
  | iterate => cases hop
  | index k d =>
    obtain ⟨t', v, h1, h2, h3, h4, h5, _⟩ := index_spec h d k
    refine ok_intro (a := (t', .opt (some v))) ?_ ⟨h2, ?_, ?_⟩
    · simp only [Table.step, h1, bind_ok]
    · refine h3.trans ?_
      simp only [Spec.step, Spec.insert, hl]
      cases Spec.lookup m k with
      | none => exact hm.cons _
      | some _ => exact hm
    · simp only [Spec.step, Out.Agree, h5, hl]
  | extract k => cases hop
  | insertNode x =>
    obtain ⟨t', p, b, l, h1, h2, _, h3⟩ := insertNode_spec h x
    rcases h3 with ⟨hb, _, h4, h5, h6⟩ | ⟨w, hb, _, h4, h5, h6⟩
    · obtain ⟨n, d1, d2, d3⟩ := deref_spec h2 h6
      rw [hl] at h4
      refine ok_intro (a := (t', .ins (n.key, n.val) b)) ?_ ⟨h2, ?_, ?_⟩
      · simp only [Table.step, h1, bind_ok, d1, d2]
      · simp only [Spec.step, Spec.insert, h4]; exact h5.trans (hm.cons _)
      · simp [Spec.step, Out.Agree, h4, hb, d3]
    · subst h5
      obtain ⟨n, d1, d2, d3⟩ := deref_spec h2 h6
      rw [hl] at h4
      refine ok_intro (a := (t', .ins (n.key, n.val) b)) ?_ ⟨h2, ?_, ?_⟩
      · simp only [Table.step, h1, bind_ok, d1, d2]
      · simp only [Spec.step, Spec.insert, h4]; exact hm
      · simp [Spec.step, Out.Agree, h4, hb, d3]
  | eraseIf p => cases hop
  | insertThrow k =>
    obtain ⟨t', h1, h2, h3, h4, _⟩ := insertThrow_spec h k
    refine ok_intro (a := (t', .bool (Spec.lookup t.contents k).isNone)) ?_ ⟨h2, h3.trans hm, ?_⟩
    · simp only [Table.step, h1, bind_ok]
    · simp only [Spec.step, Out.Agree, hl]
  | insertRange ra xs =>
    obtain ⟨t', h1, h2, h3, _⟩ := insertRange_spec ra h xs
    refine ok_intro (a := (t', .unit)) ?_ ⟨h2, h3.trans ?_, trivial⟩
    · simp only [Table.step, h1, bind_ok]
    · exact foldl_insert_perm hm hu xs

/-- Every operation preserves the invariant and answers as the map does. -/
theorem step_spec {isa : Isa} {hash : K → Nat} {t : Table K V} (h : Inv isa hash t) {m : List (K × V)}
    (hm : t.contents.Perm m) (op : Op K V) :
    Ends isa (t.step isa hash op) (StepOk isa hash m op) := by
  have hu := h.contents_uniq
  have hl := fun k => Spec.lookup_perm hm hu k
  by_cases hop : op.direct = true
  · obtain ⟨r, h1, h2⟩ := step_direct h hm op hop
    exact Ends.of_ok h1 h2
  cases op with
  | erase k =>
    refine (erase_spec h k).bind ?_
    rintro ⟨t', it⟩ ⟨h1, _, h2, _⟩
    exact Ends.of_ok rfl ⟨h1, h2.trans (Spec.erase_perm hm k), trivial⟩
  | iterate =>
    refine (iterate_spec h).bind ?_
    rintro l rfl
    exact Ends.of_ok rfl ⟨h, hm, hm⟩
  | extract k =>
    refine (extract_spec h k).bind ?_
    rintro ⟨t', x⟩ ⟨h1, h2, h3, _⟩
    refine Ends.of_ok rfl ⟨h1, h2.trans (Spec.erase_perm hm k), ?_⟩
    show x = _
    rw [← hl]
    exact h3
  | eraseIf p =>
    refine (eraseIf_spec p h).bind ?_
    rintro ⟨t', n, calls⟩ ⟨h1, h2, h3, h4, _⟩
    refine Ends.of_ok rfl ⟨h1, h2.trans (hm.filter _), ?_⟩
    simp only at h3 h4
    simp only [Spec.step, Out.Agree, h3, h4]
    exact ⟨(hm.filter _).length_eq, hm⟩
  | _ => exact absurd rfl hop

theorem run_spec {isa : Isa} {hash : K → Nat} (ops : List (Op K V)) :
    ∀ {t : Table K V}, Inv isa hash t → ∀ {m : List (K × V)}, t.contents.Perm m →
      Ends isa (t.run isa hash ops) (fun r => Inv isa hash r.1 ∧ r.1.contents.Perm (Spec.run m ops).1 ∧
        List.Forall₂ Out.Agree r.2 (Spec.run m ops).2) := by
  induction ops with
  | nil => intro t h m hm; exact Ends.of_ok rfl ⟨h, hm, .nil⟩
  | cons op ops ih =>
    intro t h m hm
    unfold Table.run
    refine (step_spec h hm op).bind ?_
    rintro ⟨t', o⟩ ⟨h1, h2, h3⟩
    refine (ih h1 h2).bind ?_
    rintro ⟨t'', os⟩ ⟨h4, h5, h6⟩
    exact Ends.of_ok rfl ⟨h4, h5, .cons h3 h6⟩

/-- A source without erased slots, or without elements, can be copied. -/
def Copyable (a : Table K V) : Prop := a.size = 0 ∨ NoTomb a

theorem copyCtor_spec {isa : Isa} {hash : K → Nat} {a : Table K V} (h : Inv isa hash a) (hn : Copyable a) :
    ∃ b, Table.copyCtor isa a = .ok b ∧ Inv isa hash b ∧ b.contents = a.contents := by
  by_cases hz : a.size = 0
  · refine ⟨Table.init, ?_, Inv.init isa hash, ?_⟩
    · simp [Table.copyCtor, Table.copyData, Table.init, hz]
    · rw [init_contents, Table.contents, h.empty_of_size hz]; rfl
  · obtain ⟨b, h1, h2, h3, _⟩ := copyData_spec (t := Table.init) h hz (hn.resolve_left hz) (Nat.zero_le _) rfl
      (fun i hi => absurd hi (Nat.not_lt_zero _)) (Or.inl rfl)
    exact ⟨b, h1, h2, h3⟩

/-- When `t = a` is unproblematic: the allocator propagates (the old buffer is dropped); or the old buffer is replaced
or of the same size; or there is nothing to copy and nothing left in the old buffer. -/
def CopyFits (al : AllocP) (t a : Table K V) : Prop :=
  al.copyProp = true ∨ (a.size ≠ 0 ∧ t.cap ≤ a.cap) ∨ (a.size = 0 ∧ t.size = 0 ∧ NoTomb t)

theorem copyAssign_spec {isa : Isa} {hash hash' : K → Nat} {al : AllocP} {t a : Table K V} (ht : Inv isa hash t)
    (h : Inv isa hash' a) (hn : Copyable a) (hf : CopyFits al t a) :
    ∃ b, Table.copyAssign isa al t a = .ok b ∧ Inv isa hash' b ∧ b.contents = a.contents := by
  obtain ⟨f, h1, h2⟩ := eraseNodes_spec (isa := isa) (t := t) (by
    rcases ht.shape with h | h
    · exact Or.inl h.2
    · exact Or.inr h) ht.live
  unfold Table.copyAssign
  rw [h1]
  simp only [bind_ok]
  have hempty : a.size = 0 → a.contents = [] := fun hz => by rw [Table.contents, h.empty_of_size hz]; rfl
  by_cases hp : al.copyProp = true
  · simp only [Table.bufAssign, hp, if_true]
    rw [dropBuffer_spec (t := { t with node := f, size := 0 }) h2]
    simp only [bind_ok]
    by_cases hz : a.size = 0
    · simp only [Table.copyData, hz, ne_eq, not_true, if_true, if_false]
      refine ⟨_, rfl, ?_, (hempty hz).symm⟩
      refine ⟨Or.inl ⟨rfl, rfl⟩, ?_, ?_, ?_, ?_, ?_, ?_, ?_⟩
      all_goals first | (intro i hi; exact absurd hi (Nat.not_lt_zero _)) | rfl | (intro hi; exact absurd hi (Nat.not_lt_zero _))
    · obtain ⟨b, g1, g2, g3, _⟩ := copyData_spec
        (t := { t with node := fun _ => none, size := 0, cap := 0, len := 0, ctl := fun _ => .empty }) h hz
        (hn.resolve_left hz) (Nat.zero_le _) rfl (fun i hi => absurd hi (Nat.not_lt_zero _)) (Or.inl rfl)
      exact ⟨b, g1, g2, g3⟩
  · rw [Bool.not_eq_true] at hp
    simp only [Table.bufAssign, hp, Bool.false_eq_true, if_false, bind_ok]
    rcases hf with hf | ⟨hz, hle⟩ | ⟨hz, hz', hnt⟩
    · rw [hp] at hf; cases hf
    · obtain ⟨b, g1, g2, g3, _⟩ := copyData_spec (t := { t with node := f, size := 0 }) h hz
        (hn.resolve_left hz) hle rfl h2 (by
          rcases ht.shape with h | h
          · exact Or.inl h.2
          · exact Or.inr ⟨h.pow, h.len_eq⟩)
      exact ⟨b, g1, g2, g3⟩
    · simp only [Table.copyData, hz, ne_eq, not_true, if_true, if_false]
      have hocc : ∀ i, i < t.cap → (t.ctl i).isOccupied = false := by
        intro i hi
        have := ht.raw_of_size hz' i hi
        rw [← ht.live i hi, this]; rfl
      have hdel : cnt (fun i => (t.ctl i).isDeleted) t.cap = 0 := by
        refine Nat.eq_zero_of_not_pos fun hpos => ?_
        obtain ⟨i, hi, hd⟩ := cnt_pos hpos
        refine hnt i hi ?_
        revert hd
        cases t.ctl i <;> simp [Ctl.isDeleted]
      refine ⟨_, rfl, ?_, ?_⟩
      · refine ⟨ht.shape, ?_, ?_, ?_, ?_, ?_, ?_, ?_⟩
        · intro i hi
          show (f i).isSome = (t.ctl i).isOccupied
          rw [h2 i hi, hocc i hi]; rfl
        · intro i hi n hn'
          have : f i = some n := hn'
          rw [h2 i hi] at this; cases this
        · intro i hi n hn'
          have : f i = some n := hn'
          rw [h2 i hi] at this; cases this
        · intro i hi j hj x y hx
          have : f i = some x := hx
          rw [h2 i hi] at this; cases this
        · intro i hi n hn'
          have : f i = some n := hn'
          rw [h2 i hi] at this; cases this
        · show 0 = cnt (fun i => (t.ctl i).isOccupied) t.cap
          rw [← ht.size_eq, hz']
        · intro hc
          have hc' : 0 < t.cap := hc
          show (if t.cap ≠ 0 then maxSize isa t.cap else 0) + 0 + cnt (fun i => (t.ctl i).isDeleted) t.cap = maxSize isa t.cap
          rw [hdel, if_pos (by omega)]
          omega
      · rw [hempty hz]
        show List.map _ (collect f t.cap) = []
        rw [collect_none h2]; rfl

/-- The containers (hash function and table) a program can have in its hands: constructed empty, or obtained from
such containers by the operations below.  The constructors are exactly the operations for which the code keeps a
container usable; copies are restricted by `Copyable` and `CopyFits` (see C16, C17 for the rest). -/
inductive Reachable (isa : Isa) : (K → Nat) → Table K V → Prop
  | init (hash : K → Nat) : Reachable isa hash Table.init
  | ctor {hash : K → Nat} {n m : Nat} {t : Table K V} : n + 1 = 2 ^ m → Table.withCapacity isa n = .ok t →
      Reachable isa hash t
  | step {hash : K → Nat} {t t' : Table K V} {op : Op K V} {o : Out K V} : Reachable isa hash t →
      t.step isa hash op = .ok (t', o) → Reachable isa hash t'
  | eraseIter {hash : K → Nat} {t t' : Table K V} {pos it : Nat} {n : Node K V} : Reachable isa hash t →
      t.readNode pos = .ok n → t.eraseIter isa pos = .ok (t', it) → Reachable isa hash t'
  | mergeDst {hash hash' : K → Nat} {a b a' b' : Table K V} : Reachable isa hash a → Reachable isa hash' b →
      Table.merge isa hash a b = .ok (a', b') → Reachable isa hash a'
  | mergeSrc {hash hash' : K → Nat} {a b a' b' : Table K V} : Reachable isa hash a → Reachable isa hash' b →
      Table.merge isa hash a b = .ok (a', b') → Reachable isa hash' b'
  | moveTo {hash hash' : K → Nat} {al : AllocP} {a b a' b' : Table K V} : al.moveProp = true → Reachable isa hash a →
      Reachable isa hash' b → a.moveAssign isa al b = .ok (a', b') → Reachable isa hash' a'
  | movedFrom {hash hash' hash'' : K → Nat} {al : AllocP} {a b a' b' : Table K V} : al.moveProp = true →
      Reachable isa hash a → Reachable isa hash' b → a.moveAssign isa al b = .ok (a', b') → Reachable isa hash'' b'
  | moveCtorTo {hash : K → Nat} {al : AllocP} {b a' b' : Table K V} : al.equal = true → Reachable isa hash b →
      Table.moveCtor isa al b = .ok (a', b') → Reachable isa hash a'
  | moveCtorFrom {hash hash' : K → Nat} {al : AllocP} {b a' b' : Table K V} : al.equal = true → Reachable isa hash b →
      Table.moveCtor isa al b = .ok (a', b') → Reachable isa hash' b'
  | swapFst {hash hash' : K → Nat} {a b : Table K V} : Reachable isa hash a → Reachable isa hash' b →
      Reachable isa hash' (a.swapBuffers b).1
  | swapSnd {hash hash' : K → Nat} {a b : Table K V} : Reachable isa hash a → Reachable isa hash' b →
      Reachable isa hash (a.swapBuffers b).2
  | copyCtor {hash : K → Nat} {a b : Table K V} : Reachable isa hash a → Copyable a →
      Table.copyCtor isa a = .ok b → Reachable isa hash b
  | copyAssign {hash hash' : K → Nat} {al : AllocP} {t a b : Table K V} : Reachable isa hash t → Reachable isa hash' a →
      Copyable a → CopyFits al t a → Table.copyAssign isa al t a = .ok b → Reachable isa hash' b

theorem ends_ok {α : Type} {isa : Isa} {x : M α} {P : α → Prop} (h : Ends isa x P) {a : α} (e : x = .ok a) : P a := by
  rcases h with ⟨b, h1, h2⟩ | ⟨_, h1⟩
  · rw [e] at h1; cases h1; exact h2
  · rw [e] at h1; cases h1

theorem Reachable.inv {isa : Isa} {hash : K → Nat} {t : Table K V} (h : Reachable isa hash t) : Inv isa hash t := by
  induction h with
  | init hash => exact Inv.init isa hash
  | ctor hn ht =>
    rename_i hash n m t
    obtain ⟨t', h1, h2, _⟩ := withCapacity_spec (isa := isa) (hash := hash) (V := V) hn
    rw [ht] at h1; cases h1; exact h2
  | step _ hs ih => exact (ends_ok (step_spec ih (List.Perm.refl _) _) hs).1
  | eraseIter _ hr he ih =>
    rename_i t t' pos it n _
    have : pos < t.cap ∧ t.node pos = some n := by
      unfold Table.readNode at hr
      split at hr
      · rename_i hp
        refine ⟨hp, ?_⟩
        cases hn : t.node pos with
        | none => rw [hn] at hr; cases hr
        | some x => rw [hn] at hr; cases hr; rfl
      · cases hr
    exact (ends_ok (eraseIter_spec ih this.1 this.2) he).1
  | mergeDst _ _ he ih1 ih2 => exact (ends_ok (merge_spec ih1 ih2) he).1
  | mergeSrc _ _ he ih1 ih2 => exact (ends_ok (merge_spec ih1 ih2) he).2.1
  | moveTo hal _ _ he ih1 ih2 =>
    obtain ⟨x, y, h1, _, h3, _⟩ := moveAssign_spec _ hal ih1 ih2
    rw [he] at h1; cases h1; exact h3
  | movedFrom hal _ _ he ih1 ih2 =>
    obtain ⟨x, y, h1, h2, h3, h4, h5, h6, h7, h8, h9⟩ := moveAssign_spec _ hal ih1 ih2
    rw [he] at h1; cases h1; exact h9 _
  | moveCtorTo hal _ he ih =>
    rw [moveCtor_spec _ hal] at he; cases he; exact ih
  | moveCtorFrom hal _ he ih =>
    rw [moveCtor_spec _ hal] at he; cases he; exact Inv.init isa _
  | swapFst _ _ ih1 ih2 => exact ih2
  | swapSnd _ _ ih1 ih2 => exact ih1
  | copyCtor _ hn he ih =>
    obtain ⟨b, h1, h2, _⟩ := copyCtor_spec ih hn
    rw [he] at h1; cases h1; exact h2
  | copyAssign _ _ hn hf he ih1 ih2 =>
    obtain ⟨b, h1, h2, _⟩ := copyAssign_spec ih1 ih2 hn hf
    rw [he] at h1; cases h1; exact h2

end Swiss
end Tpp
