import Verif.Dense.Hist
import Verif.Ordered.Dense
import Mathlib.Data.List.Induction

/-!
# The operations of ordered dense containers keep the insertion order
-/

set_option linter.unusedSectionVars false

namespace Tpp.ODense

open Tpp.Dense (Elem LF Table Inv swapRemove conflict idxOf elemOf)
open Tpp.Ordered

variable {k : Nat} {K V : Type} [DecidableEq K]

/-! ## Sequences -/

/-- The elements of the array `l` at the indices `o`. -/
def seq {E : Type} (l : List E) (o : List Nat) : List E := o.filterMap fun i => l[i]?

theorem seq_range {E : Type} (l : List E) : seq l (List.range l.length) = l := by
  unfold seq
  induction l using List.reverseRecOn with
  | nil => rfl
  | append_singleton l a ih =>
    rw [List.length_append, List.length_singleton, List.range_succ, List.filterMap_append]
    have : List.filterMap (fun i => (l ++ [a])[i]?) (List.range l.length) = List.filterMap (fun i => l[i]?) (List.range l.length) := by
      refine List.filterMap_congr ?_
      intro i hi
      exact List.getElem?_append_left (List.mem_range.mp hi)
    rw [this, ih]
    simp

theorem seq_perm {E : Type} {l : List E} {o : List Nat} (h : o.Perm (List.range l.length)) : (seq l o).Perm l := by
  have := h.filterMap (fun i => l[i]?)
  have e := seq_range l
  unfold seq at e
  rw [e] at this
  exact this

theorem seq_append {E : Type} (l : List E) (o o' : List Nat) : seq l (o ++ o') = seq l o ++ seq l o' := List.filterMap_append

theorem seq_cons {E : Type} {l : List E} {i : Nat} (h : i < l.length) (o : List Nat) : seq l (i :: o) = l[i] :: seq l o := by
  unfold seq
  rw [List.filterMap_cons, List.getElem?_eq_getElem h]

theorem seq_congr {E : Type} {l l' : List E} {o : List Nat} (h : ∀ i ∈ o, l'[i]? = l[i]?) : seq l' o = seq l o :=
  List.filterMap_congr h

theorem seq_snoc {E : Type} {l : List E} {o : List Nat} (h : o.Perm (List.range l.length)) (e : E) :
    seq (l ++ [e]) (o ++ [l.length]) = seq l o ++ [e] := by
  rw [seq_append, seq_congr (l := l)]
  · congr 1
    unfold seq
    simp
  · intro i hi
    exact List.getElem?_append_left (List.mem_range.mp (h.mem_iff.mp hi))

theorem seq_length {E : Type} {l : List E} {o : List Nat} (h : o.Perm (List.range l.length)) : (seq l o).length = o.length := by
  rw [(seq_perm h).length_eq, h.length_eq, List.length_range]

theorem seq_getElem? {E : Type} {l : List E} : ∀ {o : List Nat}, (∀ i ∈ o, i < l.length) → ∀ n : Nat, (seq l o)[n]? = o[n]?.bind (fun i => l[i]?)
  | [], _, n => by simp [seq]
  | i :: o, h, n => by
    rw [seq_cons (h i (by simp))]
    cases n with
    | zero => simp [List.getElem?_eq_getElem (h i (by simp))]
    | succ n =>
      rw [List.getElem?_cons_succ, List.getElem?_cons_succ]
      exact seq_getElem? (fun j hj => h j (List.mem_cons_of_mem _ hj)) n

theorem find?_perm {E : Type} {p : E → Bool} {l l' : List E} (h : l.Perm l') (hu : ∀ a ∈ l, ∀ b ∈ l, p a → p b → a = b) :
    l.find? p = l'.find? p := by
  cases h1 : l.find? p with
  | none =>
    rw [List.find?_eq_none] at h1
    symm
    rw [List.find?_eq_none]
    intro x hx
    exact h1 x (h.mem_iff.mpr hx)
  | some a =>
    have ha := List.mem_of_find?_eq_some h1
    have hp := List.find?_some h1
    cases h2 : l'.find? p with
    | none =>
      rw [List.find?_eq_none] at h2
      exact absurd hp (h2 a (h.mem_iff.mp ha))
    | some b =>
      rw [hu a ha b (h.mem_iff.mpr (List.mem_of_find?_eq_some h2)) hp (List.find?_some h2)]

/-- No two elements share a component. -/
def Uniq (l : List (Elem k K V)) : Prop := ∀ j, (l.map (fun e => e.1 j)).Nodup

theorem Uniq.eq {l : List (Elem k K V)} (h : Uniq l) {j : Fin k} {a b : Elem k K V} (ha : a ∈ l) (hb : b ∈ l) (e : a.1 j = b.1 j) :
    a = b := List.inj_on_of_nodup_map (h j) ha hb e

theorem Uniq.perm {l l' : List (Elem k K V)} (h : Uniq l) (hp : l.Perm l') : Uniq l' := fun j => (hp.map _).nodup_iff.mp (h j)

theorem Uniq.find {l l' : List (Elem k K V)} (h : Uniq l) (hp : l.Perm l') (j : Fin k) (x : K) :
    l.find? (fun e => e.1 j = x) = l'.find? (fun e => e.1 j = x) := by
  refine find?_perm hp ?_
  intro a ha b hb h1 h2
  simp only [decide_eq_true_eq] at h1 h2
  exact h.eq ha hb (h1.trans h2.symm)

theorem findSome?_bind {α β γ : Type} {f : α → Option β} {g : β → Option γ} (h : ∀ a b, f a = some b → (g b).isSome) :
    ∀ as : List α, as.findSome? (fun a => (f a).bind g) = (as.findSome? f).bind g
  | [] => rfl
  | a :: as => by
    rw [List.findSome?_cons, List.findSome?_cons, findSome?_bind h as]
    cases e : f a with
    | none => simp
    | some b =>
      obtain ⟨c, hc⟩ := Option.isSome_iff_exists.mp (h a b e)
      simp [hc]

theorem hit_eq (l : List (Elem k K V)) (key : Fin k → K) : Spec.hit l key = (conflict l key).bind fun i => l[i]? := by
  unfold Spec.hit conflict
  rw [← findSome?_bind]
  · congr 1
    funext j
    exact Dense.elemOf_eq l j (key j)
  · intro j i e
    obtain ⟨a, ha, _⟩ := Dense.idxOf_some e
    rw [ha]; rfl

theorem hit_perm {l l' : List (Elem k K V)} (h : Uniq l) (hp : l.Perm l') (key : Fin k → K) : Spec.hit l key = Spec.hit l' key := by
  unfold Spec.hit
  congr 1
  funext j
  exact h.find hp j (key j)

theorem conflict_lt {l : List (Elem k K V)} {key : Fin k → K} {i : Nat} (h : conflict l key = some i) : i < l.length := by
  unfold conflict at h
  obtain ⟨j, _, hj⟩ := List.exists_of_findSome?_eq_some h
  obtain ⟨e, he, _⟩ := Dense.idxOf_some hj
  exact (List.getElem?_eq_some_iff.mp he).1

/-! ## Representation -/

/-- The container holds the elements `l` in array order, `o` are their indices in insertion order. -/
structure Rep (hash : K → Nat) (sz : Int) (m : Mem) (t : OTable k K V) (l : List (Elem k K V)) (o : List Nat) : Prop where
  core : Inv hash t.core l
  perm : o.Perm (List.range l.length)
  ring : Ring m t.hd (o.map (t.addr sz))
  live : ∀ x ∈ slots sz t.base t.core.cap, x ∈ m.live
  hdr : t.hd ∉ slots sz t.base t.core.cap

/-- The container holds the sequence `s`. -/
def Holds (hash : K → Nat) (sz : Int) (m : Mem) (t : OTable k K V) (s : List (Elem k K V)) : Prop :=
  ∃ l o, Rep hash sz m t l o ∧ seq l o = s

namespace Rep

variable {hash : K → Nat} {sz : Int} {A : Alloc} {m : Mem} {t : OTable k K V} {l : List (Elem k K V)} {o : List Nat}

theorem uniq (h : Rep hash sz m t l o) : Uniq l := h.core.uniq

theorem lt (h : Rep hash sz m t l o) {i : Nat} (hi : i ∈ o) : i < l.length := List.mem_range.mp (h.perm.mem_iff.mp hi)

theorem mem (h : Rep hash sz m t l o) {i : Nat} (hi : i < l.length) : i ∈ o := h.perm.mem_iff.mpr (List.mem_range.mpr hi)

theorem lt_cap (h : Rep hash sz m t l o) {i : Nat} (hi : i < l.length) : i < t.core.cap :=
  Nat.lt_of_lt_of_le (h.core.size ▸ hi) h.core.le_cap

theorem nodup (h : Rep hash sz m t l o) : o.Nodup := h.perm.nodup_iff.mpr List.nodup_range

theorem length (h : Rep hash sz m t l o) : o.length = l.length := by rw [h.perm.length_eq, List.length_range]

theorem hd_live (h : Rep hash sz m t l o) : t.hd ∈ m.live := h.ring.live _ (by simp)

theorem foot_live (h : Rep hash sz m t l o) : ∀ x ∈ t.foot sz, x ∈ m.live := by
  intro x hx
  rcases List.mem_cons.mp hx with e | e
  · rw [e]; exact h.hd_live
  · exact h.live x e

theorem addr_slots (h : Rep hash sz m t l o) {i : Nat} (hi : i ∈ o) : t.addr sz i ∈ slots sz t.base t.core.cap :=
  mem_slots.mpr ⟨i, h.lt_cap (h.lt hi), rfl⟩

theorem ring_foot (h : Rep hash sz m t l o) : ∀ x ∈ t.hd :: o.map (t.addr sz), x ∈ t.foot sz := by
  intro x hx
  rcases List.mem_cons.mp hx with e | e
  · rw [e]; exact List.mem_cons_self
  · rw [List.mem_map] at e
    obtain ⟨i, hi, e⟩ := e
    exact List.mem_cons_of_mem _ (e ▸ h.addr_slots hi)

/-- Operations on other storage do not matter. -/
theorem frame (h : Rep hash sz m t l o) {m' : Mem} {F F' : List Int} (hf : Frame m m' F F') (hd : ∀ x ∈ t.foot sz, x ∉ F) :
    Rep hash sz m' t l o where
  core := h.core
  perm := h.perm
  ring := hf.ring h.ring (fun x hx => hd x (h.ring_foot x hx))
  live := fun x hx => (hf.keep x (h.live x hx) (hd x (List.mem_cons_of_mem _ hx))).1
  hdr := h.hdr

end Rep

variable {hash : K → Nat} {sz : Int} {A : Alloc} {m : Mem} {t : OTable k K V} {l : List (Elem k K V)} {o : List Nat}

theorem addr_inj (hsz : 0 < sz) {t : OTable k K V} {i j : Nat} (h : t.addr sz i = t.addr sz j) : i = j := slot_inj hsz h

theorem slotOf_ok (hsz : 0 < sz) {t : OTable k K V} {i : Nat} (hi : i < t.core.cap) : t.slotOf sz (t.addr sz i) = some i := by
  unfold OTable.slotOf
  cases h : (List.range t.core.cap).find? (fun j => t.addr sz j = t.addr sz i) with
  | none =>
    rw [List.find?_eq_none] at h
    exact absurd (by simp) (h i (List.mem_range.mpr hi))
  | some j =>
    have := List.find?_some h
    simp only [decide_eq_true_eq] at this
    rw [addr_inj hsz this]

theorem elemAt_ok (hsz : 0 < sz) (hc : Inv hash t.core l) {i : Nat} (hi : i < l.length) :
    t.elemAt sz (t.addr sz i) = .ok l[i] := by
  unfold OTable.elemAt
  rw [slotOf_ok hsz (Nat.lt_of_lt_of_le (hc.size ▸ hi) hc.le_cap)]
  obtain ⟨n, hr, _, hn⟩ := hc.toArr.read hi
  simp only
  rw [hr, bind_ok, hn]

/-! ## Growth -/

theorem growLinks_ok (hsz : 0 < sz) (hA : A.Sound sz) (h : Rep hash sz m t l o) {c : Nat} (hc : l.length ≤ c) :
    ∃ m' b, t.growLinks sz A m c = .ok (m', b) ∧ Ring m' t.hd (o.map (fun i : Nat => b + sz * (i : Int))) ∧
      (∀ x ∈ slots sz b c, x ∈ m'.live) ∧ t.hd ∉ slots sz b c ∧ Frame m m' (t.foot sz) (t.hd :: slots sz b c) := by
  obtain ⟨m1, m', e1, e2, h1, h2, h3, h4⟩ := grow_ok (d := fun i => i) (js := List.range t.core.size) (c := c) hA hsz h.ring
    (fun i hi => h.addr_slots hi) h.live h.hdr List.nodup_range
    (fun i => by rw [h.core.size]; exact (h.perm.mem_iff).symm) (fun i hi => Nat.lt_of_lt_of_le (h.lt hi) hc) (fun _ _ _ _ e => e)
  refine ⟨m', _, ?_, h1, h2, h3, h4⟩
  unfold OTable.growLinks moveLinks
  simp only
  have e1' : (List.range t.core.size).foldlM (fun (mm : Mem) (i : Nat) =>
      mm.relinkFrom ((m.alloc sz A c).2 + sz * (i : Int)) (t.base + sz * (i : Int))) (m.alloc sz A c).1 = .ok m1 := e1
  rw [e1', bind_ok, e2, bind_ok]

theorem maybeGrow_ok (hsz : 0 < sz) (hA : A.Sound sz) (h : Rep hash sz m t l o) :
    ∃ m' b t1, t.maybeGrow sz A m = .ok (m', b) ∧ t.core.maybeResize = .ok t1 ∧ l.length < t1.cap ∧
      Ring m' t.hd (o.map (fun i : Nat => b + sz * (i : Int))) ∧
      (∀ x ∈ slots sz b t1.cap, x ∈ m'.live) ∧ t.hd ∉ slots sz b t1.cap ∧ Frame m m' (t.foot sz) (t.hd :: slots sz b t1.cap) ∧
      (t.core.size < t.core.cap → b = t.base) := by
  have hle := h.core.le_cap
  have hs := h.core.size
  unfold OTable.maybeGrow Table.maybeResize
  by_cases e : t.core.cap = t.core.size
  · rw [if_pos e, if_pos e]
    have hc : l.length < (if t.core.cap = 0 then 1 else t.core.cap * 2) := by split <;> omega
    obtain ⟨t1, e1, _, c1, _⟩ := Dense.resizeData_ok h.core (c := if t.core.cap = 0 then 1 else t.core.cap * 2) (by omega)
    obtain ⟨m', b, e2, h1, h2, h3, h4⟩ := growLinks_ok hsz hA h (Nat.le_of_lt hc)
    refine ⟨m', b, t1, e2, e1, by rw [c1]; exact hc, h1, ?_, ?_, ?_, fun q => by omega⟩
    · rw [c1]; exact h2
    · rw [c1]; exact h3
    · rw [c1]; exact h4
  · rw [if_neg e, if_neg e]
    exact ⟨m, t.base, t.core, rfl, rfl, by omega, h.ring, h.live, h.hdr, Frame.refl _ _, fun _ => rfl⟩

/-! ## Insertion -/

/-- What an insertion does to the unordered table. -/
structure OpOk (hash : K → Nat) (c : Table k K V) (l : List (Elem k K V)) (r : Table k K V × Nat × Bool) (l' : List (Elem k K V)) :
    Prop where
  cap : ∀ t1, c.maybeResize = .ok t1 → r.1.cap = t1.cap
  inv : Inv hash r.1 l'
  fresh : r.2.2 = true → r.2.1 = l.length ∧ l'.length = l.length + 1
  dup : r.2.2 = false → r.2.1 < l.length ∧ l'.length = l.length

theorem insertWith_ok (hsz : 0 < sz) (hA : A.Sound sz) (h : Rep hash sz m t l o) {op : Table k K V → M (Table k K V × Nat × Bool)}
    {r : Table k K V × Nat × Bool} {l' : List (Elem k K V)} (e : op t.core = .ok r) (hr : OpOk hash t.core l r l') :
    ∃ m' t', t.insertWith sz A m op none = .ok (m', t', t'.addr sz r.2.1, r.2.2) ∧ t'.core = r.1 ∧ t'.hd = t.hd ∧
      Rep hash sz m' t' l' (if r.2.2 then o ++ [l.length] else o) ∧ Frame m m' (t.foot sz) (t'.foot sz) := by
  obtain ⟨m1, b, t1, e1, e2, hlt, h1, h2, h3, h4, _⟩ := maybeGrow_ok hsz hA h
  have hcap := hr.cap t1 e2
  unfold OTable.insertWith
  rw [e1, bind_ok, e, bind_ok]
  simp only [Option.map_none]
  cases hb : r.2.2 with
  | false =>
    obtain ⟨_, d2⟩ := hr.dup hb
    simp only [Bool.false_eq_true, if_false, bind_ok]
    refine ⟨m1, { t with core := r.1, base := b }, rfl, rfl, rfl, ⟨hr.inv, ?_, h1, ?_, ?_⟩, ?_⟩
    · rw [d2]; exact h.perm
    · change ∀ x ∈ slots sz b r.1.cap, _
      rw [hcap]; exact h2
    · change t.hd ∉ slots sz b r.1.cap
      rw [hcap]; exact h3
    · change Frame m m1 _ (t.hd :: slots sz b r.1.cap)
      rw [hcap]; exact h4
  | true =>
    obtain ⟨d1, d2⟩ := hr.fresh hb
    simp only [if_true]
    rw [d1]
    have hin : b + sz * (l.length : Int) ∈ slots sz b t1.cap := mem_slots.mpr ⟨_, hlt, rfl⟩
    have hnot : b + sz * (l.length : Int) ∉ t.hd :: o.map (fun i : Nat => b + sz * (i : Int)) := by
      intro q
      rcases List.mem_cons.mp q with q | q
      · exact h3 (q ▸ hin)
      · rw [List.mem_map] at q
        obtain ⟨i, hi, q⟩ := q
        have := slot_inj hsz q
        have := h.lt hi
        omega
    obtain ⟨m2, e3, h5, s2⟩ := h1.appendAt (i := l.length) (h2 _ hin) hnot
    unfold OTable.linkNew
    simp only
    rw [e3, bind_ok]
    refine ⟨m2, { t with core := r.1, base := b }, rfl, rfl, rfl, ⟨hr.inv, ?_, h5, ?_, ?_⟩, ?_⟩
    · rw [d2, List.range_succ]
      exact h.perm.append_right _
    · change ∀ x ∈ slots sz b r.1.cap, _
      rw [hcap, s2.live]; exact h2
    · change t.hd ∉ slots sz b r.1.cap
      rw [hcap]; exact h3
    · change Frame m m2 _ (t.hd :: slots sz b r.1.cap)
      rw [hcap]
      refine h4.trans (s2.frame ?_)
      intro x hx
      rw [List.mem_cons, not_or] at hx
      refine ⟨fun q => hx.2 (q ▸ hin), ?_⟩
      intro q
      rcases List.mem_cons.mp q with q | q
      · exact hx.1 q
      · rw [List.mem_map] at q
        obtain ⟨i, hi, q⟩ := q
        have := h.lt hi
        exact hx.2 (q ▸ mem_slots.mpr ⟨i, by omega, rfl⟩)

/-- A container `t` becomes `t'` and holds the sequence `s`; other storage is left alone. -/
structure Becomes (hash : K → Nat) (sz : Int) (m : Mem) (t : OTable k K V) (m' : Mem) (t' : OTable k K V) (s : List (Elem k K V)) :
    Prop where
  holds : Holds hash sz m' t' s
  hd : t'.hd = t.hd
  frame : Frame m m' (t.foot sz) (t'.foot sz)

theorem Becomes.refl (h : Rep hash sz m t l o) : Becomes hash sz m t m t (seq l o) := ⟨⟨l, o, h, rfl⟩, rfl, Frame.refl _ _⟩

theorem insertStep_ok (hsz : 0 < sz) (hA : A.Sound sz) (h : Rep hash sz m t l o) {op : Table k K V → M (Table k K V × Nat × Bool)}
    {key : Fin k → K} {v : V} {r : Table k K V × Nat × Bool} (e : op t.core = .ok r) (hr : Dense.InsertOk hash t.core l key v r) :
    ∃ m' t' a, t.insertWith sz A m op none = .ok (m', t', a, (Spec.insert (seq l o) key v).2.2) ∧
      t'.elemAt sz a = .ok (Spec.insert (seq l o) key v).2.1 ∧ 0 < t'.core.bc ∧
      Becomes hash sz m t m' t' (Spec.insert (seq l o) key v).1 := by
  have hh : Spec.hit (seq l o) key = (conflict l key).bind fun i => l[i]? := by
    rw [← hit_eq, hit_perm (h.uniq.perm (seq_perm h.perm).symm) (seq_perm h.perm)]
  unfold Spec.insert
  cases hc : conflict l key with
  | none =>
    obtain ⟨h1, h2⟩ := hr.fresh hc
    obtain ⟨m', t', e1, e2, e3, h3, h4⟩ := insertWith_ok (l' := l ++ [(key, v)]) hsz hA h e
      ⟨hr.cap, h2, fun _ => ⟨by rw [h1], by simp⟩, fun q => by rw [h1] at q; cases q⟩
    rw [h1] at e1 h3
    simp only [if_true] at h3
    rw [hh, hc]
    refine ⟨m', t', _, e1, ?_, by rw [e2]; exact hr.bc, ⟨⟨_, _, h3, seq_snoc h.perm _⟩, e3, h4⟩⟩
    rw [elemAt_ok hsz h3.core (by simp)]
    simp
  | some i =>
    obtain ⟨h1, h2⟩ := hr.dup i hc
    have hi := conflict_lt hc
    obtain ⟨m', t', e1, e2, e3, h3, h4⟩ := insertWith_ok (l' := l) hsz hA h e
      ⟨hr.cap, h2, fun q => (by rw [h1] at q; cases q), fun _ => ⟨by rw [h1]; exact hi, rfl⟩⟩
    rw [h1] at e1 h3
    simp only [Bool.false_eq_true, if_false] at h3
    rw [hh, hc, Option.bind_some, List.getElem?_eq_getElem hi]
    refine ⟨m', t', _, e1, ?_, by rw [e2]; exact hr.bc, ⟨⟨_, _, h3, rfl⟩, e3, h4⟩⟩
    rw [elemAt_ok hsz h3.core hi]

theorem any_perm {E : Type} {p : E → Bool} {l l' : List E} (h : l.Perm l') : l.any p = l'.any p := by
  rw [Bool.eq_iff_iff, List.any_eq_true, List.any_eq_true]
  constructor
  · rintro ⟨x, hx, hp⟩; exact ⟨x, h.mem_iff.mp hx, hp⟩
  · rintro ⟨x, hx, hp⟩; exact ⟨x, h.mem_iff.mpr hx, hp⟩

theorem idxOf_any (l : List (Elem k K V)) (j : Fin k) (x : K) : l.any (fun e => e.1 j = x) = (idxOf l j x).isSome := by
  cases h : idxOf l j x with
  | none =>
    rw [Option.isSome_none, List.any_eq_false]
    intro e he
    simpa using Dense.idxOf_eq_none h e he
  | some i =>
    obtain ⟨e, he, hx⟩ := Dense.idxOf_some h
    rw [Option.isSome_some, List.any_eq_true]
    exact ⟨e, List.mem_of_getElem? he, by simpa using hx⟩

theorem assignStep_ok {t : OTable 1 K V} {l : List (Elem 1 K V)} (hsz : 0 < sz) (hA : A.Sound sz) (h : Rep hash sz m t l o)
    (x : K) (v : V) :
    ∃ m' t' a, t.insertWith sz A m (fun c => c.insertOrAssign hash x v) none = .ok (m', t', a, (Spec.assign (seq l o) 0 x v).2.2) ∧
      t'.elemAt sz a = .ok (Spec.assign (seq l o) 0 x v).2.1 ∧ 0 < t'.core.bc ∧
      Becomes hash sz m t m' t' (Spec.assign (seq l o) 0 x v).1 := by
  obtain ⟨r, e, hr⟩ := Dense.insertOrAssign_ok h.core x v
  unfold Spec.assign
  rw [any_perm (seq_perm h.perm), idxOf_any]
  cases hc : idxOf l 0 x with
  | none =>
    obtain ⟨h1, h2⟩ := hr.fresh hc
    obtain ⟨m', t', e1, e2, e3, h3, h4⟩ := insertWith_ok (op := fun c => c.insertOrAssign hash x v) hsz hA h e
      ⟨hr.cap, h2, fun _ => ⟨by rw [h1], by simp⟩, fun q => by rw [h1] at q; cases q⟩
    rw [h1] at e1 h3
    simp only [if_true] at h3
    simp only [Option.isSome_none, Bool.false_eq_true, if_false]
    refine ⟨m', t', _, e1, ?_, by rw [e2]; exact hr.bc, ⟨⟨_, _, h3, seq_snoc h.perm _⟩, e3, h4⟩⟩
    rw [elemAt_ok hsz h3.core (by simp)]
    simp
  | some i =>
    obtain ⟨h1, h2⟩ := hr.dup i hc
    obtain ⟨a, ha, hx⟩ := Dense.idxOf_some hc
    obtain ⟨hi, ha'⟩ := List.getElem?_eq_some_iff.mp ha
    obtain ⟨m', t', e1, e2, e3, h3, h4⟩ := insertWith_ok (op := fun c => c.insertOrAssign hash x v) hsz hA h e
      ⟨hr.cap, h2, fun q => (by rw [h1] at q; cases q), fun _ => ⟨by rw [h1]; exact hi, by simp⟩⟩
    rw [h1] at e1 h3
    simp only [Bool.false_eq_true, if_false] at h3
    simp only [Option.isSome_some, if_true]
    refine ⟨m', t', _, e1, ?_, by rw [e2]; exact hr.bc, ⟨⟨_, _, h3, ?_⟩, e3, h4⟩⟩
    · rw [elemAt_ok hsz h3.core (by simpa using hi)]
      simp
    · unfold seq
      rw [List.map_filterMap]
      refine List.filterMap_congr ?_
      intro n hn
      have hnl := h.lt hn
      rw [List.getElem?_set, List.getElem?_eq_getElem hnl]
      by_cases q : i = n
      · subst q
        rw [if_pos rfl, if_pos hi, Option.map_some, if_pos (by rw [ha']; exact hx)]
        have : (fun _ : Fin 1 => x) = l[i].1 := by
          funext j
          rw [ha', Subsingleton.elim j 0]
          exact hx.symm
        rw [this]
      · rw [if_neg q, Option.map_some, if_neg]
        intro hq
        have := Dense.idxOf_of_uniq (h.core.uniq 0) (List.getElem?_eq_getElem hnl)
        rw [hq, hc] at this
        exact q (Option.some.inj this)

end Tpp.ODense
