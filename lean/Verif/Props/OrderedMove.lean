import Verif.Ordered.DenseMove
import Verif.Props.OrderedDense

/-!
# C59: moves of ordered dense containers between unequal allocators

`Reached hash sz A w s` as in `Verif.Props.OrderedDense`; here an additional operation is applied to a reached world.
-/

set_option linter.unusedSectionVars false

namespace Tpp.ODense

open Tpp.Dense (Elem LF Table Inv swapRemove conflict idxOf elemOf)
open Tpp.Ordered

variable {k : Nat} {K V : Type} [DecidableEq K]

/-- A container whose header is alone yields nothing. -/
theorem elements_alone {sz : Int} {m : Mem} {t : OTable k K V} (h : Ring m t.hd []) : t.elements sz m = .ok [] := by
  obtain ⟨q1, q2⟩ := Ring.nil_iff.mp h
  unfold OTable.elements OTable.first
  rw [Mem.nextOf_ok q1, bind_ok]
  have : m.nxt t.hd = t.hd := by
    unfold Mem.nxt
    rw [q2]
    simp
  rw [this]
  simp [walk]

theorem gone_lookup {hash : K → Nat} {c : Table k K V} {l : List (Elem k K V)} (h : Inv hash c l) {e : Elem k K V} (he : e ∈ l)
    (j : Fin k) : (gone c).lookup hash j (e.1 j) = .error .deadRead := by
  refine Dense.stale_lookup h (t' := gone c) rfl rfl rfl ?_ he j
  intro i
  show (if i < c.size then none else c.node i) = none
  split
  · rfl
  · exact h.toArr.node_none (by rw [← h.size]; omega)

/-- C59: move construction with an allocator unequal to that of the source: the target holds the sequence in storage of its own, the
source yields nothing.  The buckets of the source still lead to the elements that were moved away, so looking one of them up in the
source is undefined (as in C46). -/
theorem C59_dense_move_unequal {hash : K → Nat} {sz : Int} (hsz : 0 < sz) {A : Alloc} (hA : A.Sound sz) {w : World k K V}
    {s : Seqs k K V} (h : Reached hash sz A w s) {i : Nat} {u : OTable k K V} (hu : w.tab i = some u) {q : List (Elem k K V)}
    (hq : s i = some q) :
    ∃ m' t u', OTable.moveCtorUnequal sz A w.mem u = .ok (m', t, u') ∧ t.elements sz m' = .ok q ∧ u'.elements sz m' = .ok [] ∧
      (∀ x ∈ t.foot sz, x ∉ w.mem.live) ∧ (∀ x ∈ u'.foot sz, x ∈ m'.live) ∧ u'.foot sz = u.foot sz ∧
      ∀ e ∈ q, ∀ j, u'.core.lookup hash j (e.1 j) = .error .deadRead := by
  obtain ⟨l, o, hr, rfl⟩ := h.holds hsz hA hu hq
  obtain ⟨m', t, u', e, hg, hn, hm⟩ := moveCtorUnequal_ok hsz hA hr
  have hf : u'.foot sz = u.foot sz := by
    unfold OTable.foot
    rw [hm.hd2, hm.base2, hm.cap2]
  refine ⟨m', t, u', e, elements_ok hsz hm.fst, elements_alone (by rw [hm.hd2]; exact hm.snd), ?_, hm.live2, hf, ?_⟩
  · intro x hx
    rcases hm.frame.fresh x (List.mem_append_left _ hx) with g | g
    · exact absurd (hf ▸ (by simpa using g)) (hm.apart x hx)
    · exact g
  · intro x hx j
    rw [hg]
    exact gone_lookup hr.core ((seq_perm hr.perm).mem_iff.mp hx) j

/-- C59: move assignment with unequal allocators that are not propagated. -/
theorem C59_dense_move_assign_unequal {hash : K → Nat} {sz : Int} (hsz : 0 < sz) {A : Alloc} (hA : A.Sound sz) {w : World k K V}
    {s : Seqs k K V} (h : Reached hash sz A w s) {i j : Nat} (hij : i ≠ j) {t u : OTable k K V} (ht : w.tab i = some t)
    (hu : w.tab j = some u) {q' q : List (Elem k K V)} (hq' : s i = some q') (hq : s j = some q) :
    ∃ m' t' u', t.moveAssignUnequal sz A w.mem u = .ok (m', t', u') ∧ t'.elements sz m' = .ok q ∧ u'.elements sz m' = .ok [] ∧
      (∀ x ∈ t'.foot sz, x ∉ u'.foot sz) ∧ u'.foot sz = u.foot sz ∧
      ∀ e ∈ q, ∀ j, u'.core.lookup hash j (e.1 j) = .error .deadRead := by
  have ha := (h.inv hsz hA).apart i j t u hij ht hu
  obtain ⟨l, o, hr, rfl⟩ := h.holds hsz hA hu hq
  obtain ⟨l', o', hr', rfl⟩ := h.holds hsz hA ht hq'
  by_cases hg : l ≠ [] ∨ l' = []
  · obtain ⟨m', t', u', e, hgo, hn, hm⟩ := moveAssignUnequal_ok hsz hA hr' hr ha hg
    have hf : u'.foot sz = u.foot sz := by
      unfold OTable.foot
      rw [hm.hd2, hm.base2, hm.cap2]
    refine ⟨m', t', u', e, elements_ok hsz hm.fst, elements_alone (by rw [hm.hd2]; exact hm.snd), hm.apart, hf, ?_⟩
    intro x hx j
    rw [hgo]
    exact gone_lookup hr.core ((seq_perm hr.perm).mem_iff.mp hx) j
  · simp only [not_or, Decidable.not_not] at hg
    obtain ⟨hl, _⟩ := hg
    have ho : o = [] := List.length_eq_zero_iff.mp (by rw [hr.length, hl]; rfl)
    subst hl ho
    have hnf : t.hd ∉ u.hd :: ([] : List Nat).map (u.addr sz) := fun q => ha _ List.mem_cons_self (hr.ring_foot _ q)
    obtain ⟨m1, e1, r1, r2, s1⟩ := hr.ring.rebase hr'.hd_live hnf
    obtain ⟨c, e2, c2⟩ := Dense.clearData_ok (hr'.core.setLoad u.core.lf).toArr
    have hz : u.core.size = 0 := hr.core.size
    unfold OTable.moveAssignUnequal OTable.moveDataLinks Table.moveAssign Table.moveFrom Table.moveData Table.copyData
    rw [e1, bind_ok, if_pos hz, bind_ok, show ({ t.core with lf := u.core.lf } : Table k K V) = t.core.setLoad u.core.lf from rfl, e2,
      bind_ok]
    simp only [Bool.false_eq_true, if_false, Bool.or_false]
    rw [if_pos hz, if_neg (by rw [c2.size]; omega), if_pos hz, bind_ok, bind_ok]
    refine ⟨m1, _, _, rfl, elements_alone r1, elements_alone r2, ?_, rfl, fun e he => (by cases he)⟩
    intro x hx q
    refine ha x ?_ q
    change x ∈ t.hd :: slots sz t.base c.cap at hx
    rw [c2.cap] at hx
    exact hx

/-- The observation used in the examples: the sequences of target and source, and whether key 2 can be looked up in each. -/
def afterUnequal (r : M (Mem × OTable 1 Nat Nat × OTable 1 Nat Nat)) :
    M (List (Elem 1 Nat Nat) × List (Elem 1 Nat Nat) × Bool × Bool) := do
  let r ← r
  let l ← r.2.1.elements 24 r.1
  let l' ← r.2.2.elements 24 r.1
  .ok (l, l', (r.2.1.core.lookup h3 0 2).isOk, (r.2.2.core.lookup h3 0 2).isOk)

example : afterUnequal (OTable.moveCtorUnequal 24 bump (after (fill 0 3)).mem ((after (fill 0 3)).get 0)) =
    .ok ([el 1 10, el 2 20, el 3 30], [], true, false) := rfl

example : afterUnequal (((after (fill 0 3 ++ fill 1 1)).get 1).moveAssignUnequal 24 bump (after (fill 0 3 ++ fill 1 1)).mem
    ((after (fill 0 3 ++ fill 1 1)).get 0)) = .ok ([el 1 10, el 2 20, el 3 30], [], true, false) := rfl

end Tpp.ODense
