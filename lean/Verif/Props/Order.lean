import Verif.Swiss.Order
import Verif.Props.Copies
import Verif.Props.Iters
import Verif.Props.Dense

/-!
# C107: iteration order of unordered containers
-/

set_option linter.unusedSectionVars false

namespace Tpp.Swiss

variable {K V : Type} [DecidableEq K]

/-- C107: while a history adds no more elements than there are free slots, the elements that it does not remove are visited in the
same order before and after.  For `b = 0`: erasures, lookups and assignments never change the order. -/
theorem C107_sparse_order {isa : Isa} {hash : K → Nat} {t t' : Table K V} (h : Reachable isa hash t) {ops : List (Op K V)}
    {os : List (Out K V)} (hr : t.run isa hash ops = .ok (t', os)) {l l' : List (K × V)} (hl : t.iterate isa = .ok l)
    (hl' : t'.iterate isa = .ok l') {b : Nat} (hb : b ≤ t.numEmpty) (hf : Spec.Fits b l ops) {ks : List K}
    (hs : ks.Sublist (l.map Prod.fst)) (hk : ∀ k ∈ ks, ∀ op ∈ ops, op.keeps k) : ks.Sublist (l'.map Prod.fst) := by
  have e : l = t.contents := by
    rcases iterate_spec h.inv with ⟨r, h1, h2⟩ | ⟨_, h1⟩
    · rw [hl] at h1; cases h1; exact h2
    · rw [hl] at h1; cases h1
  subst e
  cases ks with
  | nil => exact List.nil_sublist _
  | cons k0 ks =>
    have hrun : ∀ k ∈ k0 :: ks, ∀ i, Holds t i k → Quiet t t' ∧ Holds t' i k := fun k hkk i hi =>
      run_holds ops h.inv (List.Perm.refl _) hb hf (hk k hkk) hr hi
    have hcap : t'.cap = t.cap := by
      have hm : k0 ∈ t.contents.map Prod.fst := hs.subset (by simp)
      obtain ⟨⟨k, v⟩, hm', rfl⟩ := List.mem_map.mp hm
      obtain ⟨i, n, h1, h2, h3, _⟩ := mem_contents.mp hm'
      exact (hrun k (by simp) i ⟨h1, n, h2, h3⟩).1.1
    have e' : l' = t'.contents := by
      rcases run_spec ops h.inv (List.Perm.refl _) with ⟨r, r1, r2, _⟩ | ⟨_, r1⟩
      · rw [hr] at r1
        cases r1
        rcases iterate_spec r2 with ⟨r, h1, h2⟩ | ⟨_, h1⟩
        · rw [hl'] at h1; cases h1; exact h2
        · rw [hl'] at h1; cases h1
      · rw [hr] at r1; cases r1
    subst e'
    exact keys_order hcap hs fun k hkk i hi => (hrun k hkk i hi).2

/-- C107 after `reserve(n)`: the elements may grow to `n` in number without changes of the order. -/
theorem C107_sparse_reserve_order {isa : Isa} {hash : K → Nat} {t t1 t' : Table K V} (h : Reachable isa hash t) {n : Nat}
    (h1 : t.reserve isa n = .ok t1) {ops : List (Op K V)} {os : List (Out K V)} (hr : t1.run isa hash ops = .ok (t', os))
    {l l' : List (K × V)} (hl : t1.iterate isa = .ok l) (hl' : t'.iterate isa = .ok l') (hf : Spec.Fits (n - t.size) l ops)
    {ks : List K} (hs : ks.Sublist (l.map Prod.fst)) (hk : ∀ k ∈ ks, ∀ op ∈ ops, op.keeps k) : ks.Sublist (l'.map Prod.fst) := by
  obtain ⟨u, r1, r2, r3, r4, r5, r6, _⟩ := reserve_spec h.inv n
  rw [h1] at r1
  cases r1
  have hreach : Reachable isa hash t1 := .step (op := .reserve n) (o := .unit) h (by
    simp only [Table.step, h1, bind_ok])
  exact C107_sparse_order hreach hr hl hl' (by omega) hf hs hk

/-- C107: a copy is iterated over in the order of the source, also if lookups do not find all of its elements (C16). -/
theorem C107_sparse_copy {isa : Isa} {hash : K → Nat} {t : Table K V} (h : Reachable isa hash t) {l : List (K × V)}
    (hl : t.iterate isa = .ok l) : ∃ c, Table.copyCtor isa t = .ok c ∧ Ends isa (c.iterate isa) (· = l) := by
  by_cases hz : t.size = 0
  · obtain ⟨c, h1, h2, h3⟩ := copyCtor_spec h.inv (Or.inl hz)
    exact ⟨c, h1, Weak.iterate_eq h.inv h2.weak h3 hl⟩
  · obtain ⟨c, h1, h2, _, h4, _⟩ := copyData_weak (t := Table.init) h.inv hz rfl (fun i hi => absurd hi (Nat.not_lt_zero _)) (Or.inl rfl)
    exact ⟨c, h1, h2.iterate_eq h.inv h4 hl⟩

/-- C107: the same after copy assignment of a container with elements, whatever the target held and however many buckets it has. -/
theorem C107_sparse_copy_assign {isa : Isa} {hash hash' : K → Nat} {al : AllocP} {t a : Table K V} (ht : Reachable isa hash t)
    (ha : Reachable isa hash' a) (hz : a.size ≠ 0) {l : List (K × V)} (hl : a.iterate isa = .ok l) :
    ∃ c, t.copyAssign isa al a = .ok c ∧ Ends isa (c.iterate isa) (· = l) := by
  obtain ⟨f, h1, h2⟩ := ht.inv.erased
  unfold Table.copyAssign
  rw [h1, bind_ok]
  unfold Table.bufAssign
  cases al.copyProp with
  | true =>
    simp only [if_true]
    rw [dropBuffer_spec (t := { t with node := f, size := 0 }) h2, bind_ok]
    obtain ⟨c, e1, e2, _, e4, _⟩ := copyData_weak
      (t := { t with node := fun _ => none, size := 0, cap := 0, len := 0, ctl := fun _ => .empty }) ha.inv hz rfl
      (fun i hi => absurd hi (Nat.not_lt_zero _)) (Or.inl rfl)
    exact ⟨c, e1, e2.iterate_eq ha.inv e4 hl⟩
  | false =>
    simp only [Bool.false_eq_true, if_false, bind_ok]
    obtain ⟨c, e1, e2, _, e4, _⟩ := copyData_weak (t := { t with node := f, size := 0 }) ha.inv hz rfl h2 ht.inv.copyShape
    exact ⟨c, e1, e2.iterate_eq ha.inv e4 hl⟩

/-- C107: the same after move construction, with equal and unequal allocators. -/
theorem C107_sparse_move {isa : Isa} {hash : K → Nat} (al : AllocP) {a : Table K V} (ha : Reachable isa hash a) {l : List (K × V)}
    (hl : a.iterate isa = .ok l) : ∃ c a', Table.moveCtor isa al a = .ok (c, a') ∧ Ends isa (c.iterate isa) (· = l) := by
  cases he : al.equal with
  | true => exact ⟨a, Table.init, moveCtor_spec al he a, Weak.iterate_eq ha.inv ha.inv.weak rfl hl⟩
  | false =>
    obtain ⟨x, y, e1, e2, _⟩ := moveCtor_unequal (al := al) ha.inv he
    obtain ⟨c, c1, c2⟩ := C107_sparse_copy ha hl
    rw [e2] at c1
    cases c1
    exact ⟨x, y, e1, c2⟩

/-- C107: the same after move assignment of a container with elements, with all allocators. -/
theorem C107_sparse_move_assign {isa : Isa} {hash hash' : K → Nat} (al : AllocP) {t a : Table K V} (ht : Reachable isa hash t)
    (ha : Reachable isa hash' a) (hz : a.size ≠ 0) {l : List (K × V)} (hl : a.iterate isa = .ok l) :
    ∃ c a', t.moveAssign isa al a = .ok (c, a') ∧ Ends isa (c.iterate isa) (· = l) := by
  cases he : (al.equal || al.moveProp) with
  | true =>
    obtain ⟨y, e, _⟩ := moveAssign_equal ht.inv ha.inv he
    exact ⟨a, y, e, Weak.iterate_eq ha.inv ha.inv.weak rfl hl⟩
  | false =>
    rw [Bool.or_eq_false_iff] at he
    obtain ⟨x, y, e1, e2, _⟩ := moveAssign_unequal ht.inv ha.inv he.1 he.2
    obtain ⟨c, c1, c2⟩ := C107_sparse_copy_assign (al := { al with copyProp := false }) ht ha hz hl
    rw [e2] at c1
    cases c1
    exact ⟨x, y, e1, c2⟩

/-- Five elements in seven slots, visited in the order of the slots: one is erased, one is added in its slot, one is overwritten, another
one erased. -/
def shelf : Table Nat Nat := after .sse2 (fun n => n * 640) ([2, 4, 5, 7, 8].map fun i => Op.insert i i)

example : Reachable .sse2 (fun n => n * 640) shelf ∧ 1 ≤ shelf.numEmpty ∧
    shelf.iterate .sse2 = .ok [(8, 8), (5, 5), (2, 2), (7, 7), (4, 4)] ∧
    Spec.Fits 1 [(8, 8), (5, 5), (2, 2), (7, 7), (4, 4)] [.erase 2, .insert 10 1, .assign 7 70, .erase 8] ∧
    (shelf.run .sse2 (fun n => n * 640) [.erase 2, .insert 10 1, .assign 7 70, .erase 8] >>= fun r => r.1.iterate .sse2) =
      .ok [(5, 5), (10, 1), (7, 70), (4, 4)] :=
  ⟨after_reachable _ _ _, by decide +kernel, by decide +kernel,
    ⟨by simp [Op.hasRoom, Op.takes], by simp [Op.hasRoom, Op.takes, Spec.step, Spec.lookup, Spec.erase],
      by simp [Op.hasRoom, Op.takes, Spec.step, Spec.lookup, Spec.erase, Spec.insert],
      by simp [Op.hasRoom, Op.takes], trivial⟩, by decide +kernel⟩

/-- The same five elements after `reserve(12)` and three insertions, in a copy, assigned to a container with 15 buckets and moved to
another allocator. -/
example :
    (shelf.reserve .sse2 12 >>= fun t => t.iterate .sse2) = .ok [(7, 7), (4, 4), (8, 8), (5, 5), (2, 2)] ∧
    (shelf.reserve .sse2 12 >>= fun t => t.run .sse2 (fun n => n * 640) [.insert 0 0, .insert 1 1, .insert 3 3] >>=
      fun r => r.1.iterate .sse2) = .ok [(0, 0), (3, 3), (7, 7), (4, 4), (1, 1), (8, 8), (5, 5), (2, 2)] ∧
    (Table.copyCtor .sse2 shelf >>= fun c => c.iterate .sse2) = shelf.iterate .sse2 ∧
    (Table.copyAssign .sse2 ⟨false, false, false⟩ (after .sse2 (fun n => n * 640) ((List.range 9).map fun i => .insert i i)) shelf >>=
      fun c => c.iterate .sse2) = shelf.iterate .sse2 ∧
    (Table.moveCtor .sse2 ⟨false, false, false⟩ shelf >>= fun c => c.1.iterate .sse2) = shelf.iterate .sse2 :=
  ⟨by decide +kernel, by decide +kernel, by decide +kernel, by decide +kernel, by decide +kernel⟩

end Tpp.Swiss

namespace Tpp.Dense

variable {k : Nat} {K V : Type} [DecidableEq K]

/-- C107 is false for dense containers, in every state: erasing the first of at least three elements puts the last one in its place,
before the elements that it followed. -/
theorem C107_dense_false {hash : K → Nat} {t : Table k K V} (h : Reachable hash t) {x a z : Elem k K V} {l : List (Elem k K V)}
    (hl : t.iterate = .ok (x :: a :: (l ++ [z]))) : ∃ t', t.eraseAt 0 = .ok (t', 0) ∧ t'.iterate = .ok (z :: a :: l) := by
  obtain ⟨l', hI⟩ := h.inv
  have e := iterate_ok hI.toArr
  rw [hl] at e
  cases e
  obtain ⟨t', e, h', _⟩ := eraseAt_ok hI (pos := 0) (by simp)
  refine ⟨t', e, ?_⟩
  rw [iterate_ok h'.toArr]
  have e1 : (x :: a :: (l ++ [z])).getLast? = some z := List.getLast?_concat (l := x :: a :: l)
  have e2 : swapRemove (x :: a :: (l ++ [z])) 0 = z :: a :: l := by
    unfold swapRemove
    rw [e1]
    exact List.dropLast_concat (l₁ := z :: a :: l)
  rw [e2]

/-- Four elements; the first is erased. -/
example : Reachable h3 demo ∧ demo.iterate = .ok [el 3 30, el 2 20, el 4 44, el 7 70] ∧
    (demo.eraseAt 0 >>= fun r => r.1.iterate) = .ok [el 7 70, el 2 20, el 4 44] := by
  refine ⟨demo_reachable, demo_iterate, ?_⟩
  obtain ⟨t', e1, e2⟩ := C107_dense_false demo_reachable (l := [el 4 44]) demo_iterate
  rw [e1]
  exact e2

end Tpp.Dense
