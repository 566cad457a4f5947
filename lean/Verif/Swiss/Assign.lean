import Verif.Swiss.Bulk

/-!
# `assign(first, last)` of sparse and stable containers
-/

set_option linter.unusedSectionVars false

namespace Tpp.Swiss

variable {K V : Type} [DecidableEq K]

/-- `assign(first, last)` (swiss_table.hpp 891-896); also `operator=(std::initializer_list)` (sparse_map.hpp 137-141,
sparse_set.hpp 125-136, stable_map.hpp 130-134, stable_set.hpp 119-130).  `ra`: the iterators are random access. -/
def Table.assignRange (isa : Isa) (hash : K → Nat) (ra : Bool) (t : Table K V) (xs : List (K × V)) : M (Table K V) := do
  let t ← t.clear isa
  t.insertRange isa hash ra xs

/-- The first occurrence of each key of the range, latest first. -/
def Spec.distinct (xs : List (K × V)) : List (K × V) := xs.foldl (fun m x => Tpp.Spec.insert m x.1 x.2) []

theorem assignRange_spec {isa : Isa} {hash : K → Nat} (ra : Bool) {t : Table K V} (h : Inv isa hash t) (xs : List (K × V)) :
    ∃ t', t.assignRange isa hash ra xs = .ok t' ∧ Inv isa hash t' ∧ t'.contents.Perm (Spec.distinct xs) := by
  obtain ⟨t0, e0, h0, _, _, hc, _⟩ := clear_spec h
  obtain ⟨t', e, h', hp, _⟩ := insertRange_spec ra h0 xs
  unfold Table.assignRange
  rw [e0, bind_ok, e]
  rw [hc] at hp
  exact ⟨t', rfl, h', hp⟩

end Tpp.Swiss
