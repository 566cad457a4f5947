import Verif.Props.SwissB
import Verif.Swiss.Assign

/-!
# C64 for sparse and stable containers
-/

set_option linter.unusedSectionVars false

namespace Tpp.Swiss

variable {K V : Type} [DecidableEq K]

/-- C64 for sparse and stable containers: inserting a range, with or without the `reserve` for random access iterators, gives the
container that behaves as the map which inserting the elements one by one gives. -/
theorem C64_swiss_insert_range {isa : Isa} {hash : K → Nat} {t : Table K V} (h : Reachable isa hash t) {m : List (K × V)}
    (hb : Behaves isa hash t m) (ra : Bool) (xs : List (K × V)) :
    ∃ t', t.insertRange isa hash ra xs = .ok t' ∧
      Behaves isa hash t' (xs.foldl (fun m x => Tpp.Spec.insert m x.1 x.2) m) := by
  have hm := hb.contents_perm h.inv
  cases ra with
  | false =>
    obtain ⟨t', e, h', hp, _⟩ := insertList_spec xs t m h.inv hm
    refine ⟨t', ?_, h'.behaves hp⟩
    unfold Table.insertRange
    simp only [Bool.false_eq_true, if_false, bind_ok]
    exact e
  | true =>
    obtain ⟨d, d1, d2, d3, d4, d5, _, d7⟩ := reserve_spec h.inv (t.size + xs.length)
    obtain ⟨t', e, h', hp, _⟩ := insertList_spec xs d m d2 ((contents_perm d4).trans hm)
    refine ⟨t', ?_, h'.behaves hp⟩
    unfold Table.insertRange
    simp only [if_true, d1, bind_ok]
    exact e

/-- C64 for sparse and stable containers: `assign(first, last)` (and assigning an initializer list) replaces the contents of any
container by exactly the keys of the range, the first occurrence of a key winning, whatever was in it before. -/
theorem C64_swiss_assign_range {isa : Isa} {hash : K → Nat} {t : Table K V} (h : Reachable isa hash t) (ra : Bool)
    (xs : List (K × V)) :
    ∃ t' m, t.assignRange isa hash ra xs = .ok t' ∧ Behaves isa hash t' m ∧ Tpp.Spec.Uniq m ∧
      ∀ k, Tpp.Spec.lookup m k = Tpp.Spec.lookup xs k := by
  obtain ⟨t', e, h', hp⟩ := assignRange_spec ra h.inv xs
  refine ⟨t', Spec.distinct xs, e, h'.behaves hp, h'.contents_uniq.perm hp, fun k => ?_⟩
  unfold Spec.distinct
  rw [foldl_insert_lookup]
  simp [Tpp.Spec.lookup]

example : (demo.assignRange .sse2 h64 true [(1, 7), (9, 90), (1, 8)] >>= fun t => t.iterate .sse2) = .ok [(1, 7), (9, 90)] ∧
    (demo.insertRange .sse2 h64 true [(1, 7), (9, 90), (1, 8)] >>= fun t => t.iterate .sse2) =
      .ok [(1, 10), (3, 33), (4, 40), (5, 50), (9, 90)] := by decide

end Tpp.Swiss
