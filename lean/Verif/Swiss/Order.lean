import Verif.Swiss.Iters
import Verif.Swiss.Move
import Verif.Swiss.Weak

/-!
# The order of iteration over sparse containers

Iteration visits the slots in increasing order (swiss_table.hpp 412-437).
-/

set_option linter.unusedSectionVars false

namespace Tpp.Swiss

variable {K V : Type} [DecidableEq K]

/-- If `g` has the values of the list where `f` has them, the list remains in order. -/
theorem sublist_filterMap {α β : Type} {f g : α → Option β} :
    ∀ (is : List α) {ks : List β}, ks.Sublist (is.filterMap f) → (∀ i ∈ is, ∀ k ∈ ks, f i = some k → g i = some k) →
      ks.Sublist (is.filterMap g) := by
  intro is
  induction is with
  | nil => intro ks h _; exact h
  | cons i is ih =>
    intro ks h hk
    have weaken : ∀ {l : List β}, l.Sublist (is.filterMap g) → l.Sublist ((i :: is).filterMap g) := by
      intro l hl
      rw [List.filterMap_cons]
      cases g i with
      | none => exact hl
      | some b => exact hl.cons b
    rw [List.filterMap_cons] at h
    cases hf : f i with
    | none =>
      rw [hf] at h
      exact weaken (ih h fun j hj => hk j (by simp [hj]))
    | some a =>
      rw [hf] at h
      cases h with
      | cons _ h => exact weaken (ih h fun j hj => hk j (by simp [hj]))
      | cons_cons _ h =>
        rename_i ks'
        have hg : g i = some a := hk i (by simp) a (by simp) hf
        rw [List.filterMap_cons, hg]
        exact (ih h fun j hj k hkk => hk j (by simp [hj]) k (by simp [hkk])).cons_cons a

theorem keys_eq (t : Table K V) : t.contents.map Prod.fst = (List.range t.cap).filterMap fun i => (t.node i).map Node.key := by
  unfold Table.contents Table.nodes collect
  rw [List.map_map, List.map_filterMap]
  rfl

/-- Keys that remain in their slots remain in order. -/
theorem keys_order {t t' : Table K V} (hc : t'.cap = t.cap) {ks : List K} (hs : ks.Sublist (t.contents.map Prod.fst))
    (hk : ∀ k ∈ ks, ∀ i, Holds t i k → Holds t' i k) : ks.Sublist (t'.contents.map Prod.fst) := by
  rw [keys_eq] at hs ⊢
  rw [hc]
  refine sublist_filterMap _ hs ?_
  intro i hi k hkk hf
  cases hn : t.node i with
  | none => rw [hn] at hf; cases hf
  | some n =>
    rw [hn] at hf
    obtain ⟨_, n', h1, h2⟩ := hk k hkk i ⟨List.mem_range.mp hi, n, hn, by simpa using hf⟩
    rw [h1, Option.map_some, h2]

/-- A table with the same contents is iterated over in the same order. -/
theorem Weak.iterate_eq {isa : Isa} {hash hash' : K → Nat} {t c : Table K V} (h : Inv isa hash t) (hw : Weak isa hash' c)
    (e : c.contents = t.contents) {l : List (K × V)} (hl : t.iterate isa = .ok l) : Ends isa (c.iterate isa) (· = l) := by
  rcases iterate_spec h with ⟨r, h1, h2⟩ | ⟨_, h1⟩
  · rw [hl] at h1
    cases h1
    refine (weak_iterate hw).mono ?_
    intro l' hl'
    rw [hl', e, h2]
  · rw [hl] at h1; cases h1

end Tpp.Swiss
