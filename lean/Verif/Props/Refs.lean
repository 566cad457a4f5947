import Verif.Refs
import Mathlib.Order.Lattice

/-!
# C78: comparing references to map elements
-/

set_option linter.unusedSectionVars false

namespace Tpp.Refs

variable {K M : Type} [LinearOrder K] [LinearOrder M]

/-- The order of `std::pair`: by the key, among equal keys by the mapped value. -/
def PairLt (a b : K × M) : Prop := a.1 < b.1 ∨ (a.1 = b.1 ∧ a.2 < b.2)

/-- C78, equality: `==` and `!=` decide equality of both components. -/
theorem C78_eq (a b : K × M) : (eq a b = true ↔ a = b) ∧ (ne a b = true ↔ a ≠ b) := by
  unfold eq ne
  rw [Bool.and_eq_true, Bool.or_eq_true, decide_eq_true_iff, decide_eq_true_iff, decide_eq_true_iff, decide_eq_true_iff,
    Ne, Prod.ext_iff, Ne, Ne]
  refine ⟨Iff.rfl, ?_⟩
  by_cases h : a.1 = b.1 <;> simp [h, Prod.ext_iff]

/-- C78 since C++20 (with `synth_three_way` repaired): the operator is the order of `std::pair`, total and
antisymmetric. -/
theorem C78_spaceship (a b : K × M) : (spaceship a b = .lt ↔ PairLt a b) ∧ (spaceship a b = .gt ↔ PairLt b a) ∧
    (spaceship a b = .eq ↔ a = b) := by
  unfold spaceship threeWay PairLt
  obtain ⟨a1, a2⟩ := a
  obtain ⟨b1, b2⟩ := b
  simp only [Prod.mk.injEq]
  rcases lt_trichotomy a1 b1 with h | h | h
  · have n := h.ne; have n2 := h.not_gt; have n3 := h.ne'
    simp [h, n, n2, n3]
  · cases h
    simp only [lt_irrefl, if_false, if_true, true_and, false_or]
    rcases lt_trichotomy a2 b2 with h | h | h
    · have n := h.ne; have n2 := h.not_gt
      simp [h, n, n2]
    · cases h; simp
    · have n := h.ne'; have n2 := h.not_gt
      simp [h, n, n2]
  · have n := h.ne'; have n2 := h.not_gt; have n3 := h.ne
    simp [h, n, n2, n3]

/-- C78 is false before C++20, for all types of keys and mapped values with two distinct values each: the operators
are not the order of `std::pair`; there are references of which neither is less although they differ; and this relation
is not transitive, so `<` is no strict weak order (sorting with it is undefined); `<=` is not "less or equal". -/
theorem C78_false {k₁ k₂ : K} {m₁ m₂ : M} (hk : k₁ < k₂) (hm : m₁ < m₂) :
    (∃ a b : K × M, PairLt a b ∧ lt a b = false) ∧
    (∃ a b : K × M, a ≠ b ∧ lt a b = false ∧ lt b a = false ∧ le a b = false ∧ le b a = false) ∧
    (∃ a b c : K × M, lt a b = false ∧ lt b a = false ∧ lt b c = false ∧ lt c b = false ∧ lt a c = true) ∧
    (∃ a b : K × M, le a b = true ∧ lt a b = false ∧ eq a b = false) := by
  have n1 := hk.not_gt; have n2 := hm.not_gt; have n3 := hk.not_ge; have n4 := hm.not_ge
  refine ⟨⟨(k₁, m₁), (k₁, m₂), Or.inr ⟨rfl, hm⟩, by simp [lt]⟩,
    ⟨(k₁, m₂), (k₂, m₁), fun h => hk.ne (Prod.ext_iff.mp h).1, by simp [lt, n2], by simp [lt, n1], by simp [le, n4],
      by simp [le, n3]⟩,
    ⟨(k₁, m₁), (k₁, m₂), (k₂, m₂), by simp [lt], by simp [lt], by simp [lt], by simp [lt], by simp [lt, hk, hm]⟩,
    ⟨(k₁, m₁), (k₁, m₂), by simp [le, hm.le], by simp [lt], by simp [eq, hm.ne]⟩⟩

/-- C78, before C++20, the exact conditions under which an operator agrees with `std::pair`: `<` unless the keys decide
against the mapped values or are equal, `<=` unless the keys decide against the mapped values. -/
theorem C78_iff (a b : K × M) :
    ((lt a b = true ↔ PairLt a b) ↔ ¬ ((a.1 < b.1 ∧ b.2 ≤ a.2) ∨ (a.1 = b.1 ∧ a.2 < b.2))) ∧
    ((le a b = true ↔ (PairLt a b ∨ a = b)) ↔ ¬ (a.1 < b.1 ∧ b.2 < a.2)) ∧
    (gt a b = lt b a) ∧ (ge a b = le b a) := by
  obtain ⟨a1, a2⟩ := a
  obtain ⟨b1, b2⟩ := b
  refine ⟨?_, ?_, rfl, rfl⟩
  · unfold lt PairLt
    simp only [Bool.and_eq_true, decide_eq_true_iff]
    rcases lt_trichotomy a1 b1 with h | h | h
    · have n := h.ne
      simp [h, n]
    · cases h; simp
    · have n := h.ne'; have n2 := h.not_gt
      simp [n, n2]
  · unfold le PairLt
    simp only [Bool.and_eq_true, decide_eq_true_iff, Prod.mk.injEq]
    rcases lt_trichotomy a1 b1 with h | h | h
    · have n := h.ne; have n2 := h.le
      simp [h, n, n2]
    · cases h; simp [le_iff_lt_or_eq]
    · have n := h.ne'; have n2 := h.not_gt; have n3 := h.not_ge
      simp [n, n2, n3]

/-- C78, what holds before C++20: `<` and `<=` never contradict `std::pair` when they say yes, `<` is irreflexive and
transitive, and for references with different keys whose mapped values are ordered in the same way they agree. -/
theorem C78_partial (a b c : K × M) :
    (lt a b = true → PairLt a b) ∧ (le a b = true → PairLt a b ∨ a = b) ∧ lt a a = false ∧
    (lt a b = true → lt b c = true → lt a c = true) ∧
    ((a.1 < b.1 ↔ a.2 < b.2) → (a.1 = b.1 ↔ a.2 = b.2) → (lt a b = true ↔ PairLt a b)) := by
  have hlt : ∀ a b : K × M, lt a b = true → PairLt a b := by
    intro a b h
    simp only [lt, Bool.and_eq_true, decide_eq_true_iff] at h
    exact Or.inl h.1
  refine ⟨hlt a b, ?_, by simp [lt], ?_, ?_⟩
  · intro h
    simp only [le, Bool.and_eq_true, decide_eq_true_iff] at h
    rcases lt_or_eq_of_le h.1 with h1 | h1
    · exact Or.inl (Or.inl h1)
    · rcases lt_or_eq_of_le h.2 with h2 | h2
      · exact Or.inl (Or.inr ⟨h1, h2⟩)
      · exact Or.inr (Prod.ext h1 h2)
  · intro h1 h2
    simp only [lt, Bool.and_eq_true, decide_eq_true_iff] at h1 h2 ⊢
    exact ⟨h1.1.trans h2.1, h1.2.trans h2.2⟩
  · intro h1 h2
    refine ⟨hlt a b, ?_⟩
    rintro (h | ⟨h, h'⟩)
    · simp only [lt, Bool.and_eq_true, decide_eq_true_iff]
      exact ⟨h, h1.mp h⟩
    · exact absurd (h2.mp h) h'.ne

example : PairLt (1, 50) (2, 30) ∧ lt (1, 50) (2, 30) = false ∧ le (1, 50) (2, 30) = false ∧
    spaceship (1, 50) (2, 30) = .lt ∧ lt (1, 20) (2, 30) = true ∧ le (1, 20) (1, 30) = true ∧
    lt (1, 20) (1, 30) = false := by
  refine ⟨Or.inl (by decide), by decide, by decide, by decide, by decide, by decide, by decide⟩

end Tpp.Refs
