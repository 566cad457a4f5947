import Verif.Basic

/-!
# Specifications

Plain finite maps as lists of pairs with distinct keys; the order of the list has no meaning unless a property says
so (comparisons are up to `List.Perm`).  Nothing here refers to a model of the code.
-/

set_option linter.unusedSectionVars false

namespace Tpp.Spec

variable {K V : Type} [DecidableEq K]

/-- The value stored for `k`. -/
def lookup (m : List (K × V)) (k : K) : Option V := (m.find? fun p => p.1 = k).map Prod.snd

/-- Insert unless present. -/
def insert (m : List (K × V)) (k : K) (v : V) : List (K × V) :=
  match lookup m k with
  | some _ => m
  | none => (k, v) :: m

/-- Remove the key. -/
def erase (m : List (K × V)) (k : K) : List (K × V) := m.filter fun p => p.1 ≠ k

/-- Insert or overwrite. -/
def assign (m : List (K × V)) (k : K) (v : V) : List (K × V) := (k, v) :: erase m k

/-- Keys are distinct. -/
def Uniq (m : List (K × V)) : Prop := (m.map Prod.fst).Nodup

theorem lookup_cons (p : K × V) (m : List (K × V)) (k : K) :
    lookup (p :: m) k = if p.1 = k then some p.2 else lookup m k := by
  unfold lookup
  by_cases h : p.1 = k <;> simp [h]

theorem lookup_some {m : List (K × V)} (hu : Uniq m) {k : K} {v : V} : lookup m k = some v ↔ (k, v) ∈ m := by
  induction m with
  | nil => simp [lookup]
  | cons p m ih =>
    unfold Uniq at hu ih
    rw [List.map_cons, List.nodup_cons] at hu
    rw [lookup_cons]
    by_cases h : p.1 = k
    · rw [if_pos h]
      obtain ⟨pk, pv⟩ := p
      simp only at h hu
      subst h
      simp only [List.mem_cons, Prod.mk.injEq, true_and]
      constructor
      · intro e; left; simpa using e.symm
      · rintro (e | e)
        · rw [e]
        · exact absurd (List.mem_map.mpr ⟨_, e, rfl⟩) hu.1
    · rw [if_neg h, ih hu.2]
      simp only [List.mem_cons]
      constructor
      · exact Or.inr
      · rintro (e | e)
        · subst e; exact absurd rfl h
        · exact e

theorem lookup_none {m : List (K × V)} {k : K} : lookup m k = none ↔ ∀ v, (k, v) ∉ m := by
  unfold lookup
  simp only [Option.map_eq_none_iff, List.find?_eq_none, decide_eq_true_eq]
  constructor
  · intro h v hm; exact h _ hm rfl
  · rintro h ⟨a, b⟩ hm rfl; exact h b hm

theorem Uniq.perm {m m' : List (K × V)} (h : m.Perm m') (hu : Uniq m) : Uniq m' :=
  (h.map Prod.fst).nodup_iff.mp hu

/-- Lookup does not depend on the order. -/
theorem lookup_perm {m m' : List (K × V)} (h : m.Perm m') (hu : Uniq m) (k : K) : lookup m k = lookup m' k := by
  have hu' := hu.perm h
  cases hl : lookup m' k with
  | none =>
    rw [lookup_none] at hl ⊢
    intro v hm; exact hl v (h.mem_iff.mp hm)
  | some v =>
    rw [lookup_some hu'] at hl
    rw [lookup_some hu]
    exact h.mem_iff.mpr hl

theorem erase_perm {m m' : List (K × V)} (h : m.Perm m') (k : K) : (erase m k).Perm (erase m' k) := h.filter _

theorem erase_of_absent {m : List (K × V)} {k : K} (h : lookup m k = none) : erase m k = m := by
  unfold erase
  rw [List.filter_eq_self]
  rintro ⟨a, b⟩ hm
  rw [lookup_none] at h
  simp only [ne_eq, decide_not, Bool.not_eq_true', decide_eq_false_iff_not]
  rintro rfl
  exact h b hm

theorem erase_cons_self {m : List (K × V)} {k : K} {v : V} (hu : Uniq ((k, v) :: m)) : erase ((k, v) :: m) k = m := by
  have : lookup m k = none := by
    rw [lookup_none]
    intro w hw
    unfold Uniq at hu
    rw [List.map_cons, List.nodup_cons] at hu
    exact hu.1 (List.mem_map.mpr ⟨_, hw, rfl⟩)
  unfold erase
  rw [List.filter_cons]
  simp only [ne_eq, not_true_eq_false, decide_false, Bool.false_eq_true, if_false]
  exact erase_of_absent this

/-- What the specification of each container promises about keys, stated as facts a user can check. -/
theorem lookup_insert {m : List (K × V)} (k : K) (v : V) (x : K) :
    lookup (insert m k v) x = if x = k then (match lookup m k with | some w => some w | none => some v) else lookup m x := by
  unfold insert
  cases h : lookup m k with
  | some w =>
    by_cases e : x = k
    · subst e; simp [h]
    · simp [e]
  | none =>
    simp only
    rw [lookup_cons]
    by_cases e : x = k
    · subst e; simp
    · simp [e, Ne.symm e]

theorem lookup_erase {m : List (K × V)} (k x : K) : lookup (erase m k) x = if x = k then none else lookup m x := by
  induction m with
  | nil => simp [erase, lookup]
  | cons p m ih =>
    unfold erase at ih ⊢
    rw [List.filter_cons]
    by_cases h : p.1 = k
    · simp only [h, ne_eq, not_true_eq_false, decide_false, Bool.false_eq_true, if_false]
      rw [ih, lookup_cons, h]
      by_cases e : x = k
      · simp [e]
      · simp [e, Ne.symm e]
    · simp only [h, ne_eq, not_false_eq_true, decide_true, if_true]
      rw [lookup_cons, lookup_cons, ih]
      by_cases e : x = k
      · subst e; simp [h]
      · simp [e]

theorem lookup_assign {m : List (K × V)} (k : K) (v : V) (x : K) :
    lookup (assign m k v) x = if x = k then some v else lookup m x := by
  unfold assign
  rw [lookup_cons, lookup_erase]
  by_cases e : x = k
  · subst e; simp
  · simp [e, Ne.symm e]

/-- Two maps with the same lookups have the same elements. -/
theorem perm_of_lookup {m m' : List (K × V)} (hu : Uniq m) (hu' : Uniq m') (h : ∀ k, lookup m k = lookup m' k) :
    m.Perm m' := by
  have nd : ∀ {l : List (K × V)}, Uniq l → l.Nodup := by
    intro l hl
    unfold Uniq at hl
    exact List.Pairwise.imp (fun hne e => hne (by rw [e])) (List.pairwise_map.mp hl)
  rw [List.perm_ext_iff_of_nodup (nd hu) (nd hu')]
  rintro ⟨k, v⟩
  rw [← lookup_some hu, ← lookup_some hu', h]

end Tpp.Spec
