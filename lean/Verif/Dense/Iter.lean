import Verif.Dense.Ops

/-!
# Iterators of unordered dense containers

They are pointers into the array of nodes (dense_table.hpp 116, table_common.hpp 599-700): an iterator is an address, `base` is
`m_dense`, `sz` is `sizeof(bucket_node)`.
-/

set_option linter.unusedSectionVars false

namespace Tpp.Dense

/-- `it + n`, `it - n` (table_common.hpp 609-610; `n` may be negative); `++it` and `--it` are `n = 1` and `n = -1` (662-676). -/
def iterAdd (sz a n : Int) : Int := a + sz * n

/-- `a - b` (table_common.hpp 611): the difference of two pointers. -/
def iterDiff (sz a b : Int) : Int := (a - b) / sz

/-- `a < b` (table_common.hpp 685-690); the other comparisons follow from `<` and `==`. -/
def iterLt (a b : Int) : Bool := decide (a < b)

namespace Table

variable {k : Nat} {K V : Type} [DecidableEq K]

/-- `end()` (dense_table.hpp 320-321, 511-517); `begin()` is `base` (318-319, 496-502). -/
def iterEnd (sz base : Int) (t : Table k K V) : Int := base + sz * (t.size : Int)

/-- `*it` (table_common.hpp 679-680). -/
def iterDeref (sz base : Int) (t : Table k K V) (a : Int) : M (Elem k K V) :=
  match (List.range t.cap).find? (fun i : Nat => base + sz * (i : Int) = a) with
  | none => .error .dangling
  | some i => do
    let n ← t.readNode i
    .ok (n.key, n.val)

/-- `front()` (dense_table.hpp 328-329, 503). -/
def front (sz base : Int) (t : Table k K V) : M (Elem k K V) := t.iterDeref sz base base

/-- `back()` (dense_table.hpp 330-331, 504-510): `m_dense + (size() - 1)`. -/
def back (sz base : Int) (t : Table k K V) : M (Elem k K V) := t.iterDeref sz base (base + sz * ((t.size : Int) - 1))

end Table

variable {k : Nat} {K V : Type} [DecidableEq K]

theorem iterDeref_ok {hash : K → Nat} {t : Table k K V} {l : List (Elem k K V)} (h : Inv hash t l) {sz : Int} (hsz : 0 < sz) (base : Int)
    {n : Nat} (hn : n < l.length) : t.iterDeref sz base (base + sz * (n : Int)) = .ok l[n] := by
  have hcap : n < t.cap := Nat.lt_of_lt_of_le (h.size ▸ hn) h.le_cap
  have hinj : ∀ i : Nat, base + sz * (i : Int) = base + sz * (n : Int) → i = n := by
    intro i e
    have := Int.eq_of_mul_eq_mul_left (by omega) (Int.add_left_cancel e)
    omega
  have hf : (List.range t.cap).find? (fun i : Nat => base + sz * (i : Int) = base + sz * (n : Int)) = some n := by
    cases hc : (List.range t.cap).find? (fun i : Nat => base + sz * (i : Int) = base + sz * (n : Int)) with
    | none =>
      rw [List.find?_eq_none] at hc
      exact absurd (by simp) (hc n (List.mem_range.mpr hcap))
    | some i => rw [hinj i (by simpa using List.find?_some hc)]
  unfold Table.iterDeref
  rw [hf]
  obtain ⟨x, hr, _, e⟩ := h.toArr.read hn
  simp only
  rw [hr, bind_ok, e]

end Tpp.Dense
