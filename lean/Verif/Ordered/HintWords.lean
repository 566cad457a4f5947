import Verif.Ordered.Dense

/-!
# How ordered dense containers move a hint along, in machine words

`maybe_resize` (/repo/tpp/detail/dense_table.hpp 802-821) computes

    const auto off_bytes = (m_dense - old_dense) * sizeof(*m_dense);
    hint.link += off_bytes / sizeof(bucket_link);

that is, a difference of pointers into different arrays, an unsigned product, an unsigned division by the size of a link (two
`std::ptrdiff_t`, table_common.hpp 178-180, so 16 bytes), and an addition to a pointer to a link.  `OTable.insertWith` simplifies this to
"the distance of the arrays is added".  Here the arithmetic is modelled as it is written, for 64-bit words.  The difference of pointers
into different arrays is undefined in C++; it is an arbitrary function `sub` here, about which the theorems make the assumptions they
need.  Two functions a compiler may use are `subTrunc` (a division instruction) and one that multiplies by the inverse of the odd part of
the size, which is characterised by `size * sub = distance` modulo `2^64`.
-/

set_option linter.unusedSectionVars false

namespace Tpp.ODense

open Tpp.Dense (Elem LF Table)
open Tpp.Ordered

/-- `off_bytes` (dense_table.hpp 809): the product of the difference of the pointers, converted to `std::size_t`, and the size of a node. -/
def offBytes (sz q : Int) : Int := q * sz % 2 ^ 64

/-- `hint.link += off_bytes / sizeof(bucket_link)` (dense_table.hpp 813): `link` points to links of 16 bytes. -/
def hintMoved (sz q h : Int) : Int := (h + 16 * (offBytes sz q / 16)) % 2 ^ 64

/-- The difference of pointers to nodes (dense_table.hpp 809) as the quotient of the difference of their addresses, rounded towards zero. -/
def subTrunc (sz a b : Int) : Int := (a - b).tdiv sz

namespace OTable

variable {k : Nat} {K V : Type} [DecidableEq K]

/-- What `maybe_resize` makes of a hint (dense_table.hpp 802-821), the array having moved from `t.base` to `b`. -/
def hintAfter (sub : Int → Int → Int) (sz : Int) (t : OTable k K V) (b h : Int) : Int :=
  if t.core.cap = t.core.size then hintMoved sz (sub b t.base) h else h

/-- `OTable.insertWith` with the arithmetic of `maybe_resize` as it is written (dense_table.hpp 802-821, 582). -/
def insertWithW (sub : Int → Int → Int) (sz : Int) (A : Alloc) (m : Mem) (t : OTable k K V)
    (op : Table k K V → M (Table k K V × Nat × Bool)) (hint : Option Int) : M (Mem × OTable k K V × Int × Bool) := do
  let g ← maybeGrow sz A m t
  let r ← op t.core
  let a := g.2 + sz * (r.2.1 : Int)
  let m ← (if r.2.2 then linkNew g.1 t.hd a (hint.map (t.hintAfter sub sz g.2)) else .ok g.1 : M Mem)
  .ok (m, { t with core := r.1, base := g.2 }, a, r.2.2)

/-- `insert(hint, value)` (dense_table.hpp 374-381, 672-697) with the arithmetic of `maybe_resize` as it is written. -/
def insertW (sub : Int → Int → Int) (hash : K → Nat) (sz : Int) (A : Alloc) (m : Mem) (t : OTable k K V) (key : Fin k → K) (v : V)
    (hint : Option Int) : M (Mem × OTable k K V × Int × Bool) :=
  insertWithW sub sz A m t (fun c => c.insert hash key v) hint

end OTable

/-- A hint is moved by the distance of the arrays, rounded down to a multiple of the size of a link. -/
theorem hintMoved_exact {sz q d h : Int} (hq : 2 ^ 64 ∣ q * sz - d) : hintMoved sz q h = (h + (d - d % 16)) % 2 ^ 64 := by
  have e : offBytes sz q = d % 2 ^ 64 := Int.emod_eq_emod_iff_emod_sub_eq_zero.mpr (Int.emod_eq_zero_of_dvd hq)
  unfold hintMoved
  rw [e]
  omega

theorem hintMoved_iff {sz q d h : Int} (hq : 2 ^ 64 ∣ q * sz - d) : hintMoved sz q h = (h + d) % 2 ^ 64 ↔ 16 ∣ d := by
  rw [hintMoved_exact hq]
  omega

end Tpp.ODense
