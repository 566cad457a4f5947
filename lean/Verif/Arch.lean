import Verif.Capacity

/-!
The preprocessor conditions that select the variant of the code (arch.hpp, define.hpp, swiss_table.hpp 14-22, 184-193, 221-337,
443-452, utility.hpp 75-146).  Macros defined without a replacement have the value 1 here; the code uses such macros only with
`defined` (a comparison with an empty macro would be an error).  `TPP_BYTE_ORDER` and its companions are expanded when they are used
(utility.hpp 87); here they get the value that the macros they stand for have where they are defined, which no header changes.
-/

namespace Tpp.Arch

/-- The macros defined at some point of a translation unit. -/
abbrev Env := String → Option Nat

namespace Env

/-- `defined(x)`. -/
def has (e : Env) (x : String) : Bool := (e x).isSome

/-- The value of a name in a condition: names that are not macros count as 0. -/
def val (e : Env) (x : String) : Nat := (e x).getD 0

/-- `#define x v`. -/
def define (e : Env) (x : String) (v : Nat := 1) : Env := fun y => if y = x then some v else e y

/-- `#if b` … `#define x` … `#endif`. -/
def defineIf (e : Env) (b : Bool) (x : String) : Env := if b then e.define x else e

end Env

open Env

/-- arch.hpp 7-9. -/
def x86Names : List String :=
  ["i386", "__i386__", "__i386", "_M_X86", "_M_IX86", "__x86_64__", "_M_X64"]

/-- arch.hpp 7-9. -/
def archX86 (e : Env) : Env := e.defineIf (x86Names.any e.has) "TPP_ARCH_X86"

/-- arch.hpp 15-20: GCC and Clang. -/
def archGnu (e : Env) : Env :=
  if e.has "__SSE__" then (e.define "TPP_HAS_SSE").defineIf (e.val "__SSE2__" ≠ 0) "TPP_HAS_SSE2" else e

/-- arch.hpp 26-34: MSVC. -/
def archMsvc (e : Env) : Env :=
  if e.has "_M_IX86_FP" then
    let e := e.defineIf (!e.has "TPP_HAS_SSE" && (e.val "_M_IX86_FP" ≥ 1 || e.has "_M_AMD64" || e.has "_M_X64")) "TPP_HAS_SSE"
    e.defineIf (!e.has "TPP_HAS_SSE2" && e.has "TPP_HAS_SSE" && (e.val "_M_IX86_FP" ≥ 2 || e.has "_M_AMD64" || e.has "_M_X64"))
      "TPP_HAS_SSE2"
  else e

/-- arch.hpp 11-39. -/
def archSimd (e : Env) : Env :=
  if e.has "TPP_NO_SIMD" then e
  else if e.has "TPP_ARCH_X86" then
    archMsvc ((archGnu e).defineIf (e.has "__SSSE3__") "TPP_HAS_SSSE3")
  else e.defineIf (e.has "__ARM_NEON__" || e.has "__ARM_NEON") "TPP_HAS_NEON"

/-- arch.hpp 41-51. -/
def archOrder (e : Env) : Env :=
  if e.has "_WIN32" then ((e.define "TPP_BYTE_ORDER_LE" 0).define "TPP_BYTE_ORDER_BE" 1).define "TPP_BYTE_ORDER" 0
  else ((e.define "TPP_BYTE_ORDER_LE" (e.val "__ORDER_LITTLE_ENDIAN__")).define "TPP_BYTE_ORDER_BE" (e.val "__ORDER_BIG_ENDIAN__")).define
    "TPP_BYTE_ORDER" (e.val "__BYTE_ORDER__")

/-- arch.hpp. -/
def arch (e : Env) : Env := archOrder (archSimd (archX86 e))

/-- define.hpp 7-11. -/
def defines (e : Env) : Env :=
  let e := arch e
  e.defineIf (!e.has "NDEBUG" && !e.has "TPP_DEBUG") "TPP_DEBUG"

/-- The variant of the blocks (swiss_table.hpp 184-193). -/
def isa (e : Env) : Isa :=
  if (defines e).has "TPP_HAS_SSE2" then .sse2 else if (defines e).has "TPP_HAS_NEON" then .neon else .portable

/-- The headers with the intrinsics (swiss_table.hpp 14-22). -/
def headers (e : Env) : List String :=
  (if (defines e).has "TPP_HAS_SSSE3" then ["tmmintrin.h"] else if (defines e).has "TPP_HAS_SSE2" then ["emmintrin.h"] else []) ++
    (if (defines e).has "TPP_HAS_NEON" then ["arm_neon.h"] else [])

/-- The member functions of `meta_block` declared in swiss_table.hpp 208-216. -/
def blockMembers : List String := ["match_empty", "match_available", "match_eq", "count_available", "reset_occupied"]

/-- The definitions of member functions of `meta_block` that are compiled (swiss_table.hpp 221-337): SSE2 243-272, NEON 274-304,
portable 306-336. -/
def blockDefs (e : Env) : List String :=
  if (defines e).has "TPP_HAS_SSE2" then ["match_empty", "match_available", "match_eq", "count_available", "reset_occupied"]
  else if (defines e).has "TPP_HAS_NEON" then ["match_empty", "match_available", "match_eq", "count_available", "reset_occupied"]
  else ["match_empty", "match_available", "match_eq", "count_available", "count_available", "reset_occupied"]

/-- How `read_unaligned` reads eight bytes (utility.hpp 75-146): by one load, or from the lowest or highest byte on. -/
inductive Load
  | direct
  | little
  | big
  deriving DecidableEq, Repr

/-- utility.hpp 75, 81, 87, 116. -/
def load (e : Env) : Load :=
  if (defines e).has "TPP_ARCH_X86" then .direct
  else if (defines e).val "TPP_BYTE_ORDER" = (defines e).val "TPP_BYTE_ORDER_LE" then .little else .big

/-- The default of `Combine` (swiss_table.hpp 444-452): whether the metadata and the nodes share one block of memory; `raw` tells
whether both allocators return plain pointers. -/
def combine (e : Env) (raw : Bool) : Bool :=
  if (defines e).has "__GNUC__" && !(defines e).has "__clang__" || (defines e).has "TPP_DEBUG" then false else raw

/-! ### What the conditions amount to -/

namespace Env

theorem has_define (e : Env) (x y : String) (v : Nat) : (e.define x v).has y = (decide (y = x) || e.has y) := by
  unfold has define
  by_cases h : y = x <;> simp [h]

theorem val_define (e : Env) (x y : String) (v : Nat) : (e.define x v).val y = if y = x then v else e.val y := by
  unfold val define
  by_cases h : y = x <;> simp [h]

theorem has_defineIf (e : Env) (b : Bool) (x y : String) : (e.defineIf b x).has y = (b && decide (y = x) || e.has y) := by
  unfold defineIf
  cases b <;> simp [has_define]

theorem val_defineIf (e : Env) (b : Bool) (x y : String) (h : y ≠ x) : (e.defineIf b x).val y = e.val y := by
  unfold defineIf
  cases b <;> simp [val_define, h]

end Env

/-- The names the library defines itself; users do not. -/
def own : List String :=
  ["TPP_ARCH_X86", "TPP_HAS_SSE", "TPP_HAS_SSE2", "TPP_HAS_SSSE3", "TPP_HAS_NEON", "TPP_BYTE_ORDER_LE", "TPP_BYTE_ORDER_BE",
    "TPP_BYTE_ORDER"]

/-- The macros of a compiler and a user: none of the library's own. -/
def Clean (e : Env) : Prop := ∀ x ∈ own, e.has x = false

theorem has_defines (e : Env) (x : String) (h : x ≠ "TPP_DEBUG") : (defines e).has x = (arch e).has x := by
  simp [defines, has_defineIf, h]

theorem has_arch (e : Env) (x : String) (h : x ∉ ["TPP_BYTE_ORDER_LE", "TPP_BYTE_ORDER_BE", "TPP_BYTE_ORDER"]) :
    (arch e).has x = (archSimd (archX86 e)).has x := by
  simp only [List.mem_cons, List.not_mem_nil, or_false, not_or] at h
  unfold arch archOrder
  split <;> simp [has_define, h]

theorem has_archX86 (e : Env) (x : String) (h : x ≠ "TPP_ARCH_X86") : (archX86 e).has x = e.has x := by
  simp [archX86, has_defineIf, h]

theorem val_archX86 (e : Env) (x : String) (h : x ≠ "TPP_ARCH_X86") : (archX86 e).val x = e.val x := by
  simp [archX86, val_defineIf _ _ _ _ h]

theorem x86_archX86 {e : Env} (h : Clean e) : (archX86 e).has "TPP_ARCH_X86" = x86Names.any e.has := by
  simp [archX86, has_defineIf, h "TPP_ARCH_X86" (by simp [own])]

theorem sse2_eq {e : Env} (hc : Clean e) : (defines e).has "TPP_HAS_SSE2" =
    (!e.has "TPP_NO_SIMD" && x86Names.any e.has && ((e.has "__SSE__" && decide (e.val "__SSE2__" ≠ 0)) ||
      (e.has "_M_IX86_FP" && (decide (2 ≤ e.val "_M_IX86_FP") || e.has "_M_AMD64" || e.has "_M_X64")))) := by
  rw [has_defines _ _ (by simp), has_arch _ _ (by simp)]
  have h1 := x86_archX86 hc
  have h2 : e.has "TPP_HAS_SSE2" = false := hc _ (by simp [own])
  have h3 : e.has "TPP_HAS_SSE" = false := hc _ (by simp [own])
  unfold archSimd
  rw [has_archX86 _ _ (by simp), h1]
  cases hn : e.has "TPP_NO_SIMD"
  · cases hx : x86Names.any e.has
    · simp [has_defineIf, has_archX86, h2]
    · simp only [Bool.false_eq_true, if_false, if_true, archMsvc, archGnu]
      by_cases hs : e.has "__SSE__" = true <;> by_cases hm : e.has "_M_IX86_FP" = true <;>
        simp [has_defineIf, has_define, val_defineIf, val_define, has_archX86, val_archX86, hs, hm, h2, h3] <;>
        grind
  · simp [has_archX86, h2]

theorem neon_eq {e : Env} (hc : Clean e) : (defines e).has "TPP_HAS_NEON" =
    (!e.has "TPP_NO_SIMD" && !x86Names.any e.has && (e.has "__ARM_NEON__" || e.has "__ARM_NEON")) := by
  rw [has_defines _ _ (by simp), has_arch _ _ (by simp)]
  have h1 := x86_archX86 hc
  have h2 : e.has "TPP_HAS_NEON" = false := hc _ (by simp [own])
  unfold archSimd
  rw [has_archX86 _ _ (by simp), h1]
  cases hn : e.has "TPP_NO_SIMD"
  · cases hx : x86Names.any e.has
    · simp [has_defineIf, has_archX86, h2]
    · simp only [Bool.false_eq_true, if_false, if_true, archMsvc, archGnu]
      by_cases hs : e.has "__SSE__" = true <;> by_cases hm : e.has "_M_IX86_FP" = true <;>
        simp [has_defineIf, has_define, has_archX86, hs, hm, h2]
  · simp [has_archX86, h2]

theorem x86_eq {e : Env} (hc : Clean e) : (defines e).has "TPP_ARCH_X86" = x86Names.any e.has := by
  rw [has_defines _ _ (by simp), has_arch _ _ (by simp)]
  have h1 := x86_archX86 hc
  unfold archSimd
  rw [has_archX86 _ _ (by simp), h1]
  cases hn : e.has "TPP_NO_SIMD"
  · cases hx : x86Names.any e.has
    · simp [has_defineIf, h1, hx]
    · simp only [Bool.false_eq_true, if_false, if_true, archMsvc, archGnu]
      by_cases hs : e.has "__SSE__" = true <;> by_cases hm : e.has "_M_IX86_FP" = true <;>
        simp [has_defineIf, has_define, has_archX86, hs, hm, h1, hx]
  · simp [h1]

/-- Names that are not the library's keep their meaning. -/
theorem has_user (e : Env) (x : String) (h : x ∉ own) (hd : x ≠ "TPP_DEBUG") : (defines e).has x = e.has x := by
  simp only [own, List.mem_cons, List.not_mem_nil, or_false, not_or] at h
  rw [has_defines _ _ hd, has_arch _ _ (by simp [h])]
  unfold archSimd
  split
  · simp [has_archX86, h]
  · split
    · simp only [archMsvc, archGnu]
      split <;> split <;> simp [has_defineIf, has_define, has_archX86, h]
    · simp [has_defineIf, has_archX86, h]

theorem debug_eq (e : Env) : (defines e).has "TPP_DEBUG" = (!e.has "NDEBUG" || e.has "TPP_DEBUG") := by
  have h1 : ∀ x, x ∉ own → (arch e).has x = e.has x := by
    intro x h
    simp only [own, List.mem_cons, List.not_mem_nil, or_false, not_or] at h
    rw [has_arch _ _ (by simp [h])]
    unfold archSimd
    split
    · simp [has_archX86, h]
    · split
      · simp only [archMsvc, archGnu]
        split <;> split <;> simp [has_defineIf, has_define, has_archX86, h]
      · simp [has_defineIf, has_archX86, h]
  simp only [defines, has_defineIf, h1 "NDEBUG" (by simp [own]), h1 "TPP_DEBUG" (by simp [own])]
  cases e.has "NDEBUG" <;> cases e.has "TPP_DEBUG" <;> rfl

/-- The values the library compares (utility.hpp 87). -/
theorem order_val (e : Env) : (defines e).val "TPP_BYTE_ORDER" = (if e.has "_WIN32" then 0 else e.val "__BYTE_ORDER__") ∧
    (defines e).val "TPP_BYTE_ORDER_LE" = (if e.has "_WIN32" then 0 else e.val "__ORDER_LITTLE_ENDIAN__") := by
  have h1 : (archSimd (archX86 e)).has "_WIN32" = e.has "_WIN32" := by
    have := has_user e "_WIN32" (by simp [own]) (by simp)
    rwa [has_defines _ _ (by simp), has_arch _ _ (by simp)] at this
  have h2 : ∀ x, x ∉ own → (archSimd (archX86 e)).val x = e.val x := by
    intro x h
    simp only [own, List.mem_cons, List.not_mem_nil, or_false, not_or] at h
    unfold archSimd
    split
    · simp [val_archX86, h]
    · split
      · simp only [archMsvc, archGnu]
        split <;> split <;> simp [val_defineIf, val_define, val_archX86, h]
      · simp [val_defineIf, val_archX86, h]
  simp only [defines, arch]
  rw [val_defineIf _ _ _ _ (by simp), val_defineIf _ _ _ _ (by simp)]
  unfold archOrder
  rw [h1]
  cases e.has "_WIN32"
  · simp [val_define, h2 "__BYTE_ORDER__" (by simp [own]), h2 "__ORDER_LITTLE_ENDIAN__" (by simp [own])]
  · simp [val_define]

end Tpp.Arch
