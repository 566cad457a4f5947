import Verif.Arch

/-!
C115: the code is compiled for every target, in the variant of that target.
-/

namespace Tpp.Arch

open Env

/-- The macros listed, each with the value 1. -/
def only (l : List String) : Env := fun x => if x ∈ l then some 1 else none

/-- C115: exactly when the blocks are those of SSE2: an x86 target, no `TPP_NO_SIMD`, and the macros of GCC and Clang or those of
MSVC. -/
theorem C115_sse2_iff {e : Env} (hc : Clean e) : isa e = .sse2 ↔ e.has "TPP_NO_SIMD" = false ∧ (∃ x ∈ x86Names, e.has x = true) ∧
    ((e.has "__SSE__" = true ∧ e.val "__SSE2__" ≠ 0) ∨ (e.has "_M_IX86_FP" = true ∧ (2 ≤ e.val "_M_IX86_FP" ∨ e.has "_M_AMD64" = true ∨
      e.has "_M_X64" = true))) := by
  have h : isa e = .sse2 ↔ (defines e).has "TPP_HAS_SSE2" = true := by
    unfold isa
    split
    · simp_all
    · split <;> simp_all
  rw [h, sse2_eq hc]
  simp only [Bool.and_eq_true, Bool.or_eq_true, Bool.not_eq_true', decide_eq_true_eq, List.any_eq_true, and_assoc, or_assoc]

/-- C115: exactly when the blocks are those of NEON. -/
theorem C115_neon_iff {e : Env} (hc : Clean e) : isa e = .neon ↔ e.has "TPP_NO_SIMD" = false ∧ (∀ x ∈ x86Names, e.has x = false) ∧
    (e.has "__ARM_NEON__" = true ∨ e.has "__ARM_NEON" = true) := by
  have h : isa e = .neon ↔ (defines e).has "TPP_HAS_SSE2" = false ∧ (defines e).has "TPP_HAS_NEON" = true := by
    unfold isa
    split
    · simp_all
    · split <;> simp_all
  rw [h, sse2_eq hc, neon_eq hc]
  cases hx : x86Names.any e.has
  · simp only [List.any_eq_false, Bool.not_eq_true] at hx
    simp only [Bool.not_false, Bool.and_true, Bool.and_false, Bool.false_and, Bool.and_eq_true, Bool.or_eq_true, Bool.not_eq_true', true_and]
    exact ⟨fun a => ⟨a.1, hx, a.2⟩, fun a => ⟨a.1, a.2.2⟩⟩
  · simp only [List.any_eq_true] at hx
    obtain ⟨x, hx, he⟩ := hx
    simp only [Bool.not_true, Bool.and_false, Bool.false_and, Bool.false_eq_true, and_false, false_iff, not_and, not_or]
    intro _ h
    rw [h x hx] at he
    simp at he

/-- What a translation unit with sparse or stable containers needs: every member function of the blocks is defined once. -/
def Defined (e : Env) : Prop := ∀ x ∈ blockMembers, (blockDefs e).count x = 1

/-- C115: exactly the translation units with SSE2 or NEON have one definition of every member function of the blocks. -/
theorem C115_defined_iff (e : Env) : Defined e ↔ isa e ≠ .portable := by
  unfold Defined blockDefs isa blockMembers
  split
  · simp +decide
  · split
    · simp +decide
    · simp +decide

/-- The claim in full: every target has a working variant. -/
def FullClaim : Prop := ∀ e : Env, Clean e → Defined e

theorem portable_of {e : Env} (h1 : isa e ≠ .sse2) (h2 : isa e ≠ .neon) : isa e = .portable := by
  cases h : isa e <;> simp_all

/-- C115 is false for every target once `TPP_NO_SIMD` (the only option of the library, README.md 39-44) is set. -/
theorem C115_no_simd_false {e : Env} (hc : Clean e) (h : e.has "TPP_NO_SIMD" = true) : ¬ Defined e := by
  rw [C115_defined_iff]
  have h1 : isa e ≠ .sse2 := by
    rw [Ne, C115_sse2_iff hc]
    simp [h]
  have h2 : isa e ≠ .neon := by
    rw [Ne, C115_neon_iff hc]
    simp [h]
  simp [portable_of h1 h2]

/-- C115 is false for every 64-bit MSVC: it defines `_M_X64` and `_M_AMD64`, but neither `_M_IX86_FP` nor `__SSE__`, and the test of
`_M_X64` stands inside of the test of `_M_IX86_FP`. -/
theorem C115_msvc_false {e : Env} (hc : Clean e) (hx : e.has "_M_X64" = true) (hs : e.has "__SSE__" = false)
    (hf : e.has "_M_IX86_FP" = false) : isa e = .portable ∧ ¬ Defined e := by
  have h1 : isa e ≠ .sse2 := by
    rw [Ne, C115_sse2_iff hc]
    simp [hs, hf]
  have h2 : isa e ≠ .neon := by
    rw [Ne, C115_neon_iff hc]
    rintro ⟨_, h, _⟩
    rw [h "_M_X64" (by simp [x86Names])] at hx
    simp at hx
  have h3 := portable_of h1 h2
  exact ⟨h3, by rw [C115_defined_iff]; simp [h3]⟩

/-- C115 is false as stated. -/
theorem C115_false : ¬ FullClaim := fun h =>
  C115_no_simd_false (e := only ["TPP_NO_SIMD"]) (by unfold Clean; decide +kernel) (by decide +kernel)
    (h _ (by unfold Clean; decide +kernel))

/-- C115, what holds: GCC and Clang for x86 with SSE2, and any compiler for ARM with NEON, compile one definition of everything and
find the intrinsics they use; the three places that choose a variant (swiss_table.hpp 184-193, 200-206, 221-337) agree with the
headers included. -/
theorem C115_defined_partial {e : Env} (hc : Clean e) (hn : e.has "TPP_NO_SIMD" = false)
    (h : ((∃ x ∈ x86Names, e.has x = true) ∧ e.has "__SSE__" = true ∧ e.val "__SSE2__" ≠ 0) ∨
      ((∀ x ∈ x86Names, e.has x = false) ∧ (e.has "__ARM_NEON__" = true ∨ e.has "__ARM_NEON" = true))) : Defined e ∧
      (isa e = .sse2 → "tmmintrin.h" ∈ headers e ∨ "emmintrin.h" ∈ headers e) ∧ (isa e = .neon → "arm_neon.h" ∈ headers e) := by
  refine ⟨?_, ?_, ?_⟩
  · rw [C115_defined_iff]
    rcases h with ⟨hx, hs⟩ | ⟨hx, ha⟩
    · rw [(C115_sse2_iff hc).mpr ⟨hn, hx, Or.inl hs⟩]
      simp
    · rw [(C115_neon_iff hc).mpr ⟨hn, hx, ha⟩]
      simp
  · intro hi
    unfold isa at hi
    unfold headers
    by_cases h3 : (defines e).has "TPP_HAS_SSSE3" = true
    · simp [h3]
    · by_cases h2 : (defines e).has "TPP_HAS_SSE2" = true
      · simp [h2, h3]
      · rw [if_neg h2] at hi
        split at hi <;> simp at hi
  · intro hi
    unfold isa at hi
    unfold headers
    by_cases h3 : (defines e).has "TPP_HAS_NEON" = true
    · simp [h3]
    · simp only [h3] at hi
      split at hi <;> simp_all

/-- C115: how eight control bytes are read.  On x86 by one load.  On other targets in the order the compiler states; if it states
none (and the system is not Windows), as on little-endian machines, whatever the machine. -/
theorem C115_load {e : Env} (hc : Clean e) : (load e = .direct ↔ ∃ x ∈ x86Names, e.has x = true) ∧
    ((∀ x ∈ x86Names, e.has x = false) → (load e = .little ↔ e.has "_WIN32" = true ∨
      e.val "__BYTE_ORDER__" = e.val "__ORDER_LITTLE_ENDIAN__")) := by
  obtain ⟨h1, h2⟩ := order_val e
  unfold load
  rw [x86_eq hc, h1, h2]
  cases hx : x86Names.any e.has
  · simp only [List.any_eq_false, Bool.not_eq_true] at hx
    refine ⟨?_, fun _ => ?_⟩
    · constructor
      · intro h
        split at h
        · simp_all
        · generalize (if e.has "_WIN32" = true then 0 else e.val "__BYTE_ORDER__") = a at h
          split at h <;> split at h <;> simp at h
      · rintro ⟨x, hm, he⟩
        rw [hx x hm] at he
        simp at he
    · cases e.has "_WIN32"
      · simp
      · simp
  · simp only [List.any_eq_true] at hx
    refine ⟨by simpa using hx, fun h => ?_⟩
    obtain ⟨x, hm, he⟩ := hx
    rw [h x hm] at he
    simp at he

/-- C115: exactly when metadata and nodes share a block of memory: release builds of compilers other than GCC, with allocators that
return plain pointers. -/
theorem C115_combine_iff (e : Env) (raw : Bool) : combine e raw = true ↔ raw = true ∧ e.has "NDEBUG" = true ∧ e.has "TPP_DEBUG" = false ∧
    (e.has "__GNUC__" = true → e.has "__clang__" = true) := by
  unfold combine
  rw [has_user e "__GNUC__" (by simp [own]) (by simp), has_user e "__clang__" (by simp [own]) (by simp), debug_eq]
  cases e.has "__GNUC__" <;> cases e.has "__clang__" <;> cases e.has "NDEBUG" <;> cases e.has "TPP_DEBUG" <;> cases raw <;> simp

/-! ### Examples -/

/-- 64-bit GCC with its default options: SSE2, one definition of everything, separate blocks of memory. -/
example : isa (only ["__GNUC__", "__x86_64__", "__SSE__", "__SSE2__", "NDEBUG"]) = .sse2 ∧
    headers (only ["__GNUC__", "__x86_64__", "__SSE__", "__SSE2__", "NDEBUG"]) = ["emmintrin.h"] ∧
    combine (only ["__GNUC__", "__x86_64__", "__SSE__", "__SSE2__", "NDEBUG"]) true = false ∧
    combine (only ["__GNUC__", "__clang__", "__x86_64__", "__SSE__", "__SSE2__", "NDEBUG"]) true = true := by decide +kernel

/-- 32-bit MSVC with `/arch:SSE2` has SSE2, 64-bit MSVC has not. -/
example : isa ((only ["_MSC_VER", "_WIN32", "_M_IX86"]).define "_M_IX86_FP" 2) = .sse2 ∧
    isa (only ["_MSC_VER", "_WIN32", "_WIN64", "_M_X64", "_M_AMD64"]) = .portable ∧
    (blockDefs (only ["_MSC_VER", "_WIN32", "_WIN64", "_M_X64", "_M_AMD64"])).count "count_available" = 2 := by decide +kernel

/-- A big-endian machine, once with and once without the macros that say so. -/
example : load (((only ["__powerpc__"]).define "__ORDER_LITTLE_ENDIAN__" 1234).define "__BYTE_ORDER__" 4321) = .big ∧
    load (only ["__powerpc__"]) = .little ∧ load (only ["__x86_64__"]) = .direct := by decide +kernel

end Tpp.Arch
