import Verif.Endian
import Verif.Props.Bits

/-!
# C79: the portable block on other byte orders
-/

set_option linter.unusedSectionVars false

namespace Tpp.Swiss

open Tpp.Bits

/-- C79, little endian without unaligned loads: the word assembled from bytes is the one C30 speaks about, so the block
operations report exactly what they should. -/
theorem C79_little {f : Nat → Ctl} (hf : ∀ i, ValidCtl (f i)) :
    enum 3 65 (Portable.matchEmpty (readLE fun i => byte (f i))) = .ok ((List.range 8).filter fun i => f i == .empty) ∧
    enum 3 65 (Portable.matchAvailable (readLE fun i => byte (f i))) =
      .ok ((List.range 8).filter fun i => f i == .empty || f i == .deleted) ∧
    (∀ tag, tag < 128 → ∃ hit : Nat → Bool,
      enum 3 65 (Portable.matchEq (readLE fun i => byte (f i)) (byte (.full tag))) = .ok ((List.range 8).filter hit) ∧
      (∀ i, f i = .full tag → hit i = true) ∧
      (∀ i, hit i = true → (f i = .full tag ∨ f i = .full (tag ^^^ 1)) ∧ ∃ j, j ≤ i ∧ f j = .full tag)) ∧
    Portable.countAvailable (readLE fun i => byte (f i)) =
      (match (List.range 8).find? fun i => !(f i == .empty || f i == .deleted) with
      | some i => .ok i
      | none => .error .ctzZero) := by
  rw [readLE_eq]
  obtain ⟨h1, h2, h3, h4, _⟩ := C30_portable hf
  exact ⟨h1, h2, h3, h4⟩

theorem filter_range_inj {p q : Nat → Bool} {n : Nat} :
    (List.range n).filter p = (List.range n).filter q ↔ ∀ i, i < n → p i = q i := by
  constructor
  · intro h i hi
    have e : i ∈ (List.range n).filter p ↔ i ∈ (List.range n).filter q := by rw [h]
    simp only [List.mem_filter, List.mem_range, hi, true_and] at e
    cases hp : p i <;> cases hq : q i <;> simp_all
  · exact filter_congr'

/-- C79, big endian, the exact condition: `match_empty` and `match_available` report the right slots if and only if the
free slots lie symmetrically in the block. -/
theorem C79_big_iff {f : Nat → Ctl} (hf : ∀ i, ValidCtl (f i)) :
    (enum 3 65 (Portable.matchEmpty (readBE fun i => byte (f i))) = .ok ((List.range 8).filter fun i => f i == .empty) ↔
      ∀ i, i < 8 → (f (7 - i) = .empty ↔ f i = .empty)) ∧
    (enum 3 65 (Portable.matchAvailable (readBE fun i => byte (f i))) =
        .ok ((List.range 8).filter fun i => f i == .empty || f i == .deleted) ↔
      ∀ i, i < 8 → ((f (7 - i) = .empty ∨ f (7 - i) = .deleted) ↔ (f i = .empty ∨ f i = .deleted))) := by
  rw [readBE_eq]
  obtain ⟨h1, h2, _⟩ := C30_portable (f := fun i => f (7 - i)) (fun i => hf _)
  rw [h1, h2]
  constructor
  · rw [Except.ok.injEq, filter_range_inj]
    apply forall_congr'; intro i; apply forall_congr'; intro _
    rw [Bool.eq_iff_iff, beq_iff_eq, beq_iff_eq]
  · rw [Except.ok.injEq, filter_range_inj]
    apply forall_congr'; intro i; apply forall_congr'; intro _
    rw [Bool.eq_iff_iff]; simp only [Bool.or_eq_true, beq_iff_eq]

/-- C79 is false on big-endian targets.  Whenever the first slot of a block is occupied and the last one free, the slot
chosen for an insertion is the occupied one; and an element is not among the reported candidates for its own tag unless
the slot opposite to it has the same tag or the one that differs in the lowest bit. -/
theorem C79_big_false {f : Nat → Ctl} (hf : ∀ i, ValidCtl (f i)) :
    ((f 7 = .empty ∨ f 7 = .deleted) → ∀ tag, f 0 = .full tag →
      (do let i ← ctz (Portable.matchAvailable (readBE fun i => byte (f i))); .ok (i >>> 3) : M Nat) = .ok 0) ∧
    (∀ tag, tag < 128 → ∀ i, i < 8 → f i = .full tag → f (7 - i) ≠ .full tag → f (7 - i) ≠ .full (tag ^^^ 1) →
      ∃ l, enum 3 65 (Portable.matchEq (readBE fun i => byte (f i)) (byte (.full tag))) = .ok l ∧ i ∉ l ∧ 7 - i ∈ l) := by
  rw [readBE_eq]
  obtain ⟨_, h2, h3, _⟩ := C30_portable (f := fun i => f (7 - i)) (fun i => hf _)
  constructor
  · intro h7 tag _
    have e0 : ((List.range 8).filter fun i => f (7 - i) == .empty || f (7 - i) == .deleted) =
        0 :: ((List.range 8).tail.filter fun i => f (7 - i) == .empty || f (7 - i) == .deleted) := by
      show List.filter _ (0 :: (List.range 8).tail) = _
      rw [List.filter_cons_of_pos]
      rcases h7 with h | h <;> simp [h]
    rw [e0] at h2
    generalize Portable.matchAvailable (word fun i => byte (f (7 - i))) = m at h2
    unfold enum at h2
    by_cases hm : m = 0
    · rw [if_pos hm] at h2; cases h2
    · rw [if_neg hm] at h2
      cases hc : ctz m with
      | error e => rw [hc] at h2; cases h2
      | ok a =>
        rw [hc, bind_ok] at h2
        rw [bind_ok]
        cases hr : enum 3 64 (dropLowest m) with
        | error e => rw [hr] at h2; cases h2
        | ok r =>
          rw [hr, bind_ok] at h2
          injection h2 with h2
          injection h2 with h2 _
          rw [h2]
  · intro tag ht i hi hfi hn1 hn2
    obtain ⟨hit, e, ha, hb⟩ := h3 tag ht
    refine ⟨_, e, ?_, ?_⟩
    · intro hmem
      rcases (hb i (List.mem_filter.mp hmem).2).1 with h | h
      · exact hn1 h
      · exact hn2 h
    · refine List.mem_filter.mpr ⟨List.mem_range.mpr (by omega), ha (7 - i) ?_⟩
      show f (7 - (7 - i)) = _
      rw [show 7 - (7 - i) = i by omega]; exact hfi

/-- C79, what remains true on big-endian targets: whether there is any free slot, and blocks whose reverse is the block
itself. -/
theorem C79_big_partial {f : Nat → Ctl} (hf : ∀ i, ValidCtl (f i)) :
    (enum 3 65 (Portable.matchEmpty (readBE fun i => byte (f i))) = .ok [] ↔ ∀ i, i < 8 → f i ≠ .empty) ∧
    ((∀ i, i < 8 → f (7 - i) = f i) → readBE (fun i => byte (f i)) = readLE (fun i => byte (f i))) := by
  constructor
  · rw [readBE_eq]
    obtain ⟨h1, _⟩ := C30_portable (f := fun i => f (7 - i)) (fun i => hf _)
    rw [h1, Except.ok.injEq, List.filter_eq_nil_iff]
    constructor
    · intro h i hi he
      have := h (7 - i) (List.mem_range.mpr (by omega))
      rw [show 7 - (7 - i) = i by omega] at this
      simp [he] at this
    · intro h i hi
      have := h (7 - i) (by omega)
      simpa using this
  · intro h
    unfold readBE readLE
    have h0 := h 0 (by omega)
    have h1 := h 1 (by omega)
    have h2 := h 2 (by omega)
    have h3 := h 3 (by omega)
    simp only [Nat.sub_zero, Nat.reduceSub] at h0 h1 h2 h3
    simp only [h0, h1, h2, h3]

/-- A block with elements in slots 0 and 1 (tags 5 and 9), the rest free. -/
def halfBlock : Nat → Ctl := fun i => if i = 0 then .full 5 else if i = 1 then .full 9 else .empty

example : ∀ i, i < 8 → ValidCtl (halfBlock i) := by
  intro i _
  unfold halfBlock
  split
  · show 5 < 128; omega
  · split
    · show 9 < 128; omega
    · exact trivial

/-- Free slots 2..7, reported as 0..5; the element with tag 9 in slot 1 is reported in slot 6. -/
example : enum 3 65 (Portable.matchAvailable (readLE fun i => byte (halfBlock i))) = .ok [2, 3, 4, 5, 6, 7] ∧
    enum 3 65 (Portable.matchAvailable (readBE fun i => byte (halfBlock i))) = .ok [0, 1, 2, 3, 4, 5] ∧
    enum 3 65 (Portable.matchEq (readLE fun i => byte (halfBlock i)) (byte (.full 9))) = .ok [1] ∧
    enum 3 65 (Portable.matchEq (readBE fun i => byte (halfBlock i)) (byte (.full 9))) = .ok [6] := by decide

end Tpp.Swiss
