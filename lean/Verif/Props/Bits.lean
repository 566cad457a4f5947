import Verif.Bits
import Verif.Props.Behaves
import Verif.Swiss.Grow
import Mathlib.Data.Nat.ModEq

/-!
# C30–C34: block operations, bit scans, iteration with 8-byte blocks, capacity arithmetic, probing
-/

set_option linter.unusedSectionVars false

namespace Tpp.Swiss

open Tpp.Bits

variable {K V : Type} [DecidableEq K]

/-! ## C30 -/

/-- The control bytes of the block loaded at `pos` (swiss_table.hpp 201-207). -/
def Table.blockAt (isa : Isa) (t : Table K V) (pos : Nat) : Nat → Ctl :=
  fun i => if i < isa.W then t.ctl (pos + i) else .empty

/-- The control array of a reachable container holds valid control bytes. -/
theorem valid_ctl {isa : Isa} {hash : K → Nat} {t : Table K V} (h : Inv isa hash t) {q : Nat} (hq : q < t.len) :
    ValidCtl (t.ctl q) := by
  have slot : ∀ i, i < t.cap → ValidCtl (t.ctl i) := by
    intro i hi
    cases e : t.ctl i with
    | full g =>
      have h1 := h.live i hi
      rw [e] at h1
      obtain ⟨n, hn⟩ := Option.isSome_iff_exists.mp h1
      have h2 := h.tag i hi n hn
      rw [e] at h2
      cases h2
      exact Nat.mod_lt _ (by omega)
    | _ => trivial
  rcases h.shape with ⟨h1, _⟩ | hm
  · omega
  · have := hm.len_eq
    rcases Nat.lt_trichotomy q t.cap with hlt | heq | hgt
    · exact slot q hlt
    · rw [heq, hm.sent]; trivial
    · rw [hm.tail q hgt (by omega)]
      split
      · exact slot _ ‹_›
      · trivial

theorem valid_block {isa : Isa} {hash : K → Nat} {t : Table K V} (h : Inv isa hash t) {pos : Nat}
    (hp : pos + isa.W ≤ t.len) (i : Nat) : ValidCtl (t.blockAt isa pos i) := by
  unfold Table.blockAt
  split
  · exact valid_ctl h (by omega)
  · trivial

theorem matches_block (isa : Isa) (t : Table K V) (pos : Nat) (p : Ctl → Bool) :
    (List.range isa.W).filter (fun i => p (t.blockAt isa pos i)) = t.matches_ isa pos p := by
  unfold Table.matches_
  refine filter_congr' fun i hi => ?_
  unfold Table.blockAt
  rw [if_pos hi]

theorem find_block (isa : Isa) (t : Table K V) (pos : Nat) (p : Ctl → Bool) :
    (List.range isa.W).find? (fun i => p (t.blockAt isa pos i)) = (List.range isa.W).find? fun i => p (t.ctl (pos + i)) := by
  have := matches_block isa t pos p
  unfold Table.matches_ at this
  rw [← List.head?_filter, this, List.head?_filter]

theorem hit_block (t : Table K V) (pos tag : Nat) : ∀ i, i < 8 →
    Table.portableHit (t.blockAt .portable pos) 0 tag i = Table.portableHit t.ctl pos tag i := by
  intro i
  induction i with
  | zero => intro _; rfl
  | succ i ih =>
    intro hi
    unfold Table.portableHit
    rw [ih (by omega)]
    have : t.blockAt .portable pos (0 + (i + 1)) = t.ctl (pos + (i + 1)) := by
      unfold Table.blockAt
      rw [Nat.zero_add, if_pos (by show i + 1 < 8; omega)]
    rw [this]

/-- C30, SSE2 and SSSE3: on every block of control bytes the index loops of the masks yield exactly the bytewise
answers in increasing order, `count_available` the number of leading available bytes, and `reset_occupied` the
bytewise reset. -/
theorem C30_sse2 {f : Nat → Ctl} (hf : ∀ i, ValidCtl (f i)) :
    enum 0 65 (Sse2.matchEmpty fun i => byte (f i)) = .ok ((List.range 16).filter fun i => f i == .empty) ∧
    enum 0 65 (Sse2.matchEmptySsse3 fun i => byte (f i)) = .ok ((List.range 16).filter fun i => f i == .empty) ∧
    enum 0 65 (Sse2.matchAvailable fun i => byte (f i)) =
      .ok ((List.range 16).filter fun i => f i == .empty || f i == .deleted) ∧
    (∀ tag, tag < 128 → enum 0 65 (Sse2.matchEq (fun i => byte (f i)) (byte (.full tag))) =
      .ok ((List.range 16).filter fun i => f i == .full tag)) ∧
    Sse2.countAvailable (fun i => byte (f i)) =
      .ok (((List.range 16).find? fun i => !(f i == .empty || f i == .deleted)).getD 16) ∧
    (∀ i, Sse2.resetOccupied (fun i => byte (f i)) i = byte (match f i with | .full _ => .deleted | _ => .empty)) := by
  have e1 : ∀ c : Ctl, c.isEmpty = (c == .empty) := fun c => by cases c <;> rfl
  have e2 : ∀ c : Ctl, c.isAvailable = (c == .empty || c == .deleted) := fun c => by cases c <;> rfl
  simp only [← e2]
  simp only [← e1]
  refine ⟨sse2_matchEmpty hf, sse2_matchEmptySsse3 hf, sse2_matchAvailable hf, fun tag ht => sse2_matchEq hf ht,
    sse2_countAvailable hf, fun i => ?_⟩
  rw [sse2_reset hf]
  cases f i <;> rfl

/-- C30, portable 64-bit words (little endian).  `match_eq` may report more than the equal bytes, but only bytes that
hold another tag, and only after a true match; `count_available` is undefined if all bytes are available (C32). -/
theorem C30_portable {f : Nat → Ctl} (hf : ∀ i, ValidCtl (f i)) :
    enum 3 65 (Portable.matchEmpty (word fun i => byte (f i))) = .ok ((List.range 8).filter fun i => f i == .empty) ∧
    enum 3 65 (Portable.matchAvailable (word fun i => byte (f i))) =
      .ok ((List.range 8).filter fun i => f i == .empty || f i == .deleted) ∧
    (∀ tag, tag < 128 → ∃ hit : Nat → Bool,
      enum 3 65 (Portable.matchEq (word fun i => byte (f i)) (byte (.full tag))) = .ok ((List.range 8).filter hit) ∧
      (∀ i, f i = .full tag → hit i = true) ∧
      (∀ i, hit i = true → (f i = .full tag ∨ f i = .full (tag ^^^ 1)) ∧ ∃ j, j ≤ i ∧ f j = .full tag)) ∧
    Portable.countAvailable (word fun i => byte (f i)) =
      (match (List.range 8).find? fun i => !(f i == .empty || f i == .deleted) with
      | some i => .ok i
      | none => .error .ctzZero) ∧
    Portable.resetOccupied (word fun i => byte (f i)) =
      word (fun i => byte (match f i with | .full _ => .deleted | _ => .empty)) := by
  have e1 : ∀ c : Ctl, c.isEmpty = (c == .empty) := fun c => by cases c <;> rfl
  have e2 : ∀ c : Ctl, c.isAvailable = (c == .empty || c == .deleted) := fun c => by cases c <;> rfl
  simp only [← e2]
  simp only [← e1]
  refine ⟨portable_matchEmpty hf, portable_matchAvailable hf, fun tag ht => ⟨_, portable_matchEq hf ht, ?_, ?_⟩,
    portable_countAvailable hf, ?_⟩
  · intro i hi
    cases i with
    | zero => show (f 0 == .full tag) = true; rw [hi]; simp
    | succ i =>
      unfold Table.portableHit
      rw [Nat.zero_add, hi]; simp
  · intro i
    induction i with
    | zero =>
      intro h
      have h : (f 0 == .full tag) = true := h
      have h := beq_iff_eq.mp h
      exact ⟨Or.inl h, 0, Nat.le_refl _, h⟩
    | succ i ih =>
      intro h
      unfold Table.portableHit at h
      rw [Nat.zero_add, Bool.or_eq_true, Bool.and_eq_true, beq_iff_eq, beq_iff_eq] at h
      rcases h with h | ⟨h1, h2⟩
      · exact ⟨Or.inl h, i + 1, Nat.le_refl _, h⟩
      · obtain ⟨_, j, hj, hj2⟩ := ih h2
        exact ⟨Or.inr h1, j, by omega, hj2⟩
  · rw [portable_reset hf]
    congr 1
    funext i
    cases f i <;> rfl

/-- C30, NEON: `match_empty` and `match_available` set whole bytes; their emptiness and first index, which is all the
code uses, are right (stepping through them with `++` would repeat indices). -/
theorem C30_neon {f : Nat → Ctl} (hf : ∀ i, ValidCtl (f i)) :
    (∀ m q, (m, q) = (Neon.matchEmpty (fun i => byte (f i)), fun i => f i == .empty) ∨
        (m, q) = (Neon.matchAvailable (fun i => byte (f i)), fun i => f i == .empty || f i == .deleted) →
      (m = 0 ↔ (List.range 8).filter q = []) ∧
      (do let i ← ctz m; .ok (i >>> 3) : M Nat) = (match (List.range 8).filter q with
        | i :: _ => .ok i
        | [] => .error .ctzZero)) ∧
    (∀ tag, tag < 128 → enum 3 65 (Neon.matchEq (fun i => byte (f i)) (byte (.full tag))) =
      .ok ((List.range 8).filter fun i => f i == .full tag)) ∧
    Neon.countAvailable (fun i => byte (f i)) =
      (match (List.range 8).find? fun i => !(f i == .empty || f i == .deleted) with
      | some i => .ok i
      | none => .error .ctzZero) ∧
    (∀ i, Neon.resetOccupied (fun i => byte (f i)) i = byte (match f i with | .full _ => .deleted | _ => .empty)) := by
  have e1 : ∀ c : Ctl, c.isEmpty = (c == .empty) := fun c => by cases c <;> rfl
  have e2 : ∀ c : Ctl, c.isAvailable = (c == .empty || c == .deleted) := fun c => by cases c <;> rfl
  simp only [← e2]
  simp only [← e1]
  refine ⟨?_, fun tag ht => neon_matchEq hf ht, neon_countAvailable hf, fun i => ?_⟩
  · rintro m q (h | h)
    · cases h
      exact full_bytes fun i hi d hd => neon_matchEmpty hf i hi d hd
    · cases h
      exact full_bytes fun i hi d hd => neon_matchAvailable hf i hi d hd
  · rw [neon_reset hf]
    cases f i <;> rfl

/-- C30 for the tables: on every block of a reachable container the bit operations compute what the table model uses. -/
theorem C30_table {hash : K → Nat} {t : Table K V} {pos tag : Nat} (ht : tag < 128) :
    (Reachable .sse2 hash t → pos + 16 ≤ t.len →
      enum 0 65 (Sse2.matchEmptySsse3 fun i => byte (t.blockAt .sse2 pos i)) = .ok (t.matches_ .sse2 pos (·.isEmpty)) ∧
      enum 0 65 (Sse2.matchAvailable fun i => byte (t.blockAt .sse2 pos i)) = .ok (t.matches_ .sse2 pos (·.isAvailable)) ∧
      enum 0 65 (Sse2.matchEq (fun i => byte (t.blockAt .sse2 pos i)) (byte (.full tag))) = .ok (t.matchEq .sse2 pos tag) ∧
      Sse2.countAvailable (fun i => byte (t.blockAt .sse2 pos i)) = t.countAvailable .sse2 pos) ∧
    (Reachable .portable hash t → pos + 8 ≤ t.len →
      enum 3 65 (Portable.matchEmpty (word fun i => byte (t.blockAt .portable pos i))) =
        .ok (t.matches_ .portable pos (·.isEmpty)) ∧
      enum 3 65 (Portable.matchAvailable (word fun i => byte (t.blockAt .portable pos i))) =
        .ok (t.matches_ .portable pos (·.isAvailable)) ∧
      enum 3 65 (Portable.matchEq (word fun i => byte (t.blockAt .portable pos i)) (byte (.full tag))) =
        .ok (t.matchEq .portable pos tag) ∧
      Portable.countAvailable (word fun i => byte (t.blockAt .portable pos i)) = t.countAvailable .portable pos) ∧
    (Reachable .neon hash t → pos + 8 ≤ t.len →
      enum 3 65 (Neon.matchEq (fun i => byte (t.blockAt .neon pos i)) (byte (.full tag))) = .ok (t.matchEq .neon pos tag) ∧
      Neon.countAvailable (fun i => byte (t.blockAt .neon pos i)) = t.countAvailable .neon pos) := by
  refine ⟨fun h hp => ?_, fun h hp => ?_, fun h hp => ?_⟩
  · have hv := valid_block h.inv (pos := pos) hp
    refine ⟨?_, ?_, ?_, ?_⟩
    · rw [sse2_matchEmptySsse3 hv]; exact congrArg Except.ok (matches_block .sse2 t pos (·.isEmpty))
    · rw [sse2_matchAvailable hv]; exact congrArg Except.ok (matches_block .sse2 t pos (·.isAvailable))
    · rw [sse2_matchEq hv (d := .full tag) ht]; exact congrArg Except.ok (matches_block .sse2 t pos (· == .full tag))
    · rw [sse2_countAvailable hv]
      unfold Table.countAvailable Table.loadBlock
      rw [if_pos (show pos + Isa.sse2.W ≤ t.len from hp), bind_ok]
      have := find_block .sse2 t pos (fun c => !c.isAvailable)
      rw [show Isa.sse2.W = 16 from rfl] at this ⊢
      rw [this]
      cases (List.range 16).find? fun i => !(t.ctl (pos + i)).isAvailable <;> rfl
  · have hv := valid_block h.inv (pos := pos) hp
    refine ⟨?_, ?_, ?_, ?_⟩
    · rw [portable_matchEmpty hv]; exact congrArg Except.ok (matches_block .portable t pos (·.isEmpty))
    · rw [portable_matchAvailable hv]; exact congrArg Except.ok (matches_block .portable t pos (·.isAvailable))
    · rw [portable_matchEq hv ht]
      exact congrArg Except.ok (filter_congr' fun i hi => hit_block t pos tag i hi)
    · rw [portable_countAvailable hv]
      unfold Table.countAvailable Table.loadBlock
      rw [if_pos (show pos + Isa.portable.W ≤ t.len from hp), bind_ok]
      have := find_block .portable t pos (fun c => !c.isAvailable)
      rw [show Isa.portable.W = 8 from rfl] at this ⊢
      rw [this]
      cases (List.range 8).find? fun i => !(t.ctl (pos + i)).isAvailable <;> rfl
  · have hv := valid_block h.inv (pos := pos) hp
    refine ⟨?_, ?_⟩
    · rw [neon_matchEq hv (d := .full tag) ht]; exact congrArg Except.ok (matches_block .neon t pos (· == .full tag))
    · rw [neon_countAvailable hv]
      unfold Table.countAvailable Table.loadBlock
      rw [if_pos (show pos + Isa.neon.W ≤ t.len from hp), bind_ok]
      have := find_block .neon t pos (fun c => !c.isAvailable)
      rw [show Isa.neon.W = 8 from rfl] at this ⊢
      rw [this]
      cases (List.range 8).find? fun i => !(t.ctl (pos + i)).isAvailable <;> rfl

/-- A block with two equal tags, the second preceded by a neighbouring tag (a false positive), and free slots. -/
def demoBlock : Nat → Ctl := fun i => [Ctl.full 4, .full 5, .empty, .full 4, .deleted, .full 9, .sentinel].getD i .empty

example : enum 3 65 (Portable.matchEq (word fun i => byte (demoBlock i)) (byte (.full 4))) = .ok [0, 1, 3] ∧
    enum 0 65 (Sse2.matchEq (fun i => byte (demoBlock i)) (byte (.full 4))) = .ok [0, 3] ∧
    enum 3 65 (Portable.matchAvailable (word fun i => byte (demoBlock i))) = .ok [2, 4, 7] ∧
    enum 3 65 (Portable.matchEmpty (word fun i => byte (demoBlock i))) = .ok [2, 7] ∧
    Portable.countAvailable (word fun i => byte (demoBlock (i + 4))) = .ok 1 := by decide

/-! ## C31 -/

/-- C31 is false for all three bit scans. -/
theorem C31_bit_scans_false :
    (ctz 8 = .ok 3 ∧ genericCtz 8 = .ok 4) ∧
    (clz 8 = .ok 60 ∧ genericClz 8 = .ok 61 ∧ msvcClz 8 = .ok 61) ∧
    alignWith clz 8 = .ok 15 ∧ alignWith msvcClz 8 = .ok 7 ∧ alignWith genericClz 1 = .error .assertFail := by
  decide

theorem genericCtzLoop_eq (v : BitVec 64) : ∀ fuel r i, ctz v = .ok i → r ≤ i → i < r + fuel →
    genericCtzLoop v fuel r = .ok (i + 1) := by
  intro fuel
  induction fuel with
  | zero => intro r i _ h1 h2; omega
  | succ fuel ih =>
    intro r i hi h1 h2
    have hspec := hi
    unfold ctz at hspec
    cases e : (List.range 64).find? fun i => v.getLsbD i with
    | none => rw [e] at hspec; cases hspec
    | some a =>
      rw [e] at hspec
      cases hspec
      rw [List.find?_range_eq_some] at e
      obtain ⟨e1, e2, e3⟩ := e
      have e2 := List.mem_range.mp e2
      have hbit : ∀ r, r < 64 → ((v &&& (1#64 <<< r) = 0) ↔ v.getLsbD r = false) := by
        intro r hr
        constructor
        · intro h
          have := congrArg (fun w => BitVec.getLsbD w r) h
          simpa [BitVec.getLsbD_and, BitVec.getLsbD_shiftLeft, hr] using this
        · intro h
          apply BitVec.eq_of_getLsbD_eq
          intro j hj
          by_cases hjr : j = r
          · subst hjr; simp [BitVec.getLsbD_and, h]
          · have hone : ∀ k, k ≠ 0 → (1#64).getLsbD k = false := by
              intro k hk
              simp [BitVec.getLsbD_one, hk]
            rcases Nat.lt_or_ge j r with hlt | hge
            · simp [BitVec.getLsbD_and, BitVec.getLsbD_shiftLeft, hlt]
            · simp [BitVec.getLsbD_and, BitVec.getLsbD_shiftLeft]
              intro _ _ _
              omega
      unfold genericCtzLoop
      rw [if_neg (by omega)]
      by_cases hr : r = i
      · subst hr
        rw [if_neg]
        intro h
        rw [hbit r e2] at h
        rw [h] at e1
        cases e1
      · rw [if_pos, ih (r + 1) i hi (by omega) (by omega)]
        rw [hbit r (by omega)]
        have := e3 r (by omega)
        simpa using this

theorem genericClzLoop_eq (v : BitVec 64) (hv : v ≠ 0) : ∀ fuel r, r ≤ 63 - Nat.log2 v.toNat →
    63 - Nat.log2 v.toNat < r + fuel → genericClzLoop v fuel r = .ok (63 - Nat.log2 v.toNat + 1) := by
  have hne : v.toNat ≠ 0 := by
    intro h; exact hv (BitVec.eq_of_toNat_eq (by simpa using h))
  have hlog : Nat.log2 v.toNat < 64 := (Nat.log2_lt hne).mpr v.isLt
  have htop : v.getLsbD (Nat.log2 v.toNat) = true := Nat.testBit_log2 hne
  have hhi : ∀ j, Nat.log2 v.toNat < j → v.getLsbD j = false := by
    intro j hj
    apply Nat.testBit_lt_two_pow
    exact (Nat.log2_lt hne).mp hj
  have hbit : ∀ r, r < 64 → ((v &&& (0x8000000000000000#64 >>> r) = 0) ↔ v.getLsbD (63 - r) = false) := by
    have h8 : ∀ j, j < 64 → (0x8000000000000000#64).getLsbD j = decide (j = 63) := by decide
    have h8' : ∀ j, (0x8000000000000000#64).getLsbD j = decide (j = 63) := by
      intro j
      by_cases hj : j < 64
      · exact h8 j hj
      · rw [BitVec.getLsbD_of_ge _ _ (by omega)]
        simp; omega
    intro r hr
    constructor
    · intro h
      have := congrArg (fun w => BitVec.getLsbD w (63 - r)) h
      simp only [BitVec.getLsbD_and, BitVec.getLsbD_ushiftRight, h8'] at this
      have hx : r + (63 - r) = 63 := by omega
      simpa [hx] using this
    · intro h
      apply BitVec.eq_of_getLsbD_eq
      intro j hj
      rw [BitVec.getLsbD_and, BitVec.getLsbD_ushiftRight, h8']
      by_cases hjr : j = 63 - r
      · subst hjr; simp [h]
      · have : ¬ r + j = 63 := by omega
        simp [this]
  intro fuel
  induction fuel with
  | zero => intro r h1 h2; omega
  | succ fuel ih =>
    intro r h1 h2
    unfold genericClzLoop
    rw [if_neg (by omega)]
    by_cases hr : r = 63 - Nat.log2 v.toNat
    · rw [if_neg, hr]
      intro h
      rw [hbit r (by omega), hr, show 63 - (63 - Nat.log2 v.toNat) = Nat.log2 v.toNat by omega, htop] at h
      cases h
    · rw [if_pos, ih (r + 1) (by omega) (by omega)]
      rw [hbit r (by omega)]
      exact hhi _ (by omega)

/-- C31, what the scans do compute: one more than the hardware ones, for every non-zero word.
Missing: the property itself, which is false. -/
theorem C31_bit_scans_partial (v : BitVec 64) :
    (∀ i, ctz v = .ok i → genericCtz v = .ok (i + 1)) ∧
    (∀ i, clz v = .ok i → genericClz v = .ok (i + 1) ∧ msvcClz v = .ok (i + 1)) := by
  constructor
  · intro i hi
    have : i < 64 := by
      have hspec := hi
      unfold ctz at hspec
      cases e : (List.range 64).find? fun i => v.getLsbD i with
      | none => rw [e] at hspec; cases hspec
      | some a =>
        rw [e] at hspec
        cases hspec
        exact List.mem_range.mp (List.mem_of_find?_eq_some e)
    exact genericCtzLoop_eq v 65 0 i hi (by omega) (by omega)
  · intro i hi
    unfold clz at hi
    split at hi
    · cases hi
    · rename_i hv
      cases hi
      have hne : v.toNat ≠ 0 := by
        intro h; exact hv (BitVec.eq_of_toNat_eq (by simpa using h))
      have hlog : Nat.log2 v.toNat < 64 := (Nat.log2_lt hne).mpr v.isLt
      refine ⟨genericClzLoop_eq v hv 65 0 (by omega) (by omega), ?_⟩
      unfold msvcClz bitScanReverse
      rw [if_neg hv, bind_ok]
      congr 1
      omega

example : genericCtz 0x8000000000000000#64 = .ok 64 ∧ ctz 0x8000000000000000#64 = .ok 63 := by decide

/-! ## C32 -/

/-- C32 is false: with 8-byte blocks iteration over a reachable container reaches `ctz(0)`. -/
theorem C32_iteration_false : ∃ t : Table Nat Nat, Reachable .portable h64 t ∧ t.size = 2 ∧
    t.iterate .portable = .error .ctzZero ∧ Reachable .neon h64 t ∧ t.iterate .neon = .error .ctzZero := by
  refine ⟨after .portable h64 [.reserve 20, .insert 20 1, .insert 21 2], after_reachable _ _ _, by decide, by decide, ?_,
    by decide⟩
  have h : Reachable .neon h64 (after .neon h64 [.reserve 20, .insert 20 1, .insert 21 2] : Table Nat Nat) :=
    after_reachable _ _ _
  exact h

/-- Every window of eight control bytes holds one that is not free. -/
def NoFreeWindow (t : Table K V) : Prop := ∀ pos, pos ≤ t.cap → ∃ i, i < 8 ∧ (t.ctl (pos + i)).isAvailable = false

theorem nextOccupied_noCtz {isa : Isa} {t : Table K V} (hl : t.len ≤ t.cap + isa.W) (hw : isa = .sse2 ∨ NoFreeWindow t) :
    ∀ fuel pos, t.nextOccupied isa fuel pos ≠ .error .ctzZero := by
  intro fuel
  induction fuel with
  | zero => intro pos h; cases h
  | succ fuel ih =>
    intro pos
    unfold Table.nextOccupied Table.readCtl
    by_cases h1 : pos < t.len
    · rw [if_pos h1, bind_ok]
      split
      · unfold Table.countAvailable Table.loadBlock
        by_cases h2 : pos + isa.W ≤ t.len
        · rw [if_pos h2, bind_ok]
          cases e : (List.range isa.W).find? fun i => !(t.ctl (pos + i)).isAvailable with
          | some i => exact ih _
          | none =>
            rcases hw with rfl | hw
            · exact ih _
            · exfalso
              obtain ⟨i, hi, hb⟩ := hw pos (by omega)
              rw [List.find?_eq_none] at e
              have hWi : i < isa.W := by cases isa <;> simp [Isa.W] <;> omega
              have := e i (List.mem_range.mpr hWi)
              rw [hb] at this
              exact this rfl
        · rw [if_neg h2]; intro h; cases h
      · intro h; cases h
    · rw [if_neg h1]; intro h; cases h

theorem bind_noCtz {α β : Type} {x : M α} {g : α → M β} (hx : x ≠ .error .ctzZero)
    (hg : ∀ a, g a ≠ .error .ctzZero) : (x >>= g) ≠ .error .ctzZero := by
  cases x with
  | error e =>
    intro h
    have : Except.error e = (Except.error Fault.ctzZero : M β) := h
    cases this
    exact hx rfl
  | ok a => exact hg a

theorem iterate_noCtz {isa : Isa} {t : Table K V} (hl : t.len ≤ t.cap + isa.W) (hw : isa = .sse2 ∨ NoFreeWindow t) :
    t.iterate isa ≠ .error .ctzZero := by
  have hread : ∀ i, t.readNode i ≠ .error .ctzZero := by
    intro i
    unfold Table.readNode
    split
    · split <;> intro h <;> cases h
    · intro h; cases h
  have hwalk : ∀ fuel pos last, t.walk isa fuel pos last ≠ .error .ctzZero := by
    intro fuel
    induction fuel with
    | zero => intro pos last h; cases h
    | succ fuel ih =>
      intro pos last
      unfold Table.walk
      split
      · intro h; cases h
      · refine bind_noCtz (hread _) fun n => bind_noCtz (nextOccupied_noCtz hl hw _ _) fun p => ?_
        refine bind_noCtz (ih _ _) fun r => ?_
        intro h; cases h
  have hto : ∀ pos, t.toIter isa pos ≠ .error .ctzZero := by
    intro pos
    unfold Table.toIter
    split
    · intro h; cases h
    · exact nextOccupied_noCtz hl hw _ _
  unfold Table.iterate Table.begin_ Table.iterateFrom Table.end_
  exact bind_noCtz (hto _) fun first => bind_noCtz (hto _) fun last => hwalk _ _ _

/-- C32, what holds: with any block width iteration yields the contents if every eight consecutive control bytes
contain an occupied slot or the sentinel; in particular always with at most seven buckets.
Missing: the other containers, for which it is false. -/
theorem C32_iteration_partial {isa : Isa} {hash : K → Nat} {t : Table K V} (h : Reachable isa hash t) {m : List (K × V)}
    (hb : Behaves isa hash t m) (hw : t.cap ≤ 7 ∨ NoFreeWindow t) :
    ∃ l, t.iterate isa = .ok l ∧ l.Perm m := by
  have hinv := h.inv
  have hl : t.len ≤ t.cap + isa.W := by
    rcases hinv.shape with ⟨h1, _⟩ | hm
    · omega
    · exact Nat.le_of_eq hm.len_eq
  have hm := hb.contents_perm hinv
  have hspec := iterate_spec hinv
  by_cases h0 : t.len = 0
  · -- no buffer: begin and end are equal
    have hc : t.cap = 0 := by
      rcases hinv.shape with ⟨_, h2⟩ | hmo
      · exact h2
      · have := hmo.len_eq
        have := isa.W_pos
        omega
    refine ⟨[], ?_, ?_⟩
    · unfold Table.iterate Table.begin_ Table.iterateFrom Table.end_ Table.toIter
      rw [if_pos h0, bind_ok, if_pos h0, bind_ok, hc]
      rfl
    · have : t.contents = [] := by
        unfold Table.contents Table.nodes
        rw [hc]
        rfl
      rw [this] at hm
      exact hm
  · have hw' : NoFreeWindow t := by
      rcases hw with hw | hw
      · intro pos hp
        refine ⟨t.cap - pos, by omega, ?_⟩
        rcases hinv.shape with ⟨h1, _⟩ | hmo
        · exact absurd h1 h0
        · rw [show pos + (t.cap - pos) = t.cap by omega, hmo.sent]
          rfl
      · exact hw
    rcases hspec with ⟨l, h1, h2⟩ | ⟨_, h2⟩
    · exact ⟨l, h1, h2 ▸ hm⟩
    · exact absurd h2 (iterate_noCtz hl (Or.inr hw'))

/-- With 16-byte blocks iteration always yields the contents. -/
theorem C32_iteration_sse2_partial {hash : K → Nat} {t : Table K V} (h : Reachable .sse2 hash t) {m : List (K × V)}
    (hb : Behaves .sse2 hash t m) : ∃ l, t.iterate .sse2 = .ok l ∧ l.Perm m := by
  have hinv := h.inv
  have hl : t.len ≤ t.cap + Isa.sse2.W := by
    rcases hinv.shape with ⟨h1, _⟩ | hm
    · omega
    · exact Nat.le_of_eq hm.len_eq
  rcases iterate_spec hinv with ⟨l, h1, h2⟩ | ⟨_, h2⟩
  · exact ⟨l, h1, h2 ▸ hb.contents_perm hinv⟩
  · exact absurd h2 (iterate_noCtz hl (Or.inl rfl))

example : (after .portable h64 [.insert 1 10, .insert 2 20, .insert 3 30, .insert 4 40, .erase 2] : Table Nat Nat).cap = 7 ∧
    (after .portable h64 [.insert 1 10, .insert 2 20, .insert 3 30, .insert 4 40, .erase 2] : Table Nat Nat).iterate
      .portable = .ok [(1, 10), (3, 30), (4, 40)] := by decide

/-! ## C33 -/

/-- `align_capacity` on 64-bit words with a correct `clz` is the model's `alignCapacity`. -/
theorem C33_align_word (n : BitVec 64) : ∃ r, alignWith clz n = .ok r ∧ r.toNat = alignCapacity n.toNat := by
  unfold alignWith
  by_cases h : n = 0
  · rw [if_pos h, h]
    exact ⟨1, rfl, rfl⟩
  · have hne : n.toNat ≠ 0 := by
      intro h'; exact h (BitVec.eq_of_toNat_eq (by simpa using h'))
    have hlog : Nat.log2 n.toNat < 64 := (Nat.log2_lt hne).mpr n.isLt
    rw [if_neg h]
    unfold clz
    rw [if_neg h, bind_ok, if_neg (by omega)]
    refine ⟨_, rfl, ?_⟩
    rw [BitVec.toNat_ushiftRight, BitVec.toNat_allOnes, Nat.shiftRight_eq_div_pow]
    unfold alignCapacity
    rw [if_neg hne]
    have e : 2 ^ 64 = 2 ^ (Nat.log2 n.toNat + 1) * 2 ^ (63 - Nat.log2 n.toNat) := by
      rw [← Nat.pow_add]; congr 1; omega
    have hp := Nat.two_pow_pos (63 - Nat.log2 n.toNat)
    have hq := Nat.two_pow_pos (Nat.log2 n.toNat + 1)
    rw [e]
    have h1 : 2 ^ (Nat.log2 n.toNat + 1) * 2 ^ (63 - Nat.log2 n.toNat) - 1 =
        2 ^ (63 - Nat.log2 n.toNat) * (2 ^ (Nat.log2 n.toNat + 1) - 1) + (2 ^ (63 - Nat.log2 n.toNat) - 1) := by
      rw [Nat.mul_sub, Nat.mul_one, Nat.mul_comm (2 ^ (63 - Nat.log2 n.toNat))]
      have : 2 ^ (63 - Nat.log2 n.toNat) ≤ 2 ^ (Nat.log2 n.toNat + 1) * 2 ^ (63 - Nat.log2 n.toNat) :=
        Nat.le_mul_of_pos_left _ hq
      omega
    rw [h1, Nat.mul_add_div hp, Nat.div_eq_of_lt (by omega), Nat.add_zero]

/-- `size_to_min_capacity` (swiss_table.hpp 822-828) on 64-bit words, with the signed division. -/
def minCapacity64 (isa : Isa) (n : BitVec 64) : BitVec 64 :=
  if isa.W = 8 ∧ n = 7 then 8 else n + (n - 1).sdiv 7

/-- Below 2^59 the 64-bit computation of `size_to_min_capacity` does not overflow and is the model's. -/
theorem C33_min_capacity_word (isa : Isa) (n : BitVec 64) (hn : n.toNat < 2 ^ 59) :
    (minCapacity64 isa n).toNat = minCapacity isa n.toNat := by
  unfold minCapacity64 minCapacity
  have h7 : (n = 7) ↔ n.toNat = 7 := by
    constructor
    · rintro rfl; rfl
    · intro h; exact BitVec.eq_of_toNat_eq (by simpa using h)
  by_cases h : isa.W = 8 ∧ n = 7
  · rw [if_pos h, if_pos ⟨h.1, h7.mp h.2⟩]; rfl
  · rw [if_neg h, if_neg (fun hh => h ⟨hh.1, h7.mpr hh.2⟩)]
    by_cases h0 : n = 0
    · subst h0; decide
    · have hne : n.toNat ≠ 0 := by
        intro h'; exact h0 (BitVec.eq_of_toNat_eq (by simpa using h'))
      have h1 : (n - 1).toNat = n.toNat - 1 := by
        rw [BitVec.toNat_sub]
        have := n.isLt
        simp
        omega
      have h2 : (n - 1).sdiv 7 = (n - 1) / 7 := by
        rw [BitVec.sdiv_eq]
        have hm : (n - 1).msb = false := by
          rw [BitVec.msb_eq_false_iff_two_mul_lt, h1]
          omega
        rw [hm, show (7 : BitVec 64).msb = false from rfl]
        rfl
      rw [h2, BitVec.toNat_add, BitVec.toNat_udiv, h1]
      have : (7 : BitVec 64).toNat = 7 := rfl
      rw [this]
      omega

theorem alignCapacity_pow' (n : Nat) : ∃ m, alignCapacity n + 1 = 2 ^ m ∧ 0 < m := by
  unfold alignCapacity
  split
  · exact ⟨1, rfl, by omega⟩
  · exact ⟨Nat.log2 n + 1, by have := Nat.two_pow_pos (Nat.log2 n + 1); omega, by omega⟩

theorem le_alignCapacity' (n : Nat) : n ≤ alignCapacity n := by
  unfold alignCapacity
  split
  · omega
  · have := Nat.lt_log2_self (n := n)
    omega

/-- `alignCapacity n` is the least `2^m - 1` with `m ≥ 1` that is at least `n`. -/
theorem alignCapacity_least {n c j : Nat} (hc : c + 1 = 2 ^ j) (h1 : 1 ≤ c) (hn : n ≤ c) : alignCapacity n ≤ c := by
  unfold alignCapacity
  split
  · exact h1
  · have h2 : Nat.log2 n + 1 ≤ j := by
      have : Nat.log2 n < j := (Nat.log2_lt (by assumption)).mpr (by omega)
      omega
    have := Nat.pow_le_pow_right (n := 2) (by omega) h2
    omega

/-- C33: the bucket count `reserve(n)` chooses is a power of two minus one, holds `n` elements under the load rule, and
is the least such; aligning is idempotent and monotone. -/
theorem C33_capacity (isa : Isa) (n : Nat) :
    (∃ m, alignCapacity (minCapacity isa n) + 1 = 2 ^ m) ∧
    n ≤ maxSize isa (alignCapacity (minCapacity isa n)) ∧
    (∀ c j, c + 1 = 2 ^ j → 1 ≤ c → n ≤ maxSize isa c → alignCapacity (minCapacity isa n) ≤ c) ∧
    alignCapacity (alignCapacity n) = alignCapacity n ∧
    (∀ k, n ≤ k → alignCapacity n ≤ alignCapacity k) := by
  have hW : isa.W = 16 ∨ isa.W = 8 := by cases isa <;> simp [Isa.W]
  obtain ⟨m, hm, hm0⟩ := alignCapacity_pow' (minCapacity isa n)
  have hle := le_alignCapacity' (minCapacity isa n)
  refine ⟨⟨m, hm⟩, ?_, ?_, ?_, ?_⟩
  · set c := alignCapacity (minCapacity isa n) with hc
    unfold minCapacity at hle
    unfold maxSize
    split at hle
    · split <;> omega
    · rename_i hns
      split
      · omega
      · -- `c ≥ n + (n-1)/7` and `c + 1` is a power of two
        rcases Nat.lt_or_ge m 3 with h3 | h3
        · have : 2 ^ m ≤ 2 ^ 2 := Nat.pow_le_pow_right (by omega) (by omega)
          have : c / 8 = 0 := by omega
          omega
        · obtain ⟨k, rfl⟩ : ∃ k, m = k + 3 := ⟨m - 3, by omega⟩
          rw [Nat.pow_add] at hm
          omega
  · intro c j hc h1 hn
    refine alignCapacity_least hc h1 ?_
    unfold minCapacity
    unfold maxSize at hn
    rcases Nat.lt_or_ge j 3 with h3 | h3
    · have : 2 ^ j ≤ 2 ^ 2 := Nat.pow_le_pow_right (by omega) (by omega)
      split at hn <;> split <;> omega
    · obtain ⟨k, rfl⟩ : ∃ k, j = k + 3 := ⟨j - 3, by omega⟩
      rw [Nat.pow_add] at hc
      have := Nat.two_pow_pos k
      split at hn <;> split <;> omega
  · obtain ⟨j, hj, _⟩ := alignCapacity_pow' n
    have h1 : 1 ≤ alignCapacity n := by
      have : 2 ^ 1 ≤ 2 ^ j := Nat.pow_le_pow_right (by omega) (by omega)
      omega
    exact Nat.le_antisymm (alignCapacity_least hj h1 (Nat.le_refl _)) (le_alignCapacity' _)
  · intro k hk
    obtain ⟨j, hj, _⟩ := alignCapacity_pow' k
    have h1 : 1 ≤ alignCapacity k := by
      have : 2 ^ 1 ≤ 2 ^ j := Nat.pow_le_pow_right (by omega) (by omega)
      omega
    exact alignCapacity_least hj h1 (Nat.le_trans hk (le_alignCapacity' k))

example : (alignCapacity (minCapacity .sse2 7), alignCapacity (minCapacity .neon 7), alignCapacity (minCapacity .sse2 14),
    alignCapacity (minCapacity .sse2 15), maxSize .sse2 15) = (7, 15, 15, 31, 14) := by decide

/-! ## C34 -/

/-- `bucket_probe` (swiss_table.hpp 775-793): `idx` and `pos`. -/
structure Probe where
  idx : Nat
  pos : Nat

/-- `bucket_probe::operator++` (swiss_table.hpp 779-785). -/
def Probe.next (isa : Isa) (cap : Nat) (p : Probe) : Probe :=
  { idx := p.idx + isa.W, pos := (p.pos + (p.idx + isa.W)) &&& cap }

/-- The probe after `s` increments; it starts at `h1 & capacity` (swiss_table.hpp 1216, 1238). -/
def Probe.at (isa : Isa) (cap h1 : Nat) : Nat → Probe
  | 0 => ⟨0, h1 &&& cap⟩
  | s + 1 => (Probe.at isa cap h1 s).next isa cap

theorem Probe.at_eq {isa : Isa} {cap m : Nat} (hN : cap + 1 = 2 ^ m) (h1 s : Nat) :
    Probe.at isa cap h1 s = ⟨s * isa.W, (h1 + tri s * isa.W) % (cap + 1)⟩ := by
  induction s with
  | zero => simp [Probe.at, tri, land_pow hN]
  | succ s ih =>
    unfold Probe.at
    rw [ih]
    unfold Probe.next
    simp only [land_pow hN, tri, Probe.mk.injEq]
    refine ⟨by ring, ?_⟩
    rw [Nat.mod_add_mod]
    congr 1
    ring

/-- C34: while the assertion `idx < capacity` lets the probe advance, its windows lie inside the control array, are
pairwise disjoint (so no slot is tested twice) and together cover every slot. -/
theorem C34_probe (isa : Isa) {cap m : Nat} (hN : cap + 1 = 2 ^ m) (h1 : Nat) :
    (∀ s, (Probe.at isa cap h1 s).pos + isa.W ≤ cap + isa.W) ∧
    (∀ i, i ≤ cap → ∃ s j, (Probe.at isa cap h1 s).idx ≤ cap ∧ j < isa.W ∧
      ((Probe.at isa cap h1 s).pos + j) &&& cap = i) ∧
    (∀ s s' j j', (Probe.at isa cap h1 s).idx ≤ cap → (Probe.at isa cap h1 s').idx ≤ cap →
      j < isa.W → j' < isa.W → j ≤ cap → j' ≤ cap →
      ((Probe.at isa cap h1 s).pos + j) &&& cap = ((Probe.at isa cap h1 s').pos + j') &&& cap → s = s' ∧ j = j') := by
  have hWp := isa.W_pos
  refine ⟨fun s => ?_, fun i hi => ?_, ?_⟩
  · rw [Probe.at_eq hN]
    have := Nat.mod_lt (h1 + tri s * isa.W) (show 0 < cap + 1 by omega)
    simp only
    omega
  · obtain ⟨s, hs, hd⟩ := probe_covers isa (p := h1 % (cap + 1)) hN
      (by have := Nat.mod_lt h1 (show 0 < cap + 1 by omega); omega) hi
    rw [probePos_eq (Nat.mod_lt _ (by omega)), Nat.mod_add_mod] at hd
    refine ⟨s, cdist (cap + 1) ((h1 + tri s * isa.W) % (cap + 1)) i, ?_, hd, ?_⟩
    · rw [Probe.at_eq hN]; exact hs
    · rw [Probe.at_eq hN, land_pow hN]
      simp only
      have hq := Nat.mod_lt (h1 + tri s * isa.W) (show 0 < cap + 1 by omega)
      rcases cdist_cases hq (show i < cap + 1 by omega) with ⟨g1, g2⟩ | ⟨g1, g2⟩
      · rw [g2, show (h1 + tri s * isa.W) % (cap + 1) + (i - (h1 + tri s * isa.W) % (cap + 1)) = i by omega,
          Nat.mod_eq_of_lt (by omega)]
      · rw [g2, show (h1 + tri s * isa.W) % (cap + 1) + (i + (cap + 1) - (h1 + tri s * isa.W) % (cap + 1)) =
          i + (cap + 1) by omega, Nat.add_mod_right, Nat.mod_eq_of_lt (by omega)]
  · intro s s' j j' hs hs' hj hj' hjc hjc' heq
    rw [Probe.at_eq hN] at hs hs'
    rw [Probe.at_eq hN, Probe.at_eq hN, land_pow hN, land_pow hN] at heq
    simp only at hs hs' heq
    rw [Nat.mod_add_mod, Nat.mod_add_mod] at heq
    rcases Nat.lt_or_ge cap isa.W with hsmall | hbig
    · -- at most one window
      have hz : ∀ s, s * isa.W ≤ cap → s = 0 := by
        intro s hs
        rcases Nat.eq_zero_or_pos s with h | h
        · exact h
        · have : isa.W ≤ s * isa.W := Nat.le_mul_of_pos_left _ h
          omega
      rw [hz s hs, hz s' hs'] at heq ⊢
      simp only [tri, Nat.zero_mul, Nat.add_zero] at heq
      have h2 : j % (cap + 1) = j' % (cap + 1) := by
        have : j ≡ j' [MOD (cap + 1)] := Nat.ModEq.add_left_cancel' h1 heq
        exact this
      rw [Nat.mod_eq_of_lt (by omega), Nat.mod_eq_of_lt (by omega)] at h2
      exact ⟨rfl, h2⟩
    · obtain ⟨m', hm'⟩ : ∃ m', cap + 1 = 2 ^ m' * isa.W := by
        have hw : ∃ w, isa.W = 2 ^ w ∧ w ≤ 4 := by
          cases isa
          · exact ⟨4, rfl, by omega⟩
          · exact ⟨3, rfl, by omega⟩
          · exact ⟨3, rfl, by omega⟩
        obtain ⟨w, hw, _⟩ := hw
        have : w ≤ m := by
          rcases Nat.lt_or_ge m w with h | h
          · have := Nat.pow_le_pow_right (n := 2) (by omega) (Nat.le_of_lt h)
            omega
          · exact h
        exact ⟨m - w, by rw [hN, hw, ← Nat.pow_add]; congr 1; omega⟩
      have h2 : tri s * isa.W + j ≡ tri s' * isa.W + j' [MOD (2 ^ m' * isa.W)] := by
        have : h1 + (tri s * isa.W + j) ≡ h1 + (tri s' * isa.W + j') [MOD (cap + 1)] := by
          unfold Nat.ModEq
          rw [← Nat.add_assoc, ← Nat.add_assoc]
          exact heq
        rw [hm'] at this
        exact Nat.ModEq.add_left_cancel' h1 this
      have h3 : j = j' := by
        have : tri s * isa.W + j ≡ tri s' * isa.W + j' [MOD isa.W] := h2.of_mul_left _
        unfold Nat.ModEq at this
        rw [Nat.mul_add_mod_self_right, Nat.mul_add_mod_self_right, Nat.mod_eq_of_lt hj, Nat.mod_eq_of_lt hj'] at this
        exact this
      subst h3
      refine ⟨?_, rfl⟩
      have h4 : tri s * isa.W ≡ tri s' * isa.W [MOD (2 ^ m' * isa.W)] := Nat.ModEq.add_right_cancel' j h2
      have h5 : tri s ≡ tri s' [MOD 2 ^ m'] := Nat.ModEq.mul_right_cancel' (by omega) h4
      have hb : ∀ s, s * isa.W ≤ cap → s < 2 ^ m' := by
        intro s hs
        by_contra hc
        have : 2 ^ m' * isa.W ≤ s * isa.W := Nat.mul_le_mul_right _ (by omega)
        omega
      rcases Nat.lt_trichotomy s s' with h | h | h
      · exact absurd h5.symm (tri_inj h (hb s' hs'))
      · exact h
      · exact absurd h5 (tri_inj h (hb s hs))

example : (List.range 4).map (fun s => (Probe.at .sse2 63 5 s).pos) = [5, 21, 53, 37] ∧
    (List.range 4).map (fun s => (Probe.at .sse2 63 5 s).idx) = [0, 16, 32, 48] := by decide

end Tpp.Swiss
