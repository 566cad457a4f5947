import Verif.Swiss.Words
import Verif.Swiss.Buffer

/-!
# Requests for more room than there can be

`reserve(n)`, `rehash(n)` and the constructor with a bucket count, for every 64-bit `n`, with the sizes handed to the allocator computed as
the code computes them: on 64-bit words.  An allocator refuses what does not fit into the address space (as `std::allocator` does by
throwing `std::bad_array_new_length`) and may refuse anything else.
-/

set_option linter.unusedSectionVars false

namespace Tpp.Swiss

variable {K V : Type} [DecidableEq K]

/-- An allocator: `ok s n` tells whether `allocate(n)` for objects of `s` bytes succeeds. -/
structure Grants where
  ok : Nat → Nat → Bool
  refuses : ∀ s n, 2 ^ 64 ≤ s * n → ok s n = false

/-- The two layouts of the buffer (swiss_table.hpp 443-452). -/
inductive Layout
  | split
  | comb
  deriving DecidableEq, Repr

/-- `nodes_start` (swiss_table.hpp 619-624) on 64-bit words. -/
def nodesStartW (W s n : Nat) : Nat := wadd n W / s + (if wadd n W % s ≠ 0 then 1 else 0)

/-- `buffer_size` (swiss_table.hpp 625-629) on 64-bit words. -/
def bufferSizeW (W s n : Nat) : Nat := wadd (nodesStartW W s n) n

/-- `fill_empty(meta, n)` (swiss_table.hpp 464-468, 631-635) in a block of `bytes` bytes. -/
def fillEmptyW (isa : Isa) (bytes n : Nat) : M Unit :=
  if wadd n isa.W ≤ bytes ∧ n < bytes then .ok () else .error .oobMeta

/-- Obtaining a buffer in `resize` and `allocate` (swiss_table.hpp 523-544, 552-557, 679-685, 695-699), up to the relocation of the
elements; `false` if an allocation throws.  In the separate layout the block of control bytes is given back then. -/
def room (isa : Isa) (g : Grants) (s n : Nat) : Layout → M Bool
  | .split =>
    if g.ok 1 (wadd n isa.W) then
      if g.ok s n then do
        fillEmptyW isa (wadd n isa.W) n
        .ok true
      else .ok false
    else .ok false
  | .comb =>
    if g.ok s (bufferSizeW isa.W s n) then do
      fillEmptyW isa (s * bufferSizeW isa.W s n) n
      .ok true
    else .ok false

/-- `align_capacity(size_to_min_capacity(n) | m)` (swiss_table.hpp 822-833); `static_cast<std::int64_t>(n) - 1` overflows for 2^63. -/
def capFor (isa : Isa) (m n : Nat) : M Nat := if n = 2 ^ 63 then .error .underflow else alignMinW isa m n

namespace Table

/-- `do_rehash` (swiss_table.hpp 1376-1393); `none` if an allocation throws. -/
def doRehashReq (isa : Isa) (g : Grants) (s : Nat) (l : Layout) (t : Table K V) (c : Nat) : M (Option (Table K V)) := do
  let got ← room isa g s c l
  if got then do
    let t ← t.doRehashW isa c
    .ok (some t)
  else .ok none

/-- `reserve` (swiss_table.hpp 930); `none` if an allocation throws. -/
def reserveReq (isa : Isa) (g : Grants) (s : Nat) (l : Layout) (t : Table K V) (n : Nat) : M (Option (Table K V)) :=
  if n > wadd t.size t.numEmpty then do
    let c ← capFor isa 0 n
    t.doRehashReq isa g s l c
  else .ok (some t)

/-- `rehash` (swiss_table.hpp 1124-1131); `none` if an allocation throws. -/
def rehashReq (isa : Isa) (g : Grants) (s : Nat) (l : Layout) (t : Table K V) (n : Nat) : M (Option (Table K V)) :=
  if n = 0 ∧ t.size = 0 then .ok (some t)
  else do
    let c ← capFor isa n n
    if n = 0 ∨ c > t.cap then t.doRehashReq isa g s l c else .ok (some t)

/-- Construction with a bucket count (swiss_table.hpp 839-843, 512-516, 672-676); `none` if an allocation throws. -/
def withCapacityReq (isa : Isa) (g : Grants) (s : Nat) (l : Layout) (n : Nat) : M (Option (Table K V)) :=
  if wadd n 1 &&& n = 0 then do
    let got ← room isa g s n l
    if got then do
      let t ← Table.withCapacity isa n
      .ok (some t)
    else .ok none
  else .error .assertFail

end Table

/-! ## Words -/

theorem minCap_low (isa : Isa) {n : Nat} (hn : n < 2 ^ 63) : (minCapacity64 isa (BitVec.ofNat 64 n)).toNat = minCapacity isa n := by
  have hN : (BitVec.ofNat 64 n).toNat = n := by rw [BitVec.toNat_ofNat, Nat.mod_eq_of_lt (by omega)]
  generalize BitVec.ofNat 64 n = b at hN
  subst hN
  unfold minCapacity64 minCapacity
  have h7 : (b = 7) ↔ b.toNat = 7 := by
    constructor
    · rintro rfl; rfl
    · intro h; exact BitVec.eq_of_toNat_eq (by simpa using h)
  by_cases h : isa.W = 8 ∧ b = 7
  · rw [if_pos h, if_pos ⟨h.1, h7.mp h.2⟩]; rfl
  · rw [if_neg h, if_neg (fun hh => h ⟨hh.1, h7.mpr hh.2⟩)]
    by_cases h0 : b = 0
    · subst h0; decide
    · have hne : b.toNat ≠ 0 := by
        intro h'; exact h0 (BitVec.eq_of_toNat_eq (by simpa using h'))
      have h1 : (b - 1).toNat = b.toNat - 1 := by
        rw [BitVec.toNat_sub]
        have := b.isLt
        simp
        omega
      have h2 : (b - 1).sdiv 7 = (b - 1) / 7 := by
        rw [BitVec.sdiv_eq]
        have hm : (b - 1).msb = false := by
          rw [BitVec.msb_eq_false_iff_two_mul_lt, h1]
          omega
        rw [hm, show (7 : BitVec 64).msb = false from rfl]
        rfl
      rw [h2, BitVec.toNat_add, BitVec.toNat_udiv, h1]
      have : (7 : BitVec 64).toNat = 7 := rfl
      rw [this]
      omega

/-- From 2^63 on the division is one of a negative number. -/
theorem minCap_high (isa : Isa) {n : Nat} (hn : 2 ^ 63 < n) (hn' : n < 2 ^ 64) :
    (minCapacity64 isa (BitVec.ofNat 64 n)).toNat = n - (2 ^ 64 - n + 1) / 7 := by
  have hN : (BitVec.ofNat 64 n).toNat = n := by rw [BitVec.toNat_ofNat, Nat.mod_eq_of_lt hn']
  generalize BitVec.ofNat 64 n = b at hN
  subst hN
  unfold minCapacity64
  rw [if_neg (by
    rintro ⟨_, rfl⟩
    simp at hn)]
  have h1 : (b - 1).toNat = b.toNat - 1 := by
    rw [BitVec.toNat_sub]
    simp
    omega
  have h2 : (b - 1).sdiv 7 = -((-(b - 1)) / 7) := by
    rw [BitVec.sdiv_eq]
    have hm : (b - 1).msb = true := by
      rw [BitVec.msb_eq_true_iff_two_mul_ge, h1]
      omega
    rw [hm, show (7 : BitVec 64).msb = false from rfl]
    rfl
  have h3 : (-(b - 1)).toNat = 2 ^ 64 - b.toNat + 1 := by
    rw [BitVec.toNat_neg, h1]
    omega
  rw [h2, BitVec.toNat_add, BitVec.toNat_neg, BitVec.toNat_udiv, h3]
  have : (7 : BitVec 64).toNat = 7 := rfl
  rw [this]
  omega

theorem align_between {j x : Nat} (h : 2 ^ j ≤ x) (h' : x < 2 ^ (j + 1)) : alignCapacity x = 2 ^ (j + 1) - 1 := by
  have hp := Nat.two_pow_pos j
  have h0 : x ≠ 0 := by omega
  unfold alignCapacity
  rw [if_neg h0]
  have h1 : j ≤ Nat.log2 x := (Nat.le_log2 h0).mpr h
  have h2 : Nat.log2 x < j + 1 := (Nat.log2_lt h0).mpr h'
  rw [show Nat.log2 x = j by omega]

theorem alignMinW_word (isa : Isa) {m n : Nat} (hm : m < 2 ^ 64) :
    alignMinW isa m n = .ok (alignCapacity (m ||| (minCapacity64 isa (BitVec.ofNat 64 n)).toNat)) := by
  unfold alignMinW
  obtain ⟨r, e1, e2⟩ := C33_align_word (BitVec.ofNat 64 m ||| minCapacity64 isa (BitVec.ofNat 64 n))
  rw [e1, bind_ok, e2, BitVec.toNat_or, BitVec.toNat_ofNat, Nat.mod_eq_of_lt hm]

theorem minCapacity_eq (isa : Isa) {n : Nat} (h : n ≠ 7) : minCapacity isa n = n + (n - 1) / 7 := by
  unfold minCapacity
  rw [if_neg (fun q => h q.2)]

/-- Up to 7·2^60 elements the bucket count is the one it should be. -/
theorem capFor_low (isa : Isa) {m n : Nat} (hm : m ≤ n) (hn : n ≤ 7 * 2 ^ 60) :
    capFor isa m n = .ok (alignCapacity (m ||| minCapacity isa n)) ∧ alignCapacity (m ||| minCapacity isa n) < 2 ^ 63 := by
  have hlt : minCapacity isa n < 2 ^ 63 := by
    by_cases h7 : n = 7
    · subst h7
      unfold minCapacity
      split <;> omega
    · rw [minCapacity_eq isa h7]
      omega
  constructor
  · unfold capFor
    rw [if_neg (by omega), alignMinW_word isa (by omega), minCap_low isa (by omega)]
  · have := alignCapacity_least (n := m ||| minCapacity isa n) (c := 2 ^ 63 - 1) (j := 63) (by omega) (by omega)
      (by have := Nat.or_lt_two_pow (show m < 2 ^ 63 by omega) hlt; omega)
    omega

/-- Beyond that, and below 2^63 or from 9·2^60 on, it is 2^64 - 1. -/
theorem capFor_high (isa : Isa) {m n : Nat} (hm : m < 2 ^ 64) (h : 7 * 2 ^ 60 < n ∧ n < 2 ^ 63 ∨ 9 * 2 ^ 60 ≤ n ∧ n < 2 ^ 64) :
    capFor isa m n = .ok (2 ^ 64 - 1) := by
  unfold capFor
  rw [if_neg (by omega), alignMinW_word isa hm]
  have hx : 2 ^ 63 ≤ (minCapacity64 isa (BitVec.ofNat 64 n)).toNat := by
    rcases h with ⟨h1, h2⟩ | ⟨h1, h2⟩
    · rw [minCap_low isa h2, minCapacity_eq isa (by omega)]
      omega
    · rw [minCap_high isa (by omega) h2]
      omega
  rw [align_between (j := 63) (Nat.le_trans hx Nat.right_le_or) (Nat.or_lt_two_pow hm (BitVec.isLt _))]

/-- In between it is smaller than the request. -/
theorem capFor_mid (isa : Isa) {n : Nat} (h : 2 ^ 63 < n) (h' : n < 9 * 2 ^ 60) : capFor isa 0 n = .ok (2 ^ 63 - 1) := by
  unfold capFor
  rw [if_neg (by omega), alignMinW_word isa (by omega), minCap_high isa h (by omega), Nat.zero_or,
    align_between (j := 62) (by omega) (by omega)]

theorem capFor_or (isa : Isa) {n : Nat} (h : 2 ^ 63 < n) (h' : n < 2 ^ 64) : capFor isa n n = .ok (2 ^ 64 - 1) := by
  unfold capFor
  rw [if_neg (by omega), alignMinW_word isa h',
    align_between (j := 63) (Nat.le_trans (Nat.le_of_lt h) Nat.left_le_or) (Nat.or_lt_two_pow h' (BitVec.isLt _))]

/-! ## Buffers -/

theorem nodesStartW_eq (W : Nat) {s n : Nat} (h : n + W < 2 ^ 64) : nodesStartW W s n = Buf.nodesStart W s n := by
  unfold nodesStartW Buf.nodesStart
  rw [wadd_eq h]

theorem nodesStart_le (W : Nat) {s n : Nat} (hs : 16 ≤ s) : 16 * Buf.nodesStart W s n ≤ n + W + 16 := by
  unfold Buf.nodesStart
  have h1 : (n + W) / s ≤ (n + W) / 16 := Nat.div_le_div_left hs (by decide)
  split <;> omega

theorem bufferSizeW_eq {W s n : Nat} (hW : W ≤ 16) (hs : 16 ≤ s) (hn : n < 2 ^ 63) : bufferSizeW W s n = Buf.bufferSize W s n := by
  have := nodesStart_le W (n := n) hs
  unfold bufferSizeW Buf.bufferSize
  rw [nodesStartW_eq W (by omega), wadd_eq (by omega)]

theorem le_bufferSize (W : Nat) {s n : Nat} (hs : 0 < s) : n + W + s * n ≤ s * Buf.bufferSize W s n := by
  unfold Buf.bufferSize
  rw [Nat.mul_add]
  have : n + W ≤ s * Buf.nodesStart W s n := by
    unfold Buf.nodesStart
    have h1 := Nat.div_add_mod (n + W) s
    have h2 := Nat.mod_lt (n + W) hs
    rw [Nat.mul_add]
    split <;> omega
  omega

theorem W_cases (isa : Isa) : isa.W = 16 ∨ isa.W = 8 := by cases isa <;> simp [Isa.W]

/-- A bucket count below 2^63: no byte outside the block is written, and the block is granted only if the nodes fit into memory. -/
theorem room_low (isa : Isa) (g : Grants) {s n : Nat} (l : Layout) (hs : 16 ≤ s) (hn : n < 2 ^ 63) :
    room isa g s n l = .ok false ∨ (room isa g s n l = .ok true ∧ s * n < 2 ^ 64) := by
  have hW := W_cases isa
  have h2 : wadd n isa.W = n + isa.W := wadd_eq (by omega)
  cases l with
  | split =>
    simp only [room]
    by_cases h1 : g.ok 1 (wadd n isa.W) = true
    · by_cases h : g.ok s n = true
      · right
        rw [if_pos h1, if_pos h, fillEmptyW, if_pos ⟨Nat.le_refl _, by omega⟩, bind_ok]
        refine ⟨rfl, ?_⟩
        by_contra hc
        rw [g.refuses s n (by omega)] at h
        cases h
      · rw [if_pos h1, if_neg h]
        exact Or.inl rfl
    · rw [if_neg h1]
      exact Or.inl rfl
  | comb =>
    simp only [room]
    rw [bufferSizeW_eq (by omega) hs hn]
    by_cases h : g.ok s (Buf.bufferSize isa.W s n) = true
    · right
      have h3 := le_bufferSize isa.W (n := n) (show 0 < s by omega)
      rw [if_pos h, fillEmptyW, if_pos ⟨by omega, by omega⟩, bind_ok]
      refine ⟨rfl, ?_⟩
      by_contra hc
      rw [g.refuses s _ (by omega)] at h
      cases h
    · rw [if_neg h]
      exact Or.inl rfl

/-- 2^64 - 1 buckets in separate blocks: the nodes are refused. -/
theorem room_split_max (isa : Isa) (g : Grants) {s : Nat} (hs : 16 ≤ s) : room isa g s (2 ^ 64 - 1) .split = .ok false := by
  simp only [room]
  rw [g.refuses s (2 ^ 64 - 1) (Nat.le_trans (by decide) (Nat.mul_le_mul_right _ hs))]
  simp

/-- 2^64 - 1 buckets in one block: the computed size is 0. -/
theorem bufferSizeW_max (isa : Isa) {s : Nat} (hs : 16 ≤ s) : bufferSizeW isa.W s (2 ^ 64 - 1) = 0 := by
  have hW := W_cases isa
  have h1 : wadd (2 ^ 64 - 1) isa.W = isa.W - 1 := by
    unfold wadd
    omega
  unfold bufferSizeW nodesStartW
  rw [h1, Nat.div_eq_of_lt (by omega), Nat.mod_eq_of_lt (by omega), if_pos (by omega)]
  rfl

theorem room_comb_max (isa : Isa) {g : Grants} {s : Nat} (hs : 16 ≤ s) (h0 : g.ok s 0 = true) :
    room isa g s (2 ^ 64 - 1) .comb = .error .oobMeta := by
  simp only [room]
  rw [bufferSizeW_max isa hs, if_pos h0, fillEmptyW, if_neg (by simp)]
  rfl

end Tpp.Swiss
