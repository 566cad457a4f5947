import Verif.Swiss.Model
import Verif.Swiss.Probe

/-!
# Well-formed control bytes and the probe loops over them
-/

set_option linter.unusedSectionVars false

namespace Tpp

theorem Isa.W_eq (isa : Isa) : isa.W = 16 ∨ isa.W = 8 := by cases isa <;> simp [Isa.W]

theorem Isa.W_pow (isa : Isa) : ∃ w, isa.W = 2 ^ w ∧ 3 ≤ w := by
  cases isa
  · exact ⟨4, rfl, by omega⟩
  · exact ⟨3, rfl, by omega⟩
  · exact ⟨3, rfl, by omega⟩

theorem Isa.W_pos (isa : Isa) : 8 ≤ isa.W := by rcases isa.W_eq with h | h <;> omega

/-- `N` is either a multiple of the block width, or at most half of it. -/
theorem pow_cases (isa : Isa) {m N : Nat} (h : N = 2 ^ m) :
    (∃ m', N = 2 ^ m' * isa.W) ∨ (∃ c, isa.W = N * c ∧ 2 ≤ c) := by
  obtain ⟨w, hw, _⟩ := isa.W_pow
  rcases Nat.lt_or_ge m w with h' | h'
  · right
    refine ⟨2 ^ (w - m), ?_, ?_⟩
    · rw [hw, h, ← Nat.pow_add]; congr 1; omega
    · obtain ⟨d, hd⟩ : ∃ d, w - m = d + 1 := ⟨w - m - 1, by omega⟩
      rw [hd, Nat.pow_succ]
      have := Nat.two_pow_pos d
      omega
  · left
    refine ⟨m - w, ?_⟩
    rw [hw, h, ← Nat.pow_add]; congr 1; omega

/-- Every slot is in the window of a probe step whose index does not exceed the capacity. -/
theorem probe_covers (isa : Isa) {cap m p i : Nat} (hN : cap + 1 = 2 ^ m) (hp : p ≤ cap) (hi : i ≤ cap) :
    ∃ s, s * isa.W ≤ cap ∧ cdist (cap + 1) (probePos isa.W (cap + 1) p s) i < isa.W := by
  have hW := isa.W_pos
  rcases pow_cases isa hN with ⟨m', h⟩ | ⟨c, h, hc⟩
  · have := probe_covers_big (W := isa.W) (m := m') (p := p) (i := i) (by omega) (by omega) (by omega)
    obtain ⟨s, hs, hd⟩ := this
    rw [← h] at hd
    refine ⟨s, ?_, hd⟩
    have h1 : (s + 1) * isa.W ≤ 2 ^ m' * isa.W := Nat.mul_le_mul_right _ hs
    rw [Nat.add_mul] at h1
    omega
  · refine ⟨0, by omega, ?_⟩
    have : cdist (cap + 1) (probePos isa.W (cap + 1) p 0) i < cap + 1 := Nat.mod_lt _ (by omega)
    have : (cap + 1) * 1 ≤ (cap + 1) * c := Nat.mul_le_mul_left _ (by omega)
    omega

namespace Swiss

variable {K V : Type} [DecidableEq K]

/-- Shape of the control byte array: power-of-two slot count, a sentinel after the slots, and the clones of the
first slots behind it. -/
structure MetaOk (isa : Isa) (cap len : Nat) (ctl : Nat → Ctl) : Prop where
  pow : ∃ m, cap + 1 = 2 ^ m
  len_eq : len = cap + isa.W
  sent : ctl cap = .sentinel
  slot : ∀ i, i < cap → ctl i ≠ .sentinel
  tail : ∀ q, cap < q → q < cap + isa.W →
    ctl q = if q - (cap + 1) < cap then ctl (q - (cap + 1)) else .empty

theorem land_cap {isa cap len ctl} (h : MetaOk isa cap len ctl) (x : Nat) : x &&& cap = x % (cap + 1) := by
  obtain ⟨m, hm⟩ := h.pow
  have : cap = 2 ^ m - 1 := by omega
  rw [hm, this, land_mask]

theorem land_pow {cap m : Nat} (hm : cap + 1 = 2 ^ m) (x : Nat) : x &&& cap = x % (cap + 1) := by
  have : cap = 2 ^ m - 1 := by omega
  rw [hm, this, land_mask]

/-- Fresh control bytes are well-formed. -/
theorem MetaOk.fill (isa : Isa) {cap m : Nat} (hm : cap + 1 = 2 ^ m) :
    MetaOk isa cap (cap + isa.W) (fillEmpty cap) where
  pow := ⟨m, hm⟩
  len_eq := rfl
  sent := by simp [fillEmpty]
  slot := by intro i hi; simp [fillEmpty]; omega
  tail := by
    intro q h1 h2
    have h3 : q ≠ cap := by omega
    simp only [fillEmpty, h3, if_false]
    split
    · have : q - (cap + 1) ≠ cap := by omega
      simp [this]
    · rfl

/-- The address of the clone written by `set_metadata`: the slot itself, or its copy behind the sentinel. -/
theorem mirror_eq (isa : Isa) {cap m pos : Nat} (hm : cap + 1 = 2 ^ m) (hp : pos < cap) :
    ((pos + (isa.W - 1) * (cap + 1) - (isa.W - 1)) &&& cap) + ((isa.W - 1) &&& cap)
      = if pos < isa.W - 1 ∨ cap + 1 < isa.W then pos + (cap + 1) else pos := by
  have hW := isa.W_pos
  rw [land_pow hm, land_pow hm]
  rcases pow_cases isa hm with ⟨m', h⟩ | ⟨c, h, hc⟩
  · have hWN : isa.W ≤ cap + 1 := by
      rw [h]; exact Nat.le_mul_of_pos_left _ (Nat.two_pow_pos m')
    rw [Nat.mod_eq_of_lt (a := isa.W - 1) (by omega)]
    split
    · have h1 : pos < isa.W - 1 := by omega
      have : pos + (isa.W - 1) * (cap + 1) - (isa.W - 1)
          = (pos + (cap + 1) - (isa.W - 1)) + (isa.W - 2) * (cap + 1) := by
        have : (isa.W - 1) * (cap + 1) = (isa.W - 2) * (cap + 1) + (cap + 1) := by
          rw [← Nat.succ_mul]; congr 1; omega
        omega
      rw [this, Nat.add_mul_mod_self_right, Nat.mod_eq_of_lt (by omega)]
      omega
    · have h1 : isa.W - 1 ≤ pos := by omega
      have : pos + (isa.W - 1) * (cap + 1) - (isa.W - 1) = (pos - (isa.W - 1)) + (isa.W - 1) * (cap + 1) := by omega
      rw [this, Nat.add_mul_mod_self_right, Nat.mod_eq_of_lt (by omega)]
      omega
  · have hle : (cap + 1) * 2 ≤ (cap + 1) * c := Nat.mul_le_mul_left _ hc
    have hlt : pos < isa.W - 1 ∨ cap + 1 < isa.W := by right; omega
    rw [if_pos hlt]
    obtain ⟨d, rfl⟩ : ∃ d, c = d + 1 := ⟨c - 1, by omega⟩
    have hd : isa.W - 1 = cap + d * (cap + 1) := by
      rw [h, Nat.mul_add, Nat.mul_comm (cap + 1) d]; omega
    have h2 : (isa.W - 1) % (cap + 1) = cap := by
      rw [hd, Nat.add_mul_mod_self_right, Nat.mod_eq_of_lt (by omega)]
    rw [h2]
    have h3 : d + 1 ≤ isa.W - 1 := by
      have : d * 2 ≤ d * (cap + 1) := Nat.mul_le_mul_left _ (by omega)
      omega
    have h4 : pos + (isa.W - 1) * (cap + 1) - (isa.W - 1)
        = (pos + 1) + (isa.W - 1 - (d + 1)) * (cap + 1) := by
      rw [Nat.sub_mul (isa.W - 1) (d + 1), Nat.add_mul d 1]
      have : (d + 1) * (cap + 1) ≤ (isa.W - 1) * (cap + 1) := Nat.mul_le_mul_right _ h3
      rw [Nat.add_mul] at this
      omega
    rw [h4, Nat.add_mul_mod_self_right, Nat.mod_eq_of_lt (by omega)]
    omega

/-- `set_metadata` changes exactly the designated slot and keeps the array well-formed. -/
theorem setMetadata_spec {isa : Isa} {t : Table K V} (h : MetaOk isa t.cap t.len t.ctl) {pos : Nat}
    (hp : pos < t.cap) {v : Ctl} (hv : v ≠ .sentinel) :
    ∃ c, t.setMetadata isa pos v = .ok { t with ctl := c } ∧
      (∀ i, i < t.cap → c i = if i = pos then v else t.ctl i) ∧ MetaOk isa t.cap t.len c := by
  obtain ⟨m, hm⟩ := h.pow
  have hW := isa.W_pos
  have hlen := h.len_eq
  unfold Table.setMetadata
  simp only
  rw [mirror_eq isa hm hp]
  split
  · rename_i hcase
    have h1 : pos + (t.cap + 1) < t.len := by
      rcases hcase with h | h <;> omega
    have h2 : pos < t.len := by omega
    simp only [Table.writeCtl, h1, h2, if_true, bind_ok]
    refine ⟨_, rfl, ?_, ?_⟩
    · intro i hi
      simp only [upd_apply]
      have : i ≠ pos + (t.cap + 1) := by omega
      simp [this]
    · constructor
      · exact h.pow
      · exact hlen
      · have a : t.cap ≠ pos := by omega
        have b : t.cap ≠ pos + (t.cap + 1) := by omega
        simp [upd_apply, a, b, h.sent]
      · intro i hi
        have : i ≠ pos + (t.cap + 1) := by omega
        simp only [upd_apply, this, if_false]
        split
        · exact hv
        · exact h.slot i hi
      · intro q hq1 hq2
        have a : q ≠ pos := by omega
        simp only [upd_apply, a, if_false]
        have b : q - (t.cap + 1) ≠ pos + (t.cap + 1) ∨ ¬ (q - (t.cap + 1) < t.cap) := by omega
        by_cases hqp : q = pos + (t.cap + 1)
        · have hc : q - (t.cap + 1) = pos := by omega
          simp [hqp, hp]
        · have hc : q - (t.cap + 1) ≠ pos := by omega
          simp only [hqp, if_false, hc]
          rw [h.tail q hq1 hq2]
          by_cases hlt : q - (t.cap + 1) < t.cap
          · have : q - (t.cap + 1) ≠ pos + (t.cap + 1) := by omega
            simp [hlt, this]
          · simp [hlt]
  · rename_i hcase
    have h2 : pos < t.len := by omega
    simp only [Table.writeCtl, h2, if_true, bind_ok]
    refine ⟨_, rfl, ?_, ?_⟩
    · intro i hi
      simp only [upd_apply]
      split <;> simp_all
    · constructor
      · exact h.pow
      · exact hlen
      · have a : t.cap ≠ pos := by omega
        simp [upd_apply, a, h.sent]
      · intro i hi
        simp only [upd_apply]
        split
        · exact hv
        · exact h.slot i hi
      · intro q hq1 hq2
        have a : q ≠ pos := by omega
        have b : q - (t.cap + 1) ≠ pos := by omega
        simp only [upd_apply, a, b, if_false]
        exact h.tail q hq1 hq2

section Windows

variable {isa : Isa} {cap len : Nat} {ctl : Nat → Ctl}

/-- Start of the `s`-th probe window of a hash with first part `p`. -/
def wpos (isa : Isa) (cap p s : Nat) : Nat := probePos isa.W (cap + 1) (p % (cap + 1)) s

/-- Slot `i` is in the window starting at `q`. -/
def InWin (isa : Isa) (cap q i : Nat) : Prop := cdist (cap + 1) q i < isa.W

/-- No byte of the window starting at `q` satisfies `P`. -/
def NoneIn (isa : Isa) (ctl : Nat → Ctl) (P : Ctl → Bool) (q : Nat) : Prop :=
  ∀ j, j < isa.W → P (ctl (q + j)) = false

theorem wpos_le (isa : Isa) (cap p s : Nat) : wpos isa cap p s ≤ cap := by
  have : wpos isa cap p s < cap + 1 := probePos_lt (Nat.mod_lt _ (by omega)) s
  omega

/-- A slot in a window is seen at a byte of that window. -/
theorem MetaOk.seen (h : MetaOk isa cap len ctl) {q i : Nat} (hq : q ≤ cap) (hi : i < cap)
    (hin : InWin isa cap q i) :
    ∃ j, j < isa.W ∧ (q + j) % (cap + 1) = i ∧ ctl (q + j) = ctl i ∧ q + j < q + (cap + 1) := by
  unfold InWin at hin
  refine ⟨cdist (cap + 1) q i, hin, ?_⟩
  rcases cdist_cases (N := cap + 1) (p := q) (i := i) (by omega) (by omega) with ⟨h1, h2⟩ | ⟨h1, h2⟩
  · rw [h2]
    have : q + (i - q) = i := by omega
    rw [this]
    exact ⟨Nat.mod_eq_of_lt (by omega), rfl, by omega⟩
  · have e : q + cdist (cap + 1) q i = i + (cap + 1) := by omega
    rw [e]
    refine ⟨?_, ?_, by omega⟩
    · rw [Nat.add_mod_right, Nat.mod_eq_of_lt (by omega)]
    · rw [h.tail _ (by omega) (by omega)]
      have : i + (cap + 1) - (cap + 1) = i := by omega
      rw [this, if_pos hi]

/-- A byte of a window that is neither sentinel nor empty is the byte of a slot in the window. -/
theorem MetaOk.real (h : MetaOk isa cap len ctl) {q j : Nat} (hq : q ≤ cap) (hj : j < isa.W)
    (h1 : ctl (q + j) ≠ .sentinel) (h2 : ctl (q + j) ≠ .empty ∨ j ≤ cap) :
    (q + j) % (cap + 1) < cap ∧ ctl ((q + j) % (cap + 1)) = ctl (q + j) ∧
      InWin isa cap q ((q + j) % (cap + 1)) := by
  by_cases hle : q + j ≤ cap
  · have hne : q + j ≠ cap := by intro hh; rw [hh] at h1; exact h1 h.sent
    rw [Nat.mod_eq_of_lt (by omega)]
    refine ⟨by omega, rfl, ?_⟩
    unfold InWin
    rcases cdist_cases (N := cap + 1) (p := q) (i := q + j) (by omega) (by omega) with ⟨_, h4⟩ | ⟨h3, _⟩ <;> omega
  · have ht := h.tail (q + j) (by omega) (by omega)
    have hlt : q + j - (cap + 1) < cap := by
      by_contra hh
      rw [if_neg hh] at ht
      rcases h2 with h2 | h2
      · exact h2 ht
      · omega
    rw [if_pos hlt] at ht
    have e : (q + j) % (cap + 1) = q + j - (cap + 1) := by
      rw [Nat.mod_eq_sub_mod (by omega), Nat.mod_eq_of_lt (by omega)]
    rw [e]
    refine ⟨hlt, ht.symm, ?_⟩
    unfold InWin
    rcases cdist_cases (N := cap + 1) (p := q) (i := q + j - (cap + 1)) (by omega) (by omega) with ⟨h3, h4⟩ | ⟨_, h4⟩ <;> omega

/-- Some step of every probe reaches a given slot. -/
theorem MetaOk.covers (h : MetaOk isa cap len ctl) (p : Nat) {i : Nat} (hi : i < cap) :
    ∃ s, s * isa.W ≤ cap ∧ InWin isa cap (wpos isa cap p s) i := by
  obtain ⟨m, hm⟩ := h.pow
  have hp := Nat.mod_lt p (show 0 < cap + 1 by omega)
  exact probe_covers isa hm (by omega) (by omega)

/-- A small table has a byte behind the clones that is empty and seen by every window. -/
theorem MetaOk.phantom (h : MetaOk isa cap len ctl) (hs : cap + 1 < isa.W) {q : Nat} (hq : q ≤ cap) :
    ∃ j, j < isa.W ∧ ctl (q + j) = .empty ∧ (q + j) % (cap + 1) = cap := by
  obtain ⟨m, hm⟩ := h.pow
  have hW : 2 * (cap + 1) ≤ isa.W := by
    rcases pow_cases isa hm with ⟨m', h⟩ | ⟨c, h, hc⟩
    · have := Nat.le_mul_of_pos_left isa.W (Nat.two_pow_pos m')
      omega
    · have : (cap + 1) * 2 ≤ (cap + 1) * c := Nat.mul_le_mul_left _ hc
      omega
  refine ⟨2 * cap + 1 - q, by omega, ?_, ?_⟩
  · have e : q + (2 * cap + 1 - q) = 2 * cap + 1 := by omega
    rw [e, h.tail _ (by omega) (by omega), if_neg (by omega)]
  · have e : q + (2 * cap + 1 - q) = cap + (cap + 1) := by omega
    rw [e, Nat.add_mod_right, Nat.mod_eq_of_lt (by omega)]

end Windows

theorem mem_matches {isa : Isa} {t : Table K V} {pos i : Nat} {p : Ctl → Bool} :
    i ∈ t.matches_ isa pos p ↔ i < isa.W ∧ p (t.ctl (pos + i)) = true := by
  simp [Table.matches_]

theorem portableHit_full {ctl : Nat → Ctl} {pos tag i : Nat} (h : Table.portableHit ctl pos tag i = true) :
    ∃ g, ctl (pos + i) = .full g := by
  cases i with
  | zero => exact ⟨tag, by simpa [Table.portableHit] using h⟩
  | succ i =>
    simp only [Table.portableHit, Bool.or_eq_true, Bool.and_eq_true, beq_iff_eq] at h
    rcases h with h | ⟨h, _⟩
    · exact ⟨_, h⟩
    · exact ⟨_, h⟩

/-- `match_eq` reports only occupied bytes. -/
theorem matchEq_full {isa : Isa} {t : Table K V} {pos tag i : Nat} (h : i ∈ t.matchEq isa pos tag) :
    i < isa.W ∧ ∃ g, t.ctl (pos + i) = .full g := by
  cases isa
  · have h : i ∈ t.matches_ .sse2 pos (· == .full tag) := h
    rw [mem_matches] at h
    exact ⟨h.1, tag, by simpa using h.2⟩
  · have h : i ∈ t.matches_ .neon pos (· == .full tag) := h
    rw [mem_matches] at h
    exact ⟨h.1, tag, by simpa using h.2⟩
  · simp only [Table.matchEq, List.mem_filter, List.mem_range] at h
    exact ⟨h.1, portableHit_full h.2⟩

/-- `match_eq` reports every byte equal to the tag. -/
theorem matchEq_hit {isa : Isa} {t : Table K V} {pos tag i : Nat} (hi : i < isa.W) (h : t.ctl (pos + i) = .full tag) :
    i ∈ t.matchEq isa pos tag := by
  cases isa
  · show i ∈ t.matches_ .sse2 pos (· == .full tag)
    rw [mem_matches]; exact ⟨hi, by simp [h]⟩
  · show i ∈ t.matches_ .neon pos (· == .full tag)
    rw [mem_matches]; exact ⟨hi, by simp [h]⟩
  · simp only [Table.matchEq, List.mem_filter, List.mem_range]
    refine ⟨hi, ?_⟩
    cases i with
    | zero => simpa [Table.portableHit] using h
    | succ i => simp [Table.portableHit, h]

theorem matches_nil {isa : Isa} {t : Table K V} {pos : Nat} {p : Ctl → Bool} :
    t.matches_ isa pos p = [] ↔ NoneIn isa t.ctl p pos := by
  simp [Table.matches_, NoneIn]

/-- The first match of a window. -/
theorem matches_cons {isa : Isa} {t : Table K V} {pos i : Nat} {is : List Nat} {p : Ctl → Bool}
    (h : t.matches_ isa pos p = i :: is) :
    i < isa.W ∧ p (t.ctl (pos + i)) = true ∧ ∀ j, j < i → p (t.ctl (pos + j)) = false := by
  have hi : i ∈ t.matches_ isa pos p := by rw [h]; simp
  rw [mem_matches] at hi
  refine ⟨hi.1, hi.2, ?_⟩
  intro j hj
  by_contra hc
  have hj' : j ∈ t.matches_ isa pos p := by rw [mem_matches]; exact ⟨by omega, by simpa using hc⟩
  have hs : (t.matches_ isa pos p).Pairwise (· < ·) := List.Pairwise.filter _ List.pairwise_lt_range
  rw [h] at hs hj'
  rw [List.pairwise_cons] at hs
  rcases List.mem_cons.mp hj' with e | e
  · omega
  · have := hs.1 j e; omega

/-- The step of the probe used by the loops. -/
theorem wpos_succ {isa : Isa} {cap : Nat} (hpow : ∃ m, cap + 1 = 2 ^ m) (p s : Nat) :
    (wpos isa cap p s + (s * isa.W + isa.W)) &&& cap = wpos isa cap p (s + 1) := by
  obtain ⟨m, hm⟩ := hpow
  rw [land_pow hm]
  simp only [wpos, probePos]
  congr 2
  rw [Nat.add_mul, Nat.one_mul]

/-- `find_available` from step `s`, given that step `s0` has an available byte: the first available byte of the
first window that has one. -/
theorem availLoop_spec {isa : Isa} {t : Table K V} (h : MetaOk isa t.cap t.len t.ctl) {p s0 : Nat}
    (hs0 : s0 * isa.W ≤ t.cap) (hav : ¬ NoneIn isa t.ctl (·.isAvailable) (wpos isa t.cap p s0)) :
    ∀ (d s : Nat), s + d = s0 →
      (∀ s', s' < s → NoneIn isa t.ctl (·.isAvailable) (wpos isa t.cap p s')) →
      ∀ fuel, d < fuel →
      ∃ s1 j, s1 ≤ s0 ∧ j < isa.W ∧
        t.availLoop isa fuel (wpos isa t.cap p s) (s * isa.W) = .ok ((wpos isa t.cap p s1 + j) % (t.cap + 1)) ∧
        (t.ctl (wpos isa t.cap p s1 + j)).isAvailable = true ∧
        (∀ j', j' < j → (t.ctl (wpos isa t.cap p s1 + j')).isAvailable = false) ∧
        (∀ s', s' < s1 → NoneIn isa t.ctl (·.isAvailable) (wpos isa t.cap p s')) := by
  intro d
  induction d with
  | zero =>
    intro s hs hnone fuel hf
    obtain ⟨f, rfl⟩ : ∃ f, fuel = f + 1 := ⟨fuel - 1, by omega⟩
    have hle := wpos_le isa t.cap p s
    have hb : wpos isa t.cap p s + isa.W ≤ t.len := by rw [h.len_eq]; omega
    have : s = s0 := by omega
    subst this
    unfold Table.availLoop
    simp only [Table.loadBlock, hb, if_true, bind_ok]
    cases hm : t.matches_ isa (wpos isa t.cap p s) (·.isAvailable) with
    | nil => exact absurd (matches_nil.mp hm) hav
    | cons j is =>
      obtain ⟨h1, h2, h3⟩ := matches_cons hm
      exact ⟨s, j, Nat.le_refl _, h1, by simp only; rw [land_cap h], h2, h3, hnone⟩
  | succ d ih =>
    intro s hs hnone fuel hf
    obtain ⟨f, rfl⟩ : ∃ f, fuel = f + 1 := ⟨fuel - 1, by omega⟩
    have hle := wpos_le isa t.cap p s
    have hb : wpos isa t.cap p s + isa.W ≤ t.len := by rw [h.len_eq]; omega
    unfold Table.availLoop
    simp only [Table.loadBlock, hb, if_true, bind_ok]
    cases hm : t.matches_ isa (wpos isa t.cap p s) (·.isAvailable) with
    | nil =>
      have hidx : s * isa.W < t.cap := by
        have h1 : (s + 1) * isa.W ≤ s0 * isa.W := Nat.mul_le_mul_right _ (by omega)
        rw [Nat.add_mul] at h1
        have := isa.W_pos
        omega
      simp only [hidx, if_true]
      rw [wpos_succ h.pow, ← Nat.succ_mul]
      refine ih (s + 1) (by omega) ?_ f (by omega)
      intro s' hs'
      by_cases e : s' = s
      · subst e; exact matches_nil.mp hm
      · exact hnone s' (by omega)
    | cons j is =>
      obtain ⟨h1, h2, h3⟩ := matches_cons hm
      exact ⟨s, j, by omega, h1, by simp only; rw [land_cap h], h2, h3, hnone⟩

/-- Some window of every probe sequence has a byte satisfying `P`, at a step the assertion admits. -/
def HasStep (isa : Isa) (cap : Nat) (ctl : Nat → Ctl) (P : Ctl → Bool) (p : Nat) : Prop :=
  ∃ s0, s0 * isa.W ≤ cap ∧ ¬ NoneIn isa ctl P (wpos isa cap p s0)

theorem MetaOk.hasStep_of_slot {isa : Isa} {cap len : Nat} {ctl : Nat → Ctl} (h : MetaOk isa cap len ctl)
    {P : Ctl → Bool} {i : Nat} (hi : i < cap) (hP : P (ctl i) = true) (p : Nat) : HasStep isa cap ctl P p := by
  obtain ⟨s, hs, hin⟩ := h.covers p hi
  refine ⟨s, hs, fun hn => ?_⟩
  obtain ⟨j, hj, _, hc, _⟩ := h.seen (wpos_le isa cap p s) hi hin
  have := hn j hj
  rw [hc, hP] at this
  exact absurd this (by simp)

theorem MetaOk.hasStep_of_small {isa : Isa} {cap len : Nat} {ctl : Nat → Ctl} (h : MetaOk isa cap len ctl)
    {P : Ctl → Bool} (hP : P .empty = true) (hs : cap + 1 < isa.W) (p : Nat) : HasStep isa cap ctl P p := by
  refine ⟨0, by omega, fun hn => ?_⟩
  obtain ⟨j, hj, hc, _⟩ := h.phantom hs (wpos_le isa cap p 0)
  have := hn j hj
  rw [hc, hP] at this
  exact absurd this (by simp)

theorem step_lt_fuel {isa : Isa} {cap s0 : Nat} (h : s0 * isa.W ≤ cap) : s0 < cap + 1 := by
  have := isa.W_pos
  have : s0 * 1 ≤ s0 * isa.W := Nat.mul_le_mul_left _ (by omega)
  omega

/-- Where `find_available` ends: the slot is in window `s`, no earlier window has an available byte, and (if
some slot of the table is available at all) it is an available slot. -/
theorem findAvailable_spec {isa : Isa} {t : Table K V} (h : MetaOk isa t.cap t.len t.ctl) (hh : Nat)
    (hst : HasStep isa t.cap t.ctl (·.isAvailable) (hashHi hh)) :
    ∃ target, t.findAvailable isa hh = .ok target ∧ target ≤ t.cap ∧
      (target < t.cap → (t.ctl target).isAvailable = true) ∧
      ((∃ i, i < t.cap ∧ (t.ctl i).isAvailable = true) → target < t.cap) ∧
      (∃ s, (target < t.cap → InWin isa t.cap (wpos isa t.cap (hashHi hh) s) target) ∧
        ∀ s', s' < s → NoneIn isa t.ctl (·.isAvailable) (wpos isa t.cap (hashHi hh) s')) := by
  obtain ⟨s0, hs0, hav⟩ := hst
  obtain ⟨s1, j, hs1, hj, he, ha, hfirst, hnone⟩ :=
    availLoop_spec h hs0 hav s0 0 (by omega) (by intro s' hs'; omega) (t.cap + 1) (step_lt_fuel hs0)
  have hq := wpos_le isa t.cap (hashHi hh) s1
  have hns : t.ctl (wpos isa t.cap (hashHi hh) s1 + j) ≠ .sentinel := by
    intro e; rw [e] at ha; exact absurd ha (by simp [Ctl.isAvailable])
  refine ⟨(wpos isa t.cap (hashHi hh) s1 + j) % (t.cap + 1), ?_, ?_, ?_, ?_, ⟨s1, ?_, hnone⟩⟩
  · unfold Table.findAvailable
    rw [land_cap h]
    simpa [wpos, probePos] using he
  · have := Nat.mod_lt (wpos isa t.cap (hashHi hh) s1 + j) (show 0 < t.cap + 1 by omega)
    omega
  · intro hlt
    by_cases hjc : j ≤ t.cap
    · rw [(h.real hq hj hns (Or.inr hjc)).2.1]; exact ha
    · by_cases hem : t.ctl (wpos isa t.cap (hashHi hh) s1 + j) = .empty
      · -- the byte is behind all clones; its earlier copy is the same
        have hdir : t.ctl (wpos isa t.cap (hashHi hh) s1 + j) = .empty := hem
        have ht := h.tail (wpos isa t.cap (hashHi hh) s1 + j) (by omega) (by omega)
        by_cases hl : wpos isa t.cap (hashHi hh) s1 + j - (t.cap + 1) < t.cap
        · have e : (wpos isa t.cap (hashHi hh) s1 + j) % (t.cap + 1) = wpos isa t.cap (hashHi hh) s1 + j - (t.cap + 1) := by
            rw [Nat.mod_eq_sub_mod (by omega), Nat.mod_eq_of_lt (by omega)]
          rw [if_pos hl] at ht
          rw [e, ← ht]; exact ha
        · -- `j > cap` and behind: then slot `(wpos + j) % (cap+1)` was seen earlier in the window
          have hin : InWin isa t.cap (wpos isa t.cap (hashHi hh) s1) ((wpos isa t.cap (hashHi hh) s1 + j) % (t.cap + 1)) := by
            unfold InWin
            have := Nat.mod_lt ((wpos isa t.cap (hashHi hh) s1 + j) % (t.cap + 1) + (t.cap + 1) - wpos isa t.cap (hashHi hh) s1)
              (show 0 < t.cap + 1 by omega)
            unfold cdist
            omega
          obtain ⟨j', hj', hmod, hc, hlt'⟩ := h.seen hq hlt hin
          -- the phantom at `2cap+1` precedes or equals `j`
          exfalso
          have hsmall : t.cap + 1 < isa.W := by omega
          obtain ⟨jp, hjp, hpe, hpm⟩ := h.phantom hsmall hq
          have hjp2 : ¬ jp < j := by
            intro hlt2
            have := hfirst jp hlt2
            rw [hpe] at this
            exact absurd this (by simp [Ctl.isAvailable])
          -- so `j ≤ jp`; both are ≥ `cap + 1`
          have h5 : wpos isa t.cap (hashHi hh) s1 + j ≥ 2 * t.cap + 1 := by omega
          have h6 : t.ctl (2 * t.cap + 1) = .empty := by
            rw [h.tail _ (by omega) (by omega), if_neg (by omega)]
          have h7 : ¬ (2 * t.cap + 1 - wpos isa t.cap (hashHi hh) s1 < j) := by
            intro hlt2
            have := hfirst _ hlt2
            have e : wpos isa t.cap (hashHi hh) s1 + (2 * t.cap + 1 - wpos isa t.cap (hashHi hh) s1) = 2 * t.cap + 1 := by omega
            rw [e, h6] at this
            exact absurd this (by simp [Ctl.isAvailable])
          have h8 : wpos isa t.cap (hashHi hh) s1 + j = t.cap + (t.cap + 1) := by omega
          rw [h8, Nat.add_mod_right, Nat.mod_eq_of_lt (by omega)] at hlt
          omega
      · rw [(h.real hq hj hns (Or.inl hem)).2.1]; exact ha
  · rintro ⟨i, hi, hai⟩
    by_cases hjc : j ≤ t.cap
    · exact (h.real hq hj hns (Or.inr hjc)).1
    · -- every slot is seen within the first `cap + 1` bytes
      exfalso
      have hin : InWin isa t.cap (wpos isa t.cap (hashHi hh) s1) i := by
        unfold InWin cdist
        have := Nat.mod_lt (i + (t.cap + 1) - wpos isa t.cap (hashHi hh) s1) (show 0 < t.cap + 1 by omega)
        omega
      obtain ⟨j', hj', hmod, hc, hlt'⟩ := h.seen hq hi hin
      have := hfirst j' (by omega)
      rw [hc, hai] at this
      exact absurd this (by simp)
  · intro hlt
    unfold InWin cdist
    have hmodlt := Nat.mod_lt (wpos isa t.cap (hashHi hh) s1 + j) (show 0 < t.cap + 1 by omega)
    by_cases hjc : j ≤ t.cap
    · exact (h.real hq hj hns (Or.inr hjc)).2.2
    · have := Nat.mod_lt ((wpos isa t.cap (hashHi hh) s1 + j) % (t.cap + 1) + (t.cap + 1) - wpos isa t.cap (hashHi hh) s1)
        (show 0 < t.cap + 1 by omega)
      omega

end Swiss
end Tpp
