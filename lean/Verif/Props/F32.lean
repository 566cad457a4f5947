import Verif.F32
import Verif.Props.DenseReserve

/-!
# C81: the load factor of dense containers in single precision

`f` is the maximal load factor, a positive `float`; the other theorems about dense containers use an arbitrary function of the sizes
(`LF`) or exact fractions (`LF.ratio`, C75).
-/

set_option linter.unusedSectionVars false

namespace Tpp.F32

/-! ## When the comparison is exact -/

theorem full_of_le {f : ℚ} (hf : IsF32 f) {s b : Nat} (hs : s ≤ 2 ^ 24) (hb : b ≤ 2 ^ 24) (h : f ≤ (s : ℚ) / b) : fullF f s b = true := by
  unfold fullF
  rw [fl_nat hs, fl_nat hb, decide_eq_true_eq]
  exact le_fl hf h

theorem not_full_zero {f : ℚ} (hf : 0 < f) (b : Nat) : fullF f 0 b = false := by
  unfold fullF
  rw [decide_eq_false_iff_not]
  push_cast
  rw [fl_zero, zero_div, fl_zero]
  exact not_le.mpr hf

/-- Below `f` by more than the rounding error. -/
theorem not_full_of_gap {f : ℚ} {s b : Nat} (h0 : 0 < s) (hs : s ≤ 2 ^ 24) (hb0 : 0 < b) (hb : b ≤ 2 ^ 24) (hx : (s : ℚ) / b < f)
    (hg : f / 2 ^ 24 ≤ f - (s : ℚ) / b) : fullF f s b = false := by
  unfold fullF
  rw [fl_nat hs, fl_nat hb, decide_eq_false_iff_not, not_le]
  have hb' : (0 : ℚ) < b := by exact_mod_cast hb0
  have h1 : (1 : ℚ) / 2 ^ 24 ≤ (s : ℚ) / b := by
    rw [div_le_div_iff₀ (by positivity) hb']
    have h2 : (b : ℚ) ≤ 2 ^ 24 := by exact_mod_cast hb
    have h3 : (1 : ℚ) ≤ s := by exact_mod_cast h0
    nlinarith
  have h2 : (2 : ℚ) ^ (-126 : ℤ) ≤ (s : ℚ) / b := le_trans (by norm_num) h1
  have h3 := (abs_le.mp (fl_rel h2)).2
  have h4 : (s : ℚ) / b / 2 ^ 24 < f / 2 ^ 24 := div_lt_div_of_pos_right hx (by positivity)
  linarith

theorem isF32_ratio {p j : Nat} (hp : 0 < p) (h : p < 2 ^ 24) (hj : j ≤ 149) : IsF32 ((p : ℚ) / 2 ^ j) :=
  ⟨p, -j, hp, h, by omega, by rw [zpow_neg, zpow_natCast]; rfl⟩

/-- C81: with the maximal load factor `p / 2^j` and no more than `2^24 / p` buckets the comparison in `maybe_rehash` is exact. -/
theorem C81_full_exact {p j : Nat} (hp : 0 < p) (hp' : p < 2 ^ 24) (hj : j ≤ 149) {s b : Nat} (hs : s ≤ 2 ^ 24) (hb0 : 0 < b)
    (hb : p * b ≤ 2 ^ 24) : fullF ((p : ℚ) / 2 ^ j) s b = (Dense.LF.ratio p (2 ^ j)).full s b := by
  have hbb : b ≤ 2 ^ 24 := le_trans (Nat.le_mul_of_pos_left b hp) hb
  have hf := isF32_ratio hp hp' hj
  have hb' : (0 : ℚ) < b := by exact_mod_cast hb0
  unfold Dense.LF.ratio
  simp only
  by_cases h : p * b ≤ s * 2 ^ j
  · rw [decide_eq_true h]
    refine full_of_le hf hs hbb ?_
    rw [div_le_div_iff₀ (by positivity) hb']
    exact_mod_cast h
  · rw [decide_eq_false h]
    rcases Nat.eq_zero_or_pos s with h0 | h0
    · rw [h0]; exact not_full_zero hf.pos b
    · have hn : ((s * 2 ^ j + 1 : ℕ) : ℚ) ≤ ((p * b : ℕ) : ℚ) := by exact_mod_cast (by omega : s * 2 ^ j + 1 ≤ p * b)
      push_cast at hn
      have hg : (1 : ℚ) / (b * 2 ^ j) ≤ (p : ℚ) / 2 ^ j - (s : ℚ) / b := by
        rw [div_sub_div _ _ (by positivity) hb'.ne', div_le_div_iff₀ (by positivity) (by positivity)]
        have : (0 : ℚ) < 2 ^ j := by positivity
        have : (0 : ℚ) < 2 ^ j * b := by positivity
        nlinarith
      have hpos : (0 : ℚ) < 1 / (b * 2 ^ j) := by positivity
      refine not_full_of_gap h0 hs hb0 hbb (by linarith) (le_trans ?_ hg)
      rw [div_div, div_le_div_iff₀ (by positivity) (by positivity)]
      have : ((p * b : ℕ) : ℚ) ≤ ((2 ^ 24 : ℕ) : ℚ) := by exact_mod_cast hb
      push_cast at this
      have : (0 : ℚ) < 2 ^ j := by positivity
      nlinarith

/-- C81: for bucket counts divisible by `2^j`, as they arise by doubling from 8 with the initial factor 7/8, the comparison is exact as
long as both numbers are at most 2^24. -/
theorem C81_full_exact_multiple {p j : Nat} (hp : 0 < p) (hp' : p < 2 ^ 24) (hj : j ≤ 149) {s b : Nat} (hs : s ≤ 2 ^ 24) (hb0 : 0 < b)
    (hb : b ≤ 2 ^ 24) (hd : 2 ^ j ∣ b) (hpb : p * b ≤ 2 ^ 24 * 2 ^ j) :
    fullF ((p : ℚ) / 2 ^ j) s b = (Dense.LF.ratio p (2 ^ j)).full s b := by
  have hf := isF32_ratio hp hp' hj
  obtain ⟨c, rfl⟩ := hd
  have hc0 : 0 < c := Nat.pos_of_mul_pos_left hb0
  have hc' : (0 : ℚ) < c := by exact_mod_cast hc0
  unfold Dense.LF.ratio
  simp only
  have hpc : p * c ≤ 2 ^ 24 := by
    refine Nat.le_of_mul_le_mul_right ?_ (Nat.two_pow_pos j)
    rw [mul_assoc, mul_comm c]
    exact hpb
  have he : p * (2 ^ j * c) ≤ s * 2 ^ j ↔ p * c ≤ s := by
    rw [← mul_assoc, mul_comm p, mul_assoc, mul_comm s]
    exact Nat.mul_le_mul_left_iff (Nat.two_pow_pos j)
  by_cases h : p * c ≤ s
  · rw [decide_eq_true (he.mpr h)]
    refine full_of_le hf hs hb ?_
    push_cast
    rw [div_le_div_iff₀ (by positivity) (by positivity)]
    have : ((p * c : ℕ) : ℚ) ≤ s := by exact_mod_cast h
    push_cast at this
    have : (0 : ℚ) < 2 ^ j := by positivity
    nlinarith
  · rw [decide_eq_false (fun x => h (he.mp x))]
    rcases Nat.eq_zero_or_pos s with h0 | h0
    · rw [h0]; exact not_full_zero hf.pos _
    · have hn : ((s + 1 : ℕ) : ℚ) ≤ ((p * c : ℕ) : ℚ) := by exact_mod_cast (by omega : s + 1 ≤ p * c)
      push_cast at hn
      have hg : (1 : ℚ) / (2 ^ j * c) ≤ (p : ℚ) / 2 ^ j - (s : ℚ) / (2 ^ j * c) := by
        rw [show (p : ℚ) / 2 ^ j = p * c / (2 ^ j * c) by field_simp, ← sub_div]
        exact div_le_div_of_nonneg_right (by linarith) (by positivity)
      have hpos : (0 : ℚ) < 1 / (2 ^ j * c) := by positivity
      refine not_full_of_gap h0 hs hb0 hb (by push_cast; linarith) (by
        push_cast
        refine le_trans ?_ hg
        rw [div_div, div_le_div_iff₀ (by positivity) (by positivity)]
        have : ((p * c : ℕ) : ℚ) ≤ ((2 ^ 24 : ℕ) : ℚ) := by exact_mod_cast hpc
        push_cast at this
        have : (0 : ℚ) < 2 ^ j := by positivity
        nlinarith)

/-! ## Evaluation -/

theorem fl_eq {x : ℚ} (e : ℤ) (h1 : 2 ^ (e + 23) ≤ x) (h2 : x < 2 ^ (e + 24)) (he : -149 ≤ e) : fl x = rne (x / 2 ^ e) * 2 ^ e := by
  have hp : 0 < x := lt_of_lt_of_le (two_zpow_pos _) h1
  have h3 : Int.log 2 x < e + 24 := by
    rw [← Int.lt_zpow_iff_log_lt (by norm_num) hp]
    exact_mod_cast h2
  have h4 : e + 23 ≤ Int.log 2 x := by
    rw [← Int.zpow_le_iff_le_log (by norm_num) hp]
    exact_mod_cast h1
  have : expo x = e := by unfold expo; omega
  unfold fl
  rw [this]

theorem isF32_fl {x : ℚ} (h : 1 ≤ x) : IsF32 (fl x) := by
  have h1 : 1 ≤ fl x := le_fl (by simpa using isF32_pow 0) h
  have hp := two_zpow_pos (expo x)
  have h2 : 0 < rne (x / 2 ^ expo x) := by
    by_contra hc
    have h3 : (rne (x / 2 ^ expo x) : ℚ) ≤ 0 := by exact_mod_cast not_lt.mp hc
    have : fl x ≤ 0 := by
      unfold fl
      exact mul_nonpos_of_nonpos_of_nonneg h3 hp.le
    linarith
  have h3 : rne (x / 2 ^ expo x) ≤ 2 ^ 24 := by
    refine rne_le ?_
    rw [div_le_iff₀ hp]
    have := (lt_expo (x := x)).le
    rw [zpow_add₀ (by norm_num)] at this
    push_cast
    rw [mul_comm]
    exact this
  obtain ⟨m, hm⟩ := Int.eq_ofNat_of_zero_le h2.le
  have he : fl x = m * 2 ^ expo x := by
    unfold fl
    rw [hm]
    rfl
  have h149 : -149 ≤ expo x := by unfold expo; omega
  rcases Nat.lt_or_ge m (2 ^ 24) with h4 | h4
  · exact ⟨m, expo x, by omega, h4, h149, he⟩
  · have : m = 2 ^ 24 := by omega
    refine ⟨1, expo x + 24, by norm_num, by norm_num, by omega, ?_⟩
    rw [he, this, zpow_add₀ (by norm_num)]
    push_cast
    ring

theorem fl_natCast_scale {s k : Nat} (hk : k < 64) (h : 0 < s) : fl (fl s / fl ((2 ^ k : Nat) : ℚ)) = fl s / 2 ^ k := by
  have hs : (1 : ℚ) ≤ s := by exact_mod_cast h
  have h1 : 1 ≤ fl (s : ℚ) := le_fl (by simpa using isF32_pow 0) hs
  have h2 : fl ((2 ^ k : Nat) : ℚ) = 2 ^ k := by
    push_cast
    exact fl_exact (isF32_pow k)
  rw [h2]
  have h3 : fl (s : ℚ) / 2 ^ k = fl s * 2 ^ (-(k : ℤ)) := by
    rw [zpow_neg, zpow_natCast]
    rfl
  rw [h3, fl_scale, fl_exact (isF32_fl hs)]
  · exact le_trans (by norm_num) h1
  · have : (2 : ℚ) ^ (-126 : ℤ) ≤ 2 ^ (-(k : ℤ)) := zpow_le_zpow_right₀ (by norm_num) (by omega)
    have hp := two_zpow_pos (-(k : ℤ))
    nlinarith

/-! ## Beyond 2^24 elements -/

theorem fl_below {d : Nat} : fl ((29360127 : ℚ) * 2 ^ d) = 29360128 * 2 ^ d := by
  have hd0 : (1 : ℚ) ≤ 2 ^ d := one_le_pow₀ (by norm_num)
  have h := fl_scale (x := 29360127) (e := d) (by norm_num) (by
    rw [zpow_natCast]
    exact le_trans (by norm_num) (le_trans hd0 (by linarith)))
  rw [zpow_natCast] at h
  rw [h, fl_eq 1 (by norm_num) (by norm_num) (by norm_num)]
  congr 1
  have : ⌊(29360127 : ℚ) / 2 ^ (1 : ℤ)⌋ = 14680063 := by norm_num
  unfold rne
  rw [this]
  norm_num

theorem fl_far {s d : Nat} (h0 : 0 < s) (h : s + 2 ^ d < 29360128 * 2 ^ d) : fl (s : ℚ) < 29360128 * 2 ^ d := by
  have hc : (s : ℚ) + 2 ^ d < 29360128 * 2 ^ d := by exact_mod_cast h
  have hd : (0 : ℚ) < 2 ^ d := by positivity
  have e1 : (2 : ℚ) ^ ((d : ℤ) + 1 + 24) = 2 ^ d * 33554432 := by
    rw [zpow_add₀ (by norm_num), zpow_add₀ (by norm_num), zpow_natCast]
    norm_num
    ring
  have e2 : (2 : ℚ) ^ ((d : ℤ) + 1) = 2 ^ d * 2 := by
    rw [zpow_add₀ (by norm_num), zpow_natCast]
    norm_num
  have h3 := fl_err_le (x := (s : ℚ)) (e := (d : ℤ) + 1) (by exact_mod_cast h0) (by rw [e1]; linarith) (by omega)
  rw [e2] at h3
  have := (abs_le.mp h3).2
  linarith

/-- C81 for the initial factor 7/8 and 2^k ≥ 2^25 buckets, exactly: a container counts as full `2^(k-25)` elements too early. -/
theorem C81_full_pow {k : Nat} (hk : 25 ≤ k) (hk' : k < 64) (s : Nat) : fullF (7 / 8) s (2 ^ k) = true ↔ 7 * 2 ^ (k - 3) ≤ s + 2 ^ (k - 25) := by
  obtain ⟨d, rfl⟩ : ∃ d, k = d + 25 := ⟨k - 25, by omega⟩
  have hTn : 7 * 2 ^ (d + 25 - 3) = 29360128 * 2 ^ d := by
    rw [show d + 25 - 3 = 22 + d by omega, pow_add, ← mul_assoc]
    norm_num
  rw [hTn, show d + 25 - 25 = d by omega]
  rcases Nat.eq_zero_or_pos s with h0 | h0
  · rw [h0, not_full_zero (by norm_num)]
    have hd := Nat.two_pow_pos d
    simp only [Bool.false_eq_true, false_iff]
    generalize 2 ^ d = D at hd
    omega
  · unfold fullF
    rw [fl_natCast_scale hk' h0, decide_eq_true_eq, le_div_iff₀ (by positivity)]
    have hT : (7 : ℚ) / 8 * 2 ^ (d + 25) = 29360128 * 2 ^ d := by
      rw [pow_add, mul_comm ((2 : ℚ) ^ d), ← mul_assoc, show (7 : ℚ) / 8 * 2 ^ 25 = 29360128 by norm_num]
    rw [hT]
    constructor
    · intro h
      by_contra hc
      exact absurd h (not_le.mpr (fl_far h0 (not_le.mp hc)))
    · intro h
      have h' : (29360128 : ℚ) * 2 ^ d ≤ s + 2 ^ d := by exact_mod_cast h
      rw [← fl_below]
      exact fl_mono (by positivity) (by linarith)

/-- C81: too early, concretely: 29360127 of 2^25 buckets are less than 7/8. -/
theorem C81_early : fullF (7 / 8) 29360127 (2 ^ 25) = true ∧ ¬ 7 * 2 ^ 25 ≤ 29360127 * 8 :=
  ⟨(C81_full_pow (by norm_num) (by norm_num) _).mpr (by norm_num), by norm_num⟩

/-- C81: too late, concretely: 29360141 of 33554446 buckets are more than 7/8. -/
theorem C81_late : fullF (7 / 8) 29360141 33554446 = false ∧ 7 * 33554446 ≤ 29360141 * 8 := by
  refine ⟨?_, by norm_num⟩
  have h1 : fl ((29360141 : Nat) : ℚ) = 29360140 := by
    rw [fl_eq 1 (by norm_num) (by norm_num) (by norm_num)]
    have : ⌊((29360141 : Nat) : ℚ) / 2 ^ (1 : ℤ)⌋ = 14680070 := by norm_num
    unfold rne
    rw [this]
    norm_num
  have h2 : fl ((33554446 : Nat) : ℚ) = 33554448 := by
    rw [fl_eq 2 (by norm_num) (by norm_num) (by norm_num)]
    have : ⌊((33554446 : Nat) : ℚ) / 2 ^ (2 : ℤ)⌋ = 8388611 := by norm_num
    unfold rne
    rw [this]
    norm_num
  unfold fullF
  rw [h1, h2, decide_eq_false_iff_not, not_le]
  have := (abs_le.mp (fl_err_le (x := 29360140 / 33554448) (e := -24) (by norm_num) (by norm_num) (by norm_num))).2
  refine lt_of_le_of_lt (sub_le_iff_le_add.mp this) ?_
  norm_num

/-! ## Number of buckets for a number of elements -/

theorem isF32_floor {x : ℚ} (h1 : 1 ≤ x) (h : x ≤ 2 ^ 24) : IsF32 (⌊x⌋₊ : ℚ) :=
  isF32_nat (Nat.floor_pos.mpr h1) (by
    have := Nat.floor_mono h
    rw [show (2 : ℚ) ^ 24 = ((2 ^ 24 : ℕ) : ℚ) by norm_num, Nat.floor_natCast] at this
    exact this)

theorem floor_le_fl {x : ℚ} (h0 : 0 ≤ x) (h : x ≤ 2 ^ 24) : (⌊x⌋₊ : ℚ) ≤ fl x := by
  rcases lt_or_ge x 1 with h1 | h1
  · rw [Nat.floor_eq_zero.mpr h1]
    exact_mod_cast fl_nonneg h0
  · exact le_fl (isF32_floor h1 h) (Nat.floor_le h0)

theorem floor_ratio {p j n : Nat} : ⌊(n : ℚ) / ((p : ℚ) / 2 ^ j)⌋₊ = n * 2 ^ j / p := by
  rw [div_div_eq_mul_div, show (n : ℚ) * 2 ^ j = ((n * 2 ^ j : ℕ) : ℚ) by push_cast; rfl, Nat.floor_div_eq_div]

/-- C81: with the maximal load factor `p / 2^j`, for fewer than `2^24 / 2^j` elements the computed bucket count is the exact quotient
rounded down. -/
theorem C81_div_exact {p j n : Nat} (hp : 0 < p) (hp24 : p < 2 ^ 24) (hn : n * 2 ^ j < 2 ^ 24) :
    divF ((p : ℚ) / 2 ^ j) n = some ((Dense.LF.ratio p (2 ^ j)).div n) := by
  have hn' : n ≤ 2 ^ 24 := le_trans (Nat.le_mul_of_pos_right n (Nat.two_pow_pos j)) hn.le
  have hp' : (0 : ℚ) < p := by exact_mod_cast hp
  unfold divF Dense.LF.ratio
  simp only
  rw [fl_nat hn', ← floor_ratio]
  have hx : (n : ℚ) / ((p : ℚ) / 2 ^ j) = ((n * 2 ^ j : ℕ) : ℚ) / p := by
    rw [div_div_eq_mul_div]
    push_cast
    rfl
  rw [hx]
  rcases Nat.eq_zero_or_pos n with h0 | h0
  · rw [h0]
    simp only [Nat.zero_mul, Nat.cast_zero, zero_div, fl_zero]
    unfold toSize
    norm_num
  · have hN0 : 0 < n * 2 ^ j := Nat.mul_pos h0 (Nat.two_pow_pos j)
    generalize n * 2 ^ j = N at hn hN0
    have hN1 : (1 : ℚ) ≤ N := by exact_mod_cast hN0
    have hN2 : (N : ℚ) < 2 ^ 24 := by exact_mod_cast hn
    have hp1 : (1 : ℚ) ≤ p := by exact_mod_cast hp
    have hp2 : (p : ℚ) < 2 ^ 24 := by exact_mod_cast hp24
    have hx0 : (0 : ℚ) ≤ N / p := by positivity
    have hxle : (N : ℚ) / p ≤ 2 ^ 24 := by
      rw [div_le_iff₀ hp']
      nlinarith
    have hlow := floor_le_fl hx0 hxle
    have hxp : 2 ^ (-126 : ℤ) ≤ (N : ℚ) / p := by
      have : (1 : ℚ) / 2 ^ 24 ≤ N / p := by
        rw [div_le_div_iff₀ (by positivity) hp']
        nlinarith
      exact le_trans (by norm_num) this
    have hup : fl ((N : ℚ) / p) < ⌊(N : ℚ) / p⌋₊ + 1 := by
      have h1 := (abs_le.mp (fl_rel hxp)).2
      have h2 : (N : ℚ) / p + 1 / p ≤ ⌊(N : ℚ) / p⌋₊ + 1 := by
        rw [Nat.floor_div_eq_div, ← add_div, div_le_iff₀ hp']
        have h3 : N + 1 ≤ (N / p + 1) * p := by
          have := Nat.div_add_mod N p
          have := Nat.mod_lt N hp
          rw [Nat.add_mul, Nat.mul_comm]
          omega
        exact_mod_cast h3
      have h4 : (N : ℚ) / p / 2 ^ 24 < 1 / p := by
        rw [div_div, div_lt_div_iff₀ (by positivity) hp']
        nlinarith
      linarith
    unfold toSize
    rw [if_pos]
    · congr 1
      rw [Nat.floor_eq_iff (fl_nonneg hx0)]
      exact ⟨hlow, hup⟩
    · have : fl ((N : ℚ) / p) ≤ 2 ^ 24 := fl_le (by positivity) (by exact_mod_cast isF32_pow 24) hxle
      exact lt_of_le_of_lt this (by norm_num)

/-- C81: as long as elements and buckets are at most 2^24 the computed bucket count is the exact one or one more. -/
theorem C81_div_near {p j n : Nat} (hp : 0 < p) (hn : n ≤ 2 ^ 24) (hn' : n * 2 ^ j ≤ 2 ^ 24 * p) :
    ∃ d, divF ((p : ℚ) / 2 ^ j) n = some d ∧ n * 2 ^ j / p ≤ d ∧ d ≤ n * 2 ^ j / p + 1 := by
  have hp' : (0 : ℚ) < p := by exact_mod_cast hp
  unfold divF
  rw [fl_nat hn, ← floor_ratio]
  have hx : (n : ℚ) / ((p : ℚ) / 2 ^ j) = ((n * 2 ^ j : ℕ) : ℚ) / p := by
    rw [div_div_eq_mul_div]
    push_cast
    rfl
  rw [hx]
  have hxle : ((n * 2 ^ j : ℕ) : ℚ) / p ≤ 2 ^ 24 := by
    rw [div_le_iff₀ hp']
    exact_mod_cast hn'
  have hx0 : (0 : ℚ) ≤ ((n * 2 ^ j : ℕ) : ℚ) / p := by positivity
  generalize ((n * 2 ^ j : ℕ) : ℚ) / p = x at hxle hx0
  have hlt : fl x ≤ 2 ^ 24 := by
    rcases eq_or_lt_of_le hx0 with h | h
    · rw [← h, fl_zero]; norm_num
    · exact fl_le h (by exact_mod_cast isF32_pow 24) hxle
  refine ⟨⌊fl x⌋₊, ?_, Nat.le_floor (floor_le_fl hx0 hxle), ?_⟩
  · unfold toSize
    rw [if_pos (lt_of_le_of_lt hlt (by norm_num))]
  · rcases eq_or_lt_of_le hx0 with h | h
    · rw [← h, fl_zero]; simp
    · have h1 := Nat.lt_floor_add_one x
      by_cases h2 : ⌊x⌋₊ + 1 ≤ 2 ^ 24
      · have := fl_le h (isF32_nat (Nat.succ_pos _) h2) (by push_cast; exact h1.le)
        have h3 := Nat.floor_mono this
        rw [Nat.floor_natCast] at h3
        exact h3
      · have h3 := Nat.floor_mono hlt
        rw [show (2 : ℚ) ^ 24 = ((2 ^ 24 : ℕ) : ℚ) by norm_num, Nat.floor_natCast] at h3
        omega

/-- C81: one more, concretely (8/7 of 3670022 is 4194310.86, rounded to 4194311 before the fraction is cut off). -/
theorem C81_div_off : divF (7 / 8) 3670022 = some (3670022 * 8 / 7 + 1) := by
  unfold divF
  rw [fl_nat (by norm_num), fl_eq (-1) (by norm_num) (by norm_num) (by norm_num)]
  have : ⌊((3670022 : ℕ) : ℚ) / (7 / 8) / 2 ^ (-1 : ℤ)⌋ = 8388621 := by norm_num
  unfold rne
  rw [this]
  norm_num [toSize]

/-! ## reserve -/

/-- More buckets are not fuller. -/
theorem full_mono {f : ℚ} (hf : 0 < f) {s b b' : Nat} (hb : 0 < b) (h : b ≤ b') (h1 : fullF f s b' = true) : fullF f s b = true := by
  rcases Nat.eq_zero_or_pos s with h0 | h0
  · rw [h0, not_full_zero hf] at h1
    cases h1
  · unfold fullF at *
    rw [decide_eq_true_eq] at *
    have hb1 : (1 : ℚ) ≤ b := by exact_mod_cast hb
    have hs1 : (1 : ℚ) ≤ s := by exact_mod_cast h0
    have e1 : IsF32 1 := by simpa using isF32_pow 0
    have p1 := le_fl e1 hb1
    have p2 := le_fl e1 hs1
    have p3 : fl (b : ℚ) ≤ fl (b' : ℚ) := fl_mono (by linarith) (by exact_mod_cast h)
    refine h1.trans (fl_mono (div_pos (by linarith) (by linarith)) ?_)
    exact div_le_div_of_nonneg_left (by linarith) (by linarith) p3

theorem not_full_initial {s b : Nat} (hb0 : 0 < b) (hb : b ≤ 2 ^ 24) (h : 8 * s < 7 * b) (hg : b < 2 ^ 22 * (7 * b - 8 * s)) :
    fullF (7 / 8) s b = false := by
  rcases Nat.eq_zero_or_pos s with h0 | h0
  · rw [h0]; exact not_full_zero (by norm_num) b
  · unfold fullF
    rw [fl_nat (by omega), fl_nat hb, decide_eq_false_iff_not, not_le]
    have hb' : (0 : ℚ) < b := by exact_mod_cast hb0
    have hs' : (0 : ℚ) < s := by exact_mod_cast h0
    have h' : 8 * (s : ℚ) < 7 * b := by exact_mod_cast h
    have hg' : (b : ℚ) < 2 ^ 22 * (7 * b - 8 * s) := by
      have : (b : ℚ) < ((2 ^ 22 * (7 * b - 8 * s) : ℕ) : ℚ) := by exact_mod_cast hg
      rw [Nat.cast_mul, Nat.cast_sub h.le] at this
      push_cast at this
      exact this
    have hx : (s : ℚ) / b < 1 := by
      rw [div_lt_one hb']
      linarith
    have := (abs_le.mp (fl_err_le (x := (s : ℚ) / b) (e := -24) (by positivity) (by norm_num; exact hx) (by norm_num))).2
    refine lt_of_le_of_lt (sub_le_iff_le_add.mp this) ?_
    have h2 : (2 : ℚ) ^ (-24 : ℤ) / 2 = 1 / 33554432 := by norm_num
    rw [h2, ← lt_sub_iff_add_lt', div_lt_iff₀ hb']
    linarith

/-- Up to 7 * 2^21 elements the computed bucket count keeps the load below 7/8. -/
theorem div_initial {n : Nat} (h0 : 0 < n) (hn : n ≤ 7 * 2 ^ 21) :
    ∃ d, divF (7 / 8) n = some d ∧ 0 < d ∧ ∀ s < n, fullF (7 / 8) s d = false := by
  obtain ⟨d, e, h1, h2⟩ := C81_div_near (p := 7) (j := 3) (n := n) (by norm_num) (by omega) (by omega)
  have e' : divF (7 / 8) n = some d := by
    rw [← e]
    norm_num
  have hd0 : 0 < n * 2 ^ 3 / 7 := by omega
  refine ⟨d, e', by omega, fun s hs => ?_⟩
  by_cases hb : n * 2 ^ 3 < 7 * 2 ^ 23
  · have hf : fullF (7 / 8) s (n * 2 ^ 3 / 7) = false := not_full_initial hd0 (by omega) (by omega) (by omega)
    by_contra hc
    rw [Bool.not_eq_false] at hc
    rw [full_mono (by norm_num) hd0 h1 hc] at hf
    cases hf
  · have hx : fl ((n : ℚ) / (7 / 8)) = (rne ((n : ℚ) / (7 / 8)) : ℚ) ∧ n < 7 * 2 ^ 21 ∨ n = 7 * 2 ^ 21 := by
      by_cases hn' : n = 7 * 2 ^ 21
      · exact .inr hn'
      · left
        have hn1 : (n : ℚ) < 7 * 2 ^ 21 := by exact_mod_cast (by omega : n < 7 * 2 ^ 21)
        have hn2 : (7 * 2 ^ 23 : ℚ) ≤ n * 2 ^ 3 := by exact_mod_cast not_lt.mp hb
        rw [fl_eq 0 (by norm_num; linarith) (by norm_num; linarith) (by norm_num)]
        norm_num
        omega
    rcases hx with ⟨hx, _⟩ | hx
    · have h4 : (2 * 7 * d + 7 : ℤ) ≥ 16 * n := by
        unfold divF toSize at e'
        rw [fl_nat (by omega), hx] at e'
        have h5 := (abs_le.mp (rne_err ((n : ℚ) / (7 / 8)))).1
        split at e'
        · have h6 : rne ((n : ℚ) / (7 / 8)) ≤ d := by
            have : (0 : ℤ) ≤ rne ((n : ℚ) / (7 / 8)) := le_rne (by push_cast; positivity)
            obtain ⟨m, hm⟩ := Int.eq_ofNat_of_zero_le this
            rw [hm] at e' ⊢
            injection e' with e'
            rw [← e']
            rw [show ((m : ℤ) : ℚ) = (m : ℚ) from rfl, Nat.floor_natCast]
          have h7 : (rne ((n : ℚ) / (7 / 8)) : ℚ) ≤ d := by exact_mod_cast h6
          have h8 : (16 : ℚ) * n ≤ 2 * 7 * d + 7 := by linarith
          exact_mod_cast h8
        · cases e'
      exact not_full_initial (by omega) (by omega) (by omega) (by omega)
    · have : fl ((n : ℚ) / (7 / 8)) = 2 ^ 24 := by
        rw [hx, show (((7 * 2 ^ 21 : ℕ) : ℚ) / (7 / 8)) = 2 ^ 24 by norm_num]
        exact fl_exact (isF32_pow 24)
      unfold divF toSize at e'
      rw [fl_nat (by omega), this, if_pos (by norm_num)] at e'
      injection e' with e'
      have hd : d = 2 ^ 24 := by
        rw [← e', show (2 : ℚ) ^ 24 = ((2 ^ 24 : ℕ) : ℚ) by norm_num, Nat.floor_natCast]
      exact not_full_initial (by omega) (by omega) (by omega) (by omega)

end Tpp.F32

namespace Tpp.Dense

open F32

variable {k : Nat} {K V : Type} [DecidableEq K]

/-- C81, the guarantee of `reserve` (C75) in single precision: with the initial factor 7/8 it holds for up to 14680064 elements. -/
theorem C81_reserve_partial {hash : K → Nat} {t : Table k K V} (h : Reachable hash t) {l : List (Elem k K V)} (hl : t.iterate = .ok l)
    (hlf : t.lf = lfF (7 / 8)) {n : Nat} (hn : n ≤ 7 * 2 ^ 21) :
    ∃ t1, t.reserve n = .ok t1 ∧ Behaves hash t1 l ∧ ∀ xs : List (Elem k K V), l.length + xs.length ≤ n →
      ∃ t2, t1.inserts hash xs = .ok t2 ∧ t2.cap = t1.cap ∧ t2.bc = t1.bc := by
  have hi := h.of_iterate hl
  obtain ⟨t1, e1, i1, c1, _, f1, _, b1⟩ := reserve_ok hi n
  refine ⟨t1, e1, i1.behaves, fun xs hx => ?_⟩
  rcases Nat.eq_zero_or_pos n with h0 | h0
  · exact inserts_keep_lf xs i1 hx c1 (fun h => by omega) (fun s hs => by omega)
  · obtain ⟨d, hd, hd0, hf⟩ := div_initial h0 hn
    rw [hlf] at b1
    simp only [lfF, hd, Option.getD_some] at b1
    refine inserts_keep_lf xs i1 hx c1 (fun _ => by omega) (fun s hs => ?_)
    rw [f1, hlf]
    simp only [lfF]
    by_contra hc
    rw [Bool.not_eq_false] at hc
    have := full_mono (by norm_num) hd0 b1 hc
    rw [hf s hs] at this
    cases this

/-- C81: for 7 * 2^(k-3) elements with k ≥ 25 the guarantee is broken: `reserve` provides 2^k buckets, and inserting the elements rehashes. -/
theorem C81_reserve_false {hash : K → Nat} {m : Nat} (hm : 25 ≤ m) (hm' : m < 64) {xs : List (Elem k K V)}
    (hx : xs.length = 7 * 2 ^ (m - 3)) (hd : Distinct xs) :
    ∃ t1 t2, (Table.init (lfF (7 / 8)) : Table k K V).reserve (7 * 2 ^ (m - 3)) = .ok t1 ∧ t1.bc = 2 ^ m ∧
      t1.inserts hash xs = .ok t2 ∧ t2.bc ≠ t1.bc := by
  have hm3 : 2 ^ m = 2 ^ (m - 3) * 8 := by
    rw [show m = m - 3 + 3 by omega, pow_add]
    simp
  generalize hn : 7 * 2 ^ (m - 3) = n at hx
  have hn0 : 0 < n := by
    have := Nat.two_pow_pos (m - 3)
    omega
  have hdiv : (lfF (7 / 8)).div n = 2 ^ m := by
    simp only [lfF, divF]
    have h1 : IsF32 (n : ℚ) := ⟨7, (m - 3 : ℕ), by norm_num, by norm_num, by omega, by rw [← hn, zpow_natCast]; push_cast; rfl⟩
    rw [fl_exact h1]
    have h2 : (n : ℚ) / (7 / 8) = 2 ^ m := by
      have : (2 : ℚ) ^ m = 2 ^ (m - 3) * 8 := by exact_mod_cast hm3
      rw [this, ← hn]
      push_cast
      ring
    rw [h2, fl_exact (isF32_pow m)]
    unfold toSize
    rw [if_pos (pow_lt_pow_right₀ (by norm_num) hm'), Option.getD_some, show (2 : ℚ) ^ m = ((2 ^ m : ℕ) : ℚ) by push_cast; rfl,
      Nat.floor_natCast]
  have hdiv0 : (lfF (7 / 8)).div 0 = 0 := by
    simp only [lfF, divF, Nat.cast_zero, fl_zero, zero_div]
    norm_num [toSize]
  have hi : Inv hash (Table.init (lfF (7 / 8)) : Table k K V) [] := init_inv hash _
  obtain ⟨t0, e0, i0, c0, f0, b0⟩ := resizeData_ok hi (c := n) (Nat.zero_le _)
  obtain ⟨t1, e1, i1, c1, f1, _, _⟩ := rehash_ok i0 (t0.lf.div n)
  have hb1 := rehash_bc i0 e1
  have hlf0 : t0.lf = lfF (7 / 8) := f0
  have hbc1 : t1.bc = 2 ^ m := by
    have hs0 : t0.size = 0 := i0.size
    have hbz : t0.bc = 0 := b0
    have hpos := Nat.two_pow_pos m
    rw [hb1, hs0, hbz, hlf0, hdiv, hdiv0, if_neg (by omega)]
    omega
  have e2 : (Table.init (lfF (7 / 8)) : Table k K V).reserve n = .ok t1 := by
    unfold Table.reserve
    rw [if_pos (show n > (Table.init (lfF (7 / 8)) : Table k K V).cap from hn0), e0, bind_ok, e1]
  have hne : xs ≠ [] := by intro e; rw [e] at hx; simp at hx; omega
  obtain ⟨ys, x, rfl⟩ : ∃ ys x, xs = ys ++ [x] := ⟨xs.dropLast, xs.getLast hne, (List.dropLast_append_getLast hne).symm⟩
  have hdy : Distinct ys := (List.pairwise_append.mp hd).1
  obtain ⟨t3, e3, i3, f3⟩ := inserts_length ys i1 (fun i hi => conflict_take hdy hi)
  have hb3 := inserts_mono ys i1 e3
  obtain ⟨r, e4, hr⟩ := insert_ok i3 x.1 x.2
  have hb4 := insert_bc i3 e4
  have hs3 : t3.size = n - 1 := by
    rw [i3.size]
    simp only [List.length_append, List.length_cons, List.length_nil] at hx ⊢
    omega
  refine ⟨t1, r.1, e2, hbc1, ?_, ?_⟩
  · rw [inserts_append e3, inserts_cons e4]; rfl
  · rw [hb4, f3, f1, hlf0, hs3]
    have hpos := Nat.two_pow_pos m
    split
    · omega
    · rename_i hz
      split
      · omega
      · rename_i hf
        intro e
        rw [e, hbc1] at hf
        refine hf ((C81_full_pow hm hm' _).mpr ?_)
        have := Nat.two_pow_pos (m - 25)
        omega

end Tpp.Dense

namespace Tpp.F32

/-! ## Undefined conversions -/

/-- C81: `max_size()` (dense_table.hpp 334, 344, 481; `npos` is 2^64 - 1) is defined exactly if the maximal load factor is less than 1. -/
theorem C81_max_size {f : ℚ} (hf : IsF32 f) : mulF f (2 ^ 64 - 2) = if f < 1 then some ⌊2 ^ 64 * f⌋₊ else none := by
  have h1 : fl ((2 ^ 64 - 2 : ℕ) : ℚ) = 2 ^ 64 := by
    rw [fl_eq 40 (by norm_num) (by norm_num) (by norm_num)]
    have : ⌊((2 ^ 64 - 2 : ℕ) : ℚ) / 2 ^ (40 : ℤ)⌋ = 16777215 := by norm_num
    unfold rne
    rw [this]
    norm_num
  have h2 : IsF32 (2 ^ 64 * f) := by
    obtain ⟨m, e, a, b, c, rfl⟩ := hf
    refine ⟨m, e + 64, a, b, by omega, ?_⟩
    rw [zpow_add₀ (by norm_num)]
    have : (2 : ℚ) ^ (64 : ℤ) = 2 ^ 64 := by norm_num
    rw [this]
    ring
  unfold mulF
  rw [h1, fl_exact h2]
  unfold toSize
  congr 1
  exact propext ⟨fun h => by nlinarith, fun h => by nlinarith⟩

/-- C81: with a maximal load factor of at most `n / 2^64` the number of buckets for `n` elements (`rehash`, `reserve`) is undefined. -/
theorem C81_tiny {f : ℚ} (hf : 0 < f) {n : Nat} (hn : n ≤ 2 ^ 24) (h : f * 2 ^ 64 ≤ n) : divF f n = none := by
  unfold divF toSize
  rw [fl_nat hn, if_neg]
  rw [not_lt]
  refine le_fl (isF32_pow 64) ?_
  rw [le_div_iff₀ hf, mul_comm]
  exact h

/-- The initial factor: 7 of 8 buckets are full, 6 are not; 100 elements need 114 buckets. -/
example : fullF (7 / 8) 7 8 = true ∧ fullF (7 / 8) 6 8 = false ∧ divF (7 / 8) 100 = some 114 := by
  have h1 := C81_full_exact (p := 7) (j := 3) (s := 7) (b := 8) (by norm_num) (by norm_num) (by norm_num) (by norm_num) (by norm_num)
    (by norm_num)
  have h2 := C81_full_exact (p := 7) (j := 3) (s := 6) (b := 8) (by norm_num) (by norm_num) (by norm_num) (by norm_num) (by norm_num)
    (by norm_num)
  have h3 := C81_div_exact (p := 7) (j := 3) (n := 100) (by norm_num) (by norm_num) (by norm_num)
  norm_num [Dense.LF.ratio] at h1 h2 h3
  exact ⟨h1, h2, h3⟩

/-- The factor 1 is a `float`; `max_size()` is undefined. -/
example : IsF32 1 ∧ mulF 1 (2 ^ 64 - 2) = none := by
  have h : IsF32 1 := by simpa using isF32_pow 0
  exact ⟨h, by rw [C81_max_size h]; norm_num⟩

/-- The factor 2^-62 and five elements. -/
example : divF (1 / 2 ^ 62) 5 = none := C81_tiny (by norm_num) (by norm_num) (by norm_num)

end Tpp.F32

namespace Tpp.Dense

open F32

/-- An empty container with the initial factor: after `reserve(3)` three insertions leave the three buckets alone. -/
example : ∃ t1, (Table.init (lfF (7 / 8)) : Table 1 Nat Nat).reserve 3 = .ok t1 ∧
    ∃ t2, t1.inserts h3 [el 1 0, el 2 0, el 3 0] = .ok t2 ∧ t2.bc = t1.bc := by
  obtain ⟨t1, e, _, h⟩ := C81_reserve_partial (hash := h3) (Reachable.init _) (l := ([] : List (Elem 1 Nat Nat))) rfl rfl (n := 3) (by norm_num)
  obtain ⟨t2, e2, _, h2⟩ := h [el 1 0, el 2 0, el 3 0] (by simp)
  exact ⟨t1, e, t2, e2, h2⟩

end Tpp.Dense
