import Mathlib.Algebra.Order.Field.Power
import Mathlib.Algebra.Order.Floor.Semifield
import Mathlib.Data.Int.Log
import Mathlib.Data.Rat.Floor
import Mathlib.Tactic.Linarith
import Mathlib.Tactic.Positivity
import Mathlib.Tactic.NormNum
import Mathlib.Tactic.FieldSimp
import Mathlib.Tactic.Ring
import Verif.Dense.Faults

/-!
# Single precision arithmetic of the load factor

Dense containers compute with `float` (dense_table.hpp 336, 361, 449, 481, 779).  A `float` that occurs there is a non-negative rational
number; every operation rounds the exact result to the nearest representable number, ties to an even significand (IEEE 754 binary32, no
extra precision, as on x86-64).  Results of 2^128 and more, which IEEE 754 turns into infinity, are kept as numbers: they are only compared
with smaller ones or converted to `size_type`, which is undefined from 2^64 on in either case.
-/

namespace Tpp.F32

/-- Rounding to the nearest integer, ties to even. -/
def rne (x : ℚ) : ℤ :=
  if x - ⌊x⌋ < 1 / 2 then ⌊x⌋ else if 1 / 2 < x - ⌊x⌋ then ⌊x⌋ + 1 else if ⌊x⌋ % 2 = 0 then ⌊x⌋ else ⌊x⌋ + 1

/-- The exponent of the last place of the representation of `x`: 24 significant bits, none below 2^-149. -/
def expo (x : ℚ) : ℤ := max (Int.log 2 x - 23) (-149)

/-- The `float` nearest to `x`. -/
def fl (x : ℚ) : ℚ := rne (x / 2 ^ expo x) * 2 ^ expo x

/-- `f` is a positive `float` (without an upper limit of the exponent). -/
def IsF32 (f : ℚ) : Prop := ∃ (m : ℕ) (e : ℤ), 0 < m ∧ m < 2 ^ 24 ∧ -149 ≤ e ∧ f = m * 2 ^ e

/-- `static_cast<size_type>(x)`; undefined (`none`) where the integral part does not fit ([conv.fpint]). -/
def toSize (x : ℚ) : Option Nat := if x < 2 ^ 64 then some ⌊x⌋₊ else none

/-- `static_cast<size_type>(static_cast<float>(n) / m_max_load_factor)` (dense_table.hpp 361, 449). -/
def divF (f : ℚ) (n : Nat) : Option Nat := toSize (fl (fl n / f))

/-- `to_load_factor(n)` (dense_table.hpp 481). -/
def mulF (f : ℚ) (n : Nat) : Option Nat := toSize (fl (fl n * f))

/-- `load_factor() >= m_max_load_factor` (dense_table.hpp 336, 779) for a positive bucket count. -/
def fullF (f : ℚ) (s b : Nat) : Bool := decide (f ≤ fl (fl s / fl b))

/-- What the maximal load factor `f` determines in the model of dense containers. -/
def lfF (f : ℚ) : Dense.LF := { div := fun n => (divF f n).getD 0, full := fullF f }

/-! ## Rounding to integers -/

theorem rne_le {x : ℚ} {n : ℤ} (h : x ≤ n) : rne x ≤ n := by
  have h1 : ⌊x⌋ ≤ n := Int.floor_le_iff.mpr (by linarith)
  unfold rne
  by_cases h2 : ⌊x⌋ = n
  · have : x = n := le_antisymm h (by rw [← h2]; exact Int.floor_le x)
    rw [if_pos]
    · omega
    · rw [h2, this]; norm_num
  · split_ifs <;> omega

theorem le_rne {x : ℚ} {n : ℤ} (h : (n : ℚ) ≤ x) : n ≤ rne x := by
  have h1 : n ≤ ⌊x⌋ := Int.le_floor.mpr h
  unfold rne
  split_ifs <;> omega

theorem rne_int (n : ℤ) : rne n = n := le_antisymm (rne_le le_rfl) (le_rne le_rfl)

theorem rne_mono {x y : ℚ} (h : x ≤ y) : rne x ≤ rne y := by
  rcases lt_or_eq_of_le (Int.floor_mono h) with h1 | h1
  · calc rne x ≤ ⌊x⌋ + 1 := by unfold rne; split_ifs <;> omega
      _ ≤ ⌊y⌋ := h1
      _ ≤ rne y := by unfold rne; split_ifs <;> omega
  · unfold rne
    rw [← h1]
    have h2 : x - ⌊x⌋ ≤ y - ⌊x⌋ := by linarith
    split_ifs <;> first | omega | (exfalso; linarith)

theorem rne_err (x : ℚ) : |(rne x : ℚ) - x| ≤ 1 / 2 := by
  have h1 := Int.floor_le x
  have h2 := Int.lt_floor_add_one x
  rw [abs_le]
  unfold rne
  split_ifs <;> push_cast <;> constructor <;> linarith

/-! ## Rounding to floats -/

theorem two_zpow_pos (e : ℤ) : (0 : ℚ) < 2 ^ e := by positivity

theorem lt_expo {x : ℚ} : x < 2 ^ (expo x + 24) := by
  have h := Int.lt_zpow_succ_log_self (b := 2) (by norm_num) x
  push_cast at h
  refine lt_of_lt_of_le h (zpow_le_zpow_right₀ (by norm_num) ?_)
  unfold expo
  omega

theorem fl_zero : fl 0 = 0 := by
  unfold fl
  rw [zero_div]
  have := rne_int 0
  push_cast at this
  rw [this]
  simp

theorem fl_err {x : ℚ} : |fl x - x| ≤ 2 ^ expo x / 2 := by
  have hp := two_zpow_pos (expo x)
  have h := rne_err (x / 2 ^ expo x)
  have e : fl x - x = (rne (x / 2 ^ expo x) - x / 2 ^ expo x) * 2 ^ expo x := by
    unfold fl
    field_simp
  rw [e, abs_mul, abs_of_pos hp]
  calc _ ≤ 1 / 2 * (2 : ℚ) ^ expo x := mul_le_mul_of_nonneg_right h hp.le
    _ = _ := by ring

/-- A float is its own rounding. -/
theorem fl_exact {f : ℚ} (h : IsF32 f) : fl f = f := by
  obtain ⟨m, e, h0, h1, h2, rfl⟩ := h
  have hpos : (0 : ℚ) < m * 2 ^ e := by positivity
  have hlog : Int.log 2 ((m : ℚ) * 2 ^ e) < e + 24 := by
    rw [← Int.lt_zpow_iff_log_lt (by norm_num) hpos]
    push_cast
    rw [zpow_add₀ (by norm_num), mul_comm]
    exact mul_lt_mul_of_pos_left (by exact_mod_cast h1) (two_zpow_pos e)
  have hle : expo ((m : ℚ) * 2 ^ e) ≤ e := by unfold expo; omega
  obtain ⟨d, hd⟩ := Int.eq_ofNat_of_zero_le (sub_nonneg.mpr hle)
  have he : (m : ℚ) * 2 ^ e / 2 ^ expo ((m : ℚ) * 2 ^ e) = ((m * 2 ^ d : ℤ) : ℚ) := by
    rw [mul_div_assoc, ← zpow_sub₀ (by norm_num), hd]
    push_cast
    rw [zpow_natCast]
  unfold fl
  rw [he, rne_int, ← he, div_mul_cancel₀ _ (two_zpow_pos _).ne']

theorem fl_nonneg {x : ℚ} (h : 0 ≤ x) : 0 ≤ fl x := by
  unfold fl
  have : (0 : ℤ) ≤ rne (x / 2 ^ expo x) := le_rne (by push_cast; positivity)
  have h2 : (0 : ℚ) ≤ (rne (x / 2 ^ expo x) : ℚ) := by exact_mod_cast this
  positivity

/-- Rounding is monotone. -/
theorem fl_mono {x y : ℚ} (h0 : 0 < x) (h : x ≤ y) : fl x ≤ fl y := by
  have hy := lt_of_lt_of_le h0 h
  have he : expo x ≤ expo y := by
    have := Int.log_mono_right (b := 2) h0 h
    unfold expo
    omega
  rcases eq_or_lt_of_le he with h1 | h1
  · unfold fl
    rw [h1]
    have hr : rne (x / 2 ^ expo y) ≤ rne (y / 2 ^ expo y) := rne_mono (div_le_div_of_nonneg_right h (two_zpow_pos _).le)
    exact mul_le_mul_of_nonneg_right (by exact_mod_cast hr) (two_zpow_pos _).le
  · have h2 : fl x ≤ 2 ^ (expo x + 24) := by
      unfold fl
      have : rne (x / 2 ^ expo x) ≤ 2 ^ 24 := by
        refine rne_le ?_
        rw [div_le_iff₀ (two_zpow_pos _)]
        have := (lt_expo (x := x)).le
        rw [zpow_add₀ (by norm_num)] at this
        push_cast
        rw [mul_comm]
        exact this
      have hq : (rne (x / 2 ^ expo x) : ℚ) ≤ 2 ^ 24 := by exact_mod_cast this
      rw [zpow_add₀ (by norm_num), mul_comm]
      exact mul_le_mul_of_nonneg_left (by exact_mod_cast hq) (two_zpow_pos _).le
    have h3 : 2 ^ (expo y + 23) ≤ fl y := by
      unfold fl
      have hx : expo y + 23 = Int.log 2 y := by
        have : -149 ≤ expo x := by unfold expo; omega
        have : expo y = max (Int.log 2 y - 23) (-149) := rfl
        omega
      have h4 := Int.zpow_log_le_self (b := 2) (by norm_num) hy
      push_cast at h4
      rw [← hx] at h4
      have : 2 ^ 23 ≤ rne (y / 2 ^ expo y) := by
        refine le_rne ?_
        rw [le_div_iff₀ (two_zpow_pos _)]
        rw [zpow_add₀ (by norm_num)] at h4
        push_cast
        rw [mul_comm]
        exact h4
      have hq : (2 : ℚ) ^ 23 ≤ (rne (y / 2 ^ expo y) : ℚ) := by exact_mod_cast this
      rw [zpow_add₀ (by norm_num), mul_comm ((2 : ℚ) ^ expo y)]
      exact mul_le_mul_of_nonneg_right (by exact_mod_cast hq) (two_zpow_pos _).le
    refine h2.trans (le_trans (zpow_le_zpow_right₀ (by norm_num) ?_) h3)
    omega

theorem fl_le {x f : ℚ} (h0 : 0 < x) (hf : IsF32 f) (h : x ≤ f) : fl x ≤ f := by
  rw [← fl_exact hf]
  exact fl_mono h0 h

theorem IsF32.pos {f : ℚ} (h : IsF32 f) : 0 < f := by
  obtain ⟨m, e, h0, h1, h2, rfl⟩ := h
  positivity

theorem le_fl {x f : ℚ} (hf : IsF32 f) (h : f ≤ x) : f ≤ fl x := by
  rw [← fl_exact hf]
  exact fl_mono hf.pos h

/-- The error is at most half a unit in the last place of any binade that contains or exceeds the number. -/
theorem fl_err_le {x : ℚ} {e : ℤ} (h0 : 0 < x) (h : x < 2 ^ (e + 24)) (he : -149 ≤ e) : |fl x - x| ≤ 2 ^ e / 2 := by
  refine fl_err.trans ?_
  have h1 : Int.log 2 x < e + 24 := by
    rw [← Int.lt_zpow_iff_log_lt (by norm_num) h0]
    push_cast
    exact h
  have : expo x ≤ e := by unfold expo; omega
  have := zpow_le_zpow_right₀ (a := (2 : ℚ)) (by norm_num) this
  linarith

/-- The relative error is at most 2^-24. -/
theorem fl_rel {x : ℚ} (h0 : 2 ^ (-126 : ℤ) ≤ x) : |fl x - x| ≤ x / 2 ^ 24 := by
  have hp : 0 < x := lt_of_lt_of_le (by positivity) h0
  refine fl_err.trans ?_
  have h1 : -126 ≤ Int.log 2 x := by
    rw [← Int.zpow_le_iff_le_log (by norm_num) hp]
    push_cast
    exact h0
  have h2 : expo x = Int.log 2 x - 23 := by unfold expo; omega
  have h3 := Int.zpow_log_le_self (b := 2) (by norm_num) hp
  push_cast at h3
  rw [h2, zpow_sub₀ (by norm_num), div_div]
  rw [div_le_div_iff₀ (by positivity) (by positivity)]
  have : (2 : ℚ) ^ (23 : ℤ) * 2 = 2 ^ 24 := by norm_num
  rw [this]
  exact mul_le_mul_of_nonneg_right h3 (by norm_num)

/-- Scaling by a power of two commutes with rounding as long as no denormalized numbers occur. -/
theorem fl_scale {x : ℚ} (h0 : 2 ^ (-126 : ℤ) ≤ x) {e : ℤ} (h1 : 2 ^ (-126 : ℤ) ≤ x * 2 ^ e) : fl (x * 2 ^ e) = fl x * 2 ^ e := by
  have hp : 0 < x := lt_of_lt_of_le (by positivity) h0
  have hq : 0 < x * 2 ^ e := lt_of_lt_of_le (by positivity) h1
  have a1 : -126 ≤ Int.log 2 x := by
    rw [← Int.zpow_le_iff_le_log (by norm_num) hp]
    exact_mod_cast h0
  have hl : Int.log 2 (x * 2 ^ e) = Int.log 2 x + e := by
    have u1 := Int.zpow_log_le_self (b := 2) (by norm_num) hp
    have u2 := Int.lt_zpow_succ_log_self (b := 2) (by norm_num) x
    push_cast at u1 u2
    apply le_antisymm
    · rw [← Int.lt_add_one_iff, ← Int.lt_zpow_iff_log_lt (by norm_num) hq]
      push_cast
      rw [show Int.log 2 x + e + 1 = Int.log 2 x + 1 + e by ring, zpow_add₀ (by norm_num)]
      exact mul_lt_mul_of_pos_right u2 (two_zpow_pos e)
    · rw [← Int.zpow_le_iff_le_log (by norm_num) hq]
      push_cast
      rw [zpow_add₀ (by norm_num)]
      exact mul_le_mul_of_nonneg_right u1 (two_zpow_pos e).le
  have a2 : -126 ≤ Int.log 2 (x * 2 ^ e) := by
    rw [← Int.zpow_le_iff_le_log (by norm_num) hq]
    exact_mod_cast h1
  have h2 : expo x = Int.log 2 x - 23 := by unfold expo; omega
  have h3 : expo (x * 2 ^ e) = expo x + e := by
    rw [h2]
    unfold expo
    omega
  unfold fl
  rw [h3, zpow_add₀ (by norm_num), mul_div_mul_right _ _ (two_zpow_pos e).ne']
  ring

/-! ## Whole numbers -/

theorem isF32_nat {n : Nat} (h0 : 0 < n) (h : n ≤ 2 ^ 24) : IsF32 n := by
  rcases Nat.lt_or_ge n (2 ^ 24) with h1 | h1
  · exact ⟨n, 0, h0, h1, by norm_num, by simp⟩
  · have : n = 2 ^ 24 := by omega
    exact ⟨1, 24, by norm_num, by norm_num, by norm_num, by rw [this]; norm_num⟩

theorem fl_nat {n : Nat} (h : n ≤ 2 ^ 24) : fl n = n := by
  rcases Nat.eq_zero_or_pos n with h0 | h0
  · rw [h0]; push_cast; exact fl_zero
  · exact fl_exact (isF32_nat h0 h)

theorem isF32_pow (k : Nat) : IsF32 (2 ^ k) := ⟨1, k, by norm_num, by norm_num, by omega, by simp⟩

end Tpp.F32
