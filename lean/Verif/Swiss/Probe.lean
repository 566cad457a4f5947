import Verif.Capacity
import Mathlib.Data.Fintype.EquivFin
import Mathlib.Tactic.Ring

/-!
# Coverage of the probe sequence

The probe of `/repo/tpp/detail/swiss_table.hpp` 775-793 starts at `p`, and its `s`-th step advances by `s * W`
modulo `cap + 1`.  With `cap + 1 = 2^m` the windows of the first `(cap+1)/W` steps cover all slots.
-/

namespace Tpp

/-- `x & (2^m - 1)` is `x mod 2^m`. -/
theorem land_mask (x m : Nat) : x &&& (2 ^ m - 1) = x % 2 ^ m := by
  exact Nat.and_two_pow_sub_one_eq_mod x m

/-- Triangular numbers. -/
def tri : Nat → Nat
  | 0 => 0
  | s + 1 => tri s + (s + 1)

theorem two_tri (s : Nat) : 2 * tri s = s * (s + 1) := by
  induction s with
  | zero => rfl
  | succ s ih => simp only [tri, Nat.mul_add, ih]; ring

theorem pow_dvd_of_odd_mul {m a b : Nat} (hb : b % 2 = 1) (h : 2 ^ m ∣ a * b) : 2 ^ m ∣ a := by
  have : Nat.Coprime (2 ^ m) b := by
    apply Nat.Coprime.pow_left
    unfold Nat.Coprime
    rw [Nat.gcd_rec, hb]
    simp
  exact this.dvd_of_dvd_mul_right h

/-- The first `2^m` triangular numbers are distinct modulo `2^m`. -/
theorem tri_inj {m s t : Nat} (hst : t < s) (hs : s < 2 ^ m) : tri s % 2 ^ m ≠ tri t % 2 ^ m := by
  intro h
  have hle : tri t ≤ tri s := by
    clear h hs
    induction s with
    | zero => omega
    | succ s ih =>
      simp only [tri]
      rcases Nat.lt_succ_iff_lt_or_eq.mp hst with h | h
      · have := ih h; omega
      · subst h; omega
  have hd : 2 ^ m ∣ tri s - tri t := Nat.dvd_of_mod_eq_zero (Nat.sub_mod_eq_zero_of_mod_eq h)
  have h2 : 2 ^ (m + 1) ∣ (s - t) * (s + t + 1) := by
    have : (s - t) * (s + t + 1) = 2 * (tri s - tri t) := by
      rw [Nat.mul_sub, two_tri, two_tri]
      obtain ⟨d, rfl⟩ : ∃ d, s = t + d := ⟨s - t, by omega⟩
      have : t + d - t = d := by omega
      rw [this]
      have : (t + d) * (t + d + 1) = t * (t + 1) + d * (t + d + t + 1) := by ring
      omega
    rw [this, pow_succ, Nat.mul_comm]
    exact Nat.mul_dvd_mul_left 2 hd
  rcases Nat.mod_two_eq_zero_or_one (s - t) with he | ho
  · have hodd : (s + t + 1) % 2 = 1 := by omega
    have := pow_dvd_of_odd_mul hodd h2
    have := Nat.le_of_dvd (by omega) this
    rw [pow_succ] at this
    omega
  · rw [Nat.mul_comm] at h2
    have := pow_dvd_of_odd_mul ho h2
    have := Nat.le_of_dvd (by omega) this
    rw [pow_succ] at this
    omega

/-- The first `2^m` triangular numbers take every residue modulo `2^m`. -/
theorem tri_surj (m r : Nat) (hr : r < 2 ^ m) : ∃ s, s < 2 ^ m ∧ tri s % 2 ^ m = r := by
  let f : Fin (2 ^ m) → Fin (2 ^ m) := fun s => ⟨tri s.1 % 2 ^ m, Nat.mod_lt _ (Nat.two_pow_pos m)⟩
  have hinj : Function.Injective f := by
    intro a b hab
    have hab' : tri a.1 % 2 ^ m = tri b.1 % 2 ^ m := congrArg Fin.val hab
    rcases Nat.lt_trichotomy a.1 b.1 with h | h | h
    · exact absurd hab'.symm (tri_inj h b.2)
    · exact Fin.ext h
    · exact absurd hab' (tri_inj h a.2)
  obtain ⟨s, hs⟩ := Finite.injective_iff_surjective.mp hinj ⟨r, hr⟩
  exact ⟨s.1, s.2, congrArg Fin.val hs⟩

/-- Position of the probe after `s` steps, `N = cap + 1` (swiss_table.hpp 779-785). -/
def probePos (W N p : Nat) : Nat → Nat
  | 0 => p
  | s + 1 => (probePos W N p s + (s + 1) * W) % N

theorem probePos_lt {W N p : Nat} (hp : p < N) (s : Nat) : probePos W N p s < N := by
  cases s with
  | zero => exact hp
  | succ s => exact Nat.mod_lt _ (by omega)

theorem probePos_eq {W N p : Nat} (hp : p < N) (s : Nat) : probePos W N p s = (p + tri s * W) % N := by
  induction s with
  | zero => simp [probePos, tri, Nat.mod_eq_of_lt hp]
  | succ s ih =>
    simp only [probePos, tri, ih]
    rw [Nat.mod_add_mod]
    congr 1
    ring

/-- Cyclic distance from `p` to `i` modulo `N`. -/
def cdist (N p i : Nat) : Nat := (i + N - p) % N

theorem cdist_cases {N p i : Nat} (hp : p < N) (hi : i < N) :
    (p ≤ i ∧ cdist N p i = i - p) ∨ (i < p ∧ cdist N p i = i + N - p) := by
  unfold cdist
  rcases Nat.lt_or_ge i p with h | h
  · right; exact ⟨h, Nat.mod_eq_of_lt (by omega)⟩
  · left
    refine ⟨h, ?_⟩
    have : i + N - p = (i - p) + N := by omega
    rw [this, Nat.add_mod_right, Nat.mod_eq_of_lt (by omega)]

/-- Every slot is in the window of one of the first `2^m` steps when `N = 2^m * W`. -/
theorem probe_covers_big {W m p i : Nat} (hW : 0 < W) (hp : p < 2 ^ m * W) (hi : i < 2 ^ m * W) :
    ∃ s, s < 2 ^ m ∧ cdist (2 ^ m * W) (probePos W (2 ^ m * W) p s) i < W := by
  have hd : cdist (2 ^ m * W) p i < 2 ^ m * W := Nat.mod_lt _ (by omega)
  obtain ⟨s, hs, hr⟩ := tri_surj m (cdist (2 ^ m * W) p i / W)
    (by rw [Nat.div_lt_iff_lt_mul hW]; exact hd)
  refine ⟨s, hs, ?_⟩
  rw [probePos_eq hp]
  generalize hN : 2 ^ m * W = N at *
  have hN0 : 0 < N := by omega
  -- offset of the window start
  have hoff : (tri s * W) % N = cdist N p i / W * W := by
    rw [← hr, ← hN, Nat.mul_mod_mul_right]
  have hx : (p + tri s * W) % N = (p + cdist N p i / W * W) % N := by
    rw [Nat.add_mod, hoff, Nat.mod_add_mod]
  rw [hx]
  have hdm := Nat.div_add_mod (cdist N p i) W
  have hml := Nat.mod_lt (cdist N p i) hW
  rw [Nat.mul_comm] at hdm
  generalize cdist N p i / W * W = q at *
  generalize cdist N p i % W = r at *
  have hq : (p + q) % N < N := Nat.mod_lt _ hN0
  have hpq : (p + q < N ∧ (p + q) % N = p + q) ∨ (N ≤ p + q ∧ (p + q) % N = p + q - N) := by
    rcases Nat.lt_or_ge (p + q) N with h | h
    · left; exact ⟨h, Nat.mod_eq_of_lt h⟩
    · right
      refine ⟨h, ?_⟩
      rw [Nat.mod_eq_sub_mod h, Nat.mod_eq_of_lt (by omega)]
  rcases cdist_cases hp hi with ⟨h1, h2⟩ | ⟨h1, h2⟩ <;>
  rcases cdist_cases hq hi with ⟨h3, h4⟩ | ⟨h3, h4⟩ <;>
  rcases hpq with ⟨h5, h6⟩ | ⟨h5, h6⟩ <;> omega

end Tpp
