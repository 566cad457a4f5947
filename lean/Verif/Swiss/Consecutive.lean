import Mathlib.Algebra.BigOperators.Intervals
import Verif.Swiss.Cost

/-!
# Searches for keys whose hashes are close to each other

The position of a probe is taken from the hash without its last seven bits, and nothing mixes the bits (swiss_table.hpp 808-811, 1217).  Keys whose
hashes follow one another therefore start at few positions.
-/

set_option linter.unusedSectionVars false

namespace Tpp.Swiss

variable {K V : Type} [DecidableEq K]

/-- A search that succeeds after `b` blocks finds the key in the window of step `b - 1`. -/
theorem hit_window {isa : Isa} {hash : K → Nat} {t : Table K V} (h : Inv isa hash t) {k : K} {i : Nat} (hk : Holds t i k) :
    ∃ tr b, t.findNodeT isa k (hash k) = .ok (i, tr, b) ∧ 1 ≤ b ∧ InWin isa t.cap (wpos isa t.cap (hashHi (hash k)) (b - 1)) i := by
  have hc : 0 < t.cap := by have := hk.1; omega
  have hm := h.meta_ok hc
  obtain ⟨j, tr, b, e, e1, _⟩ := findNodeT_spec h k
  have hj : j = i := by
    rcases findNode_spec h k with ⟨a, n, ha, hn, hnk, e2⟩ | ⟨hno, _⟩
    · rw [e1] at e2
      cases e2
      obtain ⟨hi, n', hn', hk''⟩ := hk
      exact h.uniq _ ha _ hi _ _ hn hn' (hnk.trans hk''.symm)
    · obtain ⟨hi, n', hn', hk''⟩ := hk
      exact absurd hk'' (hno i hi n' hn')
  subst hj
  refine ⟨tr, b, e, ?_⟩
  unfold Table.findNodeT at e
  by_cases hz : t.size ≠ 0
  · rw [if_pos hz, land_cap hm] at e
    have := findLoopT_window h hc hk (fuel := t.cap + 1) (s := 0) (b := b) (tr := tr) (by simpa [wpos, probePos] using e)
    obtain ⟨g1, g2, _⟩ := this
    exact ⟨g1, by simpa using g2⟩
  · rw [if_neg hz] at e
    simp only [Except.ok.injEq, Prod.mk.injEq] at e
    have := hk.1
    omega

/-- A slot in the window of a step, counted from any base of the starting position. -/
theorem window_slot {isa : Isa} {cap A r s i : Nat} (hi : i < cap + 1) (hw : InWin isa cap (wpos isa cap (A + r) s) i) :
    ∃ o < isa.W, i = (A + tri s * isa.W + (r + o)) % (cap + 1) := by
  refine ⟨cdist (cap + 1) (wpos isa cap (A + r) s) i, hw, ?_⟩
  have hq : wpos isa cap (A + r) s < cap + 1 := by have := wpos_le isa cap (A + r) s; omega
  have he : wpos isa cap (A + r) s = (A + r + tri s * isa.W) % (cap + 1) := by
    unfold wpos
    rw [probePos_eq (Nat.mod_lt _ (by omega)), Nat.mod_add_mod]
  have h1 : (wpos isa cap (A + r) s + cdist (cap + 1) (wpos isa cap (A + r) s) i) % (cap + 1) = i := by
    rcases cdist_cases hq hi with ⟨g1, g2⟩ | ⟨g1, g2⟩
    · rw [g2, Nat.add_sub_cancel' g1, Nat.mod_eq_of_lt hi]
    · rw [g2, Nat.add_sub_cancel' (by omega), Nat.add_mod_right, Nat.mod_eq_of_lt hi]
  generalize cdist (cap + 1) (wpos isa cap (A + r) s) i = o at h1
  rw [← h1, he, Nat.mod_add_mod]
  congr 1
  omega

/-- Keys whose probes start at `S` neighbouring positions: few of them are found within the first `j` blocks. -/
theorem few_soon {isa : Isa} {hash : K → Nat} {t : Table K V} (h : Inv isa hash t) {n A S : Nat} {x : Nat → K} {p w : Nat → Nat}
    (hp : ∀ i < n, Holds t (p i) (x i)) (hinj : ∀ i < n, ∀ i' < n, x i = x i' → i = i')
    (hA : ∀ i < n, A ≤ hashHi (hash (x i)) ∧ hashHi (hash (x i)) < A + S)
    (hw : ∀ i < n, 1 ≤ w i ∧ InWin isa t.cap (wpos isa t.cap (hashHi (hash (x i))) (w i - 1)) (p i)) (j : Nat) :
    ((Finset.range n).filter (fun i => w i ≤ j)).card ≤ j * (S + isa.W - 1) := by
  have hW := isa.W_pos
  classical
  let f : Nat × Nat → Nat := fun q => (A + tri q.1 * isa.W + q.2) % (t.cap + 1)
  have hsub : ((Finset.range n).filter (fun i => w i ≤ j)).image p ⊆ (Finset.range j ×ˢ Finset.range (S + isa.W - 1)).image f := by
    intro q hq
    obtain ⟨i, hi, rfl⟩ := Finset.mem_image.mp hq
    obtain ⟨hi, hj⟩ := Finset.mem_filter.mp hi
    rw [Finset.mem_range] at hi
    obtain ⟨w1, w2⟩ := hw i hi
    obtain ⟨a1, a2⟩ := hA i hi
    rw [show hashHi (hash (x i)) = A + (hashHi (hash (x i)) - A) by omega] at w2
    obtain ⟨o, ho, e⟩ := window_slot (by have := (hp i hi).1; omega) w2
    refine Finset.mem_image.mpr ⟨(w i - 1, hashHi (hash (x i)) - A + o), ?_, e.symm⟩
    simp only [Finset.mem_product, Finset.mem_range]
    omega
  have hcard : (((Finset.range n).filter (fun i => w i ≤ j)).image p).card = ((Finset.range n).filter (fun i => w i ≤ j)).card := by
    refine Finset.card_image_of_injOn ?_
    intro i hi i' hi' e
    have h1 : i < n := by simpa using (Finset.mem_filter.mp hi).1
    have h2 : i' < n := by simpa using (Finset.mem_filter.mp hi').1
    obtain ⟨_, n1, e1, k1⟩ := hp i h1
    obtain ⟨_, n2, e2, k2⟩ := hp i' h2
    rw [e, e2] at e1
    cases e1
    exact hinj i h1 i' h2 (k1.symm.trans k2)
  rw [← hcard]
  refine (Finset.card_le_card hsub).trans (Finset.card_image_le.trans ?_)
  simp

/-- If at most `j * c` of `n` numbers are at most `j`, for every `j`, then their sum is at least `n * n / (2 * c)`. -/
theorem sum_large {n c : Nat} {w : Nat → Nat} (hc : 0 < c) (h : ∀ j, ((Finset.range n).filter (fun i => w i ≤ j)).card ≤ j * c) :
    n * n ≤ 2 * c * ∑ i ∈ Finset.range n, w i := by
  let m := (n + c - 1) / c
  have key : m * n ≤ ∑ i ∈ Finset.range n, w i + c * ∑ j ∈ Finset.range m, j := by
    have h1 : ∀ i, (∑ j ∈ Finset.range m, if j < w i then 1 else 0) ≤ w i := by
      intro i
      rw [← Finset.card_filter]
      calc _ ≤ (Finset.range (w i)).card := Finset.card_le_card (by intro j hj; simpa using (Finset.mem_filter.mp hj).2)
        _ = w i := by simp
    have h2 : ∑ j ∈ Finset.range m, (∑ i ∈ Finset.range n, if j < w i then 1 else 0) ≤ ∑ i ∈ Finset.range n, w i := by
      rw [Finset.sum_comm]
      exact Finset.sum_le_sum fun i _ => h1 i
    have h3 : ∀ j, n ≤ (∑ i ∈ Finset.range n, if j < w i then 1 else 0) + j * c := by
      intro j
      have := h j
      rw [← Finset.card_filter]
      have hs := Finset.card_filter_add_card_filter_not (s := Finset.range n) (fun i => w i ≤ j)
      have hnot : ((Finset.range n).filter (fun i => ¬ w i ≤ j)) = (Finset.range n).filter (fun i => j < w i) :=
        Finset.filter_congr fun i _ => by omega
      rw [hnot, Finset.card_range] at hs
      omega
    have h4 : ∑ _j ∈ Finset.range m, n ≤ ∑ j ∈ Finset.range m, ((∑ i ∈ Finset.range n, if j < w i then 1 else 0) + j * c) :=
      Finset.sum_le_sum fun j _ => h3 j
    rw [Finset.sum_add_distrib, ← Finset.sum_mul, Finset.sum_const, Finset.card_range, smul_eq_mul] at h4
    calc m * n ≤ _ := h4
      _ ≤ _ := by rw [Nat.mul_comm c]; exact Nat.add_le_add_right h2 _
  have hg := Finset.sum_range_id_mul_two m
  have hm1 : n ≤ m * c := by
    have := Nat.lt_div_mul_add (a := n + c - 1) hc
    show n ≤ (n + c - 1) / c * c
    omega
  have hm2 : m * c < n + c := by
    have := Nat.div_mul_le_self (n + c - 1) c
    show (n + c - 1) / c * c < n + c
    omega
  generalize (∑ i ∈ Finset.range n, w i) = X at *
  generalize (∑ j ∈ Finset.range m, j) = Y at *
  rcases Nat.eq_zero_or_pos m with h0 | hpos
  · have : n = 0 := by rw [h0] at hm1; omega
    subst this
    omega
  · obtain ⟨d, hd⟩ : ∃ d, m * c = n + d := ⟨m * c - n, by omega⟩
    have hdc : d < c := by omega
    obtain ⟨m', hm'⟩ : ∃ m', m = m' + 1 := ⟨m - 1, by omega⟩
    rw [hm'] at key hg hd
    rw [Nat.add_sub_cancel] at hg
    -- twice `c` times the inequality
    have k2 : 2 * c * ((m' + 1) * n) ≤ 2 * c * X + c * c * (Y * 2) := by nlinarith [Nat.mul_le_mul_left (2 * c) key]
    rw [hg] at k2
    have hd' : m' * c + c = n + d := by rw [← hd]; ring
    nlinarith [Nat.mul_le_mul hdc.le hdc.le]

end Tpp.Swiss
