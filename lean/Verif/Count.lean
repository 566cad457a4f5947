import Verif.Basic

/-!
# Counting and collecting over `0 … n-1`
-/

namespace Tpp

/-- Number of `i < n` with `p i`. -/
def cnt (p : Nat → Bool) : Nat → Nat
  | 0 => 0
  | n + 1 => cnt p n + (if p n then 1 else 0)

theorem cnt_congr {p q : Nat → Bool} {n : Nat} (h : ∀ i, i < n → p i = q i) : cnt p n = cnt q n := by
  induction n with
  | zero => rfl
  | succ n ih => simp only [cnt]; rw [ih (fun i hi => h i (by omega)), h n (by omega)]

theorem cnt_eq_length (p : Nat → Bool) (n : Nat) : cnt p n = ((List.range n).filter p).length := by
  induction n with
  | zero => rfl
  | succ n ih =>
    rw [List.range_succ, List.filter_append, List.length_append, ← ih]
    simp only [cnt]
    cases h : p n <;> simp [h]

theorem cnt_le (p : Nat → Bool) (n : Nat) : cnt p n ≤ n := by
  induction n with
  | zero => simp [cnt]
  | succ n ih => simp only [cnt]; split <;> omega

theorem cnt_pos {p : Nat → Bool} {n : Nat} (h : 0 < cnt p n) : ∃ i, i < n ∧ p i = true := by
  induction n with
  | zero => simp [cnt] at h
  | succ n ih =>
    simp only [cnt] at h
    by_cases hp : p n = true
    · exact ⟨n, by omega, hp⟩
    · simp [hp] at h
      obtain ⟨i, hi, hpi⟩ := ih h
      exact ⟨i, by omega, hpi⟩

theorem cnt_eq_zero {p : Nat → Bool} {n : Nat} (h : ∀ i, i < n → p i = false) : cnt p n = 0 := by
  induction n with
  | zero => rfl
  | succ n ih => simp only [cnt]; rw [ih (fun i hi => h i (by omega)), h n (by omega)]; simp

theorem cnt_pos_of {p : Nat → Bool} {n i : Nat} (hi : i < n) (hp : p i = true) : 0 < cnt p n := by
  induction n with
  | zero => omega
  | succ n ih =>
    simp only [cnt]
    by_cases h : i = n
    · subst h; simp [hp]
    · have := ih (by omega); omega

/-- Changing the predicate at one index. -/
theorem cnt_update {p q : Nat → Bool} {n i : Nat} (hi : i < n) (h : ∀ j, j < n → j ≠ i → q j = p j) :
    cnt q n + (if p i then 1 else 0) = cnt p n + (if q i then 1 else 0) := by
  induction n with
  | zero => omega
  | succ n ih =>
    simp only [cnt]
    by_cases e : i = n
    · subst e
      have : cnt q i = cnt p i := cnt_congr (fun j hj => h j (by omega) (by omega))
      omega
    · have := ih (by omega) (fun j hj hne => h j (by omega) hne)
      rw [h n (by omega) (by omega)]
      omega

/-- Three predicates of which exactly one holds everywhere. -/
theorem cnt_three {p q r : Nat → Bool} {n : Nat}
    (h : ∀ i, i < n → (if p i then 1 else 0) + (if q i then 1 else 0) + (if r i then 1 else 0) = 1) :
    cnt p n + cnt q n + cnt r n = n := by
  induction n with
  | zero => rfl
  | succ n ih =>
    simp only [cnt]
    have := ih (fun i hi => h i (by omega))
    have := h n (by omega)
    omega

/-- Loop invariant rule for `for (i = 0; i < n; ++i)`. -/
theorem foldlM_range {σ : Type} {f : σ → Nat → M σ} (P : Nat → σ → Prop) (n : Nat) {s : σ} (h0 : P 0 s)
    (hstep : ∀ i, i < n → ∀ s, P i s → ∃ s', f s i = .ok s' ∧ P (i + 1) s') :
    ∃ s', (List.range n).foldlM f s = .ok s' ∧ P n s' := by
  induction n with
  | zero => exact ⟨s, rfl, h0⟩
  | succ n ih =>
    obtain ⟨s1, h1, h2⟩ := ih (fun i hi s hs => hstep i (by omega) s hs)
    obtain ⟨s2, h3, h4⟩ := hstep n (by omega) s1 h2
    refine ⟨s2, ?_, h4⟩
    rw [List.range_succ, List.foldlM_append, h1]
    simp [h3]

section Collect

variable {α : Type}

/-- The values at `0 … n-1`, in order. -/
def collect (f : Nat → Option α) (n : Nat) : List α := (List.range n).filterMap f

theorem collect_succ (f : Nat → Option α) (n : Nat) :
    collect f (n + 1) = collect f n ++ (f n).toList := by
  simp only [collect, List.range_succ, List.filterMap_append]
  cases h : f n <;> simp [h]

@[simp] theorem collect_zero (f : Nat → Option α) : collect f 0 = [] := rfl

theorem collect_congr {f g : Nat → Option α} {n : Nat} (h : ∀ i, i < n → f i = g i) :
    collect f n = collect g n := by
  induction n with
  | zero => rfl
  | succ n ih => rw [collect_succ, collect_succ, ih (fun i hi => h i (by omega)), h n (by omega)]

theorem mem_collect {f : Nat → Option α} {n : Nat} {a : α} : a ∈ collect f n ↔ ∃ i, i < n ∧ f i = some a := by
  simp [collect]

theorem collect_none {f : Nat → Option α} {n : Nat} (h : ∀ i, i < n → f i = none) : collect f n = [] := by
  induction n with
  | zero => rfl
  | succ n ih => rw [collect_succ, ih (fun i hi => h i (by omega)), h n (by omega)]; rfl

theorem collect_length (f : Nat → Option α) (n : Nat) : (collect f n).length = cnt (fun i => (f i).isSome) n := by
  induction n with
  | zero => rfl
  | succ n ih => rw [collect_succ, List.length_append, ih, cnt]; cases f n <;> simp

/-- Filling a vacant index adds the value, up to order. -/
theorem collect_fill {f g : Nat → Option α} {n i : Nat} {a : α} (hi : i < n) (hf : f i = none)
    (hg : g i = some a) (h : ∀ j, j < n → j ≠ i → g j = f j) : (collect g n).Perm (a :: collect f n) := by
  induction n with
  | zero => omega
  | succ n ih =>
    rw [collect_succ, collect_succ]
    by_cases e : i = n
    · subst e
      rw [hf, hg, collect_congr (g := f) (fun j hj => h j (by omega) (by omega))]
      simp
    · rw [h n (by omega) (by omega)]
      exact (ih (by omega) (fun j hj hne => h j (by omega) hne)).append_right _

/-- Changing the value at one index. -/
theorem collect_change {f g : Nat → Option α} {n i : Nat} {a b : α} (hi : i < n) (hf : f i = some a)
    (hg : g i = some b) (h : ∀ j, j < n → j ≠ i → g j = f j) :
    ∃ rest, (collect f n).Perm (a :: rest) ∧ (collect g n).Perm (b :: rest) := by
  refine ⟨collect (upd f i none) n, ?_, ?_⟩
  · exact collect_fill hi (by simp) hf (fun j _ hne => by rw [upd_ne _ _ hne])
  · exact collect_fill hi (by simp) hg (fun j hj hne => by rw [upd_ne _ _ hne]; exact h j hj hne)

/-- Exchanging two indices keeps the values, up to order. -/
theorem collect_swap {f g : Nat → Option α} {n i j : Nat} (hi : i < n) (hj : j < n) (hij : i ≠ j)
    (h1 : g i = f j) (h2 : g j = f i) (h : ∀ k, k < n → k ≠ i → k ≠ j → g k = f k) :
    (collect g n).Perm (collect f n) := by
  -- compare both with the table where `i` and `j` are vacant
  have key : ∀ (e : Nat → Option α), (∀ k, k < n → k ≠ i → k ≠ j → e k = f k) →
      (collect e n).Perm ((e i).toList ++ (e j).toList ++ collect (upd (upd f i none) j none) n) := by
    intro e he
    have base : (collect (upd (upd e i none) j none) n) = collect (upd (upd f i none) j none) n := by
      apply collect_congr
      intro k hk
      simp only [upd_apply]
      by_cases h1 : k = j
      · simp [h1]
      · by_cases h2 : k = i
        · simp [h2]
        · simp [h1, h2, he k hk h2 h1]
    have step1 : (collect (upd e i none) n).Perm ((e j).toList ++ collect (upd (upd f i none) j none) n) := by
      rw [← base]
      cases hej : e j with
      | none =>
        rw [collect_congr (f := upd e i none) (g := upd (upd e i none) j none)]
        · simp
        · intro k hk
          by_cases hkj : k = j
          · subst hkj; simp [upd_apply, hej]
          · rw [upd_ne _ _ hkj]
      | some a =>
        have : (upd e i none) j = some a := by rw [upd_ne _ _ (Ne.symm hij)]; exact hej
        simpa using collect_fill (f := upd (upd e i none) j none) (g := upd e i none) hj (by simp) this
          (fun k _ hne => by rw [upd_ne _ _ hne])
    cases hei : e i with
    | none =>
      have : collect e n = collect (upd e i none) n := by
        apply collect_congr
        intro k hk
        by_cases hki : k = i
        · subst hki; simp [hei]
        · rw [upd_ne _ _ hki]
      rw [this]; simpa using step1
    | some a =>
      have := collect_fill (f := upd e i none) (g := e) hi (by simp) hei (fun k _ hne => by rw [upd_ne _ _ hne])
      simpa using this.trans (step1.cons a)
  refine (key g h).trans (List.Perm.trans ?_ (key f (fun _ _ _ _ => rfl)).symm)
  rw [h1, h2]
  exact List.perm_append_comm.append_right _

end Collect
end Tpp
