import Verif.Dense.Amortized
import Verif.Props.F32

/-!
# C96: making room costs a constant per insertion on average (dense containers)

`runW` is a history with the work of making room counted (`Verif.Dense.Amortized`): nodes allocated and moved by `resize_data`, buckets
filled and nodes put into chains by `do_rehash`.  Without the counts it is the history of the other theorems (`runW_fst`).
-/

set_option linter.unusedSectionVars false

namespace Tpp.Dense

variable {k : Nat} {K V : Type} [DecidableEq K]

/-- C96, from any container with at most `lo` elements per bucket: the work of a history of insertions, erasures and the like is at most
linear in the number of elements there are and the number handed to insertions.  A history with a fixed maximal load factor; no calls of
`reserve` or `rehash` and no ranges with random access iterators. -/
theorem C96_from_partial {lo hi : Nat} {hash : K → Nat} {t : Table k K V} (h : Reachable hash t) (hlf : t.lf.Bounds lo hi) (hlo : 0 < lo)
    (hl : t.size ≤ lo * t.bc) (ops : List (Op k K V)) (hops : ∀ o ∈ ops, o.plain = true) {r : Table k K V × List (Out k K V)}
    (e : t.run hash ops = .ok r) :
    ∃ w, t.runW hash ops = .ok (r, w) ∧ w.moved ≤ t.size + 2 * tries ops ∧ w.alloc ≤ 2 * t.size + 4 * tries ops ∧
      w.filled ≤ 16 + 4 * hi * (t.size + tries ops) ∧ w.linked ≤ k * lo * (8 + 2 * hi * (t.size + tries ops)) := by
  rw [← runW_fst] at e
  obtain ⟨⟨r', w⟩, e1, e2⟩ := map_eq_ok e
  simp only at e2
  subst e2
  obtain ⟨l, hi'⟩ := h.inv
  have hle := hi'.le_cap
  have hsz := hi'.size
  have p := runW_paid ops hops hlf hlo hl e1
  have h1 := p.moved
  have h2 := p.alloc
  have h3 := p.filled
  have h4 := p.linked
  have h5 := p.cap
  have h6 := p.bc
  have h7 : 4 * hi * (t.size + tries ops) = 2 * (2 * hi * (t.size + tries ops)) := by
    rw [show 4 * hi = 2 * (2 * hi) by omega, Nat.mul_assoc]
  refine ⟨w, e1, by omega, by omega, by omega, ?_⟩
  have h8 : k * lo * r'.1.bc ≤ k * lo * (t.bc + (8 + 2 * hi * (t.size + tries ops))) := Nat.mul_le_mul_left _ (by omega)
  rw [Nat.mul_add] at h8
  omega

/-- C96: the work of a history on a default constructed container, for every maximal load factor between `1 / hi` and `lo`: at most two
moves and four allocated nodes per element handed to an insertion, and `4 * hi` filled buckets and `2 * hi * lo` links per key
component, up to a constant. -/
theorem C96_amortized_partial {lo hi : Nat} (hash : K → Nat) {lf : LF} (hlf : lf.Bounds lo hi) (hlo : 0 < lo) (ops : List (Op k K V))
    (hops : ∀ o ∈ ops, o.plain = true) {r : Table k K V × List (Out k K V)} (e : (Table.init lf).run hash ops = .ok r) :
    ∃ w, (Table.init lf).runW hash ops = .ok (r, w) ∧ w.moved ≤ 2 * tries ops ∧ w.alloc ≤ 4 * tries ops ∧
      w.filled ≤ 16 + 4 * hi * tries ops ∧ w.linked ≤ k * lo * (8 + 2 * hi * tries ops) := by
  obtain ⟨w, e1, h1, h2, h3, h4⟩ := C96_from_partial (.init lf) (t := Table.init lf) hlf hlo (Nat.zero_le _) ops hops e
  have hs : (Table.init lf : Table k K V).size = 0 := rfl
  rw [hs] at h1 h2 h3 h4
  simp only [Nat.zero_add] at h1 h2 h3 h4
  exact ⟨w, e1, by omega, by omega, h3, h4⟩

/-- The initial maximal load factor 7/8 (dense_table.hpp 94), computed exactly. -/
theorem bounds_initial : LF.initial.Bounds 1 2 := by
  refine ⟨fun n b hb h => ?_, fun n b hb h => ?_, fun n => ?_⟩
  · simp only [LF.initial, LF.ratio, decide_eq_false_iff_not] at h
    omega
  · simp only [LF.initial, LF.ratio, decide_eq_true_eq] at h
    omega
  · simp only [LF.initial, LF.ratio]
    omega

/-- The exact maximal load factor `p / q`. -/
theorem bounds_ratio {p q : Nat} (hp : 0 < p) (hq : 0 < q) : (LF.ratio p q).Bounds p q := by
  refine ⟨fun n b hb h => ?_, fun n b hb h => ?_, fun n => ?_⟩
  · simp only [LF.ratio, decide_eq_false_iff_not] at h
    have : n * 1 ≤ n * q := Nat.mul_le_mul_left _ hq
    omega
  · simp only [LF.ratio, decide_eq_true_eq] at h
    have : 1 * b ≤ p * b := Nat.mul_le_mul_right _ hp
    rw [Nat.mul_comm q]
    omega
  · simp only [LF.ratio]
    have : n * q / p ≤ n * q := Nat.div_le_self _ _
    have h2 : 2 * q * n = 2 * (n * q) := by rw [Nat.mul_assoc, Nat.mul_comm q]
    omega

open F32 in
/-- Any maximal load factor in single precision, as the code computes with it (`Verif.F32`): above `2⁻ʲ` and at most `2ⁱ`. -/
theorem bounds_float {f : ℚ} {i j : Nat} (hj : j ≤ 149) (hlo : 1 / 2 ^ j < f) (hhi : f ≤ 2 ^ i) : (lfF f).Bounds (2 ^ i) (2 ^ j) := by
  have e1 : IsF32 1 := by simpa using isF32_pow 0
  have one : ∀ {n : Nat}, 0 < n → (1 : ℚ) ≤ fl (n : ℚ) := fun {n} hn => le_fl e1 (by exact_mod_cast hn)
  have hf0 : 0 < f := lt_trans (by positivity) hlo
  have scale : ∀ {n : Nat} (m : Nat), 0 < n → fl (((2 ^ m * n : Nat) : ℚ)) = 2 ^ m * fl (n : ℚ) := by
    intro n m hn
    have hn1 : (1 : ℚ) ≤ n := by exact_mod_cast hn
    have h1 : (2 : ℚ) ^ (-126 : ℤ) ≤ n := le_trans (by norm_num) hn1
    have h2 : (1 : ℚ) ≤ 2 ^ m := one_le_pow₀ (by norm_num)
    have h3 := fl_scale (x := (n : ℚ)) (e := (m : ℤ)) h1 (by
      rw [zpow_natCast]
      nlinarith)
    rw [zpow_natCast] at h3
    push_cast
    rw [mul_comm, h3, mul_comm]
  refine ⟨fun n b hb h => ?_, fun n b hb h => ?_, fun n => ?_⟩
  · by_contra hc
    push Not at hc
    have hn : 0 < n := lt_of_lt_of_le (Nat.mul_pos (by positivity) hb) hc
    have h1 : fl ((2 ^ i * b : Nat) : ℚ) ≤ fl (n : ℚ) := fl_mono (by
      have : 0 < 2 ^ i * b := Nat.mul_pos (by positivity) hb
      exact_mod_cast this) (by exact_mod_cast hc)
    rw [scale i hb] at h1
    have hb1 := one hb
    have h2 : (2 : ℚ) ^ i ≤ fl (n : ℚ) / fl (b : ℚ) := by
      rw [le_div_iff₀ (by linarith)]
      exact h1
    have h3 := le_fl (isF32_pow i) h2
    simp only [lfF, fullF, decide_eq_false_iff_not] at h
    exact h (hhi.trans h3)
  · by_contra hc
    push Not at hc
    simp only [lfF, fullF, decide_eq_true_eq] at h
    rcases Nat.eq_zero_or_pos n with h0 | h0
    · subst h0
      push_cast at h
      rw [fl_zero, zero_div, fl_zero] at h
      linarith
    · have hn1 := one h0
      have hb1 := one hb
      have h1 : fl ((2 ^ j * n : Nat) : ℚ) ≤ fl (b : ℚ) := fl_mono (by
        have : 0 < 2 ^ j * n := Nat.mul_pos (by positivity) h0
        exact_mod_cast this) (by exact_mod_cast hc.le)
      rw [scale j h0] at h1
      have h2 : fl (n : ℚ) / fl (b : ℚ) ≤ 1 / 2 ^ j := by
        rw [div_le_div_iff₀ (by linarith) (by positivity)]
        linarith
      have hjf : IsF32 (1 / 2 ^ j : ℚ) := by simpa using isF32_ratio (p := 1) (j := j) (by norm_num) (by norm_num) hj
      have h3 := fl_le (div_pos (by linarith) (by linarith)) hjf h2
      linarith
  · simp only [lfF, divF, toSize]
    split
    · rw [Option.getD_some]
      rcases Nat.eq_zero_or_pos n with h0 | h0
      · subst h0
        push_cast
        rw [fl_zero, zero_div, fl_zero, Nat.floor_zero]
        exact Nat.zero_le _
      · have hn1 := one h0
        have hm : 0 < 2 ^ j * n := Nat.mul_pos (by positivity) h0
        have hm1 : (1 : ℚ) ≤ ((2 ^ j * n : Nat) : ℚ) := by exact_mod_cast hm
        have h1 : fl (n : ℚ) / f ≤ fl ((2 ^ j * n : Nat) : ℚ) := by
          rw [scale j h0, div_le_iff₀ hf0]
          rw [div_lt_iff₀ (by positivity)] at hlo
          nlinarith
        have h2 := fl_le (div_pos (by linarith) hf0) (isF32_fl hm1) h1
        have h3 := fl_rel (x := ((2 ^ j * n : Nat) : ℚ)) (le_trans (by norm_num) hm1)
        have h4 := (abs_le.mp h3).2
        have h5 : fl (fl (n : ℚ) / f) ≤ ((2 * 2 ^ j * n : Nat) : ℚ) := by
          push_cast at h2 h4 hm1 ⊢
          have : (2 : ℚ) ^ j * n / 2 ^ 24 ≤ 2 ^ j * n := div_le_self (by linarith) (by norm_num)
          linarith
        exact Nat.floor_le_of_le h5
    · exact Nat.zero_le _

/-- C96 with the initial maximal load factor as the code computes with it, in single precision. -/
theorem C96_initial_partial (hash : K → Nat) (ops : List (Op k K V)) (hops : ∀ o ∈ ops, o.plain = true)
    {r : Table k K V × List (Out k K V)} (e : (Table.init (F32.lfF (7 / 8))).run hash ops = .ok r) :
    ∃ w, (Table.init (F32.lfF (7 / 8))).runW hash ops = .ok (r, w) ∧ w.moved ≤ 2 * tries ops ∧ w.alloc ≤ 4 * tries ops ∧
      w.filled ≤ 16 + 8 * tries ops ∧ w.linked ≤ k * (8 + 4 * tries ops) := by
  have hb := bounds_float (f := 7 / 8) (i := 0) (j := 1) (by omega) (by norm_num) (by norm_num)
  obtain ⟨w, e1, h1, h2, h3, h4⟩ := C96_amortized_partial hash hb (by norm_num) ops hops e
  refine ⟨w, e1, h1, h2, ?_, ?_⟩
  · simpa using h3
  · simpa using h4

/-! ## Ranges with random access iterators -/

theorem rehashW_moved {t t' : Table k K V} {n : Nat} {w : Work} (e : t.rehashW n = .ok (t', w)) :
    w.moved = 0 ∧ w.alloc = 0 ∧ t'.cap = t.cap := by
  unfold Table.rehashW at e
  split at e
  · cases e; exact ⟨rfl, rfl, rfl⟩
  · simp only at e
    split at e
    · rw [doRehashW_eq] at e
      obtain ⟨u, e1, e2⟩ := map_eq_ok e
      cases e2
      exact ⟨rfl, rfl, (doRehash_shape e1).1⟩
    · cases e; exact ⟨rfl, rfl, rfl⟩

theorem maybeRehashW_moved {t t' : Table k K V} {w : Work} (e : t.maybeRehashW = .ok (t', w)) :
    w.moved = 0 ∧ w.alloc = 0 ∧ t'.cap = t.cap := by
  unfold Table.maybeRehashW at e
  split at e
  · exact rehashW_moved e
  · split at e
    · exact rehashW_moved e
    · cases e; exact ⟨rfl, rfl, rfl⟩

/-- An insertion for which the array has room moves nothing. -/
theorem insertW_moved {hash : K → Nat} {t : Table k K V} {key : Fin k → K} {v : V} {r : Table k K V × Nat × Bool} {w : Work}
    (hc : t.size < t.cap) (e : t.insertW hash key v = .ok (r, w)) : w.moved = 0 ∧ w.alloc = 0 ∧ r.1.cap = t.cap := by
  unfold Table.insertW at e
  have h0 : t.maybeResizeW = .ok (t, .nil) := by
    unfold Table.maybeResizeW
    rw [if_neg (by omega)]
  rw [h0, bind_ok] at e
  simp only at e
  obtain ⟨⟨t2, w2⟩, e2, e⟩ := bind_eq_ok e
  obtain ⟨h1, h2, h3⟩ := maybeRehashW_moved e2
  obtain ⟨found, _, e⟩ := bind_eq_ok e
  simp only at e
  split at e
  · cases e
    exact ⟨by simp [Work.plus, Work.nil, h1], by simp [Work.plus, Work.nil, h2], h3⟩
  · obtain ⟨⟨t3, pos⟩, e3, e⟩ := bind_eq_ok e
    obtain ⟨t4, e4, e⟩ := bind_eq_ok e
    cases e
    exact ⟨by simp [Work.plus, Work.nil, h1], by simp [Work.plus, Work.nil, h2],
      ((commitNode_shape e4).cap.trans (pushNode_shape e3).1.cap).trans h3⟩

/-- One more element through random access iterators: the array is reallocated with room for exactly that element. -/
theorem insertOne_moved {hash : K → Nat} {t t' : Table k K V} {x : Elem k K V} {w : Work} (hc : t.cap = t.size)
    (e : t.insertRangeW hash true [x] = .ok (t', w)) : w.moved = t.size ∧ w.alloc = t.size + 1 ∧ t'.cap = t.size + 1 := by
  unfold Table.insertRangeW at e
  obtain ⟨⟨t1, w1⟩, e1, e⟩ := bind_eq_ok e
  rw [if_pos rfl] at e1
  unfold Table.reserveW at e1
  rw [if_pos (by simp only [List.length_singleton]; omega)] at e1
  obtain ⟨⟨t2, w2⟩, e2, e1⟩ := bind_eq_ok e1
  obtain ⟨⟨t3, w3⟩, e3, e1⟩ := bind_eq_ok e1
  obtain ⟨rfl, g1, g2, g3, g4, g5⟩ := resizeDataW_eq e2
  obtain ⟨h1, h2, h3⟩ := rehashW_moved e3
  have h4 : t3.size ≤ t2.size := by
    have e4 := rehashW_fst t2 (t2.lf.div (t.size + [x].length))
    rw [e3] at e4
    unfold Table.rehash at e4
    split at e4
    · cases e4; exact Nat.le_refl _
    · simp only at e4
      split at e4
      · exact (doRehash_shape e4.symm).2.2.2
      · cases e4; exact Nat.le_refl _
  cases e1
  rw [List.foldlM_cons] at e
  obtain ⟨⟨t5, w5⟩, e5, e⟩ := bind_eq_ok e
  cases e
  obtain ⟨⟨r, w6⟩, e6, e5⟩ := bind_eq_ok e5
  cases e5
  simp only [List.length_singleton] at *
  obtain ⟨q1, q2, q3⟩ := insertW_moved (by omega) e6
  simp only [Work.plus]
  exact ⟨by omega, by omega, by omega⟩

theorem Distinct.prefix {xs : List (Elem k K V)} {x : Elem k K V} (h : Distinct (xs ++ [x])) : Distinct xs ∧ conflict xs x.1 = none := by
  refine ⟨(List.pairwise_append.mp h).1, ?_⟩
  have := conflict_take h (i := xs.length) (by simp)
  simpa using this

theorem runW_snoc {hash : K → Nat} : ∀ (ops : List (Op k K V)) {t : Table k K V} {r : Table k K V × List (Out k K V)} {w w' : Work} {o : Op k K V}
    {r' : Table k K V × Out k K V}, t.runW hash ops = .ok (r, w) → r.1.stepW hash o = .ok (r', w') →
    t.runW hash (ops ++ [o]) = .ok ((r'.1, r.2 ++ [r'.2]), w.plus w') := by
  intro ops
  induction ops with
  | nil =>
    intro t r w w' o r' e e'
    cases e
    simp only at e'
    simp only [List.nil_append, Table.runW, e', bind_ok]
    simp [Work.plus, Work.nil]
  | cons a ops ih =>
    intro t r w w' o r' e e'
    rw [List.cons_append]
    unfold Table.runW at e ⊢
    obtain ⟨⟨r1, w1⟩, e1, e⟩ := bind_eq_ok e
    obtain ⟨⟨r2, w2⟩, e2, e⟩ := bind_eq_ok e
    cases e
    rw [e1, bind_ok]
    simp only
    rw [ih e2 e', bind_ok]
    simp only [Work.plus, Nat.add_assoc, List.cons_append]

theorem tries_ones (xs : List (Elem k K V)) : tries (xs.map fun x => (.insertRange true [x] : Op k K V)) = xs.length := by
  unfold tries
  induction xs with
  | nil => rfl
  | cons a l ih => rw [List.map_cons, List.map_cons, List.sum_cons, ih, List.length_cons]; simp only [Op.tries, List.length_singleton]; omega

/-- C96 is false for ranges with random access iterators, also for `insert({x})`: `n` elements inserted one by one this way are moved
`n * (n - 1) / 2` times altogether, because `reserve` asks for an array with room for exactly one element more; for every hash function
and every maximal load factor. -/
theorem C96_range_false (hash : K → Nat) (lf : LF) {xs : List (Elem k K V)} (hd : Distinct xs) :
    ∃ t outs w, (Table.init lf).runW hash (xs.map fun x => .insertRange true [x]) = .ok ((t, outs), w) ∧
      (Table.init lf).run hash (xs.map fun x => .insertRange true [x]) = .ok (t, outs) ∧
      tries (xs.map fun x => (.insertRange true [x] : Op k K V)) = xs.length ∧ 2 * w.moved + xs.length = xs.length * xs.length := by
  have main : ∃ t outs w, (Table.init lf).runW hash (xs.map fun x => .insertRange true [x]) = .ok ((t, outs), w) ∧
      Inv hash t xs ∧ t.cap = xs.length ∧ 2 * w.moved + xs.length = xs.length * xs.length := by
    induction xs using List.reverseRecOn with
    | nil => exact ⟨_, _, _, rfl, init_inv hash lf, rfl, rfl⟩
    | append_singleton xs x ih =>
      obtain ⟨hd1, hc⟩ := hd.prefix
      obtain ⟨t, outs, w, e, i, c, hw⟩ := ih hd1
      obtain ⟨t', e', i', _, _⟩ := insertRange_ok i true [x]
      rw [← insertRangeW_fst] at e'
      obtain ⟨⟨t2, w2⟩, e2, rfl⟩ := map_eq_ok e'
      have hs := i.size
      obtain ⟨h1, h2, h3⟩ := insertOne_moved (by omega) e2
      have hstep : t.stepW hash (.insertRange true [x]) = .ok ((t2, .unit), w2) := by
        simp only [Table.stepW, e2, bind_ok]
      rw [List.map_append, List.map_singleton]
      refine ⟨_, _, _, runW_snoc _ e hstep, ?_, by simp only [List.length_append, List.length_singleton]; omega, ?_⟩
      · simp only [List.foldl_cons, List.foldl_nil] at i'
        unfold Spec.insert at i'
        rw [show Spec.clash xs x.1 = none from hc] at i'
        exact i'
      · simp only [Work.plus, List.length_append, List.length_singleton]
        have : (xs.length + 1) * (xs.length + 1) = xs.length * xs.length + 2 * xs.length + 1 := by ring
        omega
  obtain ⟨t, outs, w, e, _, _, hw⟩ := main
  refine ⟨t, outs, w, e, ?_, ?_, hw⟩
  · rw [← runW_fst, e]; rfl
  · exact tries_ones xs

/-- C96 is false for `reserve`: it puts every element into its chain again although there is room for `n` elements already and nothing
changes, unless the number of buckets is exactly the one it asks for. -/
theorem C96_reserve_false {hash : K → Nat} {t : Table k K V} (h : Reachable hash t) {n : Nat} (h0 : 0 < t.size) (hn : n ≤ t.cap)
    (hd : t.lf.div t.size < t.bc) (hd' : t.lf.div n < t.bc) :
    ∃ t', t.reserveW n = .ok (t', ⟨0, 0, t.bc, t.size * k⟩) ∧ t'.cap = t.cap ∧ t'.bc = t.bc := by
  obtain ⟨l, i⟩ := h.inv
  obtain ⟨t', e, _, _⟩ := reserve_ok i n
  rw [← reserveW_fst] at e
  obtain ⟨⟨t2, w2⟩, e2, rfl⟩ := map_eq_ok e
  have e3 := e2
  unfold Table.reserveW at e3
  rw [if_neg (by omega), bind_ok] at e3
  simp only at e3
  obtain ⟨⟨t3, w3⟩, e4, e3⟩ := bind_eq_ok e3
  cases e3
  unfold Table.rehashW at e4
  rw [if_neg (by omega)] at e4
  simp only at e4
  rw [if_pos (Or.inr (by omega)), doRehashW_eq] at e4
  obtain ⟨u, e5, e6⟩ := map_eq_ok e4
  have hs := doRehash_shape e5
  rw [if_neg (by omega)] at e6 hs
  cases e6
  refine ⟨_, ?_, hs.1, hs.2.1⟩
  rw [e2]
  simp [Work.plus, Work.nil]

/-! ## Concrete cases -/

/-- Ten insertions, one of them of a key that is there, erasures and a clear. -/
def churn : List (Op 2 Nat Nat) :=
  ((List.range 9).map fun i => .insert (fun j => 2 * i + j.val) i) ++ [.erase 0 4, .insert (fun j => 6 + j.val) 7, .clear,
    .insertRange false [(fun j => 100 + j.val, 1), (fun j => 102 + j.val, 2)]]

/-- Twelve elements handed to insertions; arrays of 1, 2, 4, 8 and 16 nodes; 8 and 16 buckets; the rehash at 7 elements puts them into
two chains each. -/
example : (do
      let r ← (Table.init LF.initial : Table 2 Nat Nat).runW (fun x => x % 5) churn
      .ok r.2 : M Work) = .ok ⟨31, 15, 24, 14⟩ ∧ tries churn = 12 ∧ (∀ o ∈ churn, o.plain = true) := by
  decide +kernel

/-- The same ten elements through forward iterators and through random access iterators: 15 and 45 moves. -/
example : (do
      let r ← (Table.init LF.initial : Table 1 Nat Nat).runW id ((List.range 10).map fun i => .insertRange false [(fun _ => i, i)])
      .ok r.2 : M Work) = .ok ⟨31, 15, 24, 7⟩ ∧
    (do
      let r ← (Table.init LF.initial : Table 1 Nat Nat).runW id ((List.range 10).map fun i => .insertRange true [(fun _ => i, i)])
      .ok r.2 : M Work) = .ok ⟨55, 45, 59, 45⟩ := by
  decide +kernel

/-- `reserve(6)` in a container with 6 elements and 8 buckets. -/
example : (do
      let r ← (Table.init LF.initial : Table 1 Nat Nat).runW id (((List.range 6).map fun i => .insert (fun _ => i) i) ++ [.reserve 6])
      .ok r.2 : M Work) = .ok ⟨15, 7, 16, 6⟩ := by
  decide +kernel

end Tpp.Dense
