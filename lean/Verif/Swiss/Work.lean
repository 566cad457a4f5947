import Mathlib.Data.List.Perm.Subperm
import Verif.Swiss.Calls
import Verif.Dense.Ops

/-!
# The work of a search: the elements compared and the blocks read
-/

set_option linter.unusedSectionVars false

namespace Tpp

/-- A slot in the `s`-th window of a probe determines the offset of that window. -/
theorem window_offset {W m p s i : Nat} (hW : 0 < W) (hp : p < 2 ^ m * W) (hi : i < 2 ^ m * W)
    (h : cdist (2 ^ m * W) (probePos W (2 ^ m * W) p s) i < W) : cdist (2 ^ m * W) p i / W = tri s % 2 ^ m := by
  rw [probePos_eq hp] at h
  have hoff : (tri s * W) % (2 ^ m * W) = tri s % 2 ^ m * W := by rw [Nat.mul_mod_mul_right]
  have hx : (p + tri s * W) % (2 ^ m * W) = (p + tri s % 2 ^ m * W) % (2 ^ m * W) := by
    rw [Nat.add_mod, hoff, ← hoff, ← Nat.add_mod, hoff, Nat.add_mod p (tri s % 2 ^ m * W), ← hoff, Nat.mod_mod, ← Nat.add_mod]
  rw [hx] at h
  have hu : tri s % 2 ^ m < 2 ^ m := Nat.mod_lt _ (Nat.two_pow_pos m)
  have hqN : tri s % 2 ^ m * W + W ≤ 2 ^ m * W := by
    have := Nat.mul_le_mul_right W hu
    rw [Nat.succ_mul] at this
    exact this
  generalize tri s % 2 ^ m = u at *
  generalize hN : 2 ^ m * W = N at *
  have hN0 : 0 < N := by omega
  have key : ∃ r, r < W ∧ cdist N p i = u * W + r := by
    generalize u * W = q at *
    have hq : (p + q) % N < N := Nat.mod_lt _ hN0
    have hpq : (p + q < N ∧ (p + q) % N = p + q) ∨ (N ≤ p + q ∧ (p + q) % N = p + q - N) := by
      rcases Nat.lt_or_ge (p + q) N with h | h
      · left; exact ⟨h, Nat.mod_eq_of_lt h⟩
      · right
        refine ⟨h, ?_⟩
        rw [Nat.mod_eq_sub_mod h, Nat.mod_eq_of_lt (by omega)]
    refine ⟨cdist N p i - q, ?_⟩
    rcases cdist_cases hp hi with ⟨h1, h2⟩ | ⟨h1, h2⟩ <;>
    rcases cdist_cases hq hi with ⟨h3, h4⟩ | ⟨h3, h4⟩ <;>
    rcases hpq with ⟨h5, h6⟩ | ⟨h5, h6⟩ <;> omega
  obtain ⟨r, hr, e⟩ := key
  rw [e, Nat.mul_comm, Nat.mul_add_div hW, Nat.div_eq_of_lt hr, Nat.add_zero]

namespace Swiss

variable {K V : Type} [DecidableEq K]

namespace Table

/-- The inner loop of `find_node` (swiss_table.hpp 1221-1226), with the slots whose elements are compared (1152). -/
def scanT (t : Table K V) (k : K) (pos : Nat) : List Nat → M (Option Nat × List Nat)
  | [] => .ok (none, [])
  | i :: is => do
    let off := (pos + i) &&& t.cap
    let n ← t.readNode off
    if n.key = k then .ok (some off, [off])
    else do
      let (r, l) ← scanT t k pos is
      .ok (r, off :: l)

/-- The probe loop of `find_node` (swiss_table.hpp 1217-1231), with the slots compared and the number of blocks read. -/
def findLoopT (isa : Isa) (t : Table K V) (k : K) (tag : Nat) : (fuel pos idx : Nat) → M (Nat × List Nat × Nat)
  | 0, _, _ => .error .diverge
  | fuel + 1, pos, idx => do
    t.loadBlock isa pos
    let (r, l) ← t.scanT k pos (t.matchEq isa pos tag)
    match r with
    | some off => .ok (off, l, 1)
    | none =>
      if t.matches_ isa pos (·.isEmpty) ≠ [] then .ok (t.cap, l, 1)
      else if idx < t.cap then do
        let (i, l', b) ← findLoopT isa t k tag fuel ((pos + (idx + isa.W)) &&& t.cap) (idx + isa.W)
        .ok (i, l ++ l', b + 1)
      else .error .assertFail

/-- `find_node` (swiss_table.hpp 1209-1234). -/
def findNodeT (isa : Isa) (t : Table K V) (k : K) (h : Nat) : M (Nat × List Nat × Nat) :=
  if t.size ≠ 0 then t.findLoopT isa k (hashLo h) (t.cap + 1) (hashHi h &&& t.cap) 0
  else .ok (t.cap, [], 0)

end Table

/-! ### The searches are those of the model -/

theorem scanT_fst (t : Table K V) (k : K) (pos : Nat) (l : List Nat) : (t.scanT k pos l).map Prod.fst = t.scan k pos l := by
  induction l with
  | nil => rfl
  | cons i is ih =>
    unfold Table.scanT Table.scan
    simp only
    cases t.readNode ((pos + i) &&& t.cap) with
    | error e => rfl
    | ok n =>
      simp only [bind_ok]
      by_cases hk : n.key = k
      · rw [if_pos hk, if_pos hk]; rfl
      · rw [if_neg hk, if_neg hk, ← ih]
        cases t.scanT k pos is with
        | error e => rfl
        | ok r => rfl

theorem findLoopT_fst (isa : Isa) (t : Table K V) (k : K) (tag fuel : Nat) : ∀ pos idx,
    (t.findLoopT isa k tag fuel pos idx).map Prod.fst = t.findLoop isa k tag fuel pos idx := by
  induction fuel with
  | zero => intro _ _; rfl
  | succ fuel ih =>
    intro pos idx
    unfold Table.findLoopT Table.findLoop
    cases t.loadBlock isa pos with
    | error e => rfl
    | ok u =>
      simp only [bind_ok]
      rw [← scanT_fst]
      cases t.scanT k pos (t.matchEq isa pos tag) with
      | error e => rfl
      | ok r =>
        obtain ⟨r, l⟩ := r
        simp only [bind_ok, Except.map]
        cases r with
        | some off => rfl
        | none =>
          simp only
          by_cases hm : t.matches_ isa pos (·.isEmpty) ≠ []
          · rw [if_pos hm, if_pos hm]
          · rw [if_neg hm, if_neg hm]
            by_cases hi : idx < t.cap
            · rw [if_pos hi, if_pos hi, ← ih]
              cases t.findLoopT isa k tag fuel ((pos + (idx + isa.W)) &&& t.cap) (idx + isa.W) with
              | error e => rfl
              | ok r => rfl
            · rw [if_neg hi, if_neg hi]

theorem findNodeT_fst (isa : Isa) (t : Table K V) (k : K) (h : Nat) : (t.findNodeT isa k h).map Prod.fst = t.findNode isa k h := by
  unfold Table.findNodeT Table.findNode
  split
  · exact findLoopT_fst ..
  · rfl

/-- The comparisons are those counted by `scanC`. -/
theorem scanT_calls {t : Table K V} {k : K} {pos : Nat} : ∀ {l tr : List Nat} {r : Option Nat}, t.scanT k pos l = .ok (r, tr) →
    ∀ c, t.scanC k pos l c = .ok (if c < tr.length then none else some (r, c - tr.length)) := by
  intro l
  induction l with
  | nil =>
    intro tr r e c
    cases e
    rfl
  | cons i is ih =>
    intro tr r e c
    unfold Table.scanT at e
    unfold Table.scanC
    simp only at e ⊢
    obtain ⟨n, hn, e⟩ := Dense.bind_eq_ok e
    rw [hn, bind_ok]
    by_cases hk : n.key = k
    · rw [if_pos hk] at e
      cases e
      cases c with
      | zero => rfl
      | succ c => simp [hk]
    · rw [if_neg hk] at e
      obtain ⟨⟨r', l'⟩, h', e⟩ := Dense.bind_eq_ok e
      cases e
      cases c with
      | zero => simp
      | succ c => simp [hk, ih h' c]

theorem findLoopT_calls {isa : Isa} {t : Table K V} {k : K} {tag : Nat} : ∀ {fuel pos idx i b : Nat} {tr : List Nat},
    t.findLoopT isa k tag fuel pos idx = .ok (i, tr, b) →
    ∀ c, t.findLoopC isa k tag fuel pos idx c = .ok (if c < tr.length then none else some (i, c - tr.length)) := by
  intro fuel
  induction fuel with
  | zero => intro pos idx i b tr e; cases e
  | succ fuel ih =>
    intro pos idx i b tr e c
    unfold Table.findLoopT at e
    unfold Table.findLoopC
    obtain ⟨u, hu, e⟩ := Dense.bind_eq_ok e
    obtain ⟨⟨r, l⟩, hl, e⟩ := Dense.bind_eq_ok e
    rw [hu, bind_ok, scanT_calls hl, bind_ok]
    simp only at e
    cases r with
    | some off =>
      cases e
      by_cases hc : c < tr.length
      · rw [if_pos hc, if_pos hc]
      · rw [if_neg hc, if_neg hc]
    | none =>
      simp only at e
      by_cases hm : t.matches_ isa pos (·.isEmpty) ≠ []
      · rw [if_pos hm] at e
        cases e
        by_cases hc : c < tr.length
        · rw [if_pos hc, if_pos hc]
        · rw [if_neg hc, if_neg hc]; simp only; rw [if_pos hm]
      · rw [if_neg hm] at e
        by_cases hi : idx < t.cap
        · rw [if_pos hi] at e
          obtain ⟨⟨i', l', b'⟩, h', e⟩ := Dense.bind_eq_ok e
          cases e
          by_cases hc : c < l.length
          · rw [if_pos hc, if_pos (by simp; omega)]
          · rw [if_neg hc]
            simp only
            rw [if_neg hm, if_pos hi, ih h']
            by_cases hc' : c < (l ++ l').length
            · rw [if_pos hc', if_pos (by simp at hc'; omega)]
            · rw [if_neg hc', if_neg (by simp at hc'; omega), List.length_append, Nat.sub_sub]
        · rw [if_neg hi] at e
          cases e

theorem findNodeT_calls {isa : Isa} {t : Table K V} {k : K} {h i b : Nat} {tr : List Nat} (e : t.findNodeT isa k h = .ok (i, tr, b)) (c : Nat) :
    t.findNodeC isa k h c = .ok (if c < tr.length then none else some (i, c - tr.length)) := by
  unfold Table.findNodeT at e
  unfold Table.findNodeC
  split at e
  · rename_i hz; rw [if_pos hz]; exact findLoopT_calls e c
  · rename_i hz; rw [if_neg hz]; cases e; simp

/-! ### What is compared -/

/-- The slots compared are the first of those matched; the one that is found is the last. -/
theorem scanT_spec {t : Table K V} {k : K} {pos : Nat} : ∀ {l tr : List Nat} {r : Option Nat}, t.scanT k pos l = .ok (r, tr) →
    tr <+: l.map (fun i => (pos + i) &&& t.cap) ∧ (∀ off, r = some off → tr.getLast? = some off) ∧
      (r = none → tr = l.map (fun i => (pos + i) &&& t.cap)) := by
  intro l
  induction l with
  | nil =>
    intro tr r e
    cases e
    exact ⟨List.nil_prefix, fun off h => (by cases h), fun _ => rfl⟩
  | cons i is ih =>
    intro tr r e
    unfold Table.scanT at e
    simp only at e
    obtain ⟨n, hn, e⟩ := Dense.bind_eq_ok e
    by_cases hk : n.key = k
    · rw [if_pos hk] at e
      cases e
      refine ⟨?_, fun off h => (by cases h; rfl), fun h => (by cases h)⟩
      simp
    · rw [if_neg hk] at e
      obtain ⟨⟨r', l'⟩, h', e⟩ := Dense.bind_eq_ok e
      cases e
      obtain ⟨h1, h2, h3⟩ := ih h'
      refine ⟨by simpa using h1, fun off h => ?_, fun h => by rw [h3 h, List.map_cons]⟩
      have := h2 off h
      cases l' with
      | nil => cases this
      | cons a l' => rw [List.getLast?_cons_cons]; exact this

/-- `match_eq` reports bytes equal to the tag; the portable one also bytes that differ from it in bit 0. -/
theorem matchEq_tag {isa : Isa} {t : Table K V} {pos tag i : Nat} (h : i ∈ t.matchEq isa pos tag) :
    ∃ g, t.ctl (pos + i) = .full g ∧ (g = tag ∨ (isa = .portable ∧ g = tag ^^^ 1)) := by
  cases isa
  · have h : i ∈ t.matches_ .sse2 pos (· == .full tag) := h
    rw [mem_matches] at h
    exact ⟨tag, by simpa using h.2, Or.inl rfl⟩
  · have h : i ∈ t.matches_ .neon pos (· == .full tag) := h
    rw [mem_matches] at h
    exact ⟨tag, by simpa using h.2, Or.inl rfl⟩
  · simp only [Table.matchEq, List.mem_filter, List.mem_range] at h
    obtain ⟨_, h⟩ := h
    cases i with
    | zero => exact ⟨tag, by simpa [Table.portableHit] using h, Or.inl rfl⟩
    | succ i =>
      simp only [Table.portableHit, Bool.or_eq_true, Bool.and_eq_true, beq_iff_eq] at h
      rcases h with h | ⟨h, _⟩
      · exact ⟨_, h, Or.inl rfl⟩
      · exact ⟨_, h, Or.inr ⟨rfl, rfl⟩⟩

theorem matchEq_nodup (isa : Isa) (t : Table K V) (pos tag : Nat) : (t.matchEq isa pos tag).Nodup := by
  cases isa <;> exact List.nodup_range.filter _

/-- The slots matched in one block: they hold elements with the tag and are in the window. -/
theorem matched {isa : Isa} {hash : K → Nat} {t : Table K V} (h : Inv isa hash t) (hc : 0 < t.cap) {q tag j : Nat} (hq : q ≤ t.cap)
    (hj : j ∈ (t.matchEq isa q tag).map (fun i => (q + i) &&& t.cap)) :
    j < t.cap ∧ InWin isa t.cap q j ∧ ∃ n, t.node j = some n ∧
      (hashLo (hash n.key) = tag ∨ (isa = .portable ∧ hashLo (hash n.key) = tag ^^^ 1)) := by
  have hm := h.meta_ok hc
  obtain ⟨i, hi, rfl⟩ := List.mem_map.mp hj
  obtain ⟨hi1, _⟩ := matchEq_full hi
  obtain ⟨g, he, hg⟩ := matchEq_tag hi
  have hr := hm.real hq hi1 (by rw [he]; simp) (Or.inl (by rw [he]; simp))
  rw [land_cap hm]
  refine ⟨hr.1, hr.2.2, ?_⟩
  have hl := h.live _ hr.1
  rw [hr.2.1, he] at hl
  obtain ⟨n, hn⟩ := Option.isSome_iff_exists.mp hl
  refine ⟨n, hn, ?_⟩
  have ht := h.tag _ hr.1 n hn
  rw [hr.2.1, he, h.hash_ok _ hr.1 n hn] at ht
  injection ht with ht
  rw [← ht]
  exact hg

theorem add_mod_inj {q a b N : Nat} (e : (q + a) % N = (q + b) % N) (ha : a < N) (hb : b < N) : a = b := by
  have h1 := Nat.div_add_mod (q + a) N
  have h2 := Nat.div_add_mod (q + b) N
  rw [e] at h1
  rcases Nat.lt_trichotomy ((q + a) / N) ((q + b) / N) with h | h | h
  · have := Nat.mul_le_mul_left N (Nat.succ_le_of_lt h)
    rw [Nat.mul_succ] at this
    omega
  · rw [h] at h1; omega
  · have := Nat.mul_le_mul_left N (Nat.succ_le_of_lt h)
    rw [Nat.mul_succ] at this
    omega

/-- In a table of at least one block no slot is matched twice in a block. -/
theorem matched_once {isa : Isa} {t : Table K V} {len : Nat} (hm : MetaOk isa t.cap len t.ctl) (hW : isa.W ≤ t.cap + 1) (q tag : Nat) :
    ((t.matchEq isa q tag).map (fun i => (q + i) &&& t.cap)).Nodup := by
  refine List.Nodup.map_on ?_ (matchEq_nodup isa t q tag)
  intro a ha b hb e
  have h1 := (matchEq_full ha).1
  have h2 := (matchEq_full hb).1
  simp only [land_cap hm] at e
  exact add_mod_inj e (by omega) (by omega)

/-- In a smaller table a slot is matched at most twice: as itself and as its clone. -/
theorem matched_twice {isa : Isa} {t : Table K V} {len : Nat} (hm : MetaOk isa t.cap len t.ctl) {q : Nat} (hq : q ≤ t.cap) (tag j : Nat) :
    ((t.matchEq isa q tag).map (fun i => (q + i) &&& t.cap)).count j ≤ 2 := by
  rw [List.count_eq_countP, List.countP_map, List.countP_eq_length_filter]
  refine ((((matchEq_nodup isa t q tag).filter _).subperm (l₂ := [j - q, t.cap + 1 + j - q])) ?_).length_le
  intro i hi
  rw [List.mem_filter] at hi
  obtain ⟨hi, e⟩ := hi
  obtain ⟨h1, g, he⟩ := matchEq_full hi
  have hr := hm.real hq h1 (by rw [he]; simp) (Or.inl (by rw [he]; simp))
  simp only [Function.comp_apply, beq_iff_eq, land_cap hm] at e
  rw [e] at hr
  by_cases hle : q + i ≤ t.cap
  · rw [Nat.mod_eq_of_lt (by omega)] at e
    simp; omega
  · have ht := hm.tail (q + i) (by omega) (by omega)
    have hlt : q + i - (t.cap + 1) < t.cap := by
      by_contra hh
      rw [if_neg hh, he] at ht
      cases ht
    rw [Nat.mod_eq_sub_mod (by omega), Nat.mod_eq_of_lt (by omega)] at e
    simp; omega

/-- The windows of different steps of one probe have no slot in common. -/
theorem window_inj {isa : Isa} {cap m p s s' i : Nat} (hN : cap + 1 = 2 ^ m) (hW : isa.W ≤ cap + 1) (hs : s * isa.W ≤ cap)
    (hlt : s' < s) (hi : i < cap) (h : InWin isa cap (wpos isa cap p s) i) (h' : InWin isa cap (wpos isa cap p s') i) : False := by
  have hW0 := isa.W_pos
  rcases pow_cases isa hN with ⟨m', e⟩ | ⟨c, e, hc⟩
  · have hp : p % (cap + 1) < 2 ^ m' * isa.W := by rw [← e]; exact Nat.mod_lt _ (by omega)
    unfold InWin wpos at h h'
    have e1 := window_offset (W := isa.W) (m := m') (p := p % (cap + 1)) (s := s) (i := i) (by omega) hp (by omega) (by rw [← e]; exact h)
    have e2 := window_offset (W := isa.W) (m := m') (p := p % (cap + 1)) (s := s') (i := i) (by omega) hp (by omega) (by rw [← e]; exact h')
    refine tri_inj (m := m') hlt ?_ (e1.symm.trans e2)
    by_contra hge
    have := Nat.mul_le_mul_right isa.W (Nat.not_lt.mp hge)
    omega
  · have : (cap + 1) * 2 ≤ (cap + 1) * c := Nat.mul_le_mul_left _ hc
    omega

/-- The loop from step `s` on: what it compares and how many blocks it reads. -/
theorem findLoopT_spec {isa : Isa} {hash : K → Nat} {t : Table K V} (h : Inv isa hash t) (hc : 0 < t.cap) {p tag : Nat} {k : K} {s0 : Nat}
    (hs0 : s0 * isa.W ≤ t.cap) (hem : ¬ NoneIn isa t.ctl (·.isEmpty) (wpos isa t.cap p s0)) :
    ∀ {fuel s i b : Nat} {tr : List Nat}, s ≤ s0 → t.findLoopT isa k tag fuel (wpos isa t.cap p s) (s * isa.W) = .ok (i, tr, b) →
      b ≤ s0 + 1 - s ∧ (i ≠ t.cap → tr.getLast? = some i) ∧
      (∀ j ∈ tr, j < t.cap ∧ (∃ n, t.node j = some n ∧ (hashLo (hash n.key) = tag ∨ (isa = .portable ∧ hashLo (hash n.key) = tag ^^^ 1))) ∧
        ∃ s', s ≤ s' ∧ s' ≤ s0 ∧ InWin isa t.cap (wpos isa t.cap p s') j) ∧
      (isa.W ≤ t.cap + 1 → tr.Nodup) ∧ (s = s0 → ∀ j, tr.count j ≤ 2) := by
  have hm := h.meta_ok hc
  obtain ⟨m, hpow⟩ := hm.pow
  intro fuel
  induction fuel with
  | zero => intro s i b tr _ e; cases e
  | succ fuel ih =>
    intro s i b tr hs e
    have hle := wpos_le isa t.cap p s
    unfold Table.findLoopT at e
    obtain ⟨u, _, e⟩ := Dense.bind_eq_ok e
    obtain ⟨⟨r, l⟩, hl, e⟩ := Dense.bind_eq_ok e
    obtain ⟨hpre, hlast, _⟩ := scanT_spec hl
    have hin : ∀ j ∈ l, j < t.cap ∧ InWin isa t.cap (wpos isa t.cap p s) j ∧ ∃ n, t.node j = some n ∧
        (hashLo (hash n.key) = tag ∨ (isa = .portable ∧ hashLo (hash n.key) = tag ^^^ 1)) :=
      fun j hj => matched h hc hle (hpre.subset hj)
    have hnd : isa.W ≤ t.cap + 1 → l.Nodup := fun hW => (matched_once hm hW _ _).sublist hpre.sublist
    have h2 : ∀ j, l.count j ≤ 2 := fun j => Nat.le_trans (hpre.sublist.count_le j) (matched_twice hm hle tag j)
    simp only at e
    cases r with
    | some off =>
      cases e
      exact ⟨by omega, fun _ => hlast _ rfl, fun j hj => ⟨(hin j hj).1, (hin j hj).2.2, s, Nat.le_refl _, hs, (hin j hj).2.1⟩, hnd, fun _ => h2⟩
    | none =>
      simp only at e
      by_cases hne : t.matches_ isa (wpos isa t.cap p s) (·.isEmpty) ≠ []
      · rw [if_pos hne] at e
        cases e
        exact ⟨by omega, fun h => absurd rfl h, fun j hj => ⟨(hin j hj).1, (hin j hj).2.2, s, Nat.le_refl _, hs, (hin j hj).2.1⟩, hnd, fun _ => h2⟩
      · rw [if_neg hne] at e
        have hsne : s ≠ s0 := by
          intro es
          rw [es] at hne
          exact hem (matches_nil.mp (not_not.mp hne))
        by_cases hidx : s * isa.W < t.cap
        · rw [if_pos hidx, wpos_succ hm.pow, ← Nat.succ_mul] at e
          obtain ⟨⟨i', l', b'⟩, h', e⟩ := Dense.bind_eq_ok e
          cases e
          obtain ⟨g1, g2, g3, g4, _⟩ := ih (by omega) h'
          refine ⟨by show b' + 1 ≤ _; omega, ?_, ?_, ?_, fun es => absurd es hsne⟩
          · intro hi
            rw [List.getLast?_append, g2 hi]
            rfl
          · intro j hj
            rcases List.mem_append.mp hj with hj | hj
            · exact ⟨(hin j hj).1, (hin j hj).2.2, s, Nat.le_refl _, hs, (hin j hj).2.1⟩
            · obtain ⟨a1, a2, s', a3, a4, a5⟩ := g3 j hj
              exact ⟨a1, a2, s', by omega, a4, a5⟩
          · intro hW
            refine List.nodup_append.mpr ⟨hnd hW, g4 hW, ?_⟩
            intro a ha b hb eab
            subst eab
            obtain ⟨a1, _, s', a3, a4, a5⟩ := g3 a hb
            have hs' : s' * isa.W ≤ t.cap := Nat.le_trans (Nat.mul_le_mul_right _ a4) hs0
            exact window_inj hpow hW hs' (by omega) a1 a5 (hin a ha).2.1
        · rw [if_neg hidx] at e
          cases e

/-- The search as a whole. -/
theorem findNodeT_spec {isa : Isa} {hash : K → Nat} {t : Table K V} (h : Inv isa hash t) (k : K) :
    ∃ i tr b, t.findNodeT isa k (hash k) = .ok (i, tr, b) ∧ t.findNode isa k (hash k) = .ok i ∧ b ≤ t.cap / isa.W + 1 ∧
      (i ≠ t.cap → tr.getLast? = some i) ∧
      (∀ j ∈ tr, j < t.cap ∧ ∃ n, t.node j = some n ∧
        (hashLo (hash n.key) = hashLo (hash k) ∨ (isa = .portable ∧ hashLo (hash n.key) = hashLo (hash k) ^^^ 1))) ∧
      (isa.W ≤ t.cap + 1 → tr.Nodup) ∧ ∀ j, tr.count j ≤ 2 := by
  have hf := findNodeT_fst isa t k (hash k)
  have hok : ∃ i, t.findNode isa k (hash k) = .ok i := by
    rcases findNode_spec h k with ⟨i, _, _, _, _, e⟩ | ⟨_, e⟩ <;> exact ⟨_, e⟩
  obtain ⟨i, hi⟩ := hok
  rw [hi] at hf
  cases e : t.findNodeT isa k (hash k) with
  | error f => rw [e] at hf; cases hf
  | ok r =>
    rw [e] at hf
    obtain ⟨i', tr, b⟩ := r
    simp only [Except.map, Except.ok.injEq] at hf
    subst hf
    refine ⟨i', tr, b, rfl, hi, ?_⟩
    unfold Table.findNodeT at e
    by_cases hz : t.size ≠ 0
    · rw [if_pos hz] at e
      have hc : 0 < t.cap := by
        by_contra hc
        have h0 : t.cap = 0 := by omega
        have := h.size_eq
        rw [h0] at this
        exact hz this
      have hm := h.meta_ok hc
      have key : ∀ {s0}, s0 * isa.W ≤ t.cap → ¬ NoneIn isa t.ctl (·.isEmpty) (wpos isa t.cap (hashHi (hash k)) s0) → _ :=
        fun {s0} hs0 hem => findLoopT_spec (k := k) (tag := hashLo (hash k)) h hc hs0 hem (s := 0) (fuel := t.cap + 1) (i := i') (tr := tr)
          (b := b) (by omega) (by rw [land_cap hm] at e; simpa [wpos, probePos] using e)
      rcases Nat.lt_or_ge (t.cap + 1) isa.W with hsm | hbig
      · have hem : ¬ NoneIn isa t.ctl (·.isEmpty) (wpos isa t.cap (hashHi (hash k)) 0) := by
          intro hno
          obtain ⟨j, hj, hj2, _⟩ := hm.phantom hsm (wpos_le isa t.cap (hashHi (hash k)) 0)
          have := hno j hj
          rw [hj2] at this
          cases this
        obtain ⟨a1, a2, a3, a4, a5⟩ := key (s0 := 0) (by omega) hem
        exact ⟨Nat.le_trans (show b ≤ 1 by omega) (Nat.le_add_left 1 _), a2, fun j hj => ⟨(a3 j hj).1, (a3 j hj).2.1⟩, a4, a5 rfl⟩
      · obtain ⟨s0, hs0, hem⟩ := h.hasStep hc (P := (·.isEmpty)) rfl (hashHi (hash k))
        obtain ⟨a1, a2, a3, a4, _⟩ := key hs0 hem
        refine ⟨?_, a2, fun j hj => ⟨(a3 j hj).1, (a3 j hj).2.1⟩, a4, fun j => ?_⟩
        · have : s0 ≤ t.cap / isa.W := (Nat.le_div_iff_mul_le (by have := isa.W_pos; omega)).mpr hs0
          omega
        · have := List.nodup_iff_count_le_one.mp (a4 hbig) j
          omega
    · rw [if_neg hz] at e
      cases e
      exact ⟨Nat.zero_le _, fun h => absurd rfl h, by simp, by simp, by simp⟩

/-- In a table smaller than a block an element with the tag of an absent key is compared as itself and as its clone. -/
theorem findNodeT_twice {isa : Isa} {hash : K → Nat} {t : Table K V} (h : Inv isa hash t) {k : K} (hsm : t.cap + 1 < isa.W) {j : Nat}
    {n : Node K V} (hj : j < t.cap) (hn : t.node j = some n) (htag : hashLo (hash n.key) = hashLo (hash k))
    (hpos : hashHi (hash k) % (t.cap + 1) ≤ j) (hno : t.findNode isa k (hash k) = .ok t.cap) :
    ∃ tr b, t.findNodeT isa k (hash k) = .ok (t.cap, tr, b) ∧ tr.count j = 2 := by
  have hc : 0 < t.cap := by omega
  have hm := h.meta_ok hc
  obtain ⟨m, hpow⟩ := hm.pow
  have hW : 2 * (t.cap + 1) ≤ isa.W := by
    rcases pow_cases isa hpow with ⟨m', h⟩ | ⟨c, h, hc⟩
    · have := Nat.le_mul_of_pos_left isa.W (Nat.two_pow_pos m')
      omega
    · have : (t.cap + 1) * 2 ≤ (t.cap + 1) * c := Nat.mul_le_mul_left _ hc
      omega
  obtain ⟨i, tr, b, e, e', _, _, _, _, h2⟩ := findNodeT_spec h k
  rw [hno] at e'
  cases e'
  refine ⟨tr, b, e, Nat.le_antisymm (h2 j) ?_⟩
  have hz : t.size ≠ 0 := by
    have h1 := h.size_eq
    have h3 := h.live j hj
    rw [hn] at h3
    have := cnt_pos_of (p := fun i => (t.ctl i).isOccupied) hj h3.symm
    omega
  unfold Table.findNodeT at e
  rw [if_pos hz, land_cap hm] at e
  generalize hq : hashHi (hash k) % (t.cap + 1) = q at *
  have hqle : q ≤ t.cap := by omega
  unfold Table.findLoopT at e
  obtain ⟨u, _, e⟩ := Dense.bind_eq_ok e
  obtain ⟨⟨r, l⟩, hl, e⟩ := Dense.bind_eq_ok e
  obtain ⟨hpre, hlast, hall⟩ := scanT_spec hl
  have hall : tr = (t.matchEq isa q (hashLo (hash k))).map (fun i => (q + i) &&& t.cap) := by
    cases r with
    | some off =>
      simp only [Except.ok.injEq, Prod.mk.injEq] at e
      have := hpre.subset (List.mem_of_getLast? (hlast off rfl))
      have := (matched h hc hqle this).1
      omega
    | none =>
      have hne : t.matches_ isa q (·.isEmpty) ≠ [] := by
        intro hn
        obtain ⟨i, hi, he, _⟩ := hm.phantom hsm hqle
        have := matches_nil.mp hn i hi
        rw [he] at this
        cases this
      simp only [if_pos hne, Except.ok.injEq, Prod.mk.injEq] at e
      rw [← e.2.1, hall rfl]
  rw [hall, List.count_eq_countP, List.countP_map, List.countP_eq_length_filter]
  have hct : t.ctl j = .full (hashLo (hash k)) := by rw [h.tag j hj n hn, h.hash_ok j hj n hn, htag]
  have hsub : [j - q, t.cap + 1 + j - q] ⊆ (t.matchEq isa q (hashLo (hash k))).filter ((fun x => x == j) ∘ fun i => (q + i) &&& t.cap) := by
    intro i hi
    rw [List.mem_filter]
    simp only [Function.comp_apply, beq_iff_eq, land_cap hm]
    rcases List.mem_cons.mp hi with rfl | hi
    · rw [show q + (j - q) = j by omega]
      refine ⟨matchEq_hit (by omega) (by rw [show q + (j - q) = j by omega]; exact hct), Nat.mod_eq_of_lt (by omega)⟩
    · rw [List.mem_singleton] at hi
      subst hi
      rw [show q + (t.cap + 1 + j - q) = j + (t.cap + 1) by omega]
      refine ⟨matchEq_hit (by omega) ?_, by rw [Nat.add_mod_right, Nat.mod_eq_of_lt (by omega)]⟩
      rw [show q + (t.cap + 1 + j - q) = j + (t.cap + 1) by omega, hm.tail _ (by omega) (by omega), if_pos (by omega)]
      rw [show j + (t.cap + 1) - (t.cap + 1) = j by omega, hct]
  have hnd : [j - q, t.cap + 1 + j - q].Nodup := by simp; omega
  exact (hnd.subperm hsub).length_le

end Swiss

end Tpp
