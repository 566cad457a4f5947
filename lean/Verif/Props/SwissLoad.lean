import Verif.Props.F32
import Verif.Props.SwissA
import Verif.Props.OrderedSwiss

/-!
# C100: `load_factor()` of sparse and stable containers
-/

set_option linter.unusedSectionVars false

namespace Tpp.Swiss

open Tpp.F32

variable {K V : Type} [DecidableEq K]

/-- `load_factor()` (swiss_table.hpp 911): both numbers are converted to `float` and divided.  Without buckets this is 0 / 0 (`none` stands
for "not a number"), since a container without buckets has no elements. -/
def loadF (size cap : Nat) : Option ℚ := if cap = 0 then none else some (fl (fl size / fl cap))

/-- `max_load_factor()` (swiss_table.hpp 1134). -/
def maxLoadF : ℚ := 7 / 8

theorem isF32_max : IsF32 (7 / 8) := by
  have := isF32_ratio (p := 7) (j := 3) (by norm_num) (by norm_num) (by norm_num)
  norm_num at this
  exact this

/-- From 2^25 buckets on the bucket count is rounded up to the power of two. -/
theorem fl_cap {d : Nat} {cap : Nat} (h : cap + 1 = 2 ^ (d + 25)) : (2 : ℚ) ^ (d + 25) ≤ fl cap := by
  have hd : (1 : ℚ) ≤ 2 ^ d := one_le_pow₀ (by norm_num)
  have h1 : fl ((33554431 : ℚ) * 2 ^ d) = 33554432 * 2 ^ d := by
    have h := fl_scale (x := 33554431) (e := d) (by norm_num) (by
      rw [zpow_natCast]
      exact le_trans (by norm_num) (le_trans hd (by linarith)))
    rw [zpow_natCast] at h
    rw [h, fl_eq 1 (by norm_num) (by norm_num) (by norm_num)]
    congr 1
    have : ⌊(33554431 : ℚ) / 2 ^ (1 : ℤ)⌋ = 16777215 := by norm_num
    unfold rne
    rw [this]
    norm_num
  have e : (2 : ℚ) ^ (d + 25) = 33554432 * 2 ^ d := by
    rw [pow_add]
    norm_num
    ring
  have h2 : (cap : ℚ) + 1 = 2 ^ (d + 25) := by exact_mod_cast h
  rw [e, ← h1]
  exact fl_mono (by positivity) (by linarith)

/-- What `load_factor()` yields for the sizes and bucket counts a container can have. -/
theorem load_iff {W8 : Prop} [Decidable W8] {s cap : Nat} (hp : ∃ m, cap + 1 = 2 ^ m) (hs : s ≤ if W8 ∧ cap = 7 then 6 else cap - cap / 8)
    (h0 : cap ≠ 0) : ∃ x, loadF s cap = some x ∧ 0 ≤ x ∧ x ≤ 1 ∧ (x ≤ maxLoadF ↔ 8 * s ≤ 7 * cap ∨ 2 ^ 25 ≤ cap + 1) := by
  obtain ⟨m, hm⟩ := hp
  have hsc : s ≤ cap - cap / 8 := by
    split at hs
    · omega
    · exact hs
  refine ⟨fl (fl s / fl cap), by unfold loadF; rw [if_neg h0], ?_⟩
  unfold maxLoadF
  have hc : (1 : ℚ) ≤ cap := by exact_mod_cast Nat.one_le_iff_ne_zero.mpr h0
  have e1 : IsF32 1 := by simpa using isF32_pow 0
  have hfc : 1 ≤ fl (cap : ℚ) := le_fl e1 hc
  rcases Nat.eq_zero_or_pos s with hs0 | hs0
  · subst hs0
    push_cast
    rw [fl_zero, zero_div, fl_zero]
    refine ⟨le_rfl, by norm_num, ?_⟩
    constructor
    · intro _; exact Or.inl (by omega)
    · intro _; norm_num
  have hs1 : (1 : ℚ) ≤ s := by exact_mod_cast hs0
  have hfs : 1 ≤ fl (s : ℚ) := le_fl e1 hs1
  have hpos : 0 < fl (s : ℚ) / fl cap := by positivity
  have hle1 : fl (s : ℚ) / fl cap ≤ 1 := by
    rw [div_le_one (by linarith)]
    exact fl_mono (by linarith) (by exact_mod_cast (by omega : s ≤ cap))
  refine ⟨fl_nonneg hpos.le, fl_le hpos e1 hle1, ?_⟩
  rcases Nat.lt_or_ge m 25 with hm25 | hm25
  · have hcap : cap < 2 ^ 24 := by
      have : 2 ^ m ≤ 2 ^ 24 := Nat.pow_le_pow_right (by norm_num) (by omega)
      omega
    rw [fl_nat (n := s) (by omega), fl_nat (n := cap) (by omega)] at *
    have hn : ¬ 2 ^ 25 ≤ cap + 1 := by omega
    constructor
    · intro h
      by_contra hcon
      have h8 : 7 * cap < 8 * s := by omega
      by_cases heq : s = cap
      · subst heq
        rw [div_self (by linarith), fl_exact e1] at h
        norm_num at h
      · have hdiv : 8 ∣ cap + 1 := by
          rw [hm]
          have : 3 ≤ m := by
            by_contra hc3
            have : 2 ^ m ≤ 2 ^ 2 := Nat.pow_le_pow_right (by norm_num) (by omega)
            omega
          exact pow_dvd_pow 2 this
        have h7 : 7 * (cap + 1) ≤ 8 * s := by omega
        have h7q : (7 : ℚ) * (cap + 1) ≤ 8 * s := by exact_mod_cast h7
        have hcq : (cap : ℚ) ≤ 16777216 := by exact_mod_cast (by omega : cap ≤ 16777216)
        have hlt : (s : ℚ) / cap < 1 := by
          rw [div_lt_one (by linarith)]
          exact_mod_cast (by omega : s < cap)
        have herr := (abs_le.mp (fl_err_le (x := (s : ℚ) / cap) (e := -24) hpos (by simpa using hlt) (by norm_num))).1
        have hgap : 7 / 8 + (2 : ℚ) ^ (-24 : ℤ) / 2 < (s : ℚ) / cap := by
          rw [lt_div_iff₀ (by linarith)]
          rw [show (2 : ℚ) ^ (-24 : ℤ) = 1 / 16777216 by norm_num]
          linarith
        linarith
    · rintro (h | h)
      · refine fl_le hpos isF32_max ?_
        rw [div_le_div_iff₀ (by linarith) (by norm_num)]
        have : (8 : ℚ) * s ≤ 7 * cap := by exact_mod_cast h
        linarith
      · exact absurd h hn
  · obtain ⟨d, rfl⟩ : ∃ d, m = d + 25 := ⟨m - 25, by omega⟩
    have h25 : 2 ^ 25 ≤ cap + 1 := by
      rw [hm]
      exact Nat.pow_le_pow_right (by norm_num) (by omega)
    have hfull : s ≤ 7 * 2 ^ (d + 22) := by
      have : 2 ^ (d + 25) = 8 * 2 ^ (d + 22) := by rw [show d + 25 = d + 22 + 3 by omega, pow_add]; ring
      omega
    have h7 : fl (s : ℚ) ≤ 7 * 2 ^ (d + 22) := by
      refine fl_le (by linarith) ⟨7, d + 22, by norm_num, by norm_num, by omega, ?_⟩ (by exact_mod_cast hfull)
      push_cast
      congr 1
    have hb := fl_cap hm
    constructor
    · intro _; exact Or.inr h25
    · intro _
      refine fl_le hpos isF32_max ?_
      rw [div_le_div_iff₀ (by linarith) (by norm_num)]
      have : (2 : ℚ) ^ (d + 25) = 8 * 2 ^ (d + 22) := by rw [show d + 25 = d + 22 + 3 by omega, pow_add]; ring
      linarith

/-- C100, exactly: `load_factor()` of a container with buckets is between 0 and 1, and at most `max_load_factor()` if and only if 8/7 of the
elements fit into the buckets, or there are 2^25 buckets or more (the rounding of their number then makes up for the excess).
Not proved, since it is false (`C100_full_false`, `C100_nan`): at most `max_load_factor()` always. -/
theorem C100_load_partial {isa : Isa} {hash : K → Nat} {t : Table K V} (h : Reachable isa hash t) (h0 : t.cap ≠ 0) :
    ∃ x, loadF t.size t.cap = some x ∧ 0 ≤ x ∧ x ≤ 1 ∧ (x ≤ maxLoadF ↔ 8 * t.size ≤ 7 * t.cap ∨ 2 ^ 25 ≤ t.cap + 1) :=
  load_iff h.inv.pow h.inv.size_le h0

/-- A container that could take another element is within the limit. -/
theorem C100_room_partial {isa : Isa} {hash : K → Nat} {t : Table K V} (h : Reachable isa hash t) (hroom : t.size < t.cap - t.cap / 8) :
    ∃ x, loadF t.size t.cap = some x ∧ x ≤ maxLoadF := by
  obtain ⟨x, e, _, _, hx⟩ := C100_load_partial h (by omega)
  exact ⟨x, e, hx.mpr (Or.inl (by omega))⟩

/-- C100 is false for all full containers with fewer than 2^25 buckets (a container of 7 buckets with 8-byte blocks is never full). -/
theorem C100_full_false {isa : Isa} {hash : K → Nat} {t : Table K V} (h : Reachable isa hash t) (h0 : t.cap ≠ 0)
    (hfull : t.size = t.cap - t.cap / 8) (hsmall : t.cap + 1 < 2 ^ 25) : ∃ x, loadF t.size t.cap = some x ∧ maxLoadF < x := by
  obtain ⟨x, e, _, _, hx⟩ := C100_load_partial h h0
  refine ⟨x, e, not_le.mp fun hc => ?_⟩
  obtain ⟨m, hm⟩ := h.inv.pow
  have hodd : t.cap % 2 = 1 := by
    cases m with
    | zero => omega
    | succ m => rw [pow_succ] at hm; omega
  rcases hx.mp hc with h1 | h1
  · omega
  · omega

/-- Seven elements in seven buckets. -/
def fullOps : List (Op Nat Nat) := (List.range 7).map fun i => .insert i (10 * i)

/-- The container after `fullOps`. -/
def fullTable : Table Nat Nat :=
  match (Table.init : Table Nat Nat).run .sse2 h64 fullOps with
  | .ok r => r.1
  | .error _ => Table.init

theorem fullTable_reachable : Reachable .sse2 h64 fullTable := by
  obtain ⟨r, e⟩ : ∃ r, (Table.init : Table Nat Nat).run .sse2 h64 fullOps = .ok r := by
    have h : ((Table.init : Table Nat Nat).run .sse2 h64 fullOps).isOk = true := by decide +kernel
    cases e : (Table.init : Table Nat Nat).run .sse2 h64 fullOps with
    | ok r => exact ⟨r, rfl⟩
    | error f => rw [e] at h; cases h
  unfold fullTable
  rw [e]
  exact Reachable.run fullOps (.init _) e

example : fullTable.size = 7 ∧ fullTable.cap = 7 ∧ loadF fullTable.size fullTable.cap = some 1 := by decide +kernel

-- four elements in seven buckets: 4/7 rounded to 24 bits
example : demo.size = 4 ∧ demo.cap = 7 ∧ loadF demo.size demo.cap = some (9586981 / 2 ^ 24) := by decide +kernel

-- from 2^25 buckets on a full container is within the limit, below it is not
example : loadF (7 * 2 ^ 22) (2 ^ 25 - 1) = some (7 / 8) ∧ loadF (7 * 2 ^ 21) (2 ^ 24 - 1) = some (7 / 8 + 1 / 2 ^ 24) := by decide +kernel

/-- C100 is false for containers without buckets: not a number. -/
theorem C100_nan {isa : Isa} {hash : K → Nat} {t : Table K V} (h : Reachable isa hash t) : loadF t.size t.cap = none ↔ t.cap = 0 := by
  constructor
  · intro e
    by_contra h0
    obtain ⟨x, e', _⟩ := C100_load_partial h h0
    rw [e] at e'
    cases e'
  · intro e
    unfold loadF
    rw [if_pos e]

end Tpp.Swiss

namespace Tpp.OSwiss

open Tpp.Swiss (Node Table Inv loadF maxLoadF load_iff)
open Tpp.Ordered

variable {K V : Type} [DecidableEq K] {c : Cfg K}

/-- C100 for ordered containers, exactly as for the unordered ones. -/
theorem C100_ordered_partial (hsz : 0 < c.sz) (hA : c.A.Sound c.sz) {w : World K V} {s : Seqs K V} (h : Reached c w s) {i : Nat}
    {t : OTable K V} (ht : w.tab i = some t) {q : List (K × V)} (hq : s i = some q) (h0 : t.core.cap ≠ 0) :
    t.core.size = q.length ∧
    ∃ x, loadF t.core.size t.core.cap = some x ∧ 0 ≤ x ∧ x ≤ 1 ∧
      (x ≤ maxLoadF ↔ 8 * t.core.size ≤ 7 * t.core.cap ∨ 2 ^ 25 ≤ t.core.cap + 1) := by
  obtain ⟨o, hr, rfl⟩ := h.holds hsz hA ht hq
  exact ⟨by rw [hr.perm.length_eq, hr.core.contents_length], load_iff hr.core.pow hr.core.size_le h0⟩

end Tpp.OSwiss
