import Verif.Swiss.Words
import Verif.Props.SwissA

/-!
# C80: the arithmetic of `std::size_t`
-/

set_option linter.unusedSectionVars false

namespace Tpp.Swiss

variable {K V : Type} [DecidableEq K]

/-- C80 for one operation: on a well-formed container with fewer than 2^59 buckets the code that computes with unsigned 64-bit numbers and
checks nothing gives the same container and answer as the model with unbounded numbers. -/
theorem C80_step {isa : Isa} {hash : K → Nat} {t : Table K V} (h : Reachable isa hash t) (hS : Settled t) (hc : t.cap < 2 ^ 59) {op : Op K V}
    (ho : op.fits) {r : Table K V × Out K V} (e : t.step isa hash op = .ok r) : t.stepW isa hash op = .ok r := by
  refine stepW_of h.inv ⟨hc, ?_⟩ ho e
  rcases Nat.eq_zero_or_pos t.cap with h0 | h0
  · rw [hS h0]
    exact Nat.zero_le _
  · exact h.inv.budget_le h0

theorem runW_of {isa : Isa} {hash : K → Nat} (ops : List (Op K V)) : ∀ {t : Table K V}, Reachable isa hash t → Settled t →
    (∀ op ∈ ops, op.fits) → (∀ pre, pre <+: ops → ∀ r, t.run isa hash pre = .ok r → r.1.cap < 2 ^ 59) →
    ∀ {r}, t.run isa hash ops = .ok r → t.runW isa hash ops = .ok r := by
  induction ops with
  | nil => intro t _ _ _ _ r e; exact e
  | cons op ops ih =>
    intro t h hS ho hc r e
    unfold Table.run at e
    obtain ⟨⟨t1, o⟩, e1, e⟩ := ok_bind e
    obtain ⟨⟨t2, os⟩, e2, e⟩ := ok_bind e
    have hcap : t.cap < 2 ^ 59 := hc [] List.nil_prefix (t, []) rfl
    unfold Table.runW
    rw [C80_step h hS hcap (ho op List.mem_cons_self) e1, bind_ok]
    simp only
    rw [ih (h.step e1) (step_settled h.inv hS (ho op List.mem_cons_self) e1) (fun op hm => ho op (List.mem_cons_of_mem _ hm)) ?_ e2, bind_ok]
    · exact e
    · intro pre hp r' e'
      refine hc (op :: pre) ?_ (r'.1, o :: r'.2) ?_
      · obtain ⟨s, hs⟩ := hp
        exact ⟨s, by rw [List.cons_append, hs]⟩
      · unfold Table.run
        rw [e1, bind_ok]
        simp only
        rw [e', bind_ok]

/-- C80: a history during which the container never has 2^59 buckets or more. -/
theorem C80_history {isa : Isa} {hash : K → Nat} {ops : List (Op K V)} (ho : ∀ op ∈ ops, op.fits)
    (hc : ∀ pre, pre <+: ops → ∀ r, (Table.init : Table K V).run isa hash pre = .ok r → r.1.cap < 2 ^ 59)
    {r : Table K V × List (Out K V)} (e : (Table.init : Table K V).run isa hash ops = .ok r) :
    (Table.init : Table K V).runW isa hash ops = .ok r :=
  runW_of ops (Reachable.init hash) (fun _ => rfl) ho hc e

/-- C80 with C01: with 16-byte blocks the 64-bit code runs to the end and answers as the mathematical map. -/
theorem C80_agrees {hash : K → Nat} {ops : List (Op K V)} (ho : ∀ op ∈ ops, op.fits)
    (hc : ∀ pre, pre <+: ops → ∀ r, (Table.init : Table K V).run .sse2 hash pre = .ok r → r.1.cap < 2 ^ 59) :
    ∃ t outs, (Table.init : Table K V).runW .sse2 hash ops = .ok (t, outs) ∧ List.Forall₂ Out.Agree outs (Spec.run [] ops).2 := by
  obtain ⟨t, outs, h1, h2⟩ := C01_history_agrees_sse2 hash ops
  exact ⟨t, outs, C80_history ho hc h1, h2⟩

/-- C80: what `set_metadata` writes, whatever wraps around on the way: the byte itself, and for the first `W - 1` slots (in a table of
fewer than `W` slots: for all) its clone behind the sentinel. -/
theorem C80_mirror (isa : Isa) {t : Table K V} {pos m : Nat} (v : Ctl) (hm : t.cap + 1 = 2 ^ m) (hc : t.cap < 2 ^ 59)
    (hl : t.len = t.cap + isa.W) (hp : pos < t.cap) :
    t.setMetadataW isa pos v = .ok { t with ctl := fun i =>
      if i = pos ∨ (pos < isa.W - 1 ∨ t.cap + 1 < isa.W) ∧ i = pos + (t.cap + 1) then v else t.ctl i } := by
  have hs : Small t.cap := ⟨⟨m, hm⟩, by omega⟩
  have hW := W_le isa
  rw [setMetadataW_eq isa hs]
  unfold Table.setMetadata
  simp only
  rw [mirror_eq isa hm hp]
  unfold Table.writeCtl
  rw [if_pos (by split <;> omega), bind_ok]
  simp only
  rw [if_pos (by omega)]
  congr 2
  funext i
  unfold upd
  by_cases h1 : i = pos
  · simp [h1]
  · by_cases h2 : pos < isa.W - 1 ∨ t.cap + 1 < isa.W
    · simp [h1, h2]
    · simp [h1, h2]

/-- C80: after `n` steps the probe started at slot `start` stands `W + 2 W + ... + n W` slots further round the table. -/
theorem C80_probe (isa : Isa) {cap m : Nat} (hm : cap + 1 = 2 ^ m) (hc : cap < 2 ^ 59) {start : Nat} (hs : start ≤ cap) (n : Nat)
    (hn : n * isa.W < 2 ^ 64) :
    (probeNextW isa cap)^[n] (0, start) = (n * isa.W, (start + isa.W * (n * (n + 1) / 2)) % (cap + 1)) := by
  have hsm : Small cap := ⟨⟨m, hm⟩, by omega⟩
  induction n with
  | zero =>
    simp only [Function.iterate_zero, id, Nat.zero_mul, Nat.zero_div, Nat.mul_zero, Nat.add_zero]
    rw [Nat.mod_eq_of_lt (by omega)]
  | succ n ih =>
    have h1 : (n + 1) * isa.W = n * isa.W + isa.W := by ring
    rw [Function.iterate_succ_apply', ih (by omega)]
    unfold probeNextW
    simp only
    rw [wadd_wadd_land hsm, wadd_eq (by omega), land_pow hm, ← h1]
    congr 1
    rw [Nat.mod_add_mod]
    congr 1
    have h2 : (n + 1) * (n + 1 + 1) / 2 = n * (n + 1) / 2 + (n + 1) := by
      rw [show (n + 1) * (n + 1 + 1) = n * (n + 1) + (n + 1) * 2 by ring, Nat.add_mul_div_right _ _ (by omega)]
    rw [h2]
    ring

/-- Three insertions with colliding hashes (all bits set), an erasure and a lookup in 64-bit arithmetic. -/
example : ((Table.init : Table Nat Nat).runW .sse2 (fun _ => 2 ^ 64 - 1)
    [.insert 1 10, .insert 2 20, .insert 3 30, .erase 2, .find 3, .find 2, .reserve 100, .size]).map (fun r => (r.1.cap, r.2)) =
    .ok (127, [.ins (1, 10) true, .ins (2, 20) true, .ins (3, 30) true, .unit, .opt (some 30), .opt none, .unit, .nat 2]) := by
  decide +kernel

/-- The clone of slot 3 in a table of 31 slots is byte 35, that of slot 20 is itself; the subtraction wraps in the first case. -/
example : wadd (wsub 3 15 &&& 31) (15 &&& 31) = 35 ∧ wadd (wsub 20 15 &&& 31) (15 &&& 31) = 20 ∧ wsub 3 15 = 2 ^ 64 - 12 := by decide

example : (probeNextW .sse2 63)^[3] (0, 40) = (48, 8) := by decide

/-- Why there is a bound: with 2^60 - 1 buckets the products in `size * 32 <= capacity * 25` (1281) exceed 64 bits and the test fails
although the table is less than half full. -/
example : ¬ wmul (3 * 2 ^ 57) 32 ≤ wmul (2 ^ 60 - 1) 25 ∧ 3 * 2 ^ 57 * 32 ≤ (2 ^ 60 - 1) * 25 := by decide

end Tpp.Swiss
