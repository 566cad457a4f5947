import Verif.Dense.Local
import Verif.Props.Dense

/-!
# C87: the bucket interface of dense containers
-/

set_option linter.unusedSectionVars false

namespace Tpp.Dense

variable {k : Nat} {K V : Type} [DecidableEq K]

/-- C87: where the elements are.  `bucket(x)` is the number of a bucket; from `begin(n)` the increments lead through exactly the elements
whose key belongs into bucket `n`, each once, to the position `npos` of the array.  Missing, because false: that this is `end(n)`. -/
theorem C87_bucket_partial {hash : K → Nat} {t : Table k K V} (h : Reachable hash t) {l : List (Elem k K V)} (hl : t.iterate = .ok l)
    (j : Fin k) (hb : t.bc ≠ 0) :
    (∀ x, ∃ n, t.bucket hash x = .ok n ∧ n < t.bc) ∧
    ∀ n, n < t.bc → ∃ it q, t.localBegin j n = .ok it ∧ t.localWalk j ⟨it.base, none⟩ (t.cap + 1) it = .ok q ∧
      q.Perm (l.filter fun e : Elem k K V => t.bucket hash (e.1 j) = .ok n) := by
  have hi := h.of_iterate hl
  have hbk : ∀ x, t.bucket hash x = .ok (hash x % t.bc) := fun x => by unfold Table.bucket; rw [if_neg hb]
  refine ⟨fun x => ⟨_, hbk x, Nat.mod_lt _ (by omega)⟩, fun n hn => ?_⟩
  obtain ⟨c, h1, h2, h3, h4, h5⟩ := hi.bucket j hn
  refine ⟨_, _, by unfold Table.localBegin; rw [if_pos hn], localWalk_to (fuel := t.cap + 1) (p := t.head n j) (l := c) (r := .head n) rfl h1 h3 h4 (by omega), ?_⟩
  simpa [hbk] using h5

/-- A container of four elements with eight buckets: the keys 3, 2, 4 and 7 have the hashes 0, 2, 1 and 1. -/
example : demo.bc = 8 ∧ demo.bucket h3 4 = .ok 1 ∧ demo.bucket h3 7 = .ok 1 ∧
    (demo.localBegin 0 1 >>= fun it => demo.localWalk 0 ⟨it.base, none⟩ (demo.cap + 1) it) = .ok [el 4 44, el 7 70] := ⟨rfl, rfl, rfl, rfl⟩

/-- C87 is false for every bucket of every container: the iteration from `begin(n)` does not reach `end(n)`, which is a null pointer
with position 0, however long it goes on.  It reads the array at `npos`, or a null pointer if there is no array; so does
`bucket_size(n)`. -/
theorem C87_local_iteration_false {hash : K → Nat} {t : Table k K V} (h : Reachable hash t) (j : Fin k) {n : Nat} (hn : n < t.bc) :
    t.localElements j n = .error (if t.cap = 0 then .nullDeref else .oobNode) ∧
    ∃ it, t.localBegin j n = .ok it ∧ ∀ fuel q, t.localWalk j Table.localEnd fuel it ≠ .ok q := by
  obtain ⟨l, hi⟩ := h.inv
  obtain ⟨c, h1, h2, h3, h4, _⟩ := hi.bucket j hn
  have hbeg : t.localBegin j n = .ok ⟨decide (t.cap ≠ 0), t.head n j⟩ := by unfold Table.localBegin; rw [if_pos hn]
  constructor
  · unfold Table.localElements
    rw [hbeg, bind_ok, localWalk_over (fuel := t.cap + 2) (p := t.head n j) (l := c) (r := .head n) rfl h1 h3 h4 (by omega)]
    by_cases e : t.cap = 0 <;> simp [e]
  · refine ⟨_, hbeg, fun fuel q e => ?_⟩
    obtain ⟨f, e'⟩ := localWalk_never (fuel := fuel) (p := t.head n j) (l := c) (r := .head n) rfl h1 h3 h4
    rw [e'] at e
    cases e

example : demo.localElements 0 1 = .error .oobNode ∧ demo.localElements 0 5 = .error .oobNode := ⟨rfl, rfl⟩

/-- C87 is false for containers without buckets: `bucket(x)` divides by zero, for every key. -/
theorem C87_bucket_false {hash : K → Nat} {t : Table k K V} (hb : t.bc = 0) (x : K) : t.bucket hash x = .error .divZero := by
  unfold Table.bucket
  rw [if_pos hb]

example : (Table.init LF.initial : Table 1 Nat Nat).bc = 0 ∧ Reachable h3 (Table.init LF.initial : Table 1 Nat Nat) :=
  ⟨rfl, after_reachable h3 LF.initial []⟩

end Tpp.Dense
