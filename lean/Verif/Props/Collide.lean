import Verif.Swiss.Collide
import Verif.Swiss.Log
import Verif.Dense.Collide
import Verif.Props.Behaves
import Verif.Props.Dense
import Verif.Props.DenseThrow

/-!
# C113: keys with the same hash
-/

set_option linter.unusedSectionVars false

namespace Tpp.Swiss

variable {K V : Type} [DecidableEq K]

/-- C113 for sparse and stable containers: a search for an absent key compares every element that has the hash of the key, wherever it is
stored and whatever the history of the container; it makes `N` calls of the user's functions, at least one for each of these elements and
one for the hash, at most two for each element of the container. -/
theorem C113_sparse_search {isa : Isa} {hash : K → Nat} {t : Table K V} {m : List (K × V)} (h : Reachable isa hash t)
    (hb : Behaves isa hash t m) {k : K} (hk : t.contains isa hash k = .ok false) :
    ∃ tr b N, t.findNodeT isa k (hash k) = .ok (t.cap, tr, b) ∧
      (∀ j n, t.readNode j = .ok n → hash n.key = hash k → j ∈ tr) ∧
      1 + (m.filter fun x => hash x.1 = hash k).length ≤ N ∧ N ≤ 1 + 2 * t.size ∧ (isa.W ≤ t.cap + 1 → N ≤ 1 + t.size) ∧
      ∀ c, t.seekC isa hash k c = .ok (if c < N then none else some (hash k, t.cap, c - N)) := by
  have hi := h.inv
  have hm := hb.contents_perm hi
  obtain ⟨i, tr, b, e, e1, _, _, h3, h4, _⟩ := findNodeT_spec hi k
  have hcap : i = t.cap := by
    unfold Table.contains at hk
    rw [e1, bind_ok] at hk
    by_contra hne
    simp [hne] at hk
  subst hcap
  have hlo := same_le hi e
  rw [hm.countP_eq, List.countP_eq_length_filter] at hlo
  refine ⟨tr, b, 1 + tr.length, e, ?_, by omega, ?_, ?_, ?_⟩
  · intro j n hn hh
    obtain ⟨hj, hn⟩ := readNode_eq hn
    exact miss_all hi e hj hn hh
  · have := compared_le hi e
    omega
  · intro hW
    have hsub : tr ⊆ (List.range t.cap).filter (fun i => (t.ctl i).isOccupied) := by
      intro j hj
      obtain ⟨hjc, n, hn, _⟩ := h3 j hj
      rw [List.mem_filter, List.mem_range]
      refine ⟨hjc, ?_⟩
      rw [← hi.live j hjc, hn]
      rfl
    have := ((h4 hW).subperm hsub).length_le
    rw [← cnt_eq_length, ← hi.size_eq] at this
    omega
  · intro c
    cases c with
    | zero => simp [Table.seekC]
    | succ c =>
      simp only [Table.seekC, findNodeT_calls e c, bind_ok]
      by_cases hc : c < tr.length
      · rw [if_pos hc, if_pos (by omega)]
      · rw [if_neg hc, if_neg (by omega)]
        simp only [Except.ok.injEq, Option.some.injEq, Prod.mk.injEq, true_and]
        omega

/-- C113 for sparse and stable containers: inserting `n` new keys that all have the same hash, of which the container already holds `s`
elements, makes at least `n * (n + 1) / 2 + n * s` calls of the user's functions, and at most `n * n + 2 * n * size()`.  The number grows
with the square of `n`, growing the table does not help. -/
theorem C113_sparse_inserts {isa : Isa} {hash : K → Nat} {t : Table K V} {m : List (K × V)} (h : Reachable isa hash t)
    (hb : Behaves isa hash t m) {d : Nat} {xs : List (K × V)} (hx : (xs.map Prod.fst).Nodup)
    (hd : ∀ x ∈ xs, hash x.1 = d ∧ t.contains isa hash x.1 = .ok false) :
    ∃ N t', xs.length * (xs.length + 1) + 2 * xs.length * (m.filter fun x => hash x.1 = d).length ≤ 2 * N ∧
      N ≤ xs.length * xs.length + 2 * xs.length * t.size ∧ Behaves isa hash t' (xs ++ m) ∧
      ∀ c, (c < N → ∃ u, t.insertListC isa hash xs c = .ok (u, none)) ∧
        (N ≤ c → t.insertListC isa hash xs c = .ok (t', some (c - N))) := by
  have hi := h.inv
  have hm := hb.contents_perm hi
  obtain ⟨N, t', h1, h2, h3, h4, h5⟩ := insertListC_same xs hi hx (by
    intro x hxs
    refine ⟨(hd x hxs).1, ?_⟩
    have := (hd x hxs).2
    rw [contains_spec hi] at this
    simpa using this)
  rw [hm.countP_eq, List.countP_eq_length_filter] at h1
  refine ⟨N, t', ?_, ?_, h3.behaves (h4.trans ((List.reverse_perm xs).append hm)), h5⟩
  · nlinarith
  · nlinarith

/-- Six keys with the same hash in a container of sixteen slots or more: 1 + 2 + … + 6 calls. -/
example : let t : Table Nat Nat := after .sse2 (fun _ => 5) [.reserve 20]
    ((t.insertListC .sse2 (fun _ => 5) ((List.range 6).map fun i => (i, i)) 20).map fun r => (r.1.size, r.2)) = .ok (5, none) ∧
    ((t.insertListC .sse2 (fun _ => 5) ((List.range 6).map fun i => (i, i)) 21).map fun r => (r.1.size, r.2)) = .ok (6, some 0) := by
  decide +kernel

end Tpp.Swiss

namespace Tpp.Dense

variable {k : Nat} {K V : Type} [DecidableEq K]

/-- The number of calls of an insertion: an exception at call number `b` (from 0) leaves the insertion exactly if `b` is less. -/
theorem C113_dense_cost {hash : K → Nat} {t : Table k K V} (h : Reachable hash t) {l : List (Elem k K V)} (hl : t.iterate = .ok l)
    {key : Fin k → K} (hn : ∀ j, ∀ e ∈ l, e.1 j ≠ key j) :
    ∃ N, t.insertCost hash key = .ok N ∧
      N = k + ((List.finRange k).map fun j => (l.filter fun e : Elem k K V => hash (e.1 j) = hash (key j)).length).sum ∧
      ∀ (b : Nat) (v : V), ∃ t' r, t.insertCall hash b key v = .ok (t', r) ∧ (r = none ↔ b < N) := by
  refine ⟨_, insertCost_new (h.of_iterate hl) hn, ?_, ?_⟩
  · simp only [List.countP_eq_length_filter]
  · intro b v
    obtain ⟨n, _, h2, _, h4⟩ := C71_calls h hl key
    obtain ⟨t', r, e1, e2⟩ := (h4 b v).1
    refine ⟨t', r, e1, ?_⟩
    rw [e2, show n = fun j => l.countP (fun e => hash (e.1 j) = hash (key j)) from funext fun j => h2 j (hn j)]

/-- C113 for dense containers: inserting `n` new keys whose components all have the same hash, which `s` components of elements of the
container already have, makes exactly `k * n * (n + 1) / 2 + n * s` calls of the user's functions, however often the container grows. -/
theorem C113_dense_inserts {hash : K → Nat} {t : Table k K V} (h : Reachable hash t) {l : List (Elem k K V)} (hl : t.iterate = .ok l)
    {d : Nat} {xs : List (Elem k K V)} (hx : ∀ j, (xs.map fun e => e.1 j).Nodup)
    (hd : ∀ x ∈ xs, ∀ j, hash (x.1 j) = d ∧ ∀ e ∈ l, e.1 j ≠ x.1 j) :
    ∃ N t', t.insertsCost hash xs = .ok (t', N) ∧ t'.iterate = .ok (l ++ xs) ∧
      2 * N = k * (xs.length * (xs.length + 1)) +
        2 * xs.length * ((List.finRange k).map fun j => (l.filter fun e : Elem k K V => hash (e.1 j) = d).length).sum := by
  obtain ⟨N, t', e, g1, g2⟩ := insertsCost_same xs (h.of_iterate hl) hx hd
  refine ⟨N, t', e, iterate_ok g1.toArr, ?_⟩
  simp only [List.countP_eq_length_filter] at g2
  rw [g2]
  ring

/-- Twelve keys with the same hash; the container grows from no buckets to sixteen. -/
example : (((Table.init LF.initial : Table 1 Nat Nat).insertsCost (fun _ => 5) ((List.range 12).map fun i => (fun _ => i, i))).map fun r =>
    (r.1.size, r.1.bc, r.2)) = .ok (12, 16, 78) := by decide +kernel

end Tpp.Dense
