import Verif.Swiss.Work
import Verif.Dense.Work
import Verif.Props.Behaves
import Verif.Swiss.Log
import Verif.Props.Dense

/-!
# C85: the work of a search
-/

set_option linter.unusedSectionVars false

namespace Tpp.Swiss

variable {K V : Type} [DecidableEq K]

/-- C85 for sparse and stable containers: a search ends after reading at most `cap / W + 1` blocks; the elements at the slots `tr` are
compared in this order, the one found is the last of them; all of them have the low seven bits of the hash of the key, and none is
compared twice.  The calls of the user's functions are that of the hash function and these comparisons.  Missing, because false: in
tables smaller than a block an element may be compared twice (not more), and the portable `match_eq` also lets elements through whose
tag differs in bit 0. -/
theorem C85_swiss_search_partial {isa : Isa} {hash : K → Nat} {t : Table K V} (h : Reachable isa hash t) (k : K) :
    ∃ i tr b, t.findNodeT isa k (hash k) = .ok (i, tr, b) ∧ t.findNode isa k (hash k) = .ok i ∧ b ≤ t.cap / isa.W + 1 ∧
      (i ≠ t.cap → tr.getLast? = some i) ∧
      (∀ j ∈ tr, ∃ n, t.readNode j = .ok n ∧ (isa ≠ .portable → hash n.key % 128 = hash k % 128) ∧
        hash n.key % 128 / 2 = hash k % 128 / 2) ∧
      (isa.W ≤ t.cap + 1 → tr.Nodup ∧ tr.length ≤ t.size) ∧ (∀ j, tr.count j ≤ 2) ∧
      ∀ c, t.seekC isa hash k c = .ok (if c < tr.length + 1 then none else some (hash k, i, c - (tr.length + 1))) := by
  have hi := h.inv
  obtain ⟨i, tr, b, e, e1, h1, h2, h3, h4, h5⟩ := findNodeT_spec hi k
  refine ⟨i, tr, b, e, e1, h1, h2, ?_, ?_, h5, ?_⟩
  · intro j hj
    obtain ⟨hjc, n, hn, ht⟩ := h3 j hj
    refine ⟨n, readNode_some hjc hn, ?_, ?_⟩
    · intro hp
      rcases ht with ht | ⟨ht, _⟩
      · exact ht
      · exact absurd ht hp
    · rcases ht with ht | ⟨_, ht⟩
      · unfold hashLo at ht; rw [ht]
      · unfold hashLo at ht
        rw [ht]
        rw [Nat.xor_div_two]
        simp
  · intro hW
    refine ⟨h4 hW, ?_⟩
    have hsub : tr ⊆ (List.range t.cap).filter (fun i => (t.ctl i).isOccupied) := by
      intro j hj
      obtain ⟨hjc, n, hn, _⟩ := h3 j hj
      rw [List.mem_filter, List.mem_range]
      refine ⟨hjc, ?_⟩
      rw [← hi.live j hjc, hn]
      rfl
    have := ((h4 hW).subperm hsub).length_le
    rw [← cnt_eq_length, ← hi.size_eq] at this
    exact this
  · intro c
    cases c with
    | zero => simp [Table.seekC]
    | succ c =>
      simp only [Table.seekC, findNodeT_calls e c, bind_ok]
      by_cases hc : c < tr.length
      · rw [if_pos hc, if_pos (by omega)]
      · rw [if_neg hc, if_neg (by omega)]
        simp [Nat.add_sub_add_right]

/-- A hash function with two positions and three tags. -/
def hashed : Nat → Nat := fun n => n % 3 + 128 * (n % 2)

/-- Twenty elements in 31 slots: the search for 100, which is absent, reads both blocks and compares the seven elements with its tag. -/
example : ((after (K := Nat) (V := Nat) .sse2 hashed ((List.range 20).map fun i => .insert i i)).findNodeT .sse2 100 (hashed 100)) =
    .ok (31, [1, 4, 7, 10, 13, 16, 19], 2) := by
  set_option maxRecDepth 100000 in decide +kernel

/-- C85 is false in tables smaller than a block: every element with the tag of an absent key that is not before the position of the key
is compared twice, once as itself and once as its clone behind the sentinel. -/
theorem C85_swiss_twice_false {isa : Isa} {hash : K → Nat} {t : Table K V} (h : Reachable isa hash t) {k : K} (hs : t.cap + 1 < isa.W)
    {j : Nat} {n : Node K V} (hn : t.readNode j = .ok n) (htag : hash n.key % 128 = hash k % 128)
    (hpos : hash k / 128 % (t.cap + 1) ≤ j) (hno : t.contains isa hash k = .ok false) :
    ∃ tr b, t.findNodeT isa k (hash k) = .ok (t.cap, tr, b) ∧ tr.count j = 2 := by
  obtain ⟨hj, hn⟩ := readNode_eq hn
  refine findNodeT_twice h.inv hs hj hn htag hpos ?_
  rcases findNode_spec h.inv k with ⟨i, n', hi, _, _, e⟩ | ⟨_, e⟩
  · unfold Table.contains at hno
    rw [e] at hno
    simp only [bind_ok, Except.ok.injEq] at hno
    simp at hno
    omega
  · exact e

example : demo.cap + 1 < Isa.sse2.W ∧ demo.findNodeT .sse2 7 (h64 7) = .ok (7, [4, 0, 2, 4], 1) ∧ 
    demo.contains .sse2 h64 7 = .ok false := by decide +kernel

/-- C85 is false with the portable blocks: an element is compared though its tag differs from that of the key. -/
theorem C85_portable_tag_false : ∃ t : Table Nat Nat, Reachable .portable id t ∧ ∃ k tr b j n,
    t.findNodeT .portable k k = .ok (t.cap, tr, b) ∧ j ∈ tr ∧ t.readNode j = .ok n ∧ n.key % 128 ≠ k % 128 :=
  ⟨after .portable id [.insert 2 0, .insert 3 0], after_reachable _ _ _, 130, [0, 1], 1, 1, ⟨3, 0, 3⟩, by decide +kernel, by decide +kernel, by decide +kernel, by decide +kernel⟩

end Tpp.Swiss

namespace Tpp.Dense

variable {k : Nat} {K V : Type} [DecidableEq K]

/-- C85 for dense containers: a search visits only elements of the bucket of the key, each at most once, and compares exactly those
visited elements whose hash is that of the key; the one found is the last that is compared. -/
theorem C85_dense_search {hash : K → Nat} {t : Table k K V} (h : Reachable hash t) (j : Fin k) (x : K) :
    ∃ o r vis cmp, t.findNodeT hash j x = .ok ((o, r), vis, cmp) ∧ t.findNode hash j x = .ok (o, r) ∧ vis.Nodup ∧ cmp.Sublist vis ∧
      vis.length ≤ t.size ∧
      (∀ i ∈ vis, ∃ n, t.readNode i = .ok n ∧ hash (n.key j) % t.bc = hash x % t.bc ∧ (i ∈ cmp ↔ hash (n.key j) = hash x)) ∧
      (∀ i, o = some i → cmp.getLast? = some i) := by
  obtain ⟨l, hi⟩ := h.inv
  obtain ⟨o, r, vis, cmp, e, e1, h1, h2, h3, h4, h5, h6⟩ := findNodeT_spec hi j x
  have hlt : ∀ i ∈ vis, i < l.length := by
    intro i hv
    obtain ⟨n, hn, _⟩ := h3 i hv
    exact hi.toArr.node_lt hn
  refine ⟨o, r, vis, cmp, e, e1, h1, h2, ?_, ?_, h6⟩
  · have : vis ⊆ List.range t.size := fun i hv => List.mem_range.mpr (by rw [hi.size]; exact hlt i hv)
    simpa using (h1.subperm this).length_le
  · intro i hv
    obtain ⟨n, hn, e⟩ := h3 i hv
    refine ⟨n, readNode_ok (Nat.lt_of_lt_of_le (hi.size ▸ hlt i hv) hi.le_cap) hn, e, ?_, ?_⟩
    · intro hc
      obtain ⟨n', hn', e'⟩ := h4 i hc
      rw [hn] at hn'
      cases hn'
      exact e'
    · intro he
      by_contra hc
      obtain ⟨n', hn', e'⟩ := h5 i hv hc
      rw [hn] at hn'
      cases hn'
      exact e' he

/-- Seven elements in eight buckets; five of them are visited, three have the hash of 41. -/
example : ((after (fun n => n % 16) LF.initial ([1, 9, 25, 17, 2, 41, 5].map fun i => .insert (el i 0).1 i)).findNodeT (fun n => n % 16) 0 41).map
    (fun r => (r.1.1, r.2)) = .ok (some 5, [0, 1, 2, 3, 5], [1, 2, 5]) := by decide +kernel

end Tpp.Dense
