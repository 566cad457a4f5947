import Verif.Dense.EraseWork
import Verif.Props.Dense

/-!
# C114: the work of an erasure from a dense container
-/

set_option linter.unusedSectionVars false

namespace Tpp.Dense

variable {k : Nat} {K V : Type} [DecidableEq K]

/-- The number of elements that share a bucket with component `j` of `e`, all components together. -/
def neighbours (hash : K → Nat) (bc : Nat) (l : List (Elem k K V)) (e : Elem k K V) : Nat :=
  ((List.finRange k).map fun j => (l.filter fun x : Elem k K V => hash (x.1 j) % bc = hash (e.1 j) % bc).length).sum

private theorem crowds_eq (hash : K → Nat) (t : Table k K V) (l : List (Elem k K V)) (e : Elem k K V) :
    crowds hash t l e = neighbours hash t.bc l e := by
  unfold crowds neighbours crowd
  simp only [List.countP_eq_length_filter]

/-- C114 for `erase(iterator)`: the erasure follows `N` links, not more than there are other elements in the buckets of the erased element
and in those of the last element, which takes its place; the last element itself is erased without looking at another one's buckets.  The
hash function and the comparison are not called. -/
theorem C114_dense_at {hash : K → Nat} {t : Table k K V} (h : Reachable hash t) {l : List (Elem k K V)} (hl : t.iterate = .ok l)
    {pos : Nat} {e z : Elem k K V} (he : l[pos]? = some e) (hz : l.getLast? = some z) :
    ∃ t' N, t.eraseAtT pos = .ok (t', pos, N) ∧ t.eraseAt pos = .ok (t', pos) ∧ Behaves hash t' (swapRemove l pos) ∧
      (pos + 1 = l.length → N + k ≤ neighbours hash t.bc l e) ∧
      (pos + 1 ≠ l.length → N + 2 * k ≤ neighbours hash t.bc l e + neighbours hash t.bc l z) := by
  have hi := h.of_iterate hl
  obtain ⟨t', N, e1, h1, h2⟩ := eraseAtT_le hi he hz
  obtain ⟨t2, e2, i2, _⟩ := eraseAt_ok hi (List.getElem?_eq_some_iff.mp he).1
  have hf := eraseAtT_fst t pos
  rw [e1, e2] at hf
  simp only [Except.map, Except.ok.injEq, Prod.mk.injEq, and_true] at hf
  subst hf
  rw [crowds_eq] at h1 h2
  rw [crowds_eq] at h2
  exact ⟨t', N, e1, e2, i2.behaves, h1, h2⟩

/-- C114 in terms of the fullest bucket: if no bucket has more than `c` elements, then an erasure follows at most `2 * k * (c - 1)` links,
however many elements there are. -/
theorem C114_dense_even {hash : K → Nat} {t : Table k K V} (h : Reachable hash t) {l : List (Elem k K V)} (hl : t.iterate = .ok l)
    {pos : Nat} (hp : pos < t.size) {c : Nat} (hc : ∀ (j : Fin k) (b : Nat), (l.filter fun x : Elem k K V => hash (x.1 j) % t.bc = b).length ≤ c) :
    ∃ t' N, t.eraseAtT pos = .ok (t', pos, N) ∧ t.eraseAt pos = .ok (t', pos) ∧ N + 2 * k ≤ 2 * (k * c) := by
  have hi := h.of_iterate hl
  rw [hi.size] at hp
  obtain ⟨z, hz⟩ : ∃ z, l.getLast? = some z := ⟨_, getLast?_idx (by omega)⟩
  have hle : ∀ e : Elem k K V, neighbours hash t.bc l e ≤ k * c := by
    intro e
    have : ∀ js : List (Fin k), (js.map fun j => (l.filter fun x : Elem k K V => hash (x.1 j) % t.bc = hash (e.1 j) % t.bc).length).sum ≤
        js.length * c := by
      intro js
      induction js with
      | nil => simp
      | cons j js ih =>
        have := hc j (hash (e.1 j) % t.bc)
        rw [List.map_cons, List.sum_cons, List.length_cons, Nat.succ_mul]
        omega
    have := this (List.finRange k)
    rwa [List.length_finRange] at this
  obtain ⟨t', N, e1, e2, _, h1, h2⟩ := C114_dense_at h hl (List.getElem?_eq_getElem hp) hz
  refine ⟨t', N, e1, e2, ?_⟩
  have g1 := hle l[pos]
  have g2 := hle z
  have hk : k ≤ k * c := by
    rcases Nat.eq_zero_or_pos k with e | e
    · subst e; simp
    · rcases Nat.eq_zero_or_pos c with e' | e'
      · exfalso
        subst e'
        have := hc ⟨0, e⟩ (hash (l[pos].1 ⟨0, e⟩) % t.bc)
        have hm : l[pos] ∈ l.filter fun x : Elem k K V => hash (x.1 ⟨0, e⟩) % t.bc = hash (l[pos].1 ⟨0, e⟩) % t.bc := by
          rw [List.mem_filter]
          exact ⟨List.getElem_mem _, by simp⟩
        have := List.length_pos_of_mem hm
        omega
      · exact Nat.le_mul_of_pos_right _ e'
  by_cases hpl : pos + 1 = l.length
  · have := h1 hpl
    omega
  · have := h2 hpl
    omega

/-- C114 for `erase(key)`: of an absent key exactly the elements of its bucket are looked at; of a present one the erased element is looked
at as well. -/
theorem C114_dense_key {hash : K → Nat} {t : Table k K V} (h : Reachable hash t) {l : List (Elem k K V)} (hl : t.iterate = .ok l)
    (hb : t.bc ≠ 0) (j : Fin k) (x : K) :
    ∃ t' r N, t.eraseT hash j x = .ok (t', r, N) ∧ t.erase hash j x = .ok (t', r) ∧
      ((∀ e ∈ l, e.1 j ≠ x) → N = (l.filter fun e : Elem k K V => hash (e.1 j) % t.bc = hash x % t.bc).length) ∧
      ∀ pos e z, l[pos]? = some e → e.1 j = x → l.getLast? = some z →
        (pos + 1 = l.length → N + k ≤ neighbours hash t.bc l e + 1) ∧
        (pos + 1 ≠ l.length → N + 2 * k ≤ neighbours hash t.bc l e + neighbours hash t.bc l z + 1) := by
  have hi := h.of_iterate hl
  obtain ⟨t', r, N, e1, h1, h2⟩ := eraseT_le hi (by omega) j x
  have hf := eraseT_fst hash t j x
  rw [e1] at hf
  refine ⟨t', r, N, e1, hf.symm, fun hno => ?_, fun pos e z he hx hz => ?_⟩
  · rw [h1 (idxOf_none hno)]
    unfold crowd
    rw [List.countP_eq_length_filter]
  · have hid : idxOf l j x = some pos := by
      rw [← hx]
      exact idxOf_of_uniq (hi.uniq j) he
    have := h2 pos e z hid he hz
    rw [crowds_eq, crowds_eq] at this
    exact this

/-- Ten elements in sixteen buckets, four of them in bucket 2, four in bucket 5.  Erasing the element at position 0, which the last rehash
has put at the end of its chain, follows three links to it and three to the last element, as many as the bound allows. -/
example : let t := after (fun n => n % 8) LF.initial ([2, 10, 5, 13, 18, 26, 3, 7, 21, 29].map fun i => (.insert (fun _ => i) i : Op 1 Nat Nat))
    (t.bc, t.size) = (16, 10) ∧ (List.range 10).map (fun i => (t.eraseAtT i).map fun r => r.2.2) =
      [6, 5, 3, 2, 4, 3, 3, 3, 4, 3].map .ok := by decide +kernel

end Tpp.Dense
