import Verif.Swiss.Cost
import Verif.Props.Work
import Verif.Props.Iters

/-!
# C110: the cost of searches while elements come and go
-/

set_option linter.unusedSectionVars false

namespace Tpp.Swiss

variable {K V : Type} [DecidableEq K]

/-- C110, successful searches: while a history adds no more elements than there are free slots, the search for an element that it does not
remove reads the same number of blocks before and after, whatever was inserted or erased around it. -/
theorem C110_present {isa : Isa} {hash : K → Nat} {t t' : Table K V} (h : Reachable isa hash t) {ops : List (Op K V)} {os : List (Out K V)}
    (hr : t.run isa hash ops = .ok (t', os)) {l : List (K × V)} (hl : t.iterate isa = .ok l) {b : Nat} (hb : b ≤ t.numEmpty)
    (hf : Spec.Fits b l ops) {k : K} (hin : t.contains isa hash k = .ok true) (hk : ∀ op ∈ ops, op.keeps k) :
    ∃ i tr tr' c, i < t.cap ∧ t.findNodeT isa k (hash k) = .ok (i, tr, c) ∧ t'.findNodeT isa k (hash k) = .ok (i, tr', c) := by
  have e : l = t.contents := by
    rcases iterate_spec h.inv with ⟨r, h1, h2⟩ | ⟨_, h1⟩
    · rw [hl] at h1; cases h1; exact h2
    · rw [hl] at h1; cases h1
  subst e
  rcases find_cases h.inv k with ⟨i, n, hi, hn, hnk, e, _⟩ | ⟨_, e, _⟩
  · have hk0 : Holds t i k := ⟨hi, n, hn, hnk⟩
    obtain ⟨q, hk1⟩ := run_holds ops h.inv (List.Perm.refl _) hb hf hk hr hk0
    rcases run_spec ops h.inv (List.Perm.refl _) with ⟨r, r1, r2, _⟩ | ⟨_, r1⟩
    · rw [hr] at r1
      cases r1
      obtain ⟨tr, tr', c, e1, e2⟩ := hit_blocks h.inv r2 q.1 hk0 hk1
      exact ⟨i, tr, tr', c, hi, e1, e2⟩
    · rw [hr] at r1; cases r1
  · simp [Table.contains, e] at hin

theorem absent_find {isa : Isa} {hash : K → Nat} {t : Table K V} {k : K} (h : t.contains isa hash k = .ok false) :
    t.findNode isa k (hash k) = .ok t.cap := by
  unfold Table.contains at h
  obtain ⟨i, h1, e⟩ := ok_of_bind h
  rw [h1]
  simp only [Except.ok.injEq, bne_eq_false_iff_eq] at e
  rw [e]

/-- C110, failing searches: while a history adds no more elements than there are free slots and does not clear the container, the search
for an absent key never becomes cheaper, also if the history consists of erasures. -/
theorem C110_absent {isa : Isa} {hash : K → Nat} {t t' : Table K V} (h : Reachable isa hash t) {ops : List (Op K V)} {os : List (Out K V)}
    (hr : t.run isa hash ops = .ok (t', os)) {l : List (K × V)} (hl : t.iterate isa = .ok l) {b : Nat} (hb : b ≤ t.numEmpty)
    (hf : Spec.Fits b l ops) (hcl : ∀ op ∈ ops, op ≠ .clear) {k : K} (hs : t.size ≠ 0) (hs' : t'.size ≠ 0)
    (habs : t.contains isa hash k = .ok false) (habs' : t'.contains isa hash k = .ok false) :
    ∃ tr tr' c c', t.findNodeT isa k (hash k) = .ok (t.cap, tr, c) ∧ t'.findNodeT isa k (hash k) = .ok (t.cap, tr', c') ∧ c ≤ c' := by
  have e : l = t.contents := by
    rcases iterate_spec h.inv with ⟨r, h1, h2⟩ | ⟨_, h1⟩
    · rw [hl] at h1; cases h1; exact h2
    · rw [hl] at h1; cases h1
  subst e
  have hc : 0 < t.cap := by
    by_contra hc
    have h0 : t.cap = 0 := by omega
    have := h.inv.size_eq
    rw [h0] at this
    exact hs this
  obtain ⟨hfade, hi'⟩ := run_fade ops h.inv hc (List.Perm.refl _) hb hf (fun op hop => by
    have := hcl op hop
    cases op <;> first | trivial | exact absurd rfl this) hr
  obtain ⟨tr, e1⟩ := miss_blocks h.inv hs (absent_find habs)
  obtain ⟨tr', e2⟩ := miss_blocks hi' hs' (absent_find habs')
  rw [hfade.1] at e2
  exact ⟨tr, tr', _, _, e1, e2, hfade.trail_le _ _ _⟩

/-- C110, erasures: erasing any elements but not all of them leaves the cost of failing searches exactly as it was: a container with one
element left is searched as if it were full. -/
theorem C110_erase {isa : Isa} {hash : K → Nat} {t t' : Table K V} (h : Reachable isa hash t) {xs : List K}
    (he : xs.foldlM (fun t x => (t.erase isa hash x).map Prod.fst) t = .ok t') {k : K} (hs : t.size ≠ 0) (hs' : t'.size ≠ 0)
    (habs : t.contains isa hash k = .ok false) :
    ∃ tr tr' c, t.findNodeT isa k (hash k) = .ok (t.cap, tr, c) ∧ t'.findNodeT isa k (hash k) = .ok (t.cap, tr', c) := by
  have key : ∀ (xs : List K) {t : Table K V}, Inv isa hash t → xs.foldlM (fun t x => (t.erase isa hash x).map Prod.fst) t = .ok t' →
      (∀ i < t.cap, ∀ n, t.node i = some n → n.key ≠ k) →
      Fade t t' ∧ Fade t' t ∧ Inv isa hash t' ∧ ∀ i < t'.cap, ∀ n, t'.node i = some n → n.key ≠ k := by
    intro xs
    induction xs with
    | nil => intro t hi e hno; cases e; exact ⟨.refl _, .refl _, hi, hno⟩
    | cons x xs ih =>
      intro t hi e hno
      rw [List.foldlM_cons] at e
      obtain ⟨u, h1, e⟩ := ok_of_bind e
      have hu : Fade t u ∧ Fade u t ∧ Inv isa hash u ∧ ∀ i < u.cap, ∀ n, u.node i = some n → n.key ≠ k := by
        cases h2 : t.erase isa hash x with
        | error f => rw [h2] at h1; cases h1
        | ok r =>
          obtain ⟨u', it⟩ := r
          rw [h2] at h1
          cases h1
          rcases find_cases hi x with ⟨j, n, hj, hn, hx, hf, _⟩ | ⟨_, hf, _⟩
          · simp only [Table.erase, hf, bind_ok, ne_eq, show j ≠ t.cap by omega, not_false_eq_true, if_true] at h2
            refine ⟨(doErase_fade h2).1, doErase_unused hi h2, ?_, ?_⟩
            · rcases doErase_contents hi hj hn with ⟨r, r1, r2, _⟩ | ⟨_, r1⟩
              · rw [h2] at r1; cases r1; exact r2
              · rw [h2] at r1; cases r1
            · obtain ⟨_, _, _, _, _, _, rfl, _⟩ := doErase_eq h2
              intro i hi' n' hn'
              simp only [upd_apply] at hn'
              split at hn'
              · cases hn'
              · exact hno i hi' n' hn'
          · simp [Table.erase, hf, end_spec hi] at h2
            rw [← h2.1]
            exact ⟨.refl _, .refl _, hi, hno⟩
      obtain ⟨a1, a2, a3, a4⟩ := hu
      obtain ⟨b1, b2, b3, b4⟩ := ih a3 e a4
      exact ⟨a1.trans b1, b2.trans a2, b3, b4⟩
  have hno : ∀ i < t.cap, ∀ n, t.node i = some n → n.key ≠ k := by
    rcases find_cases h.inv k with ⟨i, n, hi, _, _, e, _⟩ | ⟨hno, _, _⟩
    · have := absent_find habs
      rw [e] at this
      cases this
      omega
    · exact hno
  obtain ⟨f1, f2, hi', hno'⟩ := key xs h.inv he hno
  have hfind' : t'.findNode isa k (hash k) = .ok t'.cap := by
    rcases find_cases hi' k with ⟨i, n, hi, hn, hnk, _, _⟩ | ⟨_, e, _⟩
    · exact absurd hnk (hno' i hi n hn)
    · exact e
  obtain ⟨tr, e1⟩ := miss_blocks h.inv hs (absent_find habs)
  obtain ⟨tr', e2⟩ := miss_blocks hi' hs' hfind'
  rw [f1.1] at e2
  refine ⟨tr, tr', _, e1, ?_⟩
  rw [e2, Nat.le_antisymm (f2.trail_le _ _ _) (f1.trail_le _ _ _)]

/-- 28 elements in 31 slots, of which 27 are erased again: searches for absent keys read two blocks, before and after. -/
def packedRow : List (Op Nat Nat) := (List.range 28).map fun i => .insert i i

def emptiedRow : List (Op Nat Nat) := packedRow ++ (List.range 27).map fun i => .erase i

def blocksRead (t : Table Nat Nat) (k : Nat) : M Nat := (t.findNodeT .sse2 k (k * 128)).map fun r => r.2.2

example : (after .sse2 (· * 128) packedRow).cap = 31 ∧ (after .sse2 (· * 128) emptiedRow).cap = 31 ∧ (after .sse2 (· * 128) emptiedRow).size = 1 ∧
    [32, 40, 44].map (blocksRead (after .sse2 (· * 128) packedRow)) = [.ok 2, .ok 2, .ok 2] ∧
    [32, 40, 44].map (blocksRead (after .sse2 (· * 128) emptiedRow)) = [.ok 2, .ok 2, .ok 2] ∧
    [32, 40, 44].map (blocksRead (after .sse2 (· * 128) [.reserve 28, .insert 27 27])) = [.ok 1, .ok 1, .ok 1] := by
  set_option maxRecDepth 100000 in decide +kernel

end Tpp.Swiss
