import Verif.Swiss.Average
import Verif.Props.Work

/-!
# C109: average work of failing searches in sparse and stable containers
-/

set_option linter.unusedSectionVars false

namespace Tpp.Swiss

variable {K V : Type} [DecidableEq K]

/-- C109: take 128 absent keys whose hashes have the same upper part modulo the number of slots and all values of the lower seven bits, one
of each.  The searches for them read the same number `b` of blocks, and all together they make less than `W * b` comparisons of keys
(`2 * W * b` with the portable blocks): on average less than `b / 8` with SSE2 blocks and with portable ones, less than `b / 16` with NEON
blocks.  If the table is not smaller than a block, they also make at most `size()` comparisons together (twice that with portable blocks):
on average not more than `size() / 128` (`size() / 64`). -/
theorem C109_sparse_absent {isa : Isa} {hash : K → Nat} {t : Table K V} (h : Reachable isa hash t) (hs : t.size ≠ 0) {x : Nat → K} {p : Nat}
    (hx : ∀ g < 128, hash (x g) % 128 = g ∧ hash (x g) / 128 % (t.cap + 1) = p)
    (habs : ∀ g < 128, t.contains isa hash (x g) = .ok false) :
    ∃ (w : Nat → Nat) (b : Nat), b ≤ t.cap / isa.W + 1 ∧
      (∀ g < 128, ∃ tr, t.findNodeT isa (x g) (hash (x g)) = .ok (t.cap, tr, b) ∧ tr.length = w g ∧
        ∀ c, t.seekC isa hash (x g) c = .ok (if c < w g + 1 then none else some (hash (x g), t.cap, c - (w g + 1)))) ∧
      (isa = .sse2 → 8 * ∑ g ∈ Finset.range 128, w g < 128 * b) ∧
      (isa = .neon → 16 * ∑ g ∈ Finset.range 128, w g < 128 * b) ∧
      (isa = .portable → 8 * ∑ g ∈ Finset.range 128, w g < 128 * b) ∧
      (isa.W ≤ t.cap + 1 → ∑ g ∈ Finset.range 128, w g ≤ if isa = .portable then 2 * t.size else t.size) := by
  have hno : ∀ g < 128, t.findNode isa (x g) (hash (x g)) = .ok t.cap := by
    intro g hg
    have e := habs g hg
    unfold Table.contains at e
    obtain ⟨i, h1, e⟩ := Dense.bind_eq_ok e
    rw [h1]
    simp only [Except.ok.injEq, bne_eq_false_iff_eq] at e
    rw [e]
  obtain ⟨tr, b, h1, h2, h3⟩ := sum_misses h.inv hs hx hno
  refine ⟨fun g => (tr g).length, b, ?_, ?_, ?_, ?_, ?_, ?_⟩
  · obtain ⟨i, tr', b', e, _, hb, _⟩ := findNodeT_spec h.inv (x 0)
    rw [h1 0 (by omega)] at e
    cases e
    exact hb
  · intro g hg
    refine ⟨tr g, h1 g hg, rfl, ?_⟩
    obtain ⟨i, tr', b', e, _, _, _, _, _, _, hC⟩ := C85_swiss_search_partial h (x g)
    rw [h1 g hg] at e
    cases e
    exact hC
  · rintro rfl; simp only [slack, Isa.W] at h2 ⊢; omega
  · rintro rfl; simp only [slack, Isa.W] at h2 ⊢; omega
  · rintro rfl; simp only [slack, Isa.W] at h2 ⊢; omega
  · intro hW
    have := h3 hW
    cases isa <;> simpa [slack] using this

/-- A bad hash function: all keys have the same position, and those below 1000 only two tags. -/
def twoTags : Nat → Nat := fun n => if n < 1000 then n % 2 else n % 128

/-- The number of comparisons and of blocks of the searches for the keys from 1024 to 1151, which are absent. -/
def missed (isa : Isa) (t : Table Nat Nat) : M (List (Nat × Nat)) :=
  (List.range 128).mapM fun g => (t.findNodeT isa (1024 + g) (twoTags (1024 + g))).map fun r => (r.2.1.length, r.2.2)

/-- Twelve elements in fifteen slots: with SSE2 blocks each of the searches reads one block, two of them compare six elements each. -/
example : missed .sse2 (after .sse2 twoTags ((List.range 12).map fun i => .insert i i)) =
    .ok ((List.range 128).map fun g => (if g < 2 then 6 else 0, 1)) := by
  set_option maxRecDepth 100000 in decide +kernel

/-- The same with portable blocks: two blocks are read, and 22 comparisons are made for 12 elements, which shows that the factor two is
needed. -/
example : missed .portable (after .portable twoTags ((List.range 12).map fun i => .insert i i)) =
    .ok ((List.range 128).map fun g => (if g = 0 then 12 else if g = 1 then 10 else 0, 2)) := by
  set_option maxRecDepth 100000 in decide +kernel

/-- The hypotheses of the theorem for these searches. -/
example : let t := after .sse2 twoTags ((List.range 12).map fun i => .insert i i)
    t.size ≠ 0 ∧ (∀ g < 128, twoTags (1024 + g) % 128 = g ∧ twoTags (1024 + g) / 128 % (t.cap + 1) = 0) ∧
      ∀ g < 128, t.contains .sse2 twoTags (1024 + g) = .ok false := by
  set_option maxRecDepth 100000 in decide +kernel

end Tpp.Swiss
