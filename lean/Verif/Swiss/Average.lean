import Mathlib.Algebra.BigOperators.Fin
import Mathlib.Algebra.Order.BigOperators.Group.Finset
import Mathlib.Algebra.BigOperators.Ring.Finset
import Mathlib.Data.Fintype.BigOperators
import Mathlib.Tactic.Ring
import Mathlib.Tactic.Linarith
import Verif.Swiss.Work
import Verif.Swiss.Map

/-!
# How many comparisons the searches for absent keys make on average
-/

set_option linter.unusedSectionVars false

namespace Tpp.Swiss

variable {K V : Type} [DecidableEq K]

/-- The positions of the blocks that a failing search reads: up to the first block with an empty slot (swiss_table.hpp 1217-1231).  They
don't depend on the tag. -/
def Table.trail (isa : Isa) (t : Table K V) : (fuel pos idx : Nat) → List Nat
  | 0, _, _ => []
  | fuel + 1, pos, idx =>
    pos :: if t.matches_ isa pos (·.isEmpty) ≠ [] then []
      else if idx < t.cap then t.trail isa fuel ((pos + (idx + isa.W)) &&& t.cap) (idx + isa.W) else []

/-- The number of bytes of a block that stand for elements. -/
def Table.filled (isa : Isa) (t : Table K V) (pos : Nat) : Nat :=
  (List.range isa.W).countP fun i => (t.ctl (pos + i)).isOccupied

/-- How many tags the test of a byte lets through: the portable test may let through two. -/
def slack : Isa → Nat
  | .portable => 2
  | _ => 1

/-- A failing search compares everything that matches in the blocks of its trail. -/
theorem findLoopT_miss {isa : Isa} {hash : K → Nat} {t : Table K V} (h : Inv isa hash t) (hc : 0 < t.cap) {k : K} {tag : Nat} :
    ∀ {fuel pos idx b : Nat} {tr : List Nat}, pos ≤ t.cap → t.findLoopT isa k tag fuel pos idx = .ok (t.cap, tr, b) →
      tr = (t.trail isa fuel pos idx).flatMap (fun q => (t.matchEq isa q tag).map fun i => (q + i) &&& t.cap) ∧
      b = (t.trail isa fuel pos idx).length ∧
      ((t.trail isa fuel pos idx).map (t.filled isa)).sum + 1 ≤ isa.W * (t.trail isa fuel pos idx).length := by
  intro fuel
  induction fuel with
  | zero => intro pos idx b tr _ e; cases e
  | succ fuel ih =>
    intro pos idx b tr hp e
    unfold Table.findLoopT at e
    obtain ⟨u, _, e⟩ := Dense.bind_eq_ok e
    obtain ⟨⟨r, l⟩, hl, e⟩ := Dense.bind_eq_ok e
    obtain ⟨hpre, hlast, hall⟩ := scanT_spec hl
    simp only at e
    have hfill : t.filled isa pos ≤ isa.W := by
      have := List.countP_le_length (p := fun i => (t.ctl (pos + i)).isOccupied) (l := List.range isa.W)
      simpa [Table.filled] using this
    cases r with
    | some off =>
      simp only [Except.ok.injEq, Prod.mk.injEq] at e
      have hm := List.mem_of_getLast? (hlast _ rfl)
      have := (matched h hc hp (hpre.subset hm)).1
      omega
    | none =>
      simp only at e
      unfold Table.trail
      by_cases hne : t.matches_ isa pos (·.isEmpty) ≠ []
      · rw [if_pos hne] at e ⊢
        cases e
        refine ⟨by simpa using hall rfl, rfl, ?_⟩
        obtain ⟨i, hi⟩ := List.exists_mem_of_ne_nil _ hne
        rw [mem_matches] at hi
        have : t.filled isa pos < isa.W := by
          refine Nat.lt_of_le_of_ne hfill fun e => ?_
          unfold Table.filled at e
          have e' : (List.range isa.W).countP (fun i => (t.ctl (pos + i)).isOccupied) = (List.range isa.W).length := by
            rw [e, List.length_range]
          rw [List.countP_eq_length] at e'
          have h1 := e' i (List.mem_range.mpr hi.1)
          have h2 := hi.2
          cases hq : t.ctl (pos + i) <;> rw [hq] at h1 h2 <;> simp [Ctl.isOccupied, Ctl.isEmpty] at h1 h2
        simp only [List.map_cons, List.map_nil, List.sum_cons, List.sum_nil, List.length_singleton]
        omega
      · rw [if_neg hne] at e ⊢
        by_cases hidx : idx < t.cap
        · rw [if_pos hidx] at e ⊢
          obtain ⟨⟨i', l', b'⟩, h', e⟩ := Dense.bind_eq_ok e
          simp only [Except.ok.injEq, Prod.mk.injEq] at e
          obtain ⟨e1, e2, e3⟩ := e
          subst e1
          obtain ⟨g1, g2, g3⟩ := ih Nat.and_le_right h'
          refine ⟨?_, ?_, ?_⟩
          · rw [List.flatMap_cons, ← g1, ← e2, hall rfl]
          · rw [List.length_cons, ← g2, e3]
          · rw [List.map_cons, List.sum_cons, List.length_cons, Nat.mul_succ]
            omega
        · rw [if_neg hidx] at e
          cases e

/-- All tags together match each element of a block once, or at most twice. -/
theorem sum_matchEq (isa : Isa) (t : Table K V) (pos : Nat) :
    ∑ g ∈ Finset.range 128, (t.matchEq isa pos g).length ≤ slack isa * t.filled isa pos := by
  have key : ∀ p : Nat → Nat → Bool, (∀ i, ∑ g ∈ Finset.range 128, (if p g i then 1 else 0) ≤
      slack isa * (if (t.ctl (pos + i)).isOccupied then 1 else 0)) →
      ∑ g ∈ Finset.range 128, ((List.range isa.W).filter (p g)).length ≤ slack isa * t.filled isa pos := by
    intro p hp
    unfold Table.filled
    generalize List.range isa.W = l
    induction l with
    | nil => simp
    | cons i l ih =>
      have e : ∀ g, ((i :: l).filter (p g)).length = (l.filter (p g)).length + if p g i then 1 else 0 := by
        intro g
        rw [List.filter_cons]
        split <;> simp
      simp only [e]
      rw [Finset.sum_add_distrib, List.countP_cons, Nat.mul_add]
      exact Nat.add_le_add ih (hp i)
  cases isa with
  | sse2 =>
    refine key (fun g i => t.ctl (pos + i) == .full g) fun i => ?_
    cases hq : t.ctl (pos + i) with
    | full g0 =>
      simp only [Ctl.isOccupied, slack, beq_iff_eq, Ctl.full.injEq, if_true, Finset.sum_ite_eq]
      split <;> omega
    | _ => simp
  | neon =>
    refine key (fun g i => t.ctl (pos + i) == .full g) fun i => ?_
    cases hq : t.ctl (pos + i) with
    | full g0 =>
      simp only [Ctl.isOccupied, slack, beq_iff_eq, Ctl.full.injEq, if_true, Finset.sum_ite_eq]
      split <;> omega
    | _ => simp
  | portable =>
    refine key (fun g i => Table.portableHit t.ctl pos g i) fun i => ?_
    have hh : ∀ g, Table.portableHit t.ctl pos g i = true → t.ctl (pos + i) = .full g ∨ t.ctl (pos + i) = .full (g ^^^ 1) := by
      intro g e
      cases i with
      | zero => exact Or.inl (by simpa [Table.portableHit] using e)
      | succ i =>
        simp only [Table.portableHit, Bool.or_eq_true, Bool.and_eq_true, beq_iff_eq] at e
        rcases e with e | e
        · exact Or.inl e
        · exact Or.inr e.1
    cases hq : t.ctl (pos + i) with
    | full g0 =>
      have hle : ∀ g ∈ Finset.range 128, (if Table.portableHit t.ctl pos g i = true then 1 else 0) ≤
          (if g0 = g then 1 else 0) + if g0 ^^^ 1 = g then 1 else 0 := by
        intro g _
        split
        · rename_i e
          rcases hh g e with e | e <;> rw [hq] at e <;> injection e with e
          · rw [if_pos e]; omega
          · have : g0 ^^^ 1 = g := by rw [e, Nat.xor_assoc]; simp
            rw [if_pos this]; omega
        · omega
      refine Nat.le_trans (Finset.sum_le_sum hle) ?_
      rw [Finset.sum_add_distrib]
      simp only [Ctl.isOccupied, slack, if_true, Finset.sum_ite_eq]
      split <;> split <;> omega
    | _ =>
      have hz : ∀ g, Table.portableHit t.ctl pos g i = false := by
        intro g
        cases e : Table.portableHit t.ctl pos g i with
        | false => rfl
        | true => rcases hh g e with e | e <;> rw [hq] at e <;> cases e
      simp [hz]

theorem cnt_sum (p : Nat → Bool) (n : Nat) : cnt p n = ∑ j ∈ Finset.range n, if p j then 1 else 0 := by
  induction n with
  | zero => rfl
  | succ n ih => rw [Finset.sum_range_succ, ← ih]; rfl

/-- The searches for 128 absent keys with the same position and all tags. -/
theorem sum_misses {isa : Isa} {hash : K → Nat} {t : Table K V} (h : Inv isa hash t) (hs : t.size ≠ 0) {x : Nat → K} {p : Nat}
    (hx : ∀ g < 128, hash (x g) % 128 = g ∧ hash (x g) / 128 % (t.cap + 1) = p)
    (habs : ∀ g < 128, t.findNode isa (x g) (hash (x g)) = .ok t.cap) :
    ∃ (tr : Nat → List Nat) (b : Nat), (∀ g < 128, t.findNodeT isa (x g) (hash (x g)) = .ok (t.cap, tr g, b)) ∧
      ∑ g ∈ Finset.range 128, (tr g).length < slack isa * (isa.W * b) ∧
      (isa.W ≤ t.cap + 1 → ∑ g ∈ Finset.range 128, (tr g).length ≤ slack isa * t.size) := by
  have hc : 0 < t.cap := by
    by_contra hc
    have h0 : t.cap = 0 := by omega
    have := h.size_eq
    rw [h0] at this
    exact hs this
  have hm := h.meta_ok hc
  have hp : p ≤ t.cap := by
    have := (hx 0 (by omega)).2
    have := Nat.mod_lt (hash (x 0) / 128) (show 0 < t.cap + 1 by omega)
    omega
  let L := t.trail isa (t.cap + 1) p 0
  let tr : Nat → List Nat := fun g => L.flatMap fun q => (t.matchEq isa q g).map fun i => (q + i) &&& t.cap
  have one : ∀ g < 128, t.findNodeT isa (x g) (hash (x g)) = .ok (t.cap, tr g, L.length) ∧
      (L.map (t.filled isa)).sum + 1 ≤ isa.W * L.length ∧
      (isa.W ≤ t.cap + 1 → (tr g).Nodup) ∧ ∀ j ∈ tr g, j < t.cap ∧ ∃ n, t.node j = some n ∧
        (hashLo (hash n.key) = g ∨ (isa = .portable ∧ hashLo (hash n.key) = g ^^^ 1)) := by
    intro g hg
    obtain ⟨i, tr', b, e, e1, _, _, h3, h4, _⟩ := findNodeT_spec h (x g)
    rw [habs g hg] at e1
    cases e1
    have e' := e
    unfold Table.findNodeT at e
    have hlo : hashLo (hash (x g)) = g := by unfold hashLo; exact (hx g hg).1
    have hhi : hashHi (hash (x g)) % (t.cap + 1) = p := by unfold hashHi; exact (hx g hg).2
    rw [if_pos hs, land_cap hm, hlo, hhi] at e
    obtain ⟨g1, g2, g3⟩ := findLoopT_miss h hc hp e
    rw [hlo] at h3
    subst g1 g2
    exact ⟨e', g3, h4, h3⟩
  refine ⟨tr, L.length, fun g hg => (one g hg).1, ?_, ?_⟩
  · have key : ∑ g ∈ Finset.range 128, (tr g).length ≤ slack isa * (L.map (t.filled isa)).sum := by
      show ∑ g ∈ Finset.range 128, (L.flatMap fun q => (t.matchEq isa q g).map fun i => (q + i) &&& t.cap).length ≤ _
      generalize L = L
      induction L with
      | nil => simp
      | cons q L ih =>
        simp only [List.flatMap_cons, List.length_append, List.length_map, List.map_cons, List.sum_cons]
        rw [Finset.sum_add_distrib, Nat.mul_add]
        exact Nat.add_le_add (sum_matchEq isa t q) ih
    have h1 := (one 0 (by omega)).2.1
    have h2 : 0 < slack isa := by cases isa <;> simp [slack]
    exact Nat.lt_of_le_of_lt key ((Nat.mul_lt_mul_left h2).mpr h1)
  · intro hW
    have hcount : ∀ g ∈ Finset.range 128, (tr g).length = ∑ j ∈ Finset.range t.cap, if j ∈ tr g then 1 else 0 := by
      intro g hg
      obtain ⟨_, _, h3, h4⟩ := one g (Finset.mem_range.mp hg)
      rw [← Finset.sum_filter, Finset.sum_const, smul_eq_mul, Nat.mul_one, ← List.toFinset_card_of_nodup (h3 hW)]
      congr 1
      ext j
      simp only [List.mem_toFinset, Finset.mem_filter, Finset.mem_range]
      exact ⟨fun hj => ⟨(h4 j hj).1, hj⟩, fun hj => hj.2⟩
    rw [Finset.sum_congr rfl hcount, Finset.sum_comm, h.size_eq, cnt_sum, Finset.mul_sum]
    refine Finset.sum_le_sum fun j hj => ?_
    have hjc := Finset.mem_range.mp hj
    cases hn : t.node j with
    | none =>
      refine Nat.le_trans (Nat.le_of_eq (Finset.sum_eq_zero fun g hg => if_neg fun hj => ?_)) (Nat.zero_le _)
      obtain ⟨_, n, hn', _⟩ := (one g (Finset.mem_range.mp hg)).2.2.2 j hj
      rw [hn] at hn'
      cases hn'
    | some n =>
      have hocc : (t.ctl j).isOccupied = true := by rw [← h.live j hjc, hn]; rfl
      rw [if_pos hocc, Nat.mul_one]
      have hle : ∀ g ∈ Finset.range 128, (if j ∈ tr g then 1 else 0) ≤
          (if hashLo (hash n.key) = g then 1 else 0) + if hashLo (hash n.key) ^^^ 1 = g then slack isa - 1 else 0 := by
        intro g hg
        split
        · rename_i hj
          obtain ⟨_, n', hn', ht⟩ := (one g (Finset.mem_range.mp hg)).2.2.2 j hj
          rw [hn] at hn'
          cases hn'
          rcases ht with ht | ⟨hp, ht⟩
          · rw [if_pos ht]; omega
          · have : hashLo (hash n.key) ^^^ 1 = g := by rw [ht, Nat.xor_assoc]; simp
            rw [if_pos this]
            subst hp
            simp [slack]
        · omega
      refine Nat.le_trans (Finset.sum_le_sum hle) ?_
      rw [Finset.sum_add_distrib]
      simp only [Finset.sum_ite_eq]
      have h2 : 0 < slack isa := by cases isa <;> simp [slack]
      split <;> split <;> omega

end Tpp.Swiss
