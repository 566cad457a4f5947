import Verif.Swiss.IterWork
import Verif.Props.SwissA

/-!
# C102: the work of iteration over sparse and stable containers
-/

set_option linter.unusedSectionVars false

namespace Tpp.Swiss

variable {K V : Type} [DecidableEq K]

/-- Six elements in a container of 127 buckets, the first in slot 40. -/
def spread : Table Nat Nat := after .sse2 id (.reserve 60 :: (List.range 6).map fun i => .insert (128 * (40 + 12 * i * i % 80)) i)

/-- C102 for `begin()`, exactly: it loads one metadata block for each 16 (or 8) slots before the first element. -/
theorem C102_begin {isa : Isa} {hash : K → Nat} {t : Table K V} (h : Reachable isa hash t) :
    Ends isa (t.beginB isa) (fun r => t.begin_ isa = .ok r.1 ∧ isa.W * r.2 < r.1 + isa.W ∧ r.1 ≤ isa.W * r.2 ∧ r.1 ≤ t.cap ∧
      (∀ i < r.1, t.node i = none) ∧ (t.size = 0 ↔ r.1 = t.cap)) := by
  have hi := h.inv
  have hW : 0 < isa.W := Nat.lt_of_lt_of_le (by decide) isa.W_pos
  rw [beginB_eq hi]
  rcases toIter_spec hi (Nat.zero_le _) with ⟨q, e, q1, q2, q3, q4⟩ | ⟨g, e⟩
  · have hnone : ∀ i < q, t.node i = none := by
      intro i hlt
      have := hi.live i (by omega)
      rw [q3 i (Nat.zero_le _) hlt] at this
      cases hn : t.node i with
      | none => rfl
      | some x => rw [hn] at this; cases this
    refine Ends.of_ok (by unfold Table.begin_; rw [e]; rfl) ⟨by exact e, ?_, ?_, q2, hnone, ?_⟩
    · have := blocksFor_le isa q
      simp only
      omega
    · exact le_blocksFor isa q
    · rw [hi.size_eq]
      constructor
      · intro h0
        by_contra hc
        have := cnt_pos_of (p := fun i => (t.ctl i).isOccupied) (show q < t.cap by simp only at hc; omega) (q4 (by simp only at hc; omega))
        omega
      · intro hq
        simp only at hq
        by_contra hc
        obtain ⟨i, hlt, ho⟩ := cnt_pos (Nat.pos_of_ne_zero hc)
        rw [q3 i (Nat.zero_le _) (by omega)] at ho
        cases ho
  · exact Or.inr ⟨g, by unfold Table.begin_; rw [e]; rfl⟩

/-- In `spread`, three blocks for the 40 slots before the first element. -/
example : spread.beginB .sse2 = .ok (40, 3) := by set_option maxRecDepth 100000 in decide +kernel

/-- C102 is false for `begin()` alone: `reserve(n)` makes an empty container of which `begin()` loads n/16 (or n/8) blocks.  The same holds
for every container after `clear()`, by `C102_begin`. -/
theorem C102_begin_false (isa : Isa) (hash : K → Nat) (n : Nat) : ∃ t : Table K V,
    Table.init.step isa hash (.reserve (isa.W * n)) = .ok (t, .unit) ∧ t.size = 0 ∧
    Ends isa (t.beginB isa) (fun r => n ≤ r.2) := by
  obtain ⟨t, h1, hi, h3, h4, h5, h6, h7⟩ := reserve_spec (Inv.init isa hash : Inv isa hash (Table.init : Table K V)) (isa.W * n)
  have hW : 0 < isa.W := Nat.lt_of_lt_of_le (by decide) isa.W_pos
  have hstep : Table.init.step isa hash (.reserve (isa.W * n)) = .ok (t, .unit) := by simp only [Table.step, h1, bind_ok]
  refine ⟨t, hstep, h3, (C102_begin ((Reachable.init hash).step hstep)).mono ?_⟩
  rintro ⟨q, b⟩ ⟨_, _, w, _, _, hq⟩
  simp only at w hq ⊢
  have hq := hq.mp h3
  rcases Nat.eq_zero_or_pos n with h0 | h0
  · omega
  · have hc := (h6 (fun _ => rfl)).2 (Nat.mul_pos hW h0)
    have hb := hi.budget hc
    have : maxSize isa t.cap ≤ t.cap := by unfold maxSize; split <;> omega
    exact Nat.le_of_mul_le_mul_left (by omega) hW

/-- `begin()` of a container after `reserve(48)` loads four blocks. -/
example : ((Table.init : Table Nat Nat).step .sse2 id (.reserve 48)).map (fun r => (r.1.cap, r.1.size, (r.1.beginB .sse2).toOption)) =
    .ok (63, 0, some (63, 4)) := by decide +kernel

/-- C102 for a full iteration: the number of blocks loaded is at least one for each 16 (or 8) free slots and at most that plus one for
each element and for the end.  So it is linear in the bucket count, whatever the number of elements. -/
theorem C102_iteration {isa : Isa} {hash : K → Nat} {t : Table K V} (h : Reachable isa hash t) :
    Ends isa (t.iterateB isa) (fun r => t.iterate isa = .ok r.1 ∧ t.cap ≤ t.size + isa.W * r.2 ∧
      t.size + isa.W * r.2 ≤ t.cap + (t.size + 1) * (isa.W - 1)) := by
  have hi := h.inv
  have hW : 0 < isa.W := Nat.lt_of_lt_of_le (by decide) isa.W_pos
  unfold Table.iterateB
  rw [beginB_eq hi]
  rcases toIter_spec hi (Nat.zero_le _) with ⟨q, e, hq⟩ | ⟨g, e⟩
  · have he : t.begin_ isa = .ok q := e
    rw [he]
    simp only [Except.map, bind_ok, endB_eq hi]
    refine (walkB_spec hi _ q hq.2.1 hq.2.2.2 (by omega)).bind ?_
    rintro ⟨l, c⟩ ⟨h0, h1, h2, h3⟩
    simp only at h0 h1 h2 h3
    have hl : l = t.contents := by rw [h1, ← elemsFrom_next hi.live hq, elemsFrom_zero]
    have hlen : l.length = t.size := by rw [hl, hi.contents_length]
    have b1 := le_blocksFor isa q
    have b2 := blocksFor_le isa q
    refine Ends.of_ok rfl ⟨?_, ?_, ?_⟩
    · unfold Table.iterate Table.iterateFrom
      rw [he, bind_ok, end_spec hi, bind_ok, h0]
    · simp only [Nat.add_zero, Nat.mul_add]
      omega
    · simp only [Nat.add_zero, Nat.mul_add, Nat.succ_mul]
      rw [hlen] at h3
      omega
  · have he : t.begin_ isa = .error .ctzZero := e
    rw [he]
    exact Or.inr ⟨g, rfl⟩

/-- In `spread`, ten blocks for 121 free slots and six elements: 127 ≤ 6 + 16 · 10 ≤ 127 + 7 · 15. -/
example : spread.iterateB .sse2 = .ok ([(5120, 0), (6656, 1), (8704, 3), (9216, 4), (11264, 2), (12800, 5)], 10) ∧ spread.cap = 127 := by
  set_option maxRecDepth 100000 in decide +kernel

/-- C102 for `erase`: making the iterator that is returned loads one block for each 16 (or 8) slots up to the next element, the slot
of the erased one included. -/
theorem C102_erase {isa : Isa} {hash : K → Nat} {t : Table K V} (h : Reachable isa hash t) {pos : Nat} {n : Node K V}
    (hp : pos < t.cap) (hn : t.node pos = some n) :
    Ends isa (t.doEraseB isa pos) (fun r => t.doErase isa pos = .ok r.1 ∧ pos < r.1.2 ∧ r.1.2 ≤ t.cap ∧
      (∀ i, pos < i → i < r.1.2 → t.node i = none) ∧ (r.1.2 < t.cap → (t.node r.1.2).isSome = true) ∧
      isa.W * r.2 < r.1.2 - pos + isa.W ∧ r.1.2 - pos ≤ isa.W * r.2) := by
  have hi := h.inv
  have hW : 0 < isa.W := Nat.lt_of_lt_of_le (by decide) isa.W_pos
  rw [doEraseB_eq hi hp hn]
  rcases doErase_spec hi hp hn with ⟨⟨t', q⟩, e, h', hc, hs, hnode, _, ⟨q1, q2, q3, q4⟩, _⟩ | ⟨g, e⟩
  · simp only at h' hc hs hnode q1 q2 q3 q4
    have hlive : ∀ i, i < t.cap → i ≠ pos → (t.node i).isSome = (t'.ctl i).isOccupied := by
      intro i hlt hne
      have := h'.live i (by omega)
      rwa [hnode i, if_neg hne] at this
    have hq : pos < q := by
      by_contra hcon
      have hq : q = pos := by omega
      have := h'.live q (by omega)
      rw [hnode, if_pos hq, q4 (by omega)] at this
      cases this
    refine Ends.of_ok (by rw [e]; rfl) ⟨e, hq, Nat.le_trans q2 (Nat.le_of_eq hc), ?_, ?_, ?_, ?_⟩
    · intro i h1 h2
      replace h2 : i < q := h2
      have := hlive i (by omega) (by omega)
      rw [q3 i (by omega) h2] at this
      cases hx : t.node i with
      | none => rfl
      | some x => rw [hx] at this; cases this
    · intro hlt
      simp only at hlt ⊢
      rw [hlive q hlt (by omega), q4 (by omega)]
    · have := blocksFor_le isa (q - pos)
      simp only
      omega
    · exact le_blocksFor isa (q - pos)
  · exact Or.inr ⟨g, by rw [e]; rfl⟩

/-- In `spread`, one block when the element of slot 52 is erased, as the next one is in slot 68. -/
example : (spread.doEraseB .sse2 52).map (fun r => (r.1.2, r.2)) = .ok (68, 1) := by set_option maxRecDepth 100000 in decide +kernel

/-- The loop that erases from an iterator on. -/
theorem eraseLoopB_spec {isa : Isa} {hash : K → Nat} :
    ∀ (fuel : Nat) {t : Table K V} (_ : Inv isa hash t) (pos : Nat), pos ≤ t.cap → (pos < t.cap → (t.ctl pos).isOccupied = true) →
      t.cap - pos < fuel → Ends isa (Table.eraseLoopB isa fuel t pos) (fun r => Inv isa hash r.1 ∧ r.1.cap = t.cap ∧
        (∀ i, r.1.node i = if pos ≤ i ∧ i < t.cap then none else t.node i) ∧
        pos + isa.W * r.2 ≤ t.cap + (t.size - r.1.size) * (isa.W - 1) ∧ r.1.size ≤ t.size) := by
  have hW : 0 < isa.W := Nat.lt_of_lt_of_le (by decide) isa.W_pos
  intro fuel
  induction fuel with
  | zero => intro t _ pos _ _ hf; omega
  | succ fuel ih =>
    intro t hi pos hp ho hf
    unfold Table.eraseLoopB
    rw [endB_eq hi, bind_ok]
    simp only
    by_cases hl : pos = t.cap
    · rw [if_pos hl]
      refine Ends.of_ok rfl ⟨hi, rfl, ?_, by simp; omega, Nat.le_refl _⟩
      intro i
      rw [if_neg (by omega)]
    · rw [if_neg hl]
      have hlt : pos < t.cap := by omega
      have hs := hi.live pos hlt
      rw [ho hlt] at hs
      obtain ⟨n, hn⟩ := Option.isSome_iff_exists.mp hs
      rw [doEraseB_eq hi hlt hn]
      rcases doErase_spec hi hlt hn with ⟨⟨t', q⟩, e, h', hc, hs, hnode, _, ⟨q1, q2, q3, q4⟩, _⟩ | ⟨g, e⟩
      · simp only at h' hc hs hnode q1 q2 q3 q4
        have hsz : 1 ≤ t.size := by
          rw [hi.size_eq]
          exact cnt_pos_of (p := fun i => (t.ctl i).isOccupied) hlt (ho hlt)
        have hq : pos < q := by
          by_contra hcon
          have hq : q = pos := by omega
          have := h'.live q (by omega)
          rw [hnode, if_pos hq, q4 (by omega)] at this
          cases this
        rw [e]
        simp only [Except.map, bind_ok]
        refine (ih h' q q2 q4 (by omega)).bind ?_
        rintro ⟨t2, c⟩ ⟨i2, c2, n2, w2, s2⟩
        simp only at i2 c2 n2 w2 s2
        refine Ends.of_ok rfl ⟨i2, c2.trans hc, ?_, ?_, by simp only; omega⟩
        · intro i
          simp only
          rw [n2 i, hnode i]
          by_cases h1 : pos ≤ i ∧ i < t.cap
          · rw [if_pos h1]
            by_cases h2 : q ≤ i
            · rw [if_pos ⟨h2, by omega⟩]
            · rw [if_neg (by omega)]
              by_cases h3 : i = pos
              · rw [if_pos h3]
              · rw [if_neg h3]
                have := h'.live i (by omega)
                rw [hnode i, if_neg h3, q3 i h1.1 (by omega)] at this
                cases hx : t.node i with
                | none => rfl
                | some x => rw [hx] at this; cases this
          · rw [if_neg h1, if_neg (by omega), if_neg (by omega)]
        · have := blocksFor_le isa (q - pos)
          simp only
          rw [Nat.mul_add, Nat.zero_add]
          have e1 : t.size - t2.size = (t'.size - t2.size) + 1 := by omega
          rw [e1, Nat.succ_mul]
          omega
      · rw [e]
        exact Or.inr ⟨g, rfl⟩

/-- C102 for the loop `for (it = c.begin(); it != c.end();) it = c.erase(it);`: it empties the container and is linear in the bucket
count. -/
theorem C102_erase_loop {isa : Isa} {hash : K → Nat} {t : Table K V} (h : Reachable isa hash t) {it b : Nat}
    (hb : t.beginB isa = .ok (it, b)) :
    Ends isa (Table.eraseLoopB isa (t.cap + 1) t it) (fun r => Behaves isa hash r.1 [] ∧ r.1.cap = t.cap ∧
      isa.W * (b + r.2) ≤ t.cap + (t.size + 1) * (isa.W - 1)) := by
  have hi := h.inv
  have hW : 0 < isa.W := Nat.lt_of_lt_of_le (by decide) isa.W_pos
  rw [beginB_eq hi] at hb
  rcases toIter_spec hi (Nat.zero_le _) with ⟨q, e, hq⟩ | ⟨g, e⟩
  · have he : t.begin_ isa = .ok q := e
    rw [he] at hb
    simp only [Except.map, Except.ok.injEq, Prod.mk.injEq] at hb
    obtain ⟨rfl, rfl⟩ := hb
    refine (eraseLoopB_spec (t.cap + 1) hi q hq.2.1 hq.2.2.2 (by omega)).mono ?_
    rintro ⟨t', c⟩ ⟨i', c', n', w', s'⟩
    simp only at i' c' n' w' s'
    have hnone : ∀ i, i < t'.cap → t'.node i = none := by
      intro i hlt
      rw [n' i]
      by_cases h1 : q ≤ i
      · rw [if_pos ⟨h1, by omega⟩]
      · rw [if_neg (by omega)]
        have := hi.live i (by omega)
        rw [hq.2.2.1 i (Nat.zero_le _) (by omega)] at this
        cases hx : t.node i with
        | none => rfl
        | some x => rw [hx] at this; cases this
    have hcont : t'.contents = [] := by
      unfold Table.contents Table.nodes collect
      rw [List.map_eq_nil_iff, List.filterMap_eq_nil_iff]
      intro i hlt
      exact hnone i (List.mem_range.mp hlt)
    have hsz : t'.size = 0 := by rw [← i'.contents_length, hcont]; rfl
    refine ⟨i'.behaves (by rw [hcont]), c', ?_⟩
    have := blocksFor_le isa q
    rw [hsz, Nat.sub_zero] at w'
    simp only
    rw [Nat.mul_add, Nat.succ_mul]
    omega
  · have he : t.begin_ isa = .error .ctzZero := e
    rw [he] at hb
    cases hb

/-- In `spread`, three blocks for `begin()` and seven for the loop. -/
example : (Table.eraseLoopB .sse2 128 spread 40).map (fun r => (r.1.size, r.2)) = .ok (0, 7) := by
  set_option maxRecDepth 100000 in decide +kernel

/-- Emptying a container from the front, when all slots before `s` are free. -/
theorem drainB_spec {isa : Isa} {hash : K → Nat} :
    ∀ (fuel : Nat) {t : Table K V} (_ : Inv isa hash t) (s : Nat), (∀ i < s, t.node i = none) → t.size < fuel →
      Ends isa (Table.drainB isa fuel t) (fun r => Inv isa hash r.1 ∧ r.1.size = 0 ∧
        2 * (t.size * s) + t.size * t.size ≤ 2 * (isa.W * r.2) + t.size) := by
  intro fuel
  induction fuel with
  | zero => intro t _ s _ hf; omega
  | succ fuel ih =>
    intro t hi s hs hf
    unfold Table.drainB
    by_cases h0 : t.size = 0
    · rw [if_pos h0]
      exact Ends.of_ok rfl ⟨hi, h0, by simp [h0]⟩
    · rw [if_neg h0, beginB_eq hi]
      rcases toIter_spec hi (Nat.zero_le _) with ⟨q, e, q1, q2, q3, q4⟩ | ⟨g, e⟩
      · have he : t.begin_ isa = .ok q := e
        rw [he]
        simp only [Except.map, bind_ok]
        have hfree : ∀ i < q, t.node i = none := by
          intro i hlt
          have := hi.live i (by omega)
          rw [q3 i (Nat.zero_le _) hlt] at this
          cases hx : t.node i with
          | none => rfl
          | some x => rw [hx] at this; cases this
        have hqc : q < t.cap := by
          by_contra hcon
          apply h0
          rw [hi.size_eq]
          refine cnt_eq_zero (fun i hlt => q3 i (Nat.zero_le _) (by omega))
        have hsome := hi.live q hqc
        rw [q4 hqc] at hsome
        obtain ⟨n, hn⟩ := Option.isSome_iff_exists.mp hsome
        have hsq : s ≤ q := by
          by_contra hcon
          rw [hs q (by omega)] at hn
          cases hn
        rw [doEraseB_eq hi hqc hn]
        rcases doErase_spec hi hqc hn with ⟨⟨t', q'⟩, e', h', hc, hs', hnode, _⟩ | ⟨g, e'⟩
        · simp only at h' hc hs' hnode
          rw [e']
          simp only [Except.map, bind_ok]
          refine (ih h' (q + 1) ?_ (by omega)).bind ?_
          · intro i hlt
            rw [hnode i]
            split
            · rfl
            · exact hfree i (by omega)
          rintro ⟨t2, c⟩ ⟨i2, z2, w2⟩
          simp only at i2 z2 w2
          refine Ends.of_ok rfl ⟨i2, z2, ?_⟩
          have hb := le_blocksFor isa q
          obtain ⟨m, hm⟩ : ∃ m, t.size = m + 1 := ⟨t.size - 1, by omega⟩
          have hm' : t'.size = m := by omega
          rw [hm'] at w2
          rw [hm]
          simp only
          have k1 : m * s ≤ m * q := Nat.mul_le_mul_left _ hsq
          have k2 : isa.W * (blocksFor isa q + blocksFor isa (q' - q) + c) ≥ isa.W * c + isa.W * blocksFor isa q := by
            rw [Nat.mul_add, Nat.mul_add]; omega
          rw [Nat.mul_add m q 1] at w2
          rw [Nat.add_mul m 1 s, Nat.add_mul m 1 (m + 1), Nat.mul_add m m 1]
          omega
        · rw [e']
          exact Or.inr ⟨g, rfl⟩
      · have he : t.begin_ isa = .error .ctzZero := e
        rw [he]
        exact Or.inr ⟨g, rfl⟩

/-- C102 is false for `while (!c.empty()) c.erase(c.begin());`: emptying any container of n elements this way loads at least
n(n-1)/32 blocks (16-byte blocks; n(n-1)/16 otherwise), so that `begin()` does not take constant time on average. -/
theorem C102_front_false {isa : Isa} {hash : K → Nat} {t : Table K V} (h : Reachable isa hash t) :
    Ends isa (Table.drainB isa (t.size + 1) t) (fun r => Behaves isa hash r.1 [] ∧
      t.size * (t.size - 1) ≤ 2 * isa.W * r.2) := by
  refine (drainB_spec (t.size + 1) h.inv 0 (fun i hi => absurd hi (Nat.not_lt_zero i)) (by omega)).mono ?_
  rintro ⟨t', c⟩ ⟨i', z', w'⟩
  simp only at i' z' w'
  refine ⟨i'.behaves ?_, ?_⟩
  · have : t'.contents = [] := List.eq_nil_of_length_eq_zero (by rw [i'.contents_length, z'])
    rw [this]
  · simp only
    rw [Nat.mul_assoc, Nat.mul_sub_one]
    omega

/-- In `spread`, 37 blocks against the ten of the loop that uses the iterator that `erase` returns. -/
example : (Table.drainB .sse2 7 spread).map (fun r => (r.1.size, r.2)) = .ok (0, 37) := by
  set_option maxRecDepth 100000 in decide +kernel

end Tpp.Swiss
