import Verif.Swiss.Map

/-!
# The work of iteration

The functions that move iterators of unordered sparse and stable containers, with the number of metadata blocks they load
(`meta_block{…}.count_available()` in `next_occupied`, swiss_table.hpp 429-437).  The results are those of `nextOccupied`, `begin_`,
`iterate` and `doErase`; the counts are exact.
-/

set_option linter.unusedSectionVars false

namespace Tpp.Swiss

variable {K V : Type} [DecidableEq K]

namespace Table

/-- `next_occupied` (swiss_table.hpp 429-437), and the number of blocks it loads. -/
def nextOccB (isa : Isa) (t : Table K V) : (fuel pos : Nat) → M (Nat × Nat)
  | 0, _ => .error .diverge
  | fuel + 1, pos => do
    let c ← t.readCtl pos
    if c.isAvailable then
      let off ← t.countAvailable isa pos
      let (q, n) ← nextOccB isa t fuel (pos + off)
      .ok (q, n + 1)
    else .ok (pos, 0)

/-- `to_iter` (swiss_table.hpp 1175-1202, 399), and the number of blocks it loads. -/
def toIterB (isa : Isa) (t : Table K V) (pos : Nat) : M (Nat × Nat) :=
  if t.len = 0 then .ok (pos, 0) else t.nextOccB isa (t.cap + 1) pos

/-- `begin()` (swiss_table.hpp 898, 1157-1163). -/
def beginB (isa : Isa) (t : Table K V) : M (Nat × Nat) := t.toIterB isa 0

/-- `do_erase` (swiss_table.hpp 1361-1368): the result is an iterator, for which `next_occupied` runs. -/
def doEraseB (isa : Isa) (t : Table K V) (pos : Nat) : M ((Table K V × Nat) × Nat) := do
  let t ← t.eraseNode isa pos
  let (it, c) ← t.toIterB isa pos
  let t ← t.destroy pos
  .ok ((t, it), c)

/-- The loop `for (; it != last; ++it)` (swiss_table.hpp 412-421). -/
def walkB (isa : Isa) (t : Table K V) : (fuel pos last : Nat) → M (List (K × V) × Nat)
  | 0, _, _ => .error .diverge
  | fuel + 1, pos, last =>
    if pos = last then .ok ([], 0)
    else do
      let n ← t.readNode pos
      let (pos, c) ← t.nextOccB isa (t.cap + 1) (pos + 1)
      let (rest, c') ← walkB isa t fuel pos last
      .ok ((n.key, n.val) :: rest, c + c')

/-- `for (x : c)`. -/
def iterateB (isa : Isa) (t : Table K V) : M (List (K × V) × Nat) := do
  let (first, c) ← t.beginB isa
  let (last, d) ← t.toIterB isa t.cap
  let (l, e) ← t.walkB isa (t.cap + 1) first last
  .ok (l, c + d + e)

/-- `for (it = c.begin(); it != c.end();) it = c.erase(it);` from the iterator `pos` on (swiss_table.hpp 898-903, 1060-1069). -/
def eraseLoopB (isa : Isa) : (fuel : Nat) → Table K V → (pos : Nat) → M (Table K V × Nat)
  | 0, _, _ => .error .diverge
  | fuel + 1, t, pos => do
    let (last, d) ← t.toIterB isa t.cap
    if pos = last then .ok (t, d)
    else do
      let ((t, it), c) ← t.doEraseB isa pos
      let (t, e) ← eraseLoopB isa fuel t it
      .ok (t, d + c + e)

/-- `while (!c.empty()) c.erase(c.begin());` (swiss_table.hpp 898-903, 1060-1069). -/
def drainB (isa : Isa) : (fuel : Nat) → Table K V → M (Table K V × Nat)
  | 0, _ => .error .diverge
  | fuel + 1, t =>
    if t.size = 0 then .ok (t, 0)
    else do
      let (first, c) ← t.beginB isa
      let ((t, _), d) ← t.doEraseB isa first
      let (t, e) ← drainB isa fuel t
      .ok (t, c + d + e)

end Table

/-- Number of blocks of `W` bytes needed for `n` bytes. -/
def blocksFor (isa : Isa) (n : Nat) : Nat := (n + isa.W - 1) / isa.W

theorem blocksFor_zero (isa : Isa) : blocksFor isa 0 = 0 := by
  have : 0 < isa.W := Nat.lt_of_lt_of_le (by decide) isa.W_pos
  exact Nat.div_eq_of_lt (by omega)

theorem blocksFor_small (isa : Isa) {n : Nat} (h0 : 0 < n) (hn : n ≤ isa.W) : blocksFor isa n = 1 := by
  unfold blocksFor
  have : 0 < isa.W := Nat.lt_of_lt_of_le (by decide) isa.W_pos
  rw [show n + isa.W - 1 = (n - 1) + isa.W by omega, Nat.add_div_right _ this, Nat.div_eq_of_lt (by omega)]

theorem blocksFor_add (isa : Isa) (n : Nat) : blocksFor isa (n + isa.W) = blocksFor isa n + 1 := by
  unfold blocksFor
  have : 0 < isa.W := Nat.lt_of_lt_of_le (by decide) isa.W_pos
  rw [show n + isa.W + isa.W - 1 = (n + isa.W - 1) + isa.W by omega, Nat.add_div_right _ this]

theorem blocksFor_le (isa : Isa) (n : Nat) : isa.W * blocksFor isa n ≤ n + isa.W - 1 := by
  unfold blocksFor
  exact Nat.mul_div_le _ _

theorem le_blocksFor (isa : Isa) (n : Nat) : n ≤ isa.W * blocksFor isa n := by
  unfold blocksFor
  have : 0 < isa.W := Nat.lt_of_lt_of_le (by decide) isa.W_pos
  have h1 := Nat.div_add_mod (n + isa.W - 1) isa.W
  have h2 := Nat.mod_lt (n + isa.W - 1) this
  omega

theorem countAvailable_more {isa : Isa} {t : Table K V} {pos off : Nat} (h : t.countAvailable isa pos = .ok off) :
    off ≤ isa.W ∧ (off < isa.W → (t.ctl (pos + off)).isAvailable = false) := by
  unfold Table.countAvailable at h
  cases hb : t.loadBlock isa pos with
  | error e => rw [hb] at h; cases h
  | ok _ =>
    rw [hb, bind_ok] at h
    cases hf : (List.range isa.W).find? (fun i => !(t.ctl (pos + i)).isAvailable) with
    | some i =>
      rw [hf] at h
      rw [List.find?_range_eq_some] at hf
      obtain ⟨h1, h2, _⟩ := hf
      cases h
      exact ⟨by simpa using Nat.le_of_lt (List.mem_range.mp h2), fun _ => by simpa using h1⟩
    | none =>
      rw [hf] at h
      cases isa with
      | sse2 => cases h; exact ⟨Nat.le_refl _, fun g => absurd g (Nat.lt_irrefl _)⟩
      | neon => cases h
      | portable => cases h

/-- `next_occupied` loads one block for each 16 (or 8) bytes it passes. -/
theorem nextOccB_eq {isa : Isa} {t : Table K V} (h : MetaOk isa t.cap t.len t.ctl) :
    ∀ (fuel pos : Nat), pos ≤ t.cap → t.cap - pos < fuel →
      t.nextOccB isa fuel pos = (t.nextOccupied isa fuel pos).map (fun q => (q, blocksFor isa (q - pos))) := by
  intro fuel
  induction fuel with
  | zero => intro pos _ hf; omega
  | succ fuel ih =>
    intro pos hp hf
    unfold Table.nextOccB Table.nextOccupied
    rw [readCtl_ok h hp]
    simp only [bind_ok]
    by_cases hav : (t.ctl pos).isAvailable = true
    · simp only [hav, if_true]
      have hlt : pos < t.cap := by
        rcases Nat.lt_or_ge pos t.cap with h1 | h1
        · exact h1
        · have : pos = t.cap := by omega
          rw [this, h.sent] at hav
          simp [Ctl.isAvailable] at hav
      rcases countAvailable_spec h hlt hav with ⟨off, e, h1, h2, h3⟩ | ⟨_, e⟩
      · obtain ⟨h4, h5⟩ := countAvailable_more e
        rw [e, bind_ok, bind_ok, ih (pos + off) h2 (by omega)]
        rcases nextOccupied_spec h fuel (pos + off) h2 (by omega) with ⟨q, e2, q1, q2, q3, q4⟩ | ⟨_, e2⟩
        · rw [e2]
          show Except.ok (q, blocksFor isa (q - (pos + off)) + 1) = Except.ok (q, blocksFor isa (q - pos))
          congr 2
          rcases Nat.lt_or_ge off isa.W with g | g
          · have hq : q = pos + off := by
              obtain ⟨f, rfl⟩ : ∃ f, fuel = f + 1 := ⟨fuel - 1, by omega⟩
              unfold Table.nextOccupied at e2
              rw [readCtl_ok h h2, bind_ok, h5 g] at e2
              cases e2
              rfl
            rw [hq, Nat.sub_self, blocksFor_zero, blocksFor_small isa (by omega) (by omega)]
          · have : off = isa.W := by omega
            rw [show q - pos = (q - (pos + off)) + isa.W by omega, blocksFor_add]
        · rw [e2]
          rfl
      · rw [e]
        rfl
    · simp only [hav]
      show Except.ok (pos, 0) = Except.ok (pos, blocksFor isa (pos - pos))
      rw [Nat.sub_self, blocksFor_zero]

theorem toIterB_eq {isa : Isa} {hash : K → Nat} {t : Table K V} (h : Inv isa hash t) {pos : Nat} (hp : pos ≤ t.cap) :
    t.toIterB isa pos = (t.toIter isa pos).map (fun q => (q, blocksFor isa (q - pos))) := by
  unfold Table.toIterB Table.toIter
  rcases h.shape with ⟨h1, h2⟩ | hm
  · rw [if_pos h1, if_pos h1]
    show Except.ok (pos, 0) = Except.ok (pos, blocksFor isa (pos - pos))
    rw [Nat.sub_self, blocksFor_zero]
  · have hl := hm.len_eq
    have : 0 < isa.W := Nat.lt_of_lt_of_le (by decide) isa.W_pos
    rw [if_neg (by omega), if_neg (by omega)]
    exact nextOccB_eq hm _ _ hp (by omega)

theorem endB_eq {isa : Isa} {hash : K → Nat} {t : Table K V} (h : Inv isa hash t) : t.toIterB isa t.cap = .ok (t.cap, 0) := by
  rw [toIterB_eq h (Nat.le_refl _), toIter_stay h (Or.inl rfl)]
  show Except.ok (t.cap, blocksFor isa (t.cap - t.cap)) = _
  rw [Nat.sub_self, blocksFor_zero]

theorem beginB_eq {isa : Isa} {hash : K → Nat} {t : Table K V} (h : Inv isa hash t) :
    t.beginB isa = (t.begin_ isa).map (fun q => (q, blocksFor isa q)) := by
  unfold Table.beginB Table.begin_
  rw [toIterB_eq h (Nat.zero_le _)]
  rfl

theorem doEraseB_eq {isa : Isa} {hash : K → Nat} {t : Table K V} (h : Inv isa hash t) {pos : Nat} {n : Node K V}
    (hp : pos < t.cap) (hn : t.node pos = some n) :
    t.doEraseB isa pos = (t.doErase isa pos).map (fun r => (r, blocksFor isa (r.2 - pos))) := by
  obtain ⟨c, h1, h2, h3, _⟩ := eraseNode_spec h hp hn
  unfold Table.doEraseB Table.doErase
  rw [h1, bind_ok, bind_ok]
  have hlen := h3.len_eq
  have : 0 < isa.W := Nat.lt_of_lt_of_le (by decide) isa.W_pos
  have : Table.toIterB isa { t with ctl := c, size := t.size - 1 } pos =
      (Table.toIter isa { t with ctl := c, size := t.size - 1 } pos).map (fun q => (q, blocksFor isa (q - pos))) := by
    unfold Table.toIterB Table.toIter
    rw [if_neg (by simp only; omega), if_neg (by simp only; omega)]
    exact nextOccB_eq (t := { t with ctl := c, size := t.size - 1 }) h3 _ _ (by simp only; omega) (by simp only; omega)
  rw [this]
  cases Table.toIter isa { t with ctl := c, size := t.size - 1 } pos with
  | error e => rfl
  | ok it =>
    show (do
      let t' ← Table.destroy { t with ctl := c, size := t.size - 1 } pos
      Except.ok ((t', it), blocksFor isa (it - pos))) = Except.map _ (do
      let t' ← Table.destroy { t with ctl := c, size := t.size - 1 } pos
      Except.ok (t', it))
    cases Table.destroy { t with ctl := c, size := t.size - 1 } pos <;> rfl

/-- What the loop over the elements from an occupied slot costs. -/
theorem walkB_spec {isa : Isa} {hash : K → Nat} {t : Table K V} (h : Inv isa hash t) :
    ∀ (fuel pos : Nat), pos ≤ t.cap → (pos < t.cap → (t.ctl pos).isOccupied = true) → t.cap - pos < fuel →
      Ends isa (t.walkB isa fuel pos t.cap) (fun r => t.walk isa fuel pos t.cap = .ok r.1 ∧ r.1 = t.elemsFrom pos ∧
        t.cap ≤ pos + r.1.length + isa.W * r.2 ∧ pos + r.1.length + isa.W * r.2 ≤ t.cap + r.1.length * (isa.W - 1)) := by
  intro fuel
  induction fuel with
  | zero => intro pos _ _ hf; omega
  | succ fuel ih =>
    intro pos hp ho hf
    unfold Table.walkB
    by_cases hl : pos = t.cap
    · rw [if_pos hl]
      refine Ends.of_ok rfl ⟨?_, (elemsFrom_end t (by omega)).symm, by simp; omega, by simp; omega⟩
      unfold Table.walk
      rw [if_pos hl]
    · rw [if_neg hl]
      have hlt : pos < t.cap := by omega
      have hm := h.meta_ok (by omega)
      have hs := h.live pos hlt
      rw [ho hlt] at hs
      obtain ⟨n, hn⟩ := Option.isSome_iff_exists.mp hs
      rw [readNode_some hlt hn]
      simp only [bind_ok]
      rw [nextOccB_eq hm _ _ (by omega) (by omega)]
      rcases nextOccupied_spec hm (t.cap + 1) (pos + 1) (by omega) (by omega) with ⟨q, e, hr⟩ | ⟨g, e⟩
      · rw [e]
        simp only [Except.map, bind_ok]
        refine (ih q hr.2.1 hr.2.2.2 (by have := hr.1; omega)).bind ?_
        rintro ⟨rest, c'⟩ ⟨h0, h1, h2, h3⟩
        simp only at h0 h1 h2 h3
        refine Ends.of_ok rfl ⟨?_, ?_, ?_, ?_⟩
        · unfold Table.walk
          rw [if_neg hl, readNode_some hlt hn, bind_ok, e, bind_ok, h0]
          rfl
        · rw [elemsFrom_step t hlt, hn, elemsFrom_next h.live hr, h1]
          rfl
        · have b1 := le_blocksFor isa (q - (pos + 1))
          have := hr.1
          simp only [List.length_cons]
          rw [Nat.mul_add]
          omega
        · have b2 := blocksFor_le isa (q - (pos + 1))
          have := hr.1
          have : 0 < isa.W := Nat.lt_of_lt_of_le (by decide) isa.W_pos
          simp only [List.length_cons]
          rw [Nat.mul_add, Nat.succ_mul]
          omega
      · rw [e]
        exact Or.inr ⟨g, rfl⟩

end Tpp.Swiss
