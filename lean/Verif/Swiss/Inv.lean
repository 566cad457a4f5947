import Verif.Swiss.Meta
import Verif.Count

/-!
# The invariant of the swiss table, and `find_node`
-/

set_option linter.unusedSectionVars false

namespace Tpp.Swiss

variable {K V : Type} [DecidableEq K]

/-- Slot `i` is found by the probe for `p`: it lies in window `s`, and no earlier window stops the probe. -/
def Reach (isa : Isa) (cap : Nat) (ctl : Nat → Ctl) (P : Ctl → Bool) (p i : Nat) : Prop :=
  ∃ s, InWin isa cap (wpos isa cap p s) i ∧ ∀ s', s' < s → NoneIn isa ctl P (wpos isa cap p s')

/-- The nodes of the table in slot order. -/
def Table.nodes (t : Table K V) : List (Node K V) := collect t.node t.cap

/-- The elements of the table in slot order: the abstract value of the table. -/
def Table.contents (t : Table K V) : List (K × V) := t.nodes.map fun n => (n.key, n.val)

/-- The invariant.  Without a buffer nothing is said about `numEmpty`: move assignment leaves a stale value in the
moved-from table (see `Verif.Swiss.Multi`). -/
structure Inv (isa : Isa) (hash : K → Nat) (t : Table K V) : Prop where
  shape : (t.len = 0 ∧ t.cap = 0) ∨ MetaOk isa t.cap t.len t.ctl
  live : ∀ i, i < t.cap → (t.node i).isSome = (t.ctl i).isOccupied
  tag : ∀ i, i < t.cap → ∀ n, t.node i = some n → t.ctl i = .full (hashLo n.hash)
  hash_ok : ∀ i, i < t.cap → ∀ n, t.node i = some n → n.hash = hash n.key
  uniq : ∀ i, i < t.cap → ∀ j, j < t.cap → ∀ a b, t.node i = some a → t.node j = some b → a.key = b.key → i = j
  reach : ∀ i, i < t.cap → ∀ n, t.node i = some n → Reach isa t.cap t.ctl (·.isEmpty) (hashHi n.hash) i
  size_eq : t.size = cnt (fun i => (t.ctl i).isOccupied) t.cap
  budget : 0 < t.cap → t.numEmpty + t.size + cnt (fun i => (t.ctl i).isDeleted) t.cap = maxSize isa t.cap

theorem Inv.meta_ok {isa : Isa} {hash : K → Nat} {t : Table K V} (h : Inv isa hash t) (hc : 0 < t.cap) :
    MetaOk isa t.cap t.len t.ctl := by
  rcases h.shape with h | h
  · omega
  · exact h

theorem Inv.pow {isa : Isa} {hash : K → Nat} {t : Table K V} (h : Inv isa hash t) : ∃ m, t.cap + 1 = 2 ^ m := by
  rcases h.shape with h | h
  · exact ⟨0, by omega⟩
  · exact h.pow

/-- The default constructed table is well-formed. -/
theorem Inv.init (isa : Isa) (hash : K → Nat) : Inv isa hash (Table.init : Table K V) where
  shape := Or.inl ⟨rfl, rfl⟩
  live := by intro i hi; simp [Table.init] at hi
  tag := by intro i hi; simp [Table.init] at hi
  hash_ok := by intro i hi; simp [Table.init] at hi
  uniq := by intro i hi; simp [Table.init] at hi
  reach := by intro i hi; simp [Table.init] at hi
  size_eq := by simp [Table.init, cnt]
  budget := by intro h; simp [Table.init] at h

theorem maxSize_lt {isa : Isa} {cap : Nat} (h : isa.W ≤ cap + 1) : maxSize isa cap < cap := by
  have := isa.W_pos
  unfold maxSize
  split <;> omega

theorem maxSize_le (isa : Isa) (cap : Nat) : maxSize isa cap ≤ cap := by
  unfold maxSize
  split <;> omega

theorem ctl_three (c : Ctl) (h : c ≠ .sentinel) :
    (if c.isOccupied then 1 else 0) + (if c.isDeleted then 1 else 0) + (if c.isEmpty then 1 else 0) = 1 := by
  cases c <;> simp_all [Ctl.isOccupied, Ctl.isDeleted, Ctl.isEmpty]

/-- Slots are occupied, erased or never used. -/
theorem MetaOk.total {isa : Isa} {cap len : Nat} {ctl : Nat → Ctl} (h : MetaOk isa cap len ctl) :
    cnt (fun i => (ctl i).isOccupied) cap + cnt (fun i => (ctl i).isDeleted) cap
      + cnt (fun i => (ctl i).isEmpty) cap = cap :=
  cnt_three fun i hi => ctl_three _ (h.slot i hi)

/-- A table with a full block of slots always has a never-used slot. -/
theorem Inv.exists_empty {isa : Isa} {hash : K → Nat} {t : Table K V} (h : Inv isa hash t)
    (hW : isa.W ≤ t.cap + 1) : ∃ i, i < t.cap ∧ t.ctl i = .empty := by
  have hc : 0 < t.cap := by have := isa.W_pos; omega
  have h1 := (h.meta_ok hc).total
  have h2 := h.budget hc
  have h3 := h.size_eq
  have h4 := maxSize_lt hW
  obtain ⟨i, hi, hp⟩ := cnt_pos (p := fun i => (t.ctl i).isEmpty) (n := t.cap) (by omega)
  refine ⟨i, hi, ?_⟩
  revert hp
  cases t.ctl i <;> simp [Ctl.isEmpty]

/-- Every probe meets a never-used byte. -/
theorem Inv.hasStep {isa : Isa} {hash : K → Nat} {t : Table K V} (h : Inv isa hash t) (hc : 0 < t.cap)
    {P : Ctl → Bool} (hP : P .empty = true) (p : Nat) : HasStep isa t.cap t.ctl P p := by
  rcases Nat.lt_or_ge (t.cap + 1) isa.W with hs | hs
  · exact (h.meta_ok hc).hasStep_of_small hP hs p
  · obtain ⟨i, hi, he⟩ := h.exists_empty hs
    exact (h.meta_ok hc).hasStep_of_slot hi (by rw [he]; exact hP) p

theorem readNode_some {t : Table K V} {i : Nat} {n : Node K V} (hi : i < t.cap) (hn : t.node i = some n) :
    t.readNode i = .ok n := by
  simp [Table.readNode, hi, hn]

theorem readCtl_ok {isa : Isa} {t : Table K V} (h : MetaOk isa t.cap t.len t.ctl) {i : Nat} (hi : i ≤ t.cap) :
    t.readCtl i = .ok (t.ctl i) := by
  have := h.len_eq
  have := isa.W_pos
  simp [Table.readCtl, show i < t.len by omega]

/-- The scan over matched slots, all of which hold live elements. -/
theorem scan_spec {t : Table K V} {k : K} {pos : Nat} {is : List Nat}
    (h : ∀ i, i ∈ is → ((pos + i) &&& t.cap) < t.cap ∧ ∃ n, t.node ((pos + i) &&& t.cap) = some n) :
    (∃ i, i ∈ is ∧ t.scan k pos is = .ok (some ((pos + i) &&& t.cap)) ∧
      ∃ n, t.node ((pos + i) &&& t.cap) = some n ∧ n.key = k) ∨
    (t.scan k pos is = .ok none ∧ ∀ i, i ∈ is → ∀ n, t.node ((pos + i) &&& t.cap) = some n → n.key ≠ k) := by
  induction is with
  | nil => right; exact ⟨rfl, by simp⟩
  | cons i is ih =>
    obtain ⟨hi, n, hn⟩ := h i (by simp)
    by_cases hk : n.key = k
    · left
      refine ⟨i, by simp, ?_, n, hn, hk⟩
      simp [Table.scan, readNode_some hi hn, hk]
    · rcases ih (fun j hj => h j (by simp [hj])) with ⟨j, hj, h1, h2⟩ | ⟨h1, h2⟩
      · left
        refine ⟨j, by simp [hj], ?_, h2⟩
        simp [Table.scan, readNode_some hi hn, hk, h1]
      · right
        refine ⟨?_, ?_⟩
        · simp [Table.scan, readNode_some hi hn, hk, h1]
        · intro j hj m hm
          rcases List.mem_cons.mp hj with e | e
          · subst e
            rw [hn] at hm
            cases hm
            exact hk
          · exact h2 j e m hm

/-- The probe loop of `find_node` from step `s`. -/
theorem findLoop_spec {isa : Isa} {hash : K → Nat} {t : Table K V} (h : Inv isa hash t) (hc : 0 < t.cap)
    (k : K) {s0 : Nat} (hs0 : s0 * isa.W ≤ t.cap)
    (hem : ¬ NoneIn isa t.ctl (·.isEmpty) (wpos isa t.cap (hashHi (hash k)) s0)) :
    ∀ (d s : Nat), s + d = s0 →
      (∀ s', s' < s → ∀ i, i < t.cap → InWin isa t.cap (wpos isa t.cap (hashHi (hash k)) s') i →
        ∀ n, t.node i = some n → n.key ≠ k) →
      ∀ fuel, d < fuel →
      (∃ i n, i < t.cap ∧ t.node i = some n ∧ n.key = k ∧
        t.findLoop isa k (hashLo (hash k)) fuel (wpos isa t.cap (hashHi (hash k)) s) (s * isa.W) = .ok i) ∨
      ((∀ i, i < t.cap → ∀ n, t.node i = some n → n.key ≠ k) ∧
        t.findLoop isa k (hashLo (hash k)) fuel (wpos isa t.cap (hashHi (hash k)) s) (s * isa.W) = .ok t.cap) := by
  have hm := h.meta_ok hc
  intro d
  induction d with
  | zero =>
    intro s hs hno fuel hf
    obtain ⟨f, rfl⟩ : ∃ f, fuel = f + 1 := ⟨fuel - 1, by omega⟩
    have : s = s0 := by omega
    subst this
    have hle := wpos_le isa t.cap (hashHi (hash k)) s
    have hb : wpos isa t.cap (hashHi (hash k)) s + isa.W ≤ t.len := by rw [hm.len_eq]; omega
    have hmatch : ∀ i, i ∈ t.matchEq isa (wpos isa t.cap (hashHi (hash k)) s) (hashLo (hash k)) →
        ((wpos isa t.cap (hashHi (hash k)) s + i) &&& t.cap) < t.cap ∧
        ∃ n, t.node ((wpos isa t.cap (hashHi (hash k)) s + i) &&& t.cap) = some n := by
      intro i hi
      obtain ⟨hi1, g, he⟩ := matchEq_full hi
      have hr := hm.real hle hi1 (by rw [he]; simp) (Or.inl (by rw [he]; simp))
      rw [land_cap hm]
      refine ⟨hr.1, ?_⟩
      have := h.live _ hr.1
      rw [hr.2.1, he] at this
      exact Option.isSome_iff_exists.mp this
    unfold Table.findLoop
    simp only [Table.loadBlock, hb, if_true, bind_ok]
    rcases scan_spec (k := k) hmatch with ⟨i, hi, hsc, n, hn, hk⟩ | ⟨hsc, hnone⟩
    · left
      exact ⟨_, n, (hmatch i hi).1, hn, hk, by rw [hsc]; rfl⟩
    · right
      rw [hsc]
      have hne : t.matches_ isa (wpos isa t.cap (hashHi (hash k)) s) (·.isEmpty) ≠ [] := by
        intro e; exact hem (matches_nil.mp e)
      simp only [bind_ok, hne, ne_eq, not_false_eq_true, if_true, and_true]
      intro j hj n hn hk
      obtain ⟨sj, hin, hbefore⟩ := h.reach j hj n hn
      have hh : n.hash = hash k := by rw [h.hash_ok j hj n hn, hk]
      rw [hh] at hin hbefore
      rcases Nat.lt_trichotomy sj s with hlt | heq | hgt
      · exact hno sj hlt j hj hin n hn hk
      · subst heq
        obtain ⟨b, hb1, hb2, hb3, _⟩ := hm.seen hle hj hin
        have htag := h.tag j hj n hn
        rw [hh] at htag
        have hmem : b ∈ t.matchEq isa (wpos isa t.cap (hashHi (hash k)) sj) (hashLo (hash k)) := 
          matchEq_hit hb1 (by rw [hb3, htag])
        have := hnone b hmem n (by rw [land_cap hm, hb2]; exact hn)
        exact this hk
      · exact hem (hbefore s hgt)
  | succ d ih =>
    intro s hs hno fuel hf
    obtain ⟨f, rfl⟩ : ∃ f, fuel = f + 1 := ⟨fuel - 1, by omega⟩
    have hle := wpos_le isa t.cap (hashHi (hash k)) s
    have hb : wpos isa t.cap (hashHi (hash k)) s + isa.W ≤ t.len := by rw [hm.len_eq]; omega
    have hmatch : ∀ i, i ∈ t.matchEq isa (wpos isa t.cap (hashHi (hash k)) s) (hashLo (hash k)) →
        ((wpos isa t.cap (hashHi (hash k)) s + i) &&& t.cap) < t.cap ∧
        ∃ n, t.node ((wpos isa t.cap (hashHi (hash k)) s + i) &&& t.cap) = some n := by
      intro i hi
      obtain ⟨hi1, g, he⟩ := matchEq_full hi
      have hr := hm.real hle hi1 (by rw [he]; simp) (Or.inl (by rw [he]; simp))
      rw [land_cap hm]
      refine ⟨hr.1, ?_⟩
      have := h.live _ hr.1
      rw [hr.2.1, he] at this
      exact Option.isSome_iff_exists.mp this
    have hidx : s * isa.W < t.cap := by
      have h1 : (s + 1) * isa.W ≤ s0 * isa.W := Nat.mul_le_mul_right _ (by omega)
      rw [Nat.add_mul] at h1
      have := isa.W_pos
      omega
    unfold Table.findLoop
    simp only [Table.loadBlock, hb, if_true, bind_ok]
    rcases scan_spec (k := k) hmatch with ⟨i, hi, hsc, n, hn, hk⟩ | ⟨hsc, hnone⟩
    · left
      exact ⟨_, n, (hmatch i hi).1, hn, hk, by rw [hsc]; rfl⟩
    · rw [hsc]
      have hnowin : ∀ j, j < t.cap → InWin isa t.cap (wpos isa t.cap (hashHi (hash k)) s) j →
          ∀ n, t.node j = some n → n.key ≠ k := by
        intro j hj hin n hn hk
        have hh : n.hash = hash k := by rw [h.hash_ok j hj n hn, hk]
        obtain ⟨b, hb1, hb2, hb3, _⟩ := hm.seen hle hj hin
        have htag := h.tag j hj n hn
        rw [hh] at htag
        have hmem : b ∈ t.matchEq isa (wpos isa t.cap (hashHi (hash k)) s) (hashLo (hash k)) := 
          matchEq_hit hb1 (by rw [hb3, htag])
        exact hnone b hmem n (by rw [land_cap hm, hb2]; exact hn) hk
      by_cases hne : t.matches_ isa (wpos isa t.cap (hashHi (hash k)) s) (·.isEmpty) = []
      · simp only [bind_ok, hne, ne_eq, not_true_eq_false, if_false, hidx, if_true]
        rw [wpos_succ hm.pow, ← Nat.succ_mul]
        refine ih (s + 1) (by omega) ?_ f (by omega)
        intro s' hs' i hi hin
        by_cases e : s' = s
        · subst e; exact hnowin i hi hin
        · exact hno s' (by omega) i hi hin
      · right
        simp only [bind_ok, hne, ne_eq, not_false_eq_true, if_true, and_true]
        intro j hj n hn hk
        obtain ⟨sj, hin, hbefore⟩ := h.reach j hj n hn
        have hh : n.hash = hash k := by rw [h.hash_ok j hj n hn, hk]
        rw [hh] at hin hbefore
        rcases Nat.lt_trichotomy sj s with hlt | heq | hgt
        · exact hno sj hlt j hj hin n hn hk
        · subst heq; exact hnowin j hj hin n hn hk
        · exact hne (matches_nil.mpr (hbefore s hgt))

/-- `find_node` finds the slot of the key if the table has it, and otherwise reports the capacity. -/
theorem findNode_spec {isa : Isa} {hash : K → Nat} {t : Table K V} (h : Inv isa hash t) (k : K) :
    (∃ i n, i < t.cap ∧ t.node i = some n ∧ n.key = k ∧ t.findNode isa k (hash k) = .ok i) ∨
    ((∀ i, i < t.cap → ∀ n, t.node i = some n → n.key ≠ k) ∧ t.findNode isa k (hash k) = .ok t.cap) := by
  unfold Table.findNode
  by_cases hz : t.size = 0
  · right
    simp only [hz, ne_eq, not_true_eq_false, if_false, and_true]
    intro i hi n hn
    have h1 := h.size_eq
    have h2 := h.live i hi
    rw [hn] at h2
    have := cnt_pos_of (p := fun i => (t.ctl i).isOccupied) hi h2.symm
    omega
  · simp only [hz, ne_eq, not_false_eq_true, if_true]
    have hc : 0 < t.cap := by
      rcases Nat.eq_zero_or_pos t.cap with h0 | h0
      · have := h.size_eq; rw [h0, cnt] at this; omega
      · exact h0
    obtain ⟨s0, hs0, hem⟩ := h.hasStep hc (P := (·.isEmpty)) rfl (hashHi (hash k))
    have := findLoop_spec h hc k hs0 hem s0 0 (by omega) (by intro s' hs'; omega) (t.cap + 1) (step_lt_fuel hs0)
    rw [land_cap (h.meta_ok hc)]
    simpa [wpos, probePos] using this

end Tpp.Swiss
