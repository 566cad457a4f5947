import Verif.Swiss.Move

/-!
# Tables whose elements the probe sequences need not reach

`copy_data` and `move_data` put the elements into the slots they had, without the erased marks between them and possibly
into a larger table.  What results satisfies the invariant except for reachability.  Such a table is iterated, counted
and destroyed correctly; a lookup finds exactly the elements that are reachable.
-/

set_option linter.unusedSectionVars false

namespace Tpp.Swiss

variable {K V : Type} [DecidableEq K]

/-- The invariant without reachability. -/
structure Weak (isa : Isa) (hash : K → Nat) (t : Table K V) : Prop where
  shape : (t.len = 0 ∧ t.cap = 0) ∨ MetaOk isa t.cap t.len t.ctl
  live : ∀ i, i < t.cap → (t.node i).isSome = (t.ctl i).isOccupied
  tag : ∀ i, i < t.cap → ∀ n, t.node i = some n → t.ctl i = .full (hashLo n.hash)
  hash_ok : ∀ i, i < t.cap → ∀ n, t.node i = some n → n.hash = hash n.key
  uniq : ∀ i, i < t.cap → ∀ j, j < t.cap → ∀ a b, t.node i = some a → t.node j = some b → a.key = b.key → i = j
  size_eq : t.size = cnt (fun i => (t.ctl i).isOccupied) t.cap
  budget : 0 < t.cap → t.numEmpty + t.size + cnt (fun i => (t.ctl i).isDeleted) t.cap = maxSize isa t.cap

/-- Every element is reached by the probe for its hash. -/
def Table.AllReach (isa : Isa) (t : Table K V) : Prop :=
  ∀ i, i < t.cap → ∀ n, t.node i = some n → Reach isa t.cap t.ctl (·.isEmpty) (hashHi n.hash) i

theorem Weak.inv {isa : Isa} {hash : K → Nat} {t : Table K V} (h : Weak isa hash t) (hr : t.AllReach isa) : Inv isa hash t :=
  ⟨h.shape, h.live, h.tag, h.hash_ok, h.uniq, hr, h.size_eq, h.budget⟩

theorem Inv.weak {isa : Isa} {hash : K → Nat} {t : Table K V} (h : Inv isa hash t) : Weak isa hash t :=
  ⟨h.shape, h.live, h.tag, h.hash_ok, h.uniq, h.size_eq, h.budget⟩

theorem Weak.meta_ok {isa : Isa} {hash : K → Nat} {t : Table K V} (h : Weak isa hash t) (hc : 0 < t.cap) :
    MetaOk isa t.cap t.len t.ctl := by
  rcases h.shape with h | h
  · omega
  · exact h

theorem Weak.contents_uniq {isa : Isa} {hash : K → Nat} {t : Table K V} (h : Weak isa hash t) : Spec.Uniq t.contents := by
  unfold Spec.Uniq Table.contents Table.nodes
  rw [List.map_map]
  exact collect_nodup _ (fun i hi j hj a b ha hb e => h.uniq i hi j hj a b ha hb e)

theorem Weak.contents_length {isa : Isa} {hash : K → Nat} {t : Table K V} (h : Weak isa hash t) :
    t.contents.length = t.size := by
  rw [h.size_eq, Table.contents, List.length_map, Table.nodes, collect_length]
  exact cnt_congr (fun i hi => h.live i hi)

theorem Weak.hasStep {isa : Isa} {hash : K → Nat} {t : Table K V} (h : Weak isa hash t) (hc : 0 < t.cap)
    {P : Ctl → Bool} (hP : P .empty = true) (p : Nat) : HasStep isa t.cap t.ctl P p := by
  have hm := h.meta_ok hc
  rcases Nat.lt_or_ge (t.cap + 1) isa.W with hs | hs
  · exact hm.hasStep_of_small hP hs p
  · have h1 := hm.total
    have h2 := h.budget hc
    have h3 := h.size_eq
    have h4 := maxSize_lt hs
    obtain ⟨i, hi, hp⟩ := cnt_pos (p := fun i => (t.ctl i).isEmpty) (n := t.cap) (by omega)
    refine hm.hasStep_of_slot hi ?_ p
    revert hp
    cases t.ctl i <;> simp [Ctl.isEmpty, hP]

/-- Matched bytes belong to slots with elements. -/
theorem Weak.matched {isa : Isa} {hash : K → Nat} {t : Table K V} (h : Weak isa hash t) (hc : 0 < t.cap) {p s tag i : Nat}
    (hi : i ∈ t.matchEq isa (wpos isa t.cap p s) tag) :
    ((wpos isa t.cap p s + i) &&& t.cap) < t.cap ∧ (∃ n, t.node ((wpos isa t.cap p s + i) &&& t.cap) = some n) ∧
    InWin isa t.cap (wpos isa t.cap p s) ((wpos isa t.cap p s + i) &&& t.cap) := by
  have hm := h.meta_ok hc
  have hle := wpos_le isa t.cap p s
  obtain ⟨hi1, g, he⟩ := matchEq_full hi
  have hr := hm.real hle hi1 (by rw [he]; simp) (Or.inl (by rw [he]; simp))
  rw [land_cap hm]
  refine ⟨hr.1, ?_, hr.2.2⟩
  have := h.live _ hr.1
  rw [hr.2.1, he] at this
  exact Option.isSome_iff_exists.mp this

/-- The probe loop from step `s`: it finds the key exactly if its slot is reached. -/
theorem weak_findLoop {isa : Isa} {hash : K → Nat} {t : Table K V} (h : Weak isa hash t) (hc : 0 < t.cap)
    (k : K) {s0 : Nat} (hs0 : s0 * isa.W ≤ t.cap)
    (hem : ¬ NoneIn isa t.ctl (·.isEmpty) (wpos isa t.cap (hashHi (hash k)) s0)) :
    ∀ (d s : Nat), s + d = s0 →
      (∀ s', s' < s → ∀ i, i < t.cap → InWin isa t.cap (wpos isa t.cap (hashHi (hash k)) s') i →
        ∀ n, t.node i = some n → n.key ≠ k) →
      (∀ s', s' < s → NoneIn isa t.ctl (·.isEmpty) (wpos isa t.cap (hashHi (hash k)) s')) →
      ∀ fuel, d < fuel →
      (∃ i n, i < t.cap ∧ t.node i = some n ∧ n.key = k ∧ Reach isa t.cap t.ctl (·.isEmpty) (hashHi (hash k)) i ∧
        t.findLoop isa k (hashLo (hash k)) fuel (wpos isa t.cap (hashHi (hash k)) s) (s * isa.W) = .ok i) ∨
      ((∀ i, i < t.cap → ∀ n, t.node i = some n → n.key = k → ¬ Reach isa t.cap t.ctl (·.isEmpty) (hashHi (hash k)) i) ∧
        t.findLoop isa k (hashLo (hash k)) fuel (wpos isa t.cap (hashHi (hash k)) s) (s * isa.W) = .ok t.cap) := by
  have hm := h.meta_ok hc
  intro d
  induction d with
  | zero =>
    intro s hs hno hbef fuel hf
    obtain ⟨f, rfl⟩ : ∃ f, fuel = f + 1 := ⟨fuel - 1, by omega⟩
    have : s = s0 := by omega
    subst this
    have hle := wpos_le isa t.cap (hashHi (hash k)) s
    have hb : wpos isa t.cap (hashHi (hash k)) s + isa.W ≤ t.len := by rw [hm.len_eq]; omega
    unfold Table.findLoop
    simp only [Table.loadBlock, hb, if_true, bind_ok]
    rcases scan_spec (k := k) (fun i hi => ⟨(h.matched hc hi).1, (h.matched hc hi).2.1⟩) with ⟨i, hi, hsc, n, hn, hk⟩ | ⟨hsc, hnone⟩
    · left
      exact ⟨_, n, (h.matched hc hi).1, hn, hk, ⟨s, (h.matched hc hi).2.2, hbef⟩, by rw [hsc]; rfl⟩
    · right
      rw [hsc]
      have hne : t.matches_ isa (wpos isa t.cap (hashHi (hash k)) s) (·.isEmpty) ≠ [] := by
        intro e; exact hem (matches_nil.mp e)
      simp only [bind_ok, hne, ne_eq, not_false_eq_true, if_true, and_true]
      rintro j hj n hn hk ⟨sj, hin, hbefore⟩
      have hh : n.hash = hash k := by rw [h.hash_ok j hj n hn, hk]
      rcases Nat.lt_trichotomy sj s with hlt | heq | hgt
      · exact hno sj hlt j hj hin n hn hk
      · subst heq
        obtain ⟨b, hb1, hb2, hb3, _⟩ := hm.seen hle hj hin
        have htag := h.tag j hj n hn
        rw [hh] at htag
        have hmem : b ∈ t.matchEq isa (wpos isa t.cap (hashHi (hash k)) sj) (hashLo (hash k)) :=
          matchEq_hit hb1 (by rw [hb3, htag])
        have := hnone b hmem n (by rw [land_cap hm, hb2]; exact hn)
        exact this hk
      · exact hem (hbefore s hgt)
  | succ d ih =>
    intro s hs hno hbef fuel hf
    obtain ⟨f, rfl⟩ : ∃ f, fuel = f + 1 := ⟨fuel - 1, by omega⟩
    have hle := wpos_le isa t.cap (hashHi (hash k)) s
    have hb : wpos isa t.cap (hashHi (hash k)) s + isa.W ≤ t.len := by rw [hm.len_eq]; omega
    have hidx : s * isa.W < t.cap := by
      have h1 : (s + 1) * isa.W ≤ s0 * isa.W := Nat.mul_le_mul_right _ (by omega)
      rw [Nat.add_mul] at h1
      have := isa.W_pos
      omega
    unfold Table.findLoop
    simp only [Table.loadBlock, hb, if_true, bind_ok]
    rcases scan_spec (k := k) (fun i hi => ⟨(h.matched hc hi).1, (h.matched hc hi).2.1⟩) with ⟨i, hi, hsc, n, hn, hk⟩ | ⟨hsc, hnone⟩
    · left
      exact ⟨_, n, (h.matched hc hi).1, hn, hk, ⟨s, (h.matched hc hi).2.2, hbef⟩, by rw [hsc]; rfl⟩
    · rw [hsc]
      have hnowin : ∀ j, j < t.cap → InWin isa t.cap (wpos isa t.cap (hashHi (hash k)) s) j →
          ∀ n, t.node j = some n → n.key ≠ k := by
        intro j hj hin n hn hk
        have hh : n.hash = hash k := by rw [h.hash_ok j hj n hn, hk]
        obtain ⟨b, hb1, hb2, hb3, _⟩ := hm.seen hle hj hin
        have htag := h.tag j hj n hn
        rw [hh] at htag
        have hmem : b ∈ t.matchEq isa (wpos isa t.cap (hashHi (hash k)) s) (hashLo (hash k)) :=
          matchEq_hit hb1 (by rw [hb3, htag])
        exact hnone b hmem n (by rw [land_cap hm, hb2]; exact hn) hk
      by_cases hne : t.matches_ isa (wpos isa t.cap (hashHi (hash k)) s) (·.isEmpty) = []
      · simp only [bind_ok, hne, ne_eq, not_true_eq_false, if_false, hidx, if_true]
        rw [wpos_succ hm.pow, ← Nat.succ_mul]
        refine ih (s + 1) (by omega) ?_ ?_ f (by omega)
        · intro s' hs' i hi hin
          by_cases e : s' = s
          · subst e; exact hnowin i hi hin
          · exact hno s' (by omega) i hi hin
        · intro s' hs'
          by_cases e : s' = s
          · subst e; exact matches_nil.mp hne
          · exact hbef s' (by omega)
      · right
        simp only [bind_ok, hne, ne_eq, not_false_eq_true, if_true, and_true]
        rintro j hj n hn hk ⟨sj, hin, hbefore⟩
        rcases Nat.lt_trichotomy sj s with hlt | heq | hgt
        · exact hno sj hlt j hj hin n hn hk
        · subst heq; exact hnowin j hj hin n hn hk
        · exact hne (matches_nil.mpr (hbefore s hgt))

/-- `find_node` finds the slot of the key if it is reached, and otherwise reports the capacity. -/
theorem weak_findNode {isa : Isa} {hash : K → Nat} {t : Table K V} (h : Weak isa hash t) (k : K) :
    (∃ i n, i < t.cap ∧ t.node i = some n ∧ n.key = k ∧ Reach isa t.cap t.ctl (·.isEmpty) (hashHi (hash k)) i ∧
      t.findNode isa k (hash k) = .ok i) ∨
    ((∀ i, i < t.cap → ∀ n, t.node i = some n → n.key = k → ¬ Reach isa t.cap t.ctl (·.isEmpty) (hashHi (hash k)) i) ∧
      t.findNode isa k (hash k) = .ok t.cap) := by
  unfold Table.findNode
  by_cases hz : t.size = 0
  · right
    simp only [hz, ne_eq, not_true_eq_false, if_false, and_true]
    intro i hi n hn
    have h1 := h.size_eq
    have h2 := h.live i hi
    rw [hn] at h2
    have := cnt_pos_of (p := fun i => (t.ctl i).isOccupied) hi h2.symm
    omega
  · simp only [hz, ne_eq, not_false_eq_true, if_true]
    have hc : 0 < t.cap := by
      rcases Nat.eq_zero_or_pos t.cap with h0 | h0
      · have := h.size_eq; rw [h0, cnt] at this; omega
      · exact h0
    obtain ⟨s0, hs0, hem⟩ := h.hasStep hc (P := (·.isEmpty)) rfl (hashHi (hash k))
    have := weak_findLoop h hc k hs0 hem s0 0 (by omega) (by intro s' hs'; omega) (by intro s' hs'; omega) (t.cap + 1)
      (step_lt_fuel hs0)
    rw [land_cap (h.meta_ok hc)]
    simpa [wpos, probePos] using this

/-- A lookup never yields anything that is not in the table: it answers as the map, or that the key is absent. -/
theorem weak_lookup {isa : Isa} {hash : K → Nat} {t : Table K V} (h : Weak isa hash t) (k : K) :
    (t.contains isa hash k = .ok true ∧ t.lookup isa hash k = .ok (Spec.lookup t.contents k) ∧ (Spec.lookup t.contents k).isSome = true) ∨
    (t.contains isa hash k = .ok false ∧ t.lookup isa hash k = .ok none) := by
  rcases weak_findNode h k with ⟨i, n, hi, hn, hk, _, hf⟩ | ⟨_, hf⟩
  · left
    have hl : Spec.lookup t.contents k = some n.val := by
      rw [Spec.lookup_some h.contents_uniq, mem_contents]
      exact ⟨i, n, hi, hn, hk, rfl⟩
    refine ⟨?_, ?_, by rw [hl]; rfl⟩
    · simp [Table.contains, hf, show i ≠ t.cap by omega]
    · simp [Table.lookup, hf, hl, show i ≠ t.cap by omega, readNode_some hi hn]
  · right
    exact ⟨by simp [Table.contains, hf], by simp [Table.lookup, hf]⟩

/-- All elements are reached if and only if every one is found. -/
theorem weak_reach_iff {isa : Isa} {hash : K → Nat} {t : Table K V} (h : Weak isa hash t) :
    t.AllReach isa ↔ ∀ k, k ∈ t.contents.map Prod.fst → t.contains isa hash k = .ok true := by
  constructor
  · intro hr k hk
    rw [contains_spec (h.inv hr)]
    obtain ⟨⟨k', v⟩, hv, rfl⟩ := List.mem_map.mp hk
    rw [(Spec.lookup_some h.contents_uniq).mpr hv]
    rfl
  · intro hk i hi n hn
    have := hk n.key (List.mem_map.mpr ⟨(n.key, n.val), mem_contents.mpr ⟨i, n, hi, hn, rfl, rfl⟩, rfl⟩)
    rcases weak_findNode h n.key with ⟨j, m, hj, hm, hkm, hr, hf⟩ | ⟨_, hf⟩
    · have := h.uniq i hi j hj n m hn hm hkm.symm
      subst this
      rw [h.hash_ok i hi n hn]
      exact hr
    · simp [Table.contains, hf] at this

/-! ### Iteration needs less -/

theorem lax_end {isa : Isa} {t : Table K V} (hs : (t.len = 0 ∧ t.cap = 0) ∨ MetaOk isa t.cap t.len t.ctl) : t.end_ isa = .ok t.cap := by
  unfold Table.end_ Table.toIter
  rcases hs with ⟨h1, h2⟩ | hm
  · simp [h1]
  · have hl := hm.len_eq
    have := isa.W_pos
    rw [if_neg (by omega)]
    unfold Table.nextOccupied
    rw [readCtl_ok hm (Nat.le_refl _)]
    simp [hm.sent, Ctl.isAvailable]

theorem lax_toIter {isa : Isa} {t : Table K V} (hs : (t.len = 0 ∧ t.cap = 0) ∨ MetaOk isa t.cap t.len t.ctl) {pos : Nat}
    (hp : pos ≤ t.cap) : Ends isa (t.toIter isa pos) (IsNext t pos) := by
  unfold Table.toIter
  rcases hs with ⟨h1, h2⟩ | hm
  · rw [if_pos h1]
    exact Ends.of_ok rfl ⟨Nat.le_refl _, hp, fun j h1 h2 => by omega, fun hh => by omega⟩
  · have hl := hm.len_eq
    have := isa.W_pos
    rw [if_neg (by omega)]
    exact nextOccupied_spec hm _ _ hp (by omega)

theorem lax_walk {isa : Isa} {t : Table K V} (hs : (t.len = 0 ∧ t.cap = 0) ∨ MetaOk isa t.cap t.len t.ctl)
    (hlive : ∀ i, i < t.cap → (t.node i).isSome = (t.ctl i).isOccupied) :
    ∀ (fuel pos : Nat), pos ≤ t.cap → (pos < t.cap → (t.ctl pos).isOccupied = true) → t.cap - pos < fuel →
      Ends isa (t.walk isa fuel pos t.cap) (· = t.elemsFrom pos) := by
  intro fuel
  induction fuel with
  | zero => intro pos _ _ hf; omega
  | succ fuel ih =>
    intro pos hp ho hf
    unfold Table.walk
    by_cases hl : pos = t.cap
    · rw [if_pos hl]
      exact Ends.of_ok rfl (elemsFrom_end t (by omega)).symm
    · rw [if_neg hl]
      have hlt : pos < t.cap := by omega
      have hm : MetaOk isa t.cap t.len t.ctl := by
        rcases hs with h | h
        · omega
        · exact h
      have hs := hlive pos hlt
      rw [ho hlt] at hs
      obtain ⟨n, hn⟩ := Option.isSome_iff_exists.mp hs
      rw [readNode_some hlt hn]
      simp only [bind_ok]
      refine (nextOccupied_spec hm (t.cap + 1) (pos + 1) (by omega) (by omega)).bind ?_
      intro r hr
      refine (ih r hr.2.1 hr.2.2.2 (by have := hr.1; omega)).bind ?_
      intro rest hrest
      refine Ends.of_ok rfl ?_
      rw [elemsFrom_step t hlt, hn, elemsFrom_next hlive hr, hrest]
      rfl

theorem weak_iterate {isa : Isa} {hash : K → Nat} {t : Table K V} (h : Weak isa hash t) :
    Ends isa (t.iterate isa) (· = t.contents) := by
  unfold Table.iterate Table.begin_
  refine (lax_toIter h.shape (Nat.zero_le _)).bind ?_
  intro r hr
  unfold Table.iterateFrom
  rw [lax_end h.shape]
  simp only [bind_ok]
  refine (lax_walk h.shape h.live _ _ hr.2.1 hr.2.2.2 (by omega)).mono ?_
  intro l hl
  rw [hl, ← elemsFrom_next h.live hr, elemsFrom_zero]

/-- Control bytes that mark elements where there are none: iteration reads a destroyed element. -/
theorem ghost_iterate {isa : Isa} {t : Table K V} (hm : MetaOk isa t.cap t.len t.ctl) (hraw : Raw t)
    (ho : ∃ i, i < t.cap ∧ (t.ctl i).isOccupied = true) :
    t.iterate isa = .error .deadRead ∨ (isa.W = 8 ∧ t.iterate isa = .error .ctzZero) := by
  obtain ⟨i, hi, hocc⟩ := ho
  unfold Table.iterate Table.begin_
  rcases lax_toIter (Or.inr hm) (Nat.zero_le t.cap) with ⟨r, h1, h2⟩ | ⟨h1, h2⟩
  · left
    have hr : r < t.cap := by
      rcases Nat.lt_or_ge r t.cap with q | q
      · exact q
      · have := h2.2.2.1 i (Nat.zero_le _) (by omega)
        rw [hocc] at this
        cases this
    rw [h1, bind_ok]
    unfold Table.iterateFrom
    rw [lax_end (Or.inr hm), bind_ok]
    unfold Table.walk
    rw [if_neg (by omega)]
    have : t.readNode r = .error .deadRead := by
      unfold Table.readNode
      rw [if_pos hr, hraw r hr]
    rw [this]
    rfl
  · right
    rw [h2]
    exact ⟨h1, rfl⟩

/-! ### Copies -/

/-- What `copy_data` of a source with elements leaves, in all cases. -/
theorem copyData_weak {isa : Isa} {hash : K → Nat} {t u : Table K V} (h : Inv isa hash u) (hz : u.size ≠ 0)
    (ht : t.size = 0) (hraw : Raw t) (hshape : t.cap = 0 ∨ ((∃ m, t.cap + 1 = 2 ^ m) ∧ t.len = t.cap + isa.W)) :
    ∃ x, t.copyData isa u = .ok x ∧ Weak isa hash x ∧ x.cap = max t.cap u.cap ∧ x.contents = u.contents ∧
      ∀ i, i < x.cap → x.ctl i = if i < u.cap ∧ (u.ctl i).isOccupied then u.ctl i else .empty := by
  obtain ⟨x, e1, e2, e3, e4, e5, e6, e7⟩ := copyData_raw h hz ht hraw hshape
  have hle : u.cap ≤ x.cap := by omega
  have hnode : ∀ i, i < x.cap → ∀ n, x.node i = some n → i < u.cap ∧ u.node i = some n := by
    intro i hi n hn
    rw [e7 i hi] at hn
    split at hn
    · rename_i q; exact ⟨q, hn⟩
    · cases hn
  have hocc : ∀ i, i < x.cap → ((x.ctl i).isOccupied = true ↔ i < u.cap ∧ (u.ctl i).isOccupied = true) := by
    intro i hi
    rw [e6 i hi]
    split
    · rename_i q; simp [q.1]
    · rename_i q
      constructor
      · intro q'; cases q'
      · intro q'; exact absurd q' q
  have hcnt : cnt (fun i => (x.ctl i).isOccupied) x.cap = u.size := by
    rw [h.size_eq]
    obtain ⟨d, hd⟩ : ∃ d, x.cap = u.cap + d := ⟨x.cap - u.cap, by omega⟩
    rw [hd]
    clear e5
    have : ∀ d, u.cap + d ≤ x.cap → cnt (fun i => (x.ctl i).isOccupied) (u.cap + d) = cnt (fun i => (u.ctl i).isOccupied) u.cap := by
      intro d
      induction d with
      | zero =>
        intro _
        refine cnt_congr fun i hi => ?_
        have hi : i < u.cap := hi
        have := hocc i (by omega)
        cases ha : (x.ctl i).isOccupied <;> cases hb : (u.ctl i).isOccupied <;> simp_all
      | succ d ih =>
        intro hx
        rw [← Nat.add_assoc]
        show cnt _ (u.cap + d + 1) = _
        rw [cnt, ih (by omega)]
        have := hocc (u.cap + d) (by omega)
        have : (x.ctl (u.cap + d)).isOccupied = false := by
          cases ha : (x.ctl (u.cap + d)).isOccupied
          · rfl
          · have := this.mp ha; omega
        simp [this]
    exact this d (by omega)
  have hdel : cnt (fun i => (x.ctl i).isDeleted) x.cap = 0 := by
    apply cnt_eq_zero
    intro i hi
    rw [e6 i hi]
    split
    · rename_i q
      have := q.2
      revert this
      cases u.ctl i <;> simp [Ctl.isDeleted, Ctl.isOccupied]
    · rfl
  refine ⟨x, e1, ⟨Or.inr e4, ?_, ?_, ?_, ?_, ?_, ?_⟩, e2, ?_, e6⟩
  · intro i hi
    have h1 := hocc i hi
    rw [e7 i hi]
    split
    · rename_i q
      rw [h.live i q]
      cases ha : (x.ctl i).isOccupied <;> cases hb : (u.ctl i).isOccupied <;> simp_all
    · rename_i q
      cases ha : (x.ctl i).isOccupied
      · rfl
      · exact absurd (h1.mp ha).1 q
  · intro i hi n hn
    obtain ⟨h1, h2⟩ := hnode i hi n hn
    have h3 := h.live i h1
    rw [h2] at h3
    rw [e6 i hi, if_pos ⟨h1, h3.symm⟩]
    exact h.tag i h1 n h2
  · intro i hi n hn
    obtain ⟨h1, h2⟩ := hnode i hi n hn
    exact h.hash_ok i h1 n h2
  · intro i hi j hj a b ha hb
    obtain ⟨h1, h2⟩ := hnode i hi a ha
    obtain ⟨h3, h4⟩ := hnode j hj b hb
    exact h.uniq i h1 j h3 a b h2 h4
  · rw [hcnt, e3]
  · intro _
    have h1 := h.size_le
    have h2 := maxSize_mono (isa := isa) hle
    rw [hdel, e5, e3]
    omega
  · unfold Table.contents Table.nodes
    congr 1
    have hd : x.cap = u.cap + (x.cap - u.cap) := by omega
    rw [hd]
    have : ∀ d, u.cap + d ≤ x.cap → collect x.node (u.cap + d) = collect u.node u.cap := by
      intro d
      induction d with
      | zero =>
        intro _
        exact collect_congr fun i hi => by
          have hi : i < u.cap := hi
          rw [e7 i (by omega), if_pos hi]
      | succ d ih =>
        intro hx
        rw [← Nat.add_assoc, collect_succ, ih (by omega), e7 _ (by omega), if_neg (by omega)]
        simp
    exact this _ (by omega)

end Tpp.Swiss
