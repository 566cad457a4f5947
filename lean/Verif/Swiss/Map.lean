import Verif.Swiss.Ops
import Verif.Spec

/-!
# The public operations of the swiss table against the abstract map
-/

set_option linter.unusedSectionVars false

namespace Tpp.Swiss

variable {K V : Type} [DecidableEq K]

theorem collect_nodup {α β : Type} {f : Nat → Option α} (g : α → β) {n : Nat}
    (h : ∀ i, i < n → ∀ j, j < n → ∀ a b, f i = some a → f j = some b → g a = g b → i = j) :
    ((collect f n).map g).Nodup := by
  induction n with
  | zero => simp
  | succ n ih =>
    rw [collect_succ, List.map_append, List.nodup_append]
    refine ⟨ih (fun i hi j hj => h i (by omega) j (by omega)), ?_, ?_⟩
    · cases f n <;> simp
    · intro x hx y hy
      rw [List.mem_map] at hx hy
      obtain ⟨a, ha, rfl⟩ := hx
      obtain ⟨b, hb, rfl⟩ := hy
      rw [mem_collect] at ha
      obtain ⟨i, hi, ha⟩ := ha
      rw [Option.mem_toList] at hb
      intro e
      have := h i (by omega) n (by omega) a b ha hb e
      omega

theorem mem_contents {t : Table K V} {k : K} {v : V} :
    (k, v) ∈ t.contents ↔ ∃ i n, i < t.cap ∧ t.node i = some n ∧ n.key = k ∧ n.val = v := by
  simp only [Table.contents, Table.nodes, List.mem_map, mem_collect, Prod.mk.injEq]
  constructor
  · rintro ⟨n, ⟨i, hi, hn⟩, h1, h2⟩; exact ⟨i, n, hi, hn, h1, h2⟩
  · rintro ⟨i, n, hi, hn, h1, h2⟩; exact ⟨n, ⟨i, hi, hn⟩, h1, h2⟩

theorem Inv.contents_uniq {isa : Isa} {hash : K → Nat} {t : Table K V} (h : Inv isa hash t) :
    Spec.Uniq t.contents := by
  unfold Spec.Uniq Table.contents Table.nodes
  rw [List.map_map]
  exact collect_nodup _ (fun i hi j hj a b ha hb e => h.uniq i hi j hj a b ha hb e)

theorem Inv.contents_length {isa : Isa} {hash : K → Nat} {t : Table K V} (h : Inv isa hash t) :
    t.contents.length = t.size := by
  rw [Table.contents, List.length_map, h.nodes_length]

theorem contents_perm {t t' : Table K V} (h : t'.nodes.Perm t.nodes) : t'.contents.Perm t.contents := h.map _

/-- Outcome of the internal search, in terms of the contents. -/
theorem find_cases {isa : Isa} {hash : K → Nat} {t : Table K V} (h : Inv isa hash t) (k : K) :
    (∃ i n, i < t.cap ∧ t.node i = some n ∧ n.key = k ∧ t.findNode isa k (hash k) = .ok i ∧
      Spec.lookup t.contents k = some n.val) ∨
    ((∀ i, i < t.cap → ∀ n, t.node i = some n → n.key ≠ k) ∧ t.findNode isa k (hash k) = .ok t.cap ∧
      Spec.lookup t.contents k = none) := by
  rcases findNode_spec h k with ⟨i, n, hi, hn, hk, hf⟩ | ⟨hno, hf⟩
  · left
    refine ⟨i, n, hi, hn, hk, hf, ?_⟩
    rw [Spec.lookup_some h.contents_uniq, mem_contents]
    exact ⟨i, n, hi, hn, hk, rfl⟩
  · right
    refine ⟨hno, hf, ?_⟩
    rw [Spec.lookup_none]
    intro v hv
    rw [mem_contents] at hv
    obtain ⟨i, n, hi, hn, hk, _⟩ := hv
    exact hno i hi n hn hk

/-- The iterator at slot `p` designates the pair `x`. -/
def Table.At (t : Table K V) (p : Nat) (x : K × V) : Prop :=
  p < t.cap ∧ ∃ n, t.node p = some n ∧ (n.key, n.val) = x

theorem insert_spec {isa : Isa} {hash : K → Nat} {t : Table K V} (h : Inv isa hash t) (k : K) (v : V) :
    ∃ t' p b, t.insert isa hash k v = .ok (t', p, b) ∧ Inv isa hash t' ∧ GrowOk isa t t' ∧
      ((b = true ∧ Spec.lookup t.contents k = none ∧ t'.contents.Perm ((k, v) :: t.contents) ∧ t'.At p (k, v) ∧
          t'.size = t.size + 1 ∧
          (0 < t.cap → 0 < t.numEmpty → t'.cap = t.cap ∧ t'.numEmpty + 1 ≥ t.numEmpty ∧ ∀ i, i ≠ p → t'.node i = t.node i)) ∨
        (∃ w, b = false ∧ Spec.lookup t.contents k = some w ∧ t' = t ∧ t.At p (k, w))) := by
  rcases find_cases h k with ⟨i, n, hi, hn, hk, hf, hl⟩ | ⟨hno, hf, hl⟩
  · refine ⟨t, i, false, ?_, h, GrowOk.refl isa t, Or.inr ⟨n.val, rfl, hl, rfl, hi, n, hn, by rw [hk]⟩⟩
    simp [Table.insert, hf, show i ≠ t.cap by omega]
  · obtain ⟨t', p, he, hi', hp, hnp, hperm, hsz, hg, hfix⟩ :=
      emplaceNode_spec h (n := ⟨k, v, hash k⟩) rfl hno
    refine ⟨t', p, true, ?_, hi', hg, Or.inl ⟨rfl, hl, ?_, ⟨hp, _, hnp, rfl⟩, hsz, hfix⟩⟩
    · simp [Table.insert, hf, he]
    · exact (hperm.map _)

theorem setVal_inv {isa : Isa} {hash : K → Nat} {t : Table K V} (h : Inv isa hash t) {i : Nat} (hi : i < t.cap)
    {n : Node K V} (hn : t.node i = some n) (v : V) :
    Inv isa hash { t with node := upd t.node i (some { n with val := v }) } := by
  have key : ∀ j m, upd t.node i (some { n with val := v }) j = some m →
      ∃ m', t.node j = some m' ∧ m'.key = m.key ∧ m'.hash = m.hash := by
    intro j m hm
    by_cases e : j = i
    · subst e; simp at hm; subst hm; exact ⟨n, hn, rfl, rfl⟩
    · rw [upd_ne _ _ e] at hm; exact ⟨m, hm, rfl, rfl⟩
  refine ⟨h.shape, ?_, ?_, ?_, ?_, ?_, h.size_eq, h.budget⟩
  · intro j hj
    have := h.live j hj
    by_cases e : j = i
    · subst e; rw [hn] at this; simpa using this
    · show (upd t.node i _ j).isSome = _
      rw [upd_ne _ _ e]; exact this
  · intro j hj m hm
    obtain ⟨m', h1, h2, h3⟩ := key j m hm
    rw [← h3]; exact h.tag j hj m' h1
  · intro j hj m hm
    obtain ⟨m', h1, h2, h3⟩ := key j m hm
    rw [← h2, ← h3]; exact h.hash_ok j hj m' h1
  · intro j hj l hl a b ha hb e
    obtain ⟨a', h1, h2, h3⟩ := key j a ha
    obtain ⟨b', h4, h5, h6⟩ := key l b hb
    exact h.uniq j hj l hl a' b' h1 h4 (by rw [h2, h5, e])
  · intro j hj m hm
    obtain ⟨m', h1, h2, h3⟩ := key j m hm
    rw [← h3]; exact h.reach j hj m' h1

theorem insertOrAssignWith_spec {isa : Isa} {hash : K → Nat} {t : Table K V} (h : Inv isa hash t) (k : K) (v : V)
    (f : V → V) :
    ∃ t' p b, t.insertOrAssignWith isa hash k v f = .ok (t', p, b) ∧ Inv isa hash t' ∧ GrowOk isa t t' ∧
      ((b = true ∧ Spec.lookup t.contents k = none ∧ t'.contents.Perm ((k, v) :: t.contents) ∧ t'.At p (k, v) ∧
          t'.size = t.size + 1) ∨
        (∃ w, b = false ∧ Spec.lookup t.contents k = some w ∧ t'.contents.Perm ((k, f w) :: Spec.erase t.contents k) ∧
          t'.At p (k, f w) ∧ t'.cap = t.cap ∧ t'.size = t.size ∧ t'.numEmpty = t.numEmpty ∧
          (∀ i, i ≠ p → t'.node i = t.node i))) := by
  rcases find_cases h k with ⟨i, n, hi, hn, hk, hf, hl⟩ | ⟨hno, hf, hl⟩
  · subst hk
    refine ⟨{ t with node := upd t.node i (some { n with val := f n.val }) }, i, false, ?_, setVal_inv h hi hn _,
      ⟨Or.inl rfl, id⟩, Or.inr ⟨n.val, rfl, hl, ?_, ⟨hi, _, upd_same _ _ _, rfl⟩, rfl, rfl, rfl, ?_⟩⟩
    · simp [Table.insertOrAssignWith, hf, show i ≠ t.cap by omega, readNode_some hi hn]
    · obtain ⟨rest, h1, h2⟩ := collect_change (f := t.node) (g := upd t.node i (some { n with val := f n.val })) hi hn
        (upd_same _ _ _) (fun j _ hne => upd_ne _ _ hne)
      have h1' : t.contents.Perm ((n.key, n.val) :: rest.map fun n => (n.key, n.val)) :=
        h1.map (fun n : Node K V => (n.key, n.val))
      have h2' : ({ t with node := upd t.node i (some { n with val := f n.val }) } : Table K V).contents.Perm
          ((n.key, f n.val) :: rest.map fun n => (n.key, n.val)) := h2.map (fun n : Node K V => (n.key, n.val))
      have h3 := Spec.erase_perm h1' n.key
      rw [Spec.erase_cons_self (h.contents_uniq.perm h1')] at h3
      exact h2'.trans (h3.symm.cons _)
    · intro j hj; exact upd_ne _ _ hj
  · obtain ⟨t', p, he, hi', hp, hnp, hperm, hsz, hg, hfix⟩ :=
      emplaceNode_spec h (n := ⟨k, v, hash k⟩) rfl hno
    refine ⟨t', p, true, ?_, hi', hg, Or.inl ⟨rfl, hl, ?_, ⟨hp, _, hnp, rfl⟩, hsz⟩⟩
    · simp [Table.insertOrAssignWith, hf, he]
    · exact (hperm.map _)

/-- Erasing the element at a slot. -/
theorem doErase_contents {isa : Isa} {hash : K → Nat} {t : Table K V} (h : Inv isa hash t) {pos : Nat} {n : Node K V}
    (hp : pos < t.cap) (hn : t.node pos = some n) :
    Ends isa (t.doErase isa pos) (fun r => Inv isa hash r.1 ∧ r.1.cap = t.cap ∧ r.1.size + 1 = t.size ∧
      r.1.contents.Perm (Spec.erase t.contents n.key) ∧ r.1.numEmpty = t.numEmpty ∧
      (∀ i, i ≠ pos → r.1.node i = t.node i) ∧
      r.1.elemsFrom r.2 = t.elemsFrom (pos + 1) ∧ r.2 ≤ r.1.cap ∧
      (r.2 < r.1.cap → (r.1.ctl r.2).isOccupied = true) ∧ pos ≤ r.2) := by
  refine (doErase_spec h hp hn).mono ?_
  rintro ⟨t', it⟩ ⟨hi, hc, hs, hnode, hperm, hnext, hne, hel⟩
  have hsz : 1 ≤ t.size := by
    have h1 := h.size_eq
    have := cnt_pos_of (p := fun i => (t.ctl i).isOccupied) hp (by rw [h.tag pos hp n hn]; rfl)
    omega
  refine ⟨hi, hc, by simp only at hs ⊢; omega, ?_, hne, ?_, hel, hnext.2.1, hnext.2.2.2, hnext.1⟩
  · have h1 : t.contents.Perm ((n.key, n.val) :: t'.contents) :=
      hperm.map (fun n : Node K V => (n.key, n.val))
    have h3 := Spec.erase_perm h1 n.key
    rw [Spec.erase_cons_self (h.contents_uniq.perm h1)] at h3
    exact h3.symm
  · intro i hi; rw [hnode i, if_neg hi]

theorem erase_spec {isa : Isa} {hash : K → Nat} {t : Table K V} (h : Inv isa hash t) (k : K) :
    Ends isa (t.erase isa hash k) (fun r => Inv isa hash r.1 ∧ r.1.cap = t.cap ∧
      r.1.contents.Perm (Spec.erase t.contents k) ∧ r.1.size ≤ t.size ∧ r.1.numEmpty = t.numEmpty ∧
      r.2 ≤ r.1.cap ∧ (r.2 < r.1.cap → (r.1.ctl r.2).isOccupied = true) ∧
      ((∃ pos v, t.At pos (k, v) ∧ r.1.size + 1 = t.size ∧ r.1.elemsFrom r.2 = t.elemsFrom (pos + 1) ∧
          ∀ i, i ≠ pos → r.1.node i = t.node i) ∨
        (Spec.lookup t.contents k = none ∧ r.1 = t ∧ r.2 = t.cap))) := by
  rcases find_cases h k with ⟨i, n, hi, hn, hk, hf, hl⟩ | ⟨hno, hf, hl⟩
  · have : t.erase isa hash k = t.doErase isa i := by
      simp [Table.erase, hf, show i ≠ t.cap by omega]
    rw [this]
    refine (doErase_contents h hi hn).mono ?_
    rintro r ⟨h1, h2, h3, h4, h5, h6, h7, h8, h9, h10⟩
    refine ⟨h1, h2, by rw [hk] at h4; exact h4, by omega, h5, h8, h9, Or.inl ⟨i, n.val, ⟨hi, n, hn, by rw [hk]⟩, h3, h7, h6⟩⟩
  · refine Ends.of_ok (a := (t, t.cap)) ?_ ⟨h, rfl, ?_, Nat.le_refl _, rfl, Nat.le_refl _, ?_, Or.inr ⟨hl, rfl, rfl⟩⟩
    · simp [Table.erase, hf, end_spec h]
    · rw [Spec.erase_of_absent hl]
    · intro h; exact absurd h (Nat.lt_irrefl _)

theorem contains_spec {isa : Isa} {hash : K → Nat} {t : Table K V} (h : Inv isa hash t) (k : K) :
    t.contains isa hash k = .ok (Spec.lookup t.contents k).isSome := by
  rcases find_cases h k with ⟨i, n, hi, hn, hk, hf, hl⟩ | ⟨hno, hf, hl⟩
  · simp [Table.contains, hf, hl, show i ≠ t.cap by omega]
  · simp [Table.contains, hf, hl]

theorem lookup_spec {isa : Isa} {hash : K → Nat} {t : Table K V} (h : Inv isa hash t) (k : K) :
    t.lookup isa hash k = .ok (Spec.lookup t.contents k) := by
  rcases find_cases h k with ⟨i, n, hi, hn, hk, hf, hl⟩ | ⟨hno, hf, hl⟩
  · simp [Table.lookup, hf, hl, show i ≠ t.cap by omega, readNode_some hi hn]
  · simp [Table.lookup, hf, hl]

end Tpp.Swiss
