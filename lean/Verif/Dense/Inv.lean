import Mathlib.Data.List.Perm.Subperm
import Verif.Dense.Chain

/-!
# Invariant of `dense_table` and the effect of its operations
-/

set_option linter.unusedSectionVars false

namespace Tpp.Dense

variable {k : Nat} {K V : Type} [DecidableEq K]

/-- The nodes hold the elements `l` in this order. -/
structure Arr (hash : K → Nat) (t : Table k K V) (l : List (Elem k K V)) : Prop where
  size : t.size = l.length
  rep : ∀ i, (t.node i).map (fun n => (n.key, n.val)) = l[i]?
  le_cap : t.size ≤ t.cap
  hashed : ∀ i n, t.node i = some n → ∀ j, n.hash j = hash (n.key j)

/-- For every bucket the chain of component `j` holds exactly the nodes of `S` that belong there, once each. -/
def Chained (t : Table k K V) (j : Fin k) (S : Nat → Prop) : Prop :=
  ∀ b, b < t.bc → ∃ l, Path (t.cell j) (.head b) l ∧ l.Nodup ∧
    ∀ i, i ∈ l ↔ S i ∧ ∃ n, t.node i = some n ∧ n.hash j % t.bc = b

structure Inv (hash : K → Nat) (t : Table k K V) (l : List (Elem k K V)) : Prop extends Arr hash t l where
  uniq : ∀ j, (l.map (fun e => e.1 j)).Nodup
  empty : t.bc = 0 → l = []
  chained : ∀ j, Chained t j (· < l.length)

theorem Arr.node_some {hash : K → Nat} {t : Table k K V} {l : List (Elem k K V)} (h : Arr hash t l) {i : Nat}
    (hi : i < l.length) : ∃ n, t.node i = some n ∧ (n.key, n.val) = l[i] := by
  have := h.rep i
  rw [List.getElem?_eq_getElem hi] at this
  obtain ⟨n, hn, e⟩ := Option.map_eq_some_iff.mp this
  exact ⟨n, hn, e⟩

theorem Arr.node_lt {hash : K → Nat} {t : Table k K V} {l : List (Elem k K V)} (h : Arr hash t l) {i : Nat} {n : Node k K V}
    (hn : t.node i = some n) : i < l.length := by
  have := h.rep i
  rw [hn] at this
  exact (List.getElem?_eq_some_iff.mp this.symm).1

theorem Arr.node_elem {hash : K → Nat} {t : Table k K V} {l : List (Elem k K V)} (h : Arr hash t l) {i : Nat}
    {n : Node k K V} (hn : t.node i = some n) : l[i]? = some (n.key, n.val) := by
  have := h.rep i
  rw [hn] at this
  exact this.symm

theorem Arr.node_none {hash : K → Nat} {t : Table k K V} {l : List (Elem k K V)} (h : Arr hash t l) {i : Nat}
    (hi : l.length ≤ i) : t.node i = none := by
  have := h.rep i
  rw [List.getElem?_eq_none hi] at this
  exact Option.map_eq_none_iff.mp this

theorem Arr.valid {hash : K → Nat} {t : Table k K V} {l : List (Elem k K V)} (h : Arr hash t l) {i : Nat}
    (hi : i < l.length) : t.Valid (.next i) := by
  obtain ⟨n, hn, _⟩ := h.node_some hi
  exact ⟨Nat.lt_of_lt_of_le (h.size ▸ hi) h.le_cap, by rw [hn]; simp⟩

theorem Arr.read {hash : K → Nat} {t : Table k K V} {l : List (Elem k K V)} (h : Arr hash t l) {i : Nat}
    (hi : i < l.length) : ∃ n, t.readNode i = .ok n ∧ t.node i = some n ∧ (n.key, n.val) = l[i] := by
  obtain ⟨n, hn, e⟩ := h.node_some hi
  exact ⟨n, readNode_ok (Nat.lt_of_lt_of_le (h.size ▸ hi) h.le_cap) hn, hn, e⟩

theorem SameBut.node_some {t t' : Table k K V} (h : t.SameBut t') {i : Nat} {n : Node k K V} (hn : t.node i = some n) :
    ∃ n', t'.node i = some n' ∧ n'.key = n.key ∧ n'.val = n.val ∧ n'.hash = n.hash := by
  have := h.node i
  rw [hn] at this
  obtain ⟨n', hn', e⟩ := Option.map_eq_some_iff.mp this
  simp only [Prod.mk.injEq] at e
  exact ⟨n', hn', e.1, e.2.1, e.2.2⟩

theorem SameBut.symm {t t' : Table k K V} (h : t.SameBut t') : t'.SameBut t :=
  ⟨h.size.symm, h.cap.symm, h.bc.symm, h.lf.symm, fun i => (h.node i).symm⟩

theorem Arr.sameBut {hash : K → Nat} {t t' : Table k K V} {l : List (Elem k K V)} (h : Arr hash t l) (hs : t.SameBut t') :
    Arr hash t' l where
  size := hs.size.trans h.size
  rep := by
    intro i
    rw [← h.rep i]
    cases hn : t.node i with
    | none =>
      have := hs.node i
      rw [hn] at this
      rw [Option.map_eq_none_iff.mp this]
    | some n =>
      obtain ⟨n', hn', e1, e2, _⟩ := SameBut.node_some hs hn
      rw [hn']
      simp [e1, e2]
  le_cap := by rw [hs.size, hs.cap]; exact h.le_cap
  hashed := by
    intro i n hn j
    obtain ⟨n', hn', e1, _, e3⟩ := SameBut.node_some (SameBut.symm hs) hn
    rw [← e3, ← e1]
    exact h.hashed i n' hn' j

theorem Chained.congr {t t' : Table k K V} {j : Fin k} {S : Nat → Prop} (h : Chained t j S) (hs : t.SameBut t')
    (hc : t'.cell j = t.cell j) : Chained t' j S := by
  intro b hb
  obtain ⟨l, h1, h2, h3⟩ := h b (hs.bc ▸ hb)
  refine ⟨l, by rw [hc]; exact h1, h2, ?_⟩
  intro i
  rw [h3 i]
  refine and_congr_right fun _ => ?_
  constructor
  · rintro ⟨n, hn, e⟩
    obtain ⟨n', hn', _, _, e3⟩ := SameBut.node_some hs hn
    exact ⟨n', hn', by rw [e3, hs.bc]; exact e⟩
  · rintro ⟨n, hn, e⟩
    obtain ⟨n', hn', _, _, e3⟩ := SameBut.node_some (SameBut.symm hs) hn
    exact ⟨n', hn', by rw [e3, ← hs.bc]; exact e⟩

theorem Chained.mono {t : Table k K V} {j : Fin k} {S S' : Nat → Prop} (h : Chained t j S) (hs : ∀ i, S i ↔ S' i) :
    Chained t j S' := by
  intro b hb
  obtain ⟨l, h1, h2, h3⟩ := h b hb
  exact ⟨l, h1, h2, fun i => by rw [h3 i, hs i]⟩

/-! ## Loops over the components -/

/-- A loop over distinct components whose step touches the cells of its component only. -/
theorem fold_components {α : Type} {comp : α → Fin k} {step : Table k K V → α → M (Table k K V)}
    {F : α → Ref → Option Nat} {t : Table k K V} : ∀ {as : List α}, (as.map comp).Nodup →
    (∀ t1 a, a ∈ as → t.SameBut t1 → t1.cell (comp a) = t.cell (comp a) →
      ∃ t2, step t1 a = .ok t2 ∧ t1.SameBut t2 ∧ t2.cell (comp a) = F a ∧
        ∀ j', j' ≠ comp a → t2.cell j' = t1.cell j') →
    ∃ t', as.foldlM step t = .ok t' ∧ t.SameBut t' ∧ (∀ a ∈ as, t'.cell (comp a) = F a) ∧
      ∀ j, j ∉ as.map comp → t'.cell j = t.cell j := by
  suffices H : ∀ (as : List α) (t0 : Table k K V), t.SameBut t0 → (as.map comp).Nodup →
      (∀ a ∈ as, t0.cell (comp a) = t.cell (comp a)) →
      (∀ t1 a, a ∈ as → t.SameBut t1 → t1.cell (comp a) = t.cell (comp a) →
      ∃ t2, step t1 a = .ok t2 ∧ t1.SameBut t2 ∧ t2.cell (comp a) = F a ∧
        ∀ j', j' ≠ comp a → t2.cell j' = t1.cell j') →
      ∃ t', as.foldlM step t0 = .ok t' ∧ t0.SameBut t' ∧ (∀ a ∈ as, t'.cell (comp a) = F a) ∧
      ∀ j, j ∉ as.map comp → t'.cell j = t0.cell j by
    intro as hn h
    exact H as t (Table.SameBut.refl t) hn (fun _ _ => rfl) h
  intro as
  induction as with
  | nil => intro t0 _ _ _ _; exact ⟨t0, rfl, Table.SameBut.refl t0, by simp, fun _ _ => rfl⟩
  | cons a as ih =>
    intro t0 hs hn hc h
    rw [List.map_cons, List.nodup_cons] at hn
    obtain ⟨t1, e1, s1, c1, f1⟩ := h t0 a List.mem_cons_self hs (hc a List.mem_cons_self)
    have hne : ∀ a' ∈ as, comp a' ≠ comp a := by
      intro a' ha' e
      exact hn.1 (e ▸ List.mem_map_of_mem ha')
    obtain ⟨t2, e2, s2, c2, f2⟩ := ih t1 (hs.trans s1) hn.2
      (fun a' ha' => (f1 _ (hne a' ha')).trans (hc a' (List.mem_cons_of_mem _ ha')))
      (fun t' a' ha' => h t' a' (List.mem_cons_of_mem _ ha'))
    refine ⟨t2, ?_, s1.trans s2, ?_, ?_⟩
    · rw [List.foldlM_cons, e1, bind_ok, e2]
    · intro a' ha'
      rcases List.mem_cons.mp ha' with ha' | ha'
      · rw [ha', f2 _ hn.1, c1]
      · exact c2 a' ha'
    · intro j hj
      rw [List.map_cons, List.mem_cons, not_or] at hj
      rw [f2 j hj.2, f1 j hj.1]

/-! ## Rehash -/

theorem getChain_pos {t : Table k K V} (hb : 0 < t.bc) (h : Nat) : t.getChain h = some (.head (h % t.bc)) := by
  unfold Table.getChain
  rw [if_neg (by omega)]

/-- `insert_node` links a new node at the front of its chain. -/
theorem insertNode_ok {t : Table k K V} {j : Fin k} {i : Nat} {n : Node k K V} (hb : 0 < t.bc)
    (hi : i < t.cap) (hn : t.node i = some n) :
    ∃ t', t.insertNode i j = .ok t' ∧ t.SameBut t' ∧
      t'.cell j = setc (setc (t.cell j) (.next i) (t.cell j (.head (n.hash j % t.bc)))) (.head (n.hash j % t.bc)) (some i) ∧
      ∀ j', j' ≠ j → t'.cell j' = t.cell j' := by
  have hv : t.Valid (.head (n.hash j % t.bc)) := Nat.mod_lt _ hb
  have hvi : t.Valid (.next i) := ⟨hi, by rw [hn]; simp⟩
  unfold Table.insertNode
  rw [readNode_ok hi hn, bind_ok, getChain_pos hb]
  unfold Table.deref
  simp only [bind_ok]
  rw [readRef_ok j hv, bind_ok]
  obtain ⟨t1, e1, s1, c1, f1⟩ := writeRef_ok j (t.cell j (.head (n.hash j % t.bc))) hvi
  obtain ⟨t2, e2, s2, c2, f2⟩ := writeRef_ok j (some i) (s1.valid hv)
  rw [e1, bind_ok, e2]
  refine ⟨t2, rfl, s1.trans s2, by rw [c2, c1], ?_⟩
  intro j' hj
  rw [f2 j' hj, f1 j' hj]

theorem Chained.push {t t' : Table k K V} {j : Fin k} {S : Nat → Prop} {i : Nat} {n : Node k K V} (h : Chained t j S)
    (hs : t.SameBut t') (hn : t.node i = some n) (hS : ¬ S i)
    (hc : t'.cell j = setc (setc (t.cell j) (.next i) (t.cell j (.head (n.hash j % t.bc)))) (.head (n.hash j % t.bc))
      (some i)) : Chained t' j (fun x => S x ∨ x = i) := by
  have hmem : ∀ b x, (∃ n, t'.node x = some n ∧ n.hash j % t'.bc = b) ↔ (∃ n, t.node x = some n ∧ n.hash j % t.bc = b) := by
    intro b x
    constructor
    · rintro ⟨n', hn', e⟩
      obtain ⟨m, hm, _, _, e3⟩ := SameBut.node_some (SameBut.symm hs) hn'
      exact ⟨m, hm, by rw [e3, ← hs.bc]; exact e⟩
    · rintro ⟨n', hn', e⟩
      obtain ⟨m, hm, _, _, e3⟩ := SameBut.node_some hs hn'
      exact ⟨m, hm, by rw [e3, hs.bc]; exact e⟩
  intro b hb
  rw [hs.bc] at hb
  obtain ⟨l, h1, h2, h3⟩ := h b hb
  have hil : i ∉ l := fun hi => hS ((h3 i).mp hi).1
  by_cases e : n.hash j % t.bc = b
  · refine ⟨i :: l, ?_, List.nodup_cons.mpr ⟨hil, h2⟩, ?_⟩
    · rw [hc, e]
      refine ⟨setc_same .., ?_⟩
      cases l with
      | nil =>
        show setc _ _ _ _ = none
        rw [setc_ne _ _ (by simp), setc_same]
        exact h1
      | cons x l =>
        refine ⟨?_, ?_⟩
        · rw [setc_ne _ _ (by simp), setc_same]
          exact h1.1
        · have hg : ∀ y ∈ x :: l, setc (setc (t.cell j) (.next i) (t.cell j (.head b))) (.head b) (some i) (.next y) =
              t.cell j (.next y) := by
            intro y hy
            rw [setc_ne _ _ (by simp), setc_ne _ _ (by intro e; injection e with e; exact hil (e ▸ hy))]
          exact h1.2.congr (hg x List.mem_cons_self) (fun y hy => hg y (List.mem_cons_of_mem _ hy))
    · intro x
      rw [List.mem_cons, h3 x, hmem]
      constructor
      · rintro (rfl | hx)
        · exact ⟨Or.inr rfl, n, hn, e⟩
        · exact ⟨Or.inl hx.1, hx.2⟩
      · rintro ⟨hx | hx, hx'⟩
        · exact Or.inr ⟨hx, hx'⟩
        · exact Or.inl hx
  · refine ⟨l, ?_, h2, ?_⟩
    · rw [hc]
      refine (h1.frame (by simp) ?_).frame ?_ (by simp)
      · intro x hx e; injection e with e; exact hil (e ▸ hx)
      · intro e'; injection e' with e'; exact e e'
    · intro x
      rw [h3 x, hmem]
      constructor
      · rintro ⟨hx, hx'⟩; exact ⟨Or.inl hx, hx'⟩
      · rintro ⟨hx | hx, hx'⟩
        · exact ⟨hx, hx'⟩
        · subst hx
          obtain ⟨n', hn', e'⟩ := hx'
          rw [hn] at hn'
          cases hn'
          exact absurd e' e

/-- One iteration of the loop in `do_rehash` and `copy_data`. -/
theorem linkAll_ok {t : Table k K V} {i : Nat} {n : Node k K V} (hb : 0 < t.bc) (hi : i < t.cap) (hn : t.node i = some n)
    {S : Nat → Prop} (hS : ¬ S i) (h : ∀ j, Chained t j S) :
    ∃ t', (List.finRange k).foldlM (fun (t : Table k K V) j => t.insertNode i j) t = .ok t' ∧ t.SameBut t' ∧
      ∀ j, Chained t' j (fun x => S x ∨ x = i) := by
  obtain ⟨t', e1, s1, c1, _⟩ := fold_components (comp := id) (step := fun (t : Table k K V) j => t.insertNode i j)
    (F := fun j => setc (setc (t.cell j) (.next i) (t.cell j (.head (n.hash j % t.bc)))) (.head (n.hash j % t.bc)) (some i))
    (t := t) (as := List.finRange k) (by rw [List.map_id]; exact List.nodup_finRange k)
    (by
      intro t1 j _ hs hc
      obtain ⟨n', hn', _, _, e3⟩ := SameBut.node_some hs hn
      obtain ⟨t2, e, s, c, f⟩ := insertNode_ok (j := j) (hs.bc.symm ▸ hb) (hs.cap.symm ▸ hi) hn'
      refine ⟨t2, e, s, ?_, f⟩
      simp only [id_eq] at hc ⊢
      rw [c, hc, e3, hs.bc])
  refine ⟨t', e1, s1, fun j => ?_⟩
  exact (h j).push s1 hn hS (c1 j (List.mem_finRange j))

theorem doRehash_ok {hash : K → Nat} {t : Table k K V} {l : List (Elem k K V)} (h : Arr hash t l) {c : Nat}
    (hc : 0 < t.bc ∨ 0 < c) :
    ∃ t', t.doRehash c = .ok t' ∧ Arr hash t' l ∧ (∀ j, Chained t' j (· < l.length)) ∧ t'.cap = t.cap ∧ t'.lf = t.lf ∧
      t'.bc = (if t.bc < c then c else t.bc) ∧ 0 < t'.bc := by
  unfold Table.doRehash
  simp only
  generalize ht0 : ({ t with bc := if t.bc < c then c else t.bc, head := fun _ _ => none } : Table k K V) = t0
  have hb0 : 0 < t0.bc := by
    rw [← ht0]
    simp only
    split <;> omega
  have ha0 : Arr hash t0 l := by
    subst ht0
    exact ⟨h.size, h.rep, h.le_cap, h.hashed⟩
  have H : ∀ m, m ≤ l.length → ∃ t', (List.range m).foldlM (fun (t : Table k K V) i =>
      (List.finRange k).foldlM (fun t j => t.insertNode i j) t) t0 = .ok t' ∧ t0.SameBut t' ∧
      ∀ j, Chained t' j (· < m) := by
    intro m
    induction m with
    | zero =>
      intro _
      refine ⟨t0, rfl, Table.SameBut.refl t0, ?_⟩
      intro j b _
      refine ⟨[], ?_, List.nodup_nil, ?_⟩
      · subst ht0; rfl
      · intro i
        simp
    | succ m ih =>
      intro hm
      obtain ⟨t1, e1, s1, c1⟩ := ih (by omega)
      have ha1 := ha0.sameBut s1
      obtain ⟨n, hn, _⟩ := ha1.node_some (i := m) (by omega)
      have hv := ha1.valid (i := m) (by omega)
      obtain ⟨t2, e2, s2, c2⟩ := linkAll_ok (s1.bc.symm ▸ hb0) hv.1 hn (S := (· < m)) (by omega) c1
      refine ⟨t2, ?_, s1.trans s2, ?_⟩
      · rw [List.range_succ, List.foldlM_append, e1, bind_ok, List.foldlM_cons, e2]
        rfl
      · intro j
        exact (c2 j).mono (fun x => by omega)
  obtain ⟨t', e, s, hch⟩ := H l.length (Nat.le_refl _)
  rw [← h.size] at e
  refine ⟨t', e, ha0.sameBut s, hch, ?_, ?_, ?_, s.bc.symm ▸ hb0⟩
  · rw [s.cap, ← ht0]
  · rw [s.lf, ← ht0]
  · rw [s.bc, ← ht0]

theorem rehash_ok {hash : K → Nat} {t : Table k K V} {l : List (Elem k K V)} (h : Inv hash t l) (n : Nat) :
    ∃ t', t.rehash n = .ok t' ∧ Inv hash t' l ∧ t'.cap = t.cap ∧ t'.lf = t.lf ∧ t.bc ≤ t'.bc ∧ n ≤ t'.bc := by
  unfold Table.rehash
  split
  · exact ⟨t, rfl, h, rfl, rfl, Nat.le_refl _, by omega⟩
  · rename_i h0
    simp only
    split
    · rename_i h1
      have : 0 < t.bc ∨ 0 < max (t.lf.div t.size) n := by
        by_cases hb : t.bc = 0
        · right
          have hl := h.empty hb
          have := h.size
          rw [hl] at this
          simp only [List.length_nil] at this
          have : n ≠ 0 := fun e => h0 ⟨e, this⟩
          exact Nat.lt_of_lt_of_le (Nat.pos_of_ne_zero this) (Nat.le_max_right _ _)
        · left; omega
      obtain ⟨t', e, ha, hc, h2, h3, h4, h5⟩ := doRehash_ok h.toArr this
      refine ⟨t', e, ⟨ha, h.uniq, fun e => by omega, hc⟩, h2, h3, ?_, ?_⟩
      · rw [h4]; split <;> omega
      · rw [h4]
        have := Nat.le_max_right (t.lf.div t.size) n
        split <;> omega
    · rename_i h1
      refine ⟨t, rfl, h, rfl, rfl, Nat.le_refl _, ?_⟩
      have := Nat.le_max_right (t.lf.div t.size) n
      omega

theorem maybeRehash_ok {hash : K → Nat} {t : Table k K V} {l : List (Elem k K V)} (h : Inv hash t l) :
    ∃ t', t.maybeRehash = .ok t' ∧ Inv hash t' l ∧ t'.cap = t.cap ∧ t'.lf = t.lf ∧ t.bc ≤ t'.bc ∧ 0 < t'.bc := by
  unfold Table.maybeRehash
  split
  · obtain ⟨t', e, h1, h2, h3, h4, h5⟩ := rehash_ok h 8
    exact ⟨t', e, h1, h2, h3, h4, by omega⟩
  · split
    · obtain ⟨t', e, h1, h2, h3, h4, h5⟩ := rehash_ok h (t.bc * 2)
      exact ⟨t', e, h1, h2, h3, h4, by omega⟩
    · exact ⟨t, rfl, h, rfl, rfl, Nat.le_refl _, by omega⟩

theorem mapM_ok {α β : Type} {f : α → M β} {g : α → β} : ∀ {l : List α}, (∀ a ∈ l, f a = .ok (g a)) →
    l.mapM f = .ok (l.map g) := by
  intro l
  induction l with
  | nil => intro _; rfl
  | cons a l ih =>
    intro h
    rw [List.mapM_cons, h a List.mem_cons_self, bind_ok, ih (fun b hb => h b (List.mem_cons_of_mem _ hb)), bind_ok]
    rfl

theorem mapM_exists {α β : Type} {f : α → M β} : ∀ {l : List α}, (∀ a ∈ l, ∃ b, f a = .ok b) → ∃ r, l.mapM f = .ok r := by
  intro l
  induction l with
  | nil => intro _; exact ⟨[], rfl⟩
  | cons a l ih =>
    intro h
    obtain ⟨b, hb⟩ := h a List.mem_cons_self
    obtain ⟨r, hr⟩ := ih (fun b hb => h b (List.mem_cons_of_mem _ hb))
    exact ⟨b :: r, by rw [List.mapM_cons, hb, bind_ok, hr, bind_ok]; rfl⟩

theorem resizeData_ok {hash : K → Nat} {t : Table k K V} {l : List (Elem k K V)} (h : Inv hash t l) {c : Nat}
    (hc : t.size ≤ c) :
    ∃ t', t.resizeData c = .ok t' ∧ Inv hash t' l ∧ t'.cap = c ∧ t'.lf = t.lf ∧ t'.bc = t.bc := by
  unfold Table.resizeData
  rw [if_neg (by omega)]
  obtain ⟨r, hr⟩ := mapM_exists (f := fun i => t.readNode i) (l := List.range t.size) (by
    intro i hi
    obtain ⟨n, hn, _⟩ := h.toArr.read (i := i) (by rw [← h.size]; exact List.mem_range.mp hi)
    exact ⟨n, hn⟩)
  rw [hr, bind_ok]
  have hnode : (fun i => if i < t.size then t.node i else none) = t.node := by
    funext i
    split
    · rfl
    · exact (h.toArr.node_none (by rw [← h.size]; omega)).symm
  rw [hnode]
  exact ⟨_, rfl, ⟨⟨h.size, h.rep, hc, h.hashed⟩, h.uniq, h.empty, h.chained⟩, rfl, rfl, rfl⟩

theorem maybeResize_ok {hash : K → Nat} {t : Table k K V} {l : List (Elem k K V)} (h : Inv hash t l) :
    ∃ t', t.maybeResize = .ok t' ∧ Inv hash t' l ∧ t.cap ≤ t'.cap ∧ t'.lf = t.lf ∧ t'.bc = t.bc ∧ t'.size < t'.cap := by
  unfold Table.maybeResize
  have hle := h.le_cap
  split
  · rename_i e
    obtain ⟨t', e1, h1, h2, h3, h4⟩ := resizeData_ok h (c := if t.cap = 0 then 1 else t.cap * 2) (by split <;> omega)
    refine ⟨t', e1, h1, ?_, h3, h4, ?_⟩
    · rw [h2]; split <;> omega
    · rw [h2, h1.size, ← h.size]; split <;> omega
  · rename_i e
    exact ⟨t, rfl, h, Nat.le_refl _, rfl, rfl, by omega⟩

theorem reserve_ok {hash : K → Nat} {t : Table k K V} {l : List (Elem k K V)} (h : Inv hash t l) (n : Nat) :
    ∃ t', t.reserve n = .ok t' ∧ Inv hash t' l ∧ n ≤ t'.cap ∧ t.cap ≤ t'.cap ∧ t'.lf = t.lf ∧ t.bc ≤ t'.bc ∧
      t.lf.div n ≤ t'.bc := by
  have : ∃ t1, (if n > t.cap then t.resizeData n else .ok t : M (Table k K V)) = .ok t1 ∧ Inv hash t1 l ∧ n ≤ t1.cap ∧
      t.cap ≤ t1.cap ∧ t1.lf = t.lf ∧ t1.bc = t.bc := by
    have hle := h.le_cap
    split
    · obtain ⟨t', e1, h1, h2, h3, h4⟩ := resizeData_ok h (c := n) (by omega)
      exact ⟨t', e1, h1, by omega, by omega, h3, h4⟩
    · exact ⟨t, rfl, h, by omega, by omega, rfl, rfl⟩
  obtain ⟨t1, e1, h1, h2, h3, h4, h5⟩ := this
  obtain ⟨t2, e2, i1, i2, i3, i4, i5⟩ := rehash_ok h1 (t1.lf.div n)
  refine ⟨t2, ?_, i1, by omega, by omega, i3.trans h4, by omega, by rw [← h4]; exact i5⟩
  unfold Table.reserve
  rw [e1, bind_ok, e2]

/-! ## Lookup -/

theorem Chained.length_le {t : Table k K V} {hash : K → Nat} {l : List (Elem k K V)} (ha : Arr hash t l) {c : List Nat}
    (hn : c.Nodup) (hm : ∀ i ∈ c, i < l.length) : c.length < t.cap + 1 := by
  have h1 : c.length ≤ (List.range l.length).length :=
    (List.subperm_of_subset hn (fun i hi => List.mem_range.mpr (hm i hi))).length_le
  rw [List.length_range] at h1
  have := ha.le_cap
  have := ha.size
  omega

/-- `find_node` of component `j`: the index of the element whose component is `x`, or the end of the chain. -/
theorem findLoop_spec {hash : K → Nat} {t : Table k K V} {l : List (Elem k K V)} (ha : Arr hash t l)
    {j : Fin k} (hch : Chained t j (· < l.length)) (hb : 0 < t.bc) (x : K) :
    ∃ c, Path (t.cell j) (.head (hash x % t.bc)) c ∧ c.Nodup ∧
      (∀ i, i ∈ c ↔ i < l.length ∧ ∃ n, t.node i = some n ∧ n.hash j % t.bc = hash x % t.bc) ∧
      ((∃ a i b n, c = a ++ i :: b ∧ i ∉ a ∧ i < l.length ∧ t.node i = some n ∧ n.key j = x ∧
        t.findLoop j x (hash x) (t.cap + 1) (.head (hash x % t.bc)) = .ok (some i, endRef (.head (hash x % t.bc)) a)) ∨
      ((∀ e ∈ l, e.1 j ≠ x) ∧
        t.findLoop j x (hash x) (t.cap + 1) (.head (hash x % t.bc)) = .ok (none, endRef (.head (hash x % t.bc)) c))) := by
  obtain ⟨c, h1, h2, h3⟩ := hch (hash x % t.bc) (Nat.mod_lt _ hb)
  refine ⟨c, h1, h2, h3, ?_⟩
  have hlt : ∀ i ∈ c, i < l.length := fun i hi => ((h3 i).mp hi).1
  rcases findLoop_ok (x := x) (h := hash x) h1 (show t.Valid (.head _) from Nat.mod_lt _ hb)
    (fun i hi => ha.valid (hlt i hi)) (Chained.length_le ha h2 hlt) with ⟨a, i, b, e, g1, ⟨n, g2, g3, g4⟩, g5⟩ | ⟨g1, g2⟩
  · left
    refine ⟨a, i, b, n, e, ?_, hlt i (by rw [e]; simp), g2, g4, g5⟩
    rw [e] at h2
    intro hi
    exact (List.nodup_append.mp h2).2.2 i hi i List.mem_cons_self rfl
  · right
    refine ⟨?_, g2⟩
    intro e he hx
    obtain ⟨i, hi, hie⟩ := List.mem_iff_getElem.mp he
    obtain ⟨n, hn, hne⟩ := ha.node_some hi
    rw [hie] at hne
    have hkey : n.key j = x := by rw [← hx, ← hne]
    have hh : n.hash j = hash x := by rw [ha.hashed i n hn j, hkey]
    exact g1 i ((h3 i).mpr ⟨hi, n, hn, by rw [hh]⟩) ⟨n, hn, hh, hkey⟩

/-- The index of the element whose component `j` is `x`. -/
def idxOf (l : List (Elem k K V)) (j : Fin k) (x : K) : Option Nat := l.findIdx? (fun e => e.1 j = x)

theorem idxOf_of_uniq {l : List (Elem k K V)} {j : Fin k} (hu : (l.map (fun e => e.1 j)).Nodup) {i : Nat} {e : Elem k K V}
    (hi : l[i]? = some e) : idxOf l j (e.1 j) = some i := by
  obtain ⟨hlt, he⟩ := List.getElem?_eq_some_iff.mp hi
  unfold idxOf
  rw [List.findIdx?_eq_some_iff_getElem]
  refine ⟨hlt, by simp [he], ?_⟩
  intro i' hi'
  simp only [decide_eq_true_eq]
  intro e'
  have h1 : (l.map (fun e => e.1 j))[i']'(by simp; omega) = (l.map (fun e => e.1 j))[i]'(by simpa using hlt) := by
    simp [he, e']
  have := (List.Nodup.getElem_inj_iff hu).mp h1
  omega

theorem idxOf_none {l : List (Elem k K V)} {j : Fin k} {x : K} (h : ∀ e ∈ l, e.1 j ≠ x) : idxOf l j x = none := by
  unfold idxOf
  rw [List.findIdx?_eq_none_iff]
  intro e he
  simp [h e he]

theorem idxOf_some {l : List (Elem k K V)} {j : Fin k} {x : K} {i : Nat} (h : idxOf l j x = some i) :
    ∃ e, l[i]? = some e ∧ e.1 j = x := by
  unfold idxOf at h
  rw [List.findIdx?_eq_some_iff_getElem] at h
  obtain ⟨hi, h1, _⟩ := h
  exact ⟨l[i], List.getElem?_eq_getElem hi, by simpa using h1⟩

theorem findNode_ok {hash : K → Nat} {t : Table k K V} {l : List (Elem k K V)} (h : Inv hash t l) (j : Fin k) (x : K) :
    ∃ r, t.findNode hash j x = .ok (idxOf l j x, r) := by
  unfold Table.findNode
  by_cases hb : t.bc = 0
  · unfold Table.getChain
    rw [if_pos hb, h.empty hb]
    exact ⟨none, rfl⟩
  · rw [getChain_pos (by omega)]
    simp only
    obtain ⟨c, _, _, _, h3⟩ := findLoop_spec h.toArr (h.chained j) (by omega) x
    rcases h3 with ⟨a, i, b, n, _, _, g1, g2, g3, g4⟩ | ⟨g1, g2⟩
    · rw [g4, bind_ok]
      have := idxOf_of_uniq (h.uniq j) (h.toArr.node_elem g2)
      rw [show (n.key, n.val).1 j = x from g3] at this
      rw [this]
      exact ⟨_, rfl⟩
    · rw [g2, bind_ok, idxOf_none g1]
      exact ⟨_, rfl⟩

end Tpp.Dense
