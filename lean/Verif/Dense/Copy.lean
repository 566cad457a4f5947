import Verif.Dense.Erase

/-!
# Clearing, iterating, looking up and copying dense tables
-/

set_option linter.unusedSectionVars false

namespace Tpp.Dense

variable {k : Nat} {K V : Type} [DecidableEq K]

/-! ## Clearing -/

/-- All nodes are destroyed; the buckets are whatever they were. -/
structure Cleared (t t' : Table k K V) : Prop where
  size : t'.size = 0
  node : ∀ i, t'.node i = none
  cap : t'.cap = t.cap
  bc : t'.bc = t.bc
  head : t'.head = t.head
  lf : t'.lf = t.lf

theorem clearData_ok {hash : K → Nat} {t : Table k K V} {l : List (Elem k K V)} (h : Arr hash t l) :
    ∃ t', t.clearData = .ok t' ∧ Cleared t t' := by
  unfold Table.clearData
  have : ∀ n, n ≤ l.length → ∃ t', (List.range n).foldlM (fun (t : Table k K V) i => t.destroyNode i) t = .ok t' ∧ (∀ i, t'.node i = if i < n then none else t.node i) ∧
      t'.cap = t.cap ∧ t'.bc = t.bc ∧ t'.head = t.head ∧ t'.lf = t.lf := by
    intro n
    induction n with
    | zero => intro _; exact ⟨t, rfl, fun i => by simp, rfl, rfl, rfl, rfl⟩
    | succ n ih =>
      intro hn
      obtain ⟨t', e, h1, h2, h3, h4, h5⟩ := ih (by omega)
      rw [List.range_succ, List.foldlM_append, e, bind_ok]
      obtain ⟨m, hm, _⟩ := h.node_some (i := n) (by omega)
      simp only [List.foldlM_cons, List.foldlM_nil]
      unfold Table.destroyNode
      rw [h1 n, if_neg (Nat.lt_irrefl n), hm]
      simp only [bind_ok]
      refine ⟨_, rfl, ?_, h2, h3, h4, h5⟩
      intro i
      simp only [upd_apply]
      by_cases e : i = n
      · rw [if_pos e, if_pos (by omega)]
      · rw [if_neg e, h1 i]
        by_cases e' : i < n
        · rw [if_pos e', if_pos (by omega)]
        · rw [if_neg e', if_neg (by omega)]
  obtain ⟨t', e, h1, h2, h3, h4, h5⟩ := this t.size (Nat.le_of_eq h.size)
  rw [e, bind_ok]
  refine ⟨_, rfl, rfl, ?_, h2, h3, h4, h5⟩
  intro i
  show t'.node i = none
  rw [h1 i]
  split
  · rfl
  · rename_i hi
    exact h.node_none (by have := h.size; omega)

theorem Cleared.arr {hash : K → Nat} {t t' : Table k K V} (h : Cleared t t') : Arr hash t' ([] : List (Elem k K V)) where
  size := h.size
  rep i := by rw [h.node i]; rfl
  le_cap := by rw [h.size]; omega
  hashed i n hn := by rw [h.node i] at hn; cases hn

/-- An array without elements whose buckets are empty. -/
theorem inv_empty {hash : K → Nat} {t : Table k K V} (ha : Arr hash t ([] : List (Elem k K V)))
    (hh : ∀ b, b < t.bc → ∀ j, t.head b j = none) : Inv hash t [] where
  toArr := ha
  uniq j := by simp
  empty _ := rfl
  chained j b hb := by
    refine ⟨[], hh b hb j, by simp, ?_⟩
    intro i
    simp

theorem clear_ok {hash : K → Nat} {t : Table k K V} {l : List (Elem k K V)} (h : Arr hash t l) :
    ∃ t', t.clear = .ok t' ∧ Inv hash t' [] ∧ t'.bc = t.bc ∧ t'.cap = t.cap ∧ t'.lf = t.lf := by
  unfold Table.clear
  have ha : Arr hash ({ t with head := fun _ _ => none } : Table k K V) l := ⟨h.size, h.rep, h.le_cap, h.hashed⟩
  obtain ⟨t', e, hc⟩ := clearData_ok ha
  refine ⟨t', e, inv_empty hc.arr ?_, hc.bc, hc.cap, hc.lf⟩
  intro b _ j
  rw [hc.head]

theorem init_inv (hash : K → Nat) (lf : LF) : Inv hash (Table.init lf : Table k K V) [] :=
  inv_empty ⟨rfl, fun _ => rfl, Nat.le_refl _, fun i n hn => by cases hn⟩ (fun _ _ _ => rfl)

theorem withBuckets_inv (hash : K → Nat) (lf : LF) (n : Nat) : Inv hash (Table.withBuckets lf n : Table k K V) [] :=
  inv_empty ⟨rfl, fun _ => rfl, Nat.zero_le _, fun i n hn => by cases hn⟩ (fun _ _ _ => rfl)

theorem Inv.setLoad {hash : K → Nat} {t : Table k K V} {l : List (Elem k K V)} (h : Inv hash t l) (lf : LF) :
    Inv hash (t.setLoad lf) l := ⟨⟨h.size, h.rep, h.le_cap, h.hashed⟩, h.uniq, h.empty, h.chained⟩

/-! ## Reading -/

theorem mapM_range {α : Type} {f : Nat → M α} {l : List α} (h : ∀ i (hi : i < l.length), f i = .ok l[i]) :
    (List.range l.length).mapM f = .ok l := by
  have : ∀ n, n ≤ l.length → (List.range n).mapM f = .ok (l.take n) := by
    intro n
    induction n with
    | zero => intro _; rfl
    | succ n ih =>
      intro hn
      rw [List.range_succ, List.mapM_append, ih (by omega), bind_ok, List.mapM_cons, h n (by omega), bind_ok, List.mapM_nil]
      rw [List.take_succ_eq_append_getElem (by omega)]
      rfl
  have h1 := this l.length (Nat.le_refl _)
  rwa [List.take_length] at h1

theorem iterate_ok {hash : K → Nat} {t : Table k K V} {l : List (Elem k K V)} (h : Arr hash t l) : t.iterate = .ok l := by
  unfold Table.iterate
  rw [h.size]
  apply mapM_range
  intro i hi
  obtain ⟨n, hr, _, e⟩ := h.read hi
  rw [hr, bind_ok, e]

/-- The element whose component `j` is `x`. -/
def elemOf (l : List (Elem k K V)) (j : Fin k) (x : K) : Option (Elem k K V) := l.find? (fun e => e.1 j = x)

theorem elemOf_eq (l : List (Elem k K V)) (j : Fin k) (x : K) : elemOf l j x = (idxOf l j x).bind (fun i => l[i]?) := by
  unfold elemOf idxOf
  induction l with
  | nil => rfl
  | cons e l ih =>
    rw [List.find?_cons, List.findIdx?_cons]
    by_cases h : e.1 j = x
    · simp [h]
    · simp only [h, decide_false]
      rw [ih]
      cases List.findIdx? (fun e => decide (e.1 j = x)) l <;> simp

theorem lookup_ok {hash : K → Nat} {t : Table k K V} {l : List (Elem k K V)} (h : Inv hash t l) (j : Fin k) (x : K) :
    t.lookup hash j x = .ok (elemOf l j x) := by
  unfold Table.lookup
  obtain ⟨r, e⟩ := findNode_ok h j x
  rw [e, bind_ok, elemOf_eq]
  cases hi : idxOf l j x with
  | none => rfl
  | some i =>
    obtain ⟨a, ha, _⟩ := idxOf_some hi
    obtain ⟨n, hr, hn, hn'⟩ := h.toArr.read (List.getElem?_eq_some_iff.mp ha).1
    simp only
    rw [hr, bind_ok, Option.bind_some, hn', ← List.getElem?_eq_getElem]

theorem contains_ok {hash : K → Nat} {t : Table k K V} {l : List (Elem k K V)} (h : Inv hash t l) (j : Fin k) (x : K) :
    t.contains hash j x = .ok (elemOf l j x).isSome := by
  unfold Table.contains
  obtain ⟨r, e⟩ := findNode_ok h j x
  rw [e, bind_ok, elemOf_eq]
  cases hi : idxOf l j x with
  | none => rfl
  | some i =>
    obtain ⟨a, ha, _⟩ := idxOf_some hi
    simp [ha]

/-! ## Range erasure -/

theorem eraseRange_ok {hash : K → Nat} {first : Nat} : ∀ {n : Nat} {t : Table k K V} {l : List (Elem k K V)} {p : Nat},
    Inv hash t l → first + n ≤ l.length →
    ∃ t', ((List.range' first n).reverse).foldlM (fun (tr : Table k K V × Nat) i => tr.1.eraseAt i) (t, p)
        = .ok (t', if n = 0 then p else first) ∧
      Inv hash t' (removeRange l first n) ∧ t'.bc = t.bc ∧ t'.cap = t.cap ∧ t'.lf = t.lf := by
  intro n
  induction n with
  | zero => intro t l p h _; exact ⟨t, rfl, h, rfl, rfl, rfl⟩
  | succ n ih =>
    intro t l p h hn
    rw [List.range'_concat, List.reverse_append]
    obtain ⟨t1, e1, h1, b1, c1, f1⟩ := eraseAt_ok h (pos := first + n) (by omega)
    obtain ⟨t2, e2, h2, b2, c2, f2⟩ := ih (p := first + n) h1 (by rw [swapRemove_length]; omega)
    refine ⟨t2, ?_, h2, b2.trans b1, c2.trans c1, f2.trans f1⟩
    simp only [List.reverse_cons, List.reverse_nil, List.nil_append, List.cons_append, List.foldlM_cons, Nat.one_mul]
    rw [e1, bind_ok, e2]
    by_cases hz : n = 0
    · subst hz; simp
    · simp [hz]

/-- The elements before the range stay; of the others exactly those of the range go. -/
theorem removeRange_perm {α : Type} {first : Nat} : ∀ {n : Nat} {l : List α}, first + n ≤ l.length →
    (removeRange l first n).take first = l.take first ∧
    (removeRange l first n).Perm (l.take first ++ l.drop (first + n)) := by
  intro n
  induction n with
  | zero => intro l _; exact ⟨rfl, by simp [removeRange]⟩
  | succ n ih =>
    intro l hn
    have hp : first + n < l.length := by omega
    obtain ⟨h1, h2⟩ := ih (l := swapRemove l (first + n)) (by rw [swapRemove_length]; omega)
    have htake : (swapRemove l (first + n)).take (first + n) = l.take (first + n) := by
      apply List.ext_getElem?
      intro i
      rw [List.getElem?_take, List.getElem?_take]
      split
      · rw [swapRemove_getElem? hp, if_pos (by omega), if_neg (by omega)]
      · rfl
    have htf : (swapRemove l (first + n)).take first = l.take first := by
      have := congrArg (List.take first) htake
      rw [List.take_take, List.take_take, Nat.min_eq_left (by omega)] at this
      exact this
    have hdrop : ((swapRemove l (first + n)).drop (first + n)).Perm (l.drop (first + n + 1)) := by
      have hperm := swapRemove_perm hp
      have e1 : l = l.take (first + n) ++ l[first + n] :: l.drop (first + n + 1) := by
        rw [List.getElem_cons_drop, List.take_append_drop]
      have e2 : swapRemove l (first + n) = l.take (first + n) ++ (swapRemove l (first + n)).drop (first + n) := by
        rw [← htake, List.take_append_drop]
      have h3 : (l[first + n] :: (l.take (first + n) ++ (swapRemove l (first + n)).drop (first + n))).Perm
          (l[first + n] :: (l.take (first + n) ++ l.drop (first + n + 1))) := by
        rw [← e2]
        exact hperm.trans ((List.Perm.of_eq e1).trans List.perm_middle)
      exact (List.perm_append_left_iff _).mp ((List.perm_cons _).mp h3)
    refine ⟨h1.trans htf, ?_⟩
    show (removeRange (swapRemove l (first + n)) first n).Perm _
    rw [htf] at h2
    exact h2.trans (List.Perm.append_left _ hdrop)

/-! ## Copying -/

/-- The loop of `copy_data` after `n` turns. -/
theorem copyLoop_ok {hash : K → Nat} {t0 other : Table k K V} {l : List (Elem k K V)} (h : Inv hash other l)
    (hn0 : ∀ i, t0.node i = none) (hs0 : t0.size = 0) (hb0 : 0 < t0.bc) (hc0 : l.length ≤ t0.cap)
    (hh0 : ∀ b j, t0.head b j = none) : ∀ n, n ≤ l.length →
    ∃ t', (List.range n).foldlM (fun t i => Table.copyNode other t i) t0 = .ok t' ∧
      Arr hash t' (l.take n) ∧ (∀ j, Chained t' j (· < n)) ∧ t'.bc = t0.bc ∧ t'.cap = t0.cap ∧ t'.lf = t0.lf := by
  intro n
  induction n with
  | zero =>
    intro _
    refine ⟨t0, rfl, ⟨by rw [hs0]; rfl, fun i => by rw [hn0 i]; simp, by omega, fun i n hn => by rw [hn0 i] at hn; cases hn⟩,
      ?_, rfl, rfl, rfl⟩
    intro j b hb
    refine ⟨[], hh0 b j, by simp, ?_⟩
    intro i
    simp
  | succ n ih =>
    intro hle
    obtain ⟨t', e, a', c', b', p', f'⟩ := ih (by omega)
    rw [List.range_succ, List.foldlM_append, e, bind_ok]
    simp only [List.foldlM_cons, List.foldlM_nil]
    obtain ⟨m, hr, hm, hme⟩ := h.toArr.read (i := n) (by omega)
    have htl : (l.take n).length = n := by rw [List.length_take]; omega
    have hnn : t'.node n = none := a'.node_none (by omega)
    unfold Table.copyNode
    rw [hr, bind_ok, if_pos (by omega), hnn]
    simp only
    generalize ht1 : ({ t' with size := n + 1, node := upd t'.node n (some m) } : Table k K V) = t1
    have hn1 : t1.node n = some m := by rw [← ht1]; exact upd_same ..
    have ho1 : ∀ i, i ≠ n → t1.node i = t'.node i := by
      intro i hi
      rw [← ht1]
      exact upd_ne _ _ hi
    have hb1 : t1.bc = t'.bc := by rw [← ht1]
    have hch1 : ∀ j, Chained t1 j (· < n) := by
      intro j b hb
      rw [hb1] at hb ⊢
      obtain ⟨c, g1, g2, g3⟩ := c' j b hb
      refine ⟨c, ?_, g2, ?_⟩
      · refine g1.congr (by rw [← ht1]; rfl) ?_
        intro i hi
        unfold Table.cell
        simp only
        rw [ho1 i (by have := ((g3 i).mp hi).1; omega)]
      · intro i
        rw [g3 i]
        refine and_congr_right fun hi => ?_
        rw [ho1 i (by omega)]
    obtain ⟨t2, e2, s2, c2⟩ := linkAll_ok (t := t1) (i := n) (n := m) (by rw [hb1, b']; exact hb0)
      (by rw [← ht1]; simp only; omega) hn1 (S := (· < n)) (Nat.lt_irrefl n) hch1
    rw [e2, bind_ok]
    have htake : l.take (n + 1) = l.take n ++ [(m.key, m.val)] := by
      rw [List.take_succ_eq_append_getElem (by omega), hme]
    have a1 : Arr hash t1 (l.take (n + 1)) := by
      rw [htake]
      refine ⟨?_, ?_, ?_, ?_⟩
      · rw [← ht1, List.length_append, htl]; rfl
      · intro i
        by_cases hi : i = n
        · subst hi
          rw [hn1, List.getElem?_append_right (by omega), htl]
          simp
        · rw [ho1 i hi, a'.rep i]
          by_cases hi' : i < n
          · rw [List.getElem?_append_left (by omega)]
          · rw [List.getElem?_eq_none (by omega), List.getElem?_eq_none]
            rw [List.length_append, htl]
            simp only [List.length_cons, List.length_nil]
            omega
      · rw [← ht1]
        show n + 1 ≤ t'.cap
        omega
      · intro i x hx j
        by_cases hi : i = n
        · rw [hi, hn1] at hx
          cases hx
          exact h.hashed n m hm j
        · rw [ho1 i hi] at hx
          exact a'.hashed i x hx j
    refine ⟨t2, rfl, a1.sameBut s2, ?_, ?_, ?_, ?_⟩
    · intro j
      exact (c2 j).mono (fun i => by omega)
    · rw [s2.bc, hb1, b']
    · rw [s2.cap, ← ht1]; exact p'
    · rw [s2.lf, ← ht1]; exact f'

/-- `copy_data` into a cleared table. -/
theorem copyData_ok {hash : K → Nat} {t other : Table k K V} {l : List (Elem k K V)} (h : Inv hash other l) (hl : l ≠ [])
    (hs : t.size = 0) (hn : ∀ i, t.node i = none) :
    ∃ t', t.copyData other = .ok t' ∧ Inv hash t' l ∧ t'.lf = t.lf ∧ 0 < t'.bc ∧
      t'.cap = if t.cap < other.size then other.size else t.cap := by
  have hpos : 0 < l.length := List.length_pos_iff.mpr hl
  have hob : 0 < other.bc := by
    rcases Nat.eq_zero_or_pos other.bc with e | e
    · exact absurd (h.empty e) hl
    · exact e
  have hsz := h.size
  unfold Table.copyData
  rw [if_neg (by omega), if_neg (by omega)]
  simp only
  generalize ht0 : ({ t with
        bc := if t.bc < other.bc then other.bc else t.bc
        head := fun _ _ => none
        cap := if t.cap < other.size then other.size else t.cap
        node := if t.cap < other.size then fun _ => none else t.node } : Table k K V) = t0
  have hn0 : ∀ i, t0.node i = none := by
    intro i
    rw [← ht0]
    simp only
    split
    · rfl
    · exact hn i
  have hs0 : t0.size = 0 := by rw [← ht0]; exact hs
  have hb0 : 0 < t0.bc := by rw [← ht0]; simp only; split <;> omega
  have hc0 : l.length ≤ t0.cap := by rw [← ht0]; simp only; split <;> omega
  have hlf0 : t0.lf = t.lf := by rw [← ht0]
  have hh0 : ∀ b j, t0.head b j = none := by intro b j; rw [← ht0]
  have hfold := copyLoop_ok h hn0 hs0 hb0 hc0 hh0
  obtain ⟨t', e, a', c', b', p', f'⟩ := hfold l.length (Nat.le_refl _)
  rw [List.take_length] at a'
  rw [hsz, e]
  refine ⟨t', rfl, ⟨a', h.uniq, fun e => by omega, c'⟩, f'.trans hlf0, by omega, ?_⟩
  rw [p', ← ht0]
  simp only [hsz]

theorem copyCtor_ok {hash : K → Nat} {other : Table k K V} {l : List (Elem k K V)} (h : Inv hash other l) :
    ∃ t', other.copyCtor = .ok t' ∧ Inv hash t' l ∧ t'.lf = other.lf := by
  unfold Table.copyCtor
  by_cases hl : l = []
  · subst hl
    unfold Table.copyData
    rw [if_neg (by simp [Table.init]), if_pos (show other.size = 0 from h.size)]
    exact ⟨_, rfl, init_inv hash other.lf, rfl⟩
  · obtain ⟨t', e, h', f, _⟩ := copyData_ok h hl (t := Table.init other.lf) rfl (fun _ => rfl)
    exact ⟨t', e, h', f⟩

theorem copyAssign_ok {hash₀ hash : K → Nat} {prop : Bool} {t other : Table k K V} {l l' : List (Elem k K V)} (ht : Inv hash₀ t l')
    (h : Inv hash other l) (hl : prop = true ∨ l ≠ [] ∨ l' = []) :
    ∃ t', t.copyAssign prop other = .ok t' ∧ Inv hash t' l ∧ t'.lf = other.lf := by
  unfold Table.copyAssign
  obtain ⟨t1, e1, c1⟩ := clearData_ok (ht.setLoad other.lf).toArr
  rw [show ({ t with lf := other.lf } : Table k K V) = t.setLoad other.lf from rfl, e1, bind_ok]
  by_cases hl' : l = []
  · subst hl'
    cases prop with
    | true =>
      simp only [if_true]
      unfold Table.copyData
      rw [if_neg (by simpa [Table.dropBuffers] using c1.size), if_pos (show other.size = 0 from h.size)]
      refine ⟨_, rfl, ?_, c1.lf⟩
      refine inv_empty ⟨rfl, fun _ => rfl, Nat.zero_le _, fun i n hn => by cases hn⟩ (fun b hb => ?_)
      exact absurd hb (Nat.not_lt_zero _)
    | false =>
      simp only [Bool.false_eq_true, if_false]
      have hl'' : l' = [] := by
        rcases hl with h | h | h
        · cases h
        · exact absurd rfl h
        · exact h
      subst hl''
      unfold Table.copyData
      rw [if_neg (by simpa using c1.size), if_pos (show other.size = 0 from h.size)]
      refine ⟨_, rfl, ?_, c1.lf⟩
      refine inv_empty ⟨rfl, fun i => by rw [c1.node i]; rfl, Nat.zero_le _,
        fun i n hn => by rw [c1.node i] at hn; cases hn⟩ (fun b hb j => ?_)
      obtain ⟨c, g1, _, g3⟩ := ht.chained j b (by rw [← show t1.bc = t.bc from c1.bc]; exact hb)
      have : c = [] := by
        cases c with
        | nil => rfl
        | cons i c => exact absurd ((g3 i).mp List.mem_cons_self).1 (Nat.not_lt_zero _)
      subst this
      show t1.head b j = none
      rw [c1.head]
      exact g1
  · cases prop with
    | true =>
      simp only [if_true]
      obtain ⟨t', e, h', f, _⟩ := copyData_ok h hl' (t := t1.dropBuffers) c1.size (fun _ => rfl)
      exact ⟨t', e, h', f.trans c1.lf⟩
    | false =>
      simp only [Bool.false_eq_true, if_false]
      obtain ⟨t', e, h', f, _⟩ := copyData_ok h hl' (t := t1) c1.size c1.node
      exact ⟨t', e, h', f.trans c1.lf⟩

/-! ## Moving -/

theorem dropBuffers_inv {hash : K → Nat} {t : Table k K V} (hs : t.size = 0) : Inv hash t.dropBuffers ([] : List (Elem k K V)) :=
  inv_empty ⟨hs, fun _ => rfl, Nat.le_of_eq hs, fun i n hn => by cases hn⟩ (fun b hb => absurd hb (Nat.not_lt_zero _))

theorem moveCtor_ok {hash hash₁ : K → Nat} {other : Table k K V} {l : List (Elem k K V)} (h : Inv hash other l) :
    ∃ t' o', other.moveCtor true = .ok (t', o') ∧ Inv hash t' l ∧ t'.lf = other.lf ∧ Inv hash₁ o' [] ∧ o'.lf = other.lf := by
  refine ⟨_, _, rfl, ?_, rfl, init_inv hash₁ other.lf, rfl⟩
  exact h.setLoad other.lf

theorem moveAssign_ok {hash₀ hash hash₁ : K → Nat} {eq : Bool} {t other : Table k K V} {l l' : List (Elem k K V)}
    (ht : Inv hash₀ t l') (h : Inv hash other l) :
    ∃ t' o', t.moveAssign true eq other = .ok (t', o') ∧ Inv hash t' l ∧ t'.lf = other.lf ∧ Inv hash₁ o' [] ∧
      o'.lf = other.lf := by
  unfold Table.moveAssign
  obtain ⟨t1, e1, c1⟩ := clearData_ok (ht.setLoad other.lf).toArr
  rw [show ({ t with lf := other.lf } : Table k K V) = t.setLoad other.lf from rfl, e1, bind_ok]
  refine ⟨_, _, rfl, ?_, c1.lf, ?_, rfl⟩
  · exact h.setLoad t1.lf
  · exact (dropBuffers_inv c1.size).setLoad other.lf

/-- With an allocator that does not propagate the source receives the old buckets of the destination. -/
theorem moveAssign_nonprop_ok {hash : K → Nat} {t other : Table k K V} {l : List (Elem k K V)} (ht : Inv hash t [])
    (h : Inv hash other l) :
    ∃ t' o', t.moveAssign false true other = .ok (t', o') ∧ Inv hash t' l ∧ t'.lf = other.lf ∧ Inv hash o' [] ∧
      o'.lf = other.lf := by
  unfold Table.moveAssign
  have hcl : ({ t with lf := other.lf } : Table k K V).clearData = .ok { t with lf := other.lf, size := 0 } := by
    unfold Table.clearData
    have : t.size = 0 := ht.size
    simp only
    rw [this]
    rfl
  rw [hcl, bind_ok]
  refine ⟨_, _, rfl, h.setLoad other.lf, rfl, ?_, rfl⟩
  have hs : t.size = 0 := ht.size
  have : ({ t with lf := other.lf, size := 0 } : Table k K V) = t.setLoad other.lf := by
    unfold Table.setLoad
    rw [← hs]
  simp only [Bool.false_eq_true, if_false]
  rw [this]
  exact (ht.setLoad other.lf).setLoad other.lf

theorem swap_ok {hash hash' : K → Nat} {t other : Table k K V} {l l' : List (Elem k K V)} (ht : Inv hash t l)
    (h : Inv hash' other l') : Inv hash' (t.swap other).1 l' ∧ Inv hash (t.swap other).2 l ∧
      (t.swap other).1.lf = other.lf ∧ (t.swap other).2.lf = t.lf :=
  ⟨h.setLoad _, ht.setLoad _, rfl, rfl⟩

end Tpp.Dense
