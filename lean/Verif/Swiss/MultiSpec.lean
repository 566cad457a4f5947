import Verif.Swiss.Map
import Verif.Swiss.Multi

/-!
# Copy, move, swap, merge, extraction, range construction, `erase_if`: effect on the contents
-/

set_option linter.unusedSectionVars false

namespace Tpp.Swiss

variable {K V : Type} [DecidableEq K]

/-! ### Copy -/

/-- All nodes of the table are raw storage. -/
def Raw (t : Table K V) : Prop := ∀ i, i < t.cap → t.node i = none

theorem dropBuffer_spec {t : Table K V} (h : Raw t) :
    t.dropBuffer = .ok { t with cap := 0, len := 0, ctl := fun _ => .empty, node := fun _ => none } := by
  unfold Table.dropBuffer
  rw [if_pos]
  rw [List.all_eq_true]
  intro i hi
  rw [h i (List.mem_range.mp hi)]; rfl

theorem Inv.empty_of_size {isa : Isa} {hash : K → Nat} {t : Table K V} (h : Inv isa hash t) (hz : t.size = 0) :
    t.nodes = [] := List.length_eq_zero_iff.mp (by rw [h.nodes_length, hz])

theorem Inv.raw_of_size {isa : Isa} {hash : K → Nat} {t : Table K V} (h : Inv isa hash t) (hz : t.size = 0) :
    Raw t := by
  intro i hi
  cases hn : t.node i with
  | none => rfl
  | some n =>
    have : n ∈ t.nodes := mem_collect.mpr ⟨i, hi, hn⟩
    rw [h.empty_of_size hz] at this
    cases this

theorem Inv.cap_pos {isa : Isa} {hash : K → Nat} {t : Table K V} (h : Inv isa hash t) (hz : t.size ≠ 0) :
    0 < t.cap := by
  rcases Nat.eq_zero_or_pos t.cap with h0 | h0
  · have := h.size_eq; rw [h0, cnt] at this; omega
  · exact h0

theorem maxSize_mono {isa : Isa} {a b : Nat} (h : a ≤ b) : maxSize isa a ≤ maxSize isa b := by
  unfold maxSize
  split <;> split <;> omega

/-- The buffer of `copy_data` after (re)allocation and reset. -/
theorem copyStart {isa : Isa} {t : Table K V} {n : Nat} (hpow : ∃ m, n + 1 = 2 ^ m) (ht : t.size = 0) (hraw : Raw t)
    (hshape : t.cap = 0 ∨ ((∃ m, t.cap + 1 = 2 ^ m) ∧ t.len = t.cap + isa.W)) (hc : 0 < n) :
    ∃ t1 : Table K V, (do let t ← t.reallocate isa n; t.fill isa) = .ok t1 ∧
      t1.cap = max t.cap n ∧ t1.len = t1.cap + isa.W ∧ Raw t1 ∧ t1.ctl = fillEmpty t1.cap ∧
      (∃ m, t1.cap + 1 = 2 ^ m) ∧ t1.size = 0 ∧ t1.numEmpty = t.numEmpty := by
  unfold Table.reallocate
  by_cases hlt : t.cap < n
  · rw [if_pos hlt, dropBuffer_spec hraw]
    simp only [bind_ok, Table.fill, Nat.le_refl, if_true]
    refine ⟨_, rfl, ?_, rfl, fun i _ => rfl, rfl, hpow, ht, rfl⟩
    show n = _
    omega
  · rw [if_neg hlt]
    have hs : (∃ m, t.cap + 1 = 2 ^ m) ∧ t.len = t.cap + isa.W := by
      rcases hshape with h0 | h0
      · omega
      · exact h0
    simp only [bind_ok, Table.fill, hs.2, Nat.le_refl, if_true]
    refine ⟨_, rfl, ?_, rfl, fun i hi => hraw i hi, rfl, hs.1, ht, rfl⟩
    show t.cap = _
    omega

/-- The loop of `copy_data` after the first `q` slots. -/
theorem copyOne_prefix {isa : Isa} {hash : K → Nat} {t1 other : Table K V} (h : Inv isa hash other) (hc : 0 < other.cap)
    (hcap1 : other.cap ≤ t1.cap) (l1 : t1.len = t1.cap + isa.W) (r1 : Raw t1) (ctl1 : t1.ctl = fillEmpty t1.cap)
    (p1 : ∃ m, t1.cap + 1 = 2 ^ m) {q : Nat} (hq : q ≤ other.cap) :
    ∃ t2 : Table K V, (List.range q).foldlM (Table.copyOne isa other) t1 = .ok t2 ∧
      (t2.cap = t1.cap ∧ t2.size = t1.size ∧ t2.numEmpty = t1.numEmpty) ∧ MetaOk isa t2.cap t2.len t2.ctl ∧
      (∀ j, j < t1.cap → t2.ctl j = if j < q ∧ (other.ctl j).isOccupied then other.ctl j else .empty) ∧
      (∀ j, j < t1.cap → t2.node j = if j < q then other.node j else none) := by
  have hm := h.meta_ok hc
  obtain ⟨m, hpow⟩ := p1
  exact foldlM_range (f := Table.copyOne isa other)
    (fun i (s : Table K V) => (s.cap = t1.cap ∧ s.size = t1.size ∧ s.numEmpty = t1.numEmpty) ∧ MetaOk isa s.cap s.len s.ctl ∧
      (∀ j, j < t1.cap → s.ctl j = if j < i ∧ (other.ctl j).isOccupied then other.ctl j else .empty) ∧
      (∀ j, j < t1.cap → s.node j = if j < i then other.node j else none))
    q (s := t1)
    ⟨⟨rfl, rfl, rfl⟩, by rw [ctl1, l1]; exact MetaOk.fill isa hpow,
      fun j hj => by rw [ctl1]; simp [fillEmpty]; omega, fun j hj => by simp [r1 j hj]⟩ (by
      rintro i hi s ⟨s1, s2, s3, s4⟩
      have hi : i < other.cap := by omega
      have s1' := s1.1
      unfold Table.copyOne
      rw [readCtl_ok hm (by omega)]
      simp only [bind_ok]
      have hl := h.live i hi
      cases hn : other.node i with
      | none =>
        rw [hn] at hl
        have hl : (other.ctl i).isOccupied = false := hl.symm
        simp only [hl, Bool.false_eq_true, if_false]
        refine ⟨s, rfl, s1, s2, ?_, ?_⟩
        · intro j hj
          rw [s3 j hj]
          by_cases e : j = i
          · subst e; simp [hl]
          · simp [show j < i ↔ j < i + 1 by omega]
        · intro j hj
          rw [s4 j hj]
          by_cases e : j = i
          · subst e; simp [hn]
          · simp [show j < i ↔ j < i + 1 by omega]
      | some x =>
        rw [hn] at hl
        have hl : (other.ctl i).isOccupied = true := hl.symm
        simp only [hl, if_true, readNode_some hi hn, bind_ok]
        have hcons : s.construct i x = .ok { s with node := upd s.node i (some x) } := by
          have := s4 i (by omega)
          simp only [Nat.lt_irrefl, if_false] at this
          simp [Table.construct, this, show i < s.cap by omega]
        rw [hcons]
        simp only [bind_ok]
        obtain ⟨c, g1, g2, g3⟩ := setMetadata_spec (isa := isa) (t := { s with node := upd s.node i (some x) }) s2
          (pos := i) (by simp only; omega) (v := other.ctl i) (hm.slot i hi)
        refine ⟨_, g1, s1, g3, ?_, ?_⟩
        · intro j hj
          show c j = _
          rw [g2 j (by simp only; omega)]
          by_cases e : j = i
          · subst e; simp [hl]
          · simp only [if_neg e]
            rw [s3 j hj]
            simp [show j < i ↔ j < i + 1 by omega]
        · intro j hj
          show upd s.node i (some x) j = _
          by_cases e : j = i
          · subst e; simp [hn]
          · rw [upd_ne _ _ e, s4 j hj]
            simp [show j < i ↔ j < i + 1 by omega])

/-- What copying does in all cases: the occupied slots of the source appear at the same index. -/
theorem copyData_raw {isa : Isa} {hash : K → Nat} {t other : Table K V} (h : Inv isa hash other) (hz : other.size ≠ 0)
    (ht : t.size = 0) (hraw : Raw t) (hshape : t.cap = 0 ∨ ((∃ m, t.cap + 1 = 2 ^ m) ∧ t.len = t.cap + isa.W)) :
    ∃ t', t.copyData isa other = .ok t' ∧ t'.cap = max t.cap other.cap ∧ t'.size = other.size ∧
      MetaOk isa t'.cap t'.len t'.ctl ∧ t'.numEmpty = maxSize isa t'.cap - other.size ∧
      (∀ i, i < t'.cap → t'.ctl i = if i < other.cap ∧ (other.ctl i).isOccupied then other.ctl i else .empty) ∧
      (∀ i, i < t'.cap → t'.node i = if i < other.cap then other.node i else none) := by
  have hc := h.cap_pos hz
  have hm := h.meta_ok hc
  unfold Table.copyData
  rw [if_neg (by simp [ht]), if_neg hz]
  obtain ⟨t1, e1, c1, l1, r1, ctl1, p1, _⟩ := copyStart (isa := isa) h.pow ht hraw hshape hc
  have hcap1 : other.cap ≤ t1.cap := by omega
  rw [show (do
      let t ← t.reallocate isa other.cap
      let t ← t.fill isa
      let t ← (List.range other.cap).foldlM (Table.copyOne isa other) t
      if other.size ≤ maxSize isa t.cap then
        Except.ok { t with size := other.size, numEmpty := maxSize isa t.cap - other.size }
      else Except.error Fault.underflow : M (Table K V)) = (do
      let t ← (do let t ← t.reallocate isa other.cap; t.fill isa)
      let t ← (List.range other.cap).foldlM (Table.copyOne isa other) t
      if other.size ≤ maxSize isa t.cap then
        Except.ok { t with size := other.size, numEmpty := maxSize isa t.cap - other.size }
      else Except.error Fault.underflow) by
    cases t.reallocate isa other.cap <;> rfl]
  rw [e1]
  simp only [bind_ok]
  obtain ⟨t2, f1, ⟨f2, _⟩, f3, f4, f5⟩ := copyOne_prefix h hc hcap1 l1 r1 ctl1 p1 (Nat.le_refl other.cap)
  rw [f1]
  simp only [bind_ok]
  have hfit : other.size ≤ maxSize isa t2.cap := by
    have := h.size_le
    have := maxSize_mono (isa := isa) (show other.cap ≤ t2.cap by omega)
    omega
  rw [if_pos hfit]
  refine ⟨_, rfl, ?_, rfl, f3, rfl, ?_, ?_⟩
  · show t2.cap = _
    omega
  · intro i hi; exact f4 i (by simp only at hi; omega)
  · intro i hi; exact f5 i (by simp only at hi; omega)

/-- Copying into a table whose bucket count is at most that of the source, if the source holds no tombstone. -/
theorem copyData_spec {isa : Isa} {hash : K → Nat} {t other : Table K V} (h : Inv isa hash other) (hz : other.size ≠ 0)
    (hnt : NoTomb other) (hle : t.cap ≤ other.cap)
    (ht : t.size = 0) (hraw : Raw t) (hshape : t.cap = 0 ∨ ((∃ m, t.cap + 1 = 2 ^ m) ∧ t.len = t.cap + isa.W)) :
    ∃ t', t.copyData isa other = .ok t' ∧ Inv isa hash t' ∧ t'.contents = other.contents ∧ t'.cap = other.cap ∧
      t'.size = other.size := by
  obtain ⟨t', e1, e2, e3, e4, e5, e6, e7⟩ := copyData_raw h hz ht hraw hshape
  have hcap : t'.cap = other.cap := by omega
  have hm := h.meta_ok (h.cap_pos hz)
  have hctl : ∀ i, i < other.cap → t'.ctl i = other.ctl i := by
    intro i hi
    rw [e6 i (by omega)]
    split
    · rfl
    · rename_i hno
      have h1 := hnt i hi
      have h2 := hm.slot i hi
      revert hno h1 h2
      cases other.ctl i <;> simp [hi, Ctl.isOccupied]
  have hnode : ∀ i, i < other.cap → t'.node i = other.node i := by
    intro i hi; rw [e7 i (by omega), if_pos hi]
  refine ⟨t', e1, ?_, ?_, hcap, e3⟩
  · refine ⟨Or.inr e4, ?_, ?_, ?_, ?_, ?_, ?_, ?_⟩
    · intro i hi; rw [hcap] at hi; rw [hctl i hi, hnode i hi]; exact h.live i hi
    · intro i hi n hn; rw [hcap] at hi; rw [hnode i hi] at hn; rw [hctl i hi]; exact h.tag i hi n hn
    · intro i hi n hn; rw [hcap] at hi; rw [hnode i hi] at hn; exact h.hash_ok i hi n hn
    · intro i hi j hj a b ha hb
      rw [hcap] at hi hj; rw [hnode i hi] at ha; rw [hnode j hj] at hb
      exact h.uniq i hi j hj a b ha hb
    · intro i hi n hn
      rw [hcap] at hi ⊢; rw [hnode i hi] at hn
      rw [hcap] at e4
      exact (h.reach i hi n hn).mono hm e4 (fun j hj hp => by rw [hctl j hj] at hp; exact hp)
    · rw [e3, h.size_eq, hcap]
      exact cnt_congr (fun i hi => by rw [hctl i hi])
    · intro _
      have h1 : cnt (fun i => (t'.ctl i).isDeleted) t'.cap = 0 := by
        apply cnt_eq_zero
        intro i hi
        rw [hcap] at hi
        rw [hctl i hi]
        have := hnt i hi
        revert this
        cases other.ctl i <;> simp [Ctl.isDeleted]
      have h2 := h.size_le
      rw [h1, e5, e3, hcap]
      omega
  · unfold Table.contents Table.nodes
    rw [hcap]
    congr 1
    exact collect_congr hnode

/-! ### Move and swap -/

theorem init_contents : (Table.init : Table K V).contents = [] := rfl

theorem moveCtor_spec {isa : Isa} (al : AllocP) (hal : al.equal = true) (other : Table K V) :
    Table.moveCtor isa al other = .ok (other, Table.init) := by
  simp [Table.moveCtor, Table.moveFrom, hal, Table.swapBuffers, Table.init]

theorem moveAssign_spec {isa : Isa} {hash hash' : K → Nat} (al : AllocP) (hal : al.moveProp = true)
    {t other : Table K V} (h : Inv isa hash t) (ho : Inv isa hash' other) :
    ∃ t' other', t.moveAssign isa al other = .ok (t', other') ∧ t' = other ∧ Inv isa hash' t' ∧
      other'.contents = [] ∧ other'.size = 0 ∧ other'.cap = 0 ∧ other'.len = 0 ∧ other'.numEmpty = t.numEmpty ∧
      ∀ hash'', Inv isa hash'' other' := by
  obtain ⟨f, h1, h2⟩ := eraseNodes_spec (isa := isa) (t := t) (by
    rcases h.shape with h | h
    · exact Or.inl h.2
    · exact Or.inr h) h.live
  unfold Table.moveAssign
  rw [h1]
  simp only [bind_ok, Table.bufAssign, hal, if_true]
  rw [dropBuffer_spec (t := { t with node := f, size := 0 }) h2]
  simp only [bind_ok, Table.moveFrom, Bool.or_true, if_true, Table.swapBuffers]
  refine ⟨_, _, rfl, rfl, ho, rfl, rfl, rfl, rfl, rfl, ?_⟩
  intro hash''
  refine ⟨Or.inl ⟨rfl, rfl⟩, ?_, ?_, ?_, ?_, ?_, ?_, ?_⟩
  all_goals first | (intro i hi; exact absurd hi (Nat.not_lt_zero _)) | rfl | (intro hi; exact absurd hi (Nat.not_lt_zero _))

theorem swapBuffers_eq (a b : Table K V) : a.swapBuffers b = (b, a) := rfl

/-! ### Destructor -/

theorem dtor_spec {isa : Isa} {hash : K → Nat} {t : Table K V} (h : Inv isa hash t) : ∃ t', t.dtor = .ok t' := by
  unfold Table.dtor
  by_cases hz : t.size = 0
  · rw [if_neg (by simp [hz])]
    simp only [bind_ok]
    exact ⟨_, dropBuffer_spec (h.raw_of_size hz)⟩
  · rw [if_pos hz]
    obtain ⟨f, h1, h2⟩ := eraseNodes_spec (isa := isa) (Or.inr (h.meta_ok (h.cap_pos hz))) h.live
    rw [h1]
    simp only [bind_ok]
    exact ⟨_, dropBuffer_spec (t := { t with node := f, size := 0 }) h2⟩

/-! ### Node extraction -/

theorem extractAt_spec {isa : Isa} {hash : K → Nat} {t : Table K V} (h : Inv isa hash t) {pos : Nat} {n : Node K V}
    (hp : pos < t.cap) (hn : t.node pos = some n) :
    Ends isa (t.extractAt isa pos) (fun r => Inv isa hash r.1 ∧ r.2 = n ∧ r.1.cap = t.cap ∧ r.1.size + 1 = t.size ∧
      r.1.contents.Perm (Spec.erase t.contents n.key) ∧ (∀ i, i ≠ pos → r.1.node i = t.node i) ∧
      r.1.node pos = none ∧ t.contents.Perm ((n.key, n.val) :: r.1.contents)) := by
  obtain ⟨c, h1, h2, h3, h4⟩ := eraseNode_spec h hp hn
  have hI := doErase_inv h hp hn h2 h3
  unfold Table.extractAt
  rw [h1]
  simp only [bind_ok]
  have hlen := h3.len_eq
  have hit : Ends isa (Table.toIter isa { t with ctl := c, size := t.size - 1 } pos) (fun _ => True) := by
    unfold Table.toIter
    have := isa.W_pos
    rw [if_neg (by simp only; omega)]
    exact (nextOccupied_spec (t := { t with ctl := c, size := t.size - 1 }) h3 _ _ (by simp only; omega)
      (by simp only; omega)).mono fun _ _ => trivial
  refine hit.bind ?_
  intro _ _
  have hd : Table.destroy { t with ctl := c, size := t.size - 1 } pos
      = .ok { t with ctl := c, size := t.size - 1, node := upd t.node pos none } := by
    simp [Table.destroy, hp, hn]
  rw [readNode_some (t := { t with ctl := c, size := t.size - 1 }) hp hn]
  simp only [bind_ok]
  rw [hd]
  simp only [bind_ok]
  have hperm : t.contents.Perm ((n.key, n.val) ::
      ({ t with ctl := c, size := t.size - 1, node := upd t.node pos none } : Table K V).contents) :=
    (collect_fill hp (by simp) hn (fun j _ hne => (upd_ne t.node none hne).symm)).map _
  refine Ends.of_ok rfl ⟨hI, rfl, rfl, ?_, ?_, ?_, ?_, hperm⟩
  · show t.size - 1 + 1 = t.size
    omega
  · have h5 := Spec.erase_perm hperm n.key
    rw [Spec.erase_cons_self (h.contents_uniq.perm hperm)] at h5
    exact h5.symm
  · intro i hi; exact upd_ne _ _ hi
  · exact upd_same _ _ _

theorem extract_spec {isa : Isa} {hash : K → Nat} {t : Table K V} (h : Inv isa hash t) (k : K) :
    Ends isa (t.extract isa hash k) (fun r => Inv isa hash r.1 ∧ r.1.contents.Perm (Spec.erase t.contents k) ∧
      r.2 = (Spec.lookup t.contents k).map (fun v => (k, v)) ∧
      (Spec.lookup t.contents k = none → r.1 = t) ∧ r.1.cap = t.cap) := by
  rcases find_cases h k with ⟨i, n, hi, hn, hk, hf, hl⟩ | ⟨hno, hf, hl⟩
  · have : t.extract isa hash k = (do
        let (t, n) ← t.extractAt isa i
        .ok (t, some (n.key, n.val))) := by
      simp [Table.extract, hf, show i ≠ t.cap by omega]
    rw [this]
    refine (extractAt_spec h hi hn).bind ?_
    rintro ⟨t', n'⟩ ⟨h1, h2, h3, h4, h5, _⟩
    simp only at h2
    subst h2
    refine Ends.of_ok rfl ⟨h1, by rw [hk] at h5; exact h5, ?_, ?_⟩
    · rw [hl, hk]; rfl
    · rw [hl]; exact ⟨by simp, h3⟩
  · refine Ends.of_ok (a := (t, none)) ?_ ⟨h, ?_, ?_, ?_⟩
    · simp [Table.extract, hf]
    · rw [Spec.erase_of_absent hl]
    · rw [hl]; rfl
    · exact ⟨fun _ => rfl, rfl⟩

theorem insertNode_spec {isa : Isa} {hash : K → Nat} {t : Table K V} (h : Inv isa hash t) (x : K × V) :
    ∃ t' p b l, t.insertNode isa hash x = .ok (t', p, b, l) ∧ Inv isa hash t' ∧ GrowOk isa t t' ∧
      ((b = true ∧ l = none ∧ Spec.lookup t.contents x.1 = none ∧ t'.contents.Perm (x :: t.contents) ∧ t'.At p x) ∨
        (∃ w, b = false ∧ l = some x ∧ Spec.lookup t.contents x.1 = some w ∧ t' = t ∧ t.At p (x.1, w))) := by
  rcases find_cases h x.1 with ⟨i, n, hi, hn, hk, hf, hl⟩ | ⟨hno, hf, hl⟩
  · refine ⟨t, i, false, some x, ?_, h, GrowOk.refl isa t, Or.inr ⟨n.val, rfl, rfl, hl, rfl, hi, n, hn, by rw [hk]⟩⟩
    simp [Table.insertNode, hf, show i ≠ t.cap by omega]
  · obtain ⟨t', p, he, hi', hp, hnp, hperm, hsz, hg, hfix⟩ :=
      emplaceNode_spec h (n := ⟨x.1, x.2, hash x.1⟩) rfl hno
    refine ⟨t', p, true, none, ?_, hi', hg, Or.inl ⟨rfl, rfl, hl, ?_, ⟨hp, _, hnp, rfl⟩⟩⟩
    · simp [Table.insertNode, hf, he]
    · exact hperm.map _

end Tpp.Swiss
