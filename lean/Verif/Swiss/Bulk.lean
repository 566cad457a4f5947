import Verif.Swiss.MultiSpec

/-!
# merge, range insertion, `erase_if`, map accessors, throwing insertion
-/

set_option linter.unusedSectionVars false

namespace Tpp.Swiss

variable {K V : Type} [DecidableEq K]

theorem contents_split (t : Table K V) {pos : Nat} (h : pos ≤ t.cap) : ∃ pre, t.contents = pre ++ t.elemsFrom pos := by
  induction pos with
  | zero => exact ⟨[], by rw [elemsFrom_zero]; rfl⟩
  | succ n ih =>
    obtain ⟨pre, hp⟩ := ih (by omega)
    rw [elemsFrom_step t (show n < t.cap by omega)] at hp
    exact ⟨_, by rw [hp, List.append_assoc]⟩

/-- The element at an occupied slot heads the remaining iteration, and its key does not come again. -/
theorem elemsFrom_occupied {isa : Isa} {hash : K → Nat} {t : Table K V} (h : Inv isa hash t) {pos : Nat}
    (hp : pos < t.cap) {n : Node K V} (hn : t.node pos = some n) :
    t.elemsFrom pos = (n.key, n.val) :: t.elemsFrom (pos + 1) ∧
      ∀ x, x ∈ t.elemsFrom (pos + 1) → x.1 ≠ n.key := by
  have h1 : t.elemsFrom pos = (n.key, n.val) :: t.elemsFrom (pos + 1) := by
    rw [elemsFrom_step t hp, hn]; rfl
  refine ⟨h1, ?_⟩
  obtain ⟨pre, hc⟩ := contents_split t (Nat.le_of_lt hp)
  have hu := h.contents_uniq
  unfold Spec.Uniq at hu
  rw [hc, h1, List.map_append, List.nodup_append, List.map_cons, List.nodup_cons] at hu
  intro x hx e
  exact hu.2.1.1 (List.mem_map.mpr ⟨x, hx, e⟩)

theorem node_of_occupied {isa : Isa} {hash : K → Nat} {t : Table K V} (h : Inv isa hash t) {pos : Nat} (hp : pos < t.cap)
    (ho : (t.ctl pos).isOccupied = true) : ∃ n, t.node pos = some n := by
  have := h.live pos hp
  rw [ho] at this
  cases hn : t.node pos with
  | none => rw [hn] at this; simp at this
  | some n => exact ⟨n, rfl⟩

/-- Increment of a valid iterator. -/
theorem step_iter {isa : Isa} {hash : K → Nat} {t : Table K V} (h : Inv isa hash t) {pos : Nat} (hp : pos < t.cap) :
    Ends isa (t.nextOccupied isa (t.cap + 1) (pos + 1)) (fun r => pos < r ∧ r ≤ t.cap ∧
      (r < t.cap → (t.ctl r).isOccupied = true) ∧ t.elemsFrom r = t.elemsFrom (pos + 1)) := by
  refine (nextOccupied_spec (h.meta_ok (by omega)) (t.cap + 1) (pos + 1) (by omega) (by omega)).mono ?_
  intro r hr
  exact ⟨by have := hr.1; omega, hr.2.1, hr.2.2.2, (elemsFrom_next h.live hr).symm⟩

/-! ### merge -/

theorem elemsFrom_congr {t t' : Table K V} {pos : Nat} (hc : t'.cap = t.cap)
    (h : ∀ i, pos ≤ i → i < t.cap → t'.node i = t.node i) : t'.elemsFrom pos = t.elemsFrom pos := by
  unfold Table.elemsFrom
  rw [hc]
  congr 1
  have : ∀ l : List Nat, (∀ j, j ∈ l → t'.node j = t.node j) → l.filterMap t'.node = l.filterMap t.node := by
    intro l hl
    induction l with
    | nil => rfl
    | cons a l ih =>
      rw [List.filterMap_cons, List.filterMap_cons, hl a (by simp), ih (fun j hj => hl j (by simp [hj]))]
  apply this
  intro j hj
  have := List.mem_range'.mp hj
  exact h j (by omega) (by omega)

/-- The elements of `l` whose key is not in the map `m`. -/
def Missing (m l : List (K × V)) : List (K × V) := l.filter fun x => (Spec.lookup m x.1).isNone

theorem Missing_congr {m m' l : List (K × V)}
    (h : ∀ x, x ∈ l → Spec.lookup m x.1 = Spec.lookup m' x.1) : Missing m l = Missing m' l := by
  apply List.filter_congr
  intro x hx
  rw [h x hx]

theorem mergeLoop_spec {isa : Isa} {hash hash' : K → Nat} :
    ∀ (fuel : Nat) (dst src : Table K V) (pos : Nat), Inv isa hash dst → Inv isa hash' src → pos ≤ src.cap →
      (pos < src.cap → (src.ctl pos).isOccupied = true) → src.cap - pos < fuel →
      Ends isa (Table.mergeLoop isa hash fuel dst src pos src.cap) (fun r => Inv isa hash r.1 ∧ Inv isa hash' r.2 ∧
        r.1.contents.Perm (Missing dst.contents (src.elemsFrom pos) ++ dst.contents) ∧
        src.contents.Perm (Missing dst.contents (src.elemsFrom pos) ++ r.2.contents) ∧ r.2.cap = src.cap) := by
  intro fuel
  induction fuel with
  | zero => intro _ _ _ _ _ _ _ h; omega
  | succ fuel ih =>
    intro dst src pos hd hs hle hocc hf
    unfold Table.mergeLoop
    by_cases he : pos = src.cap
    · rw [if_pos he]
      have : src.elemsFrom pos = [] := elemsFrom_end src (by omega)
      rw [this]
      exact Ends.of_ok rfl ⟨hd, hs, List.Perm.refl _, List.Perm.refl _, rfl⟩
    · rw [if_neg he]
      have hp : pos < src.cap := by omega
      obtain ⟨n, hn⟩ := node_of_occupied hs hp (hocc hp)
      obtain ⟨hel, hne⟩ := elemsFrom_occupied hs hp hn
      rw [readNode_some hp hn]
      simp only [bind_ok]
      rcases find_cases hd n.key with ⟨i, n', hi, hn', hk, hfnd, hl⟩ | ⟨hno, hfnd, hl⟩
      · -- present: skip
        rw [hfnd]
        simp only [bind_ok, show ¬ i = dst.cap by omega, if_false]
        refine (step_iter hs hp).bind ?_
        rintro q ⟨q1, q2, q3, q4⟩
        refine (ih dst src q hd hs q2 q3 (by omega)).mono ?_
        rintro r ⟨r1, r2, r3, r4, r5⟩
        have e : Missing dst.contents (src.elemsFrom pos) = Missing dst.contents (src.elemsFrom q) := by
          rw [hel, q4]
          unfold Missing
          rw [List.filter_cons]
          simp [hl]
        rw [e]
        exact ⟨r1, r2, r3, r4, r5⟩
      · rw [hfnd]
        simp only [bind_ok, if_true]
        refine (extractAt_spec hs hp hn).bind ?_
        rintro ⟨src', n'⟩ ⟨x1, x2, x3, x4, x5, x6, x7, x8⟩
        simp only at x1 x2 x3 x4 x5 x6 x7 x8
        subst x2
        obtain ⟨dst', p, e1, e2, e3, e4, e5, e6, e7, e8⟩ := emplaceNode_spec hd (n := ⟨n'.key, n'.val, hash n'.key⟩) rfl hno
        rw [e1]
        simp only [bind_ok]
        refine (step_iter x1 (pos := pos) (by omega)).bind ?_
        rintro q ⟨q1, q2, q3, q4⟩
        have hc : dst'.contents.Perm ((n'.key, n'.val) :: dst.contents) := e5.map _
        rw [show src.cap = src'.cap by omega]
        refine (ih dst' src' q e2 x1 q2 q3 (by omega)).mono ?_
        rintro r ⟨r1, r2, r3, r4, r5⟩
        have htail : src'.elemsFrom q = src.elemsFrom (pos + 1) := by
          rw [q4]
          exact elemsFrom_congr x3 (fun i hi _ => x6 i (by omega))
        have hmiss : Missing dst.contents (src.elemsFrom pos)
            = (n'.key, n'.val) :: Missing dst'.contents (src'.elemsFrom q) := by
          rw [hel, htail]
          unfold Missing
          rw [List.filter_cons]
          simp only [hl, Option.isNone_none, if_true]
          congr 1
          refine Missing_congr ?_
          intro x hx
          rw [Spec.lookup_perm hc e2.contents_uniq, Spec.lookup_cons, if_neg (Ne.symm (hne x hx))]
        rw [hmiss]
        refine ⟨r1, r2, ?_, ?_, r5⟩
        · refine r3.trans ?_
          refine (hc.append_left _).trans ?_
          simpa using List.perm_middle
        · exact x8.trans ((r4.cons _))

theorem merge_spec {isa : Isa} {hash hash' : K → Nat} {dst src : Table K V} (hd : Inv isa hash dst)
    (hs : Inv isa hash' src) :
    Ends isa (Table.merge isa hash dst src) (fun r => Inv isa hash r.1 ∧ Inv isa hash' r.2 ∧
        r.1.contents.Perm (Missing dst.contents src.contents ++ dst.contents) ∧
        src.contents.Perm (Missing dst.contents src.contents ++ r.2.contents)) := by
  obtain ⟨d, d1, d2, d3, d4, d5, _⟩ := reserve_spec hd (dst.size + src.size)
  unfold Table.merge
  rw [d1]
  simp only [bind_ok, Table.begin_]
  refine (toIter_spec hs (Nat.zero_le _)).bind ?_
  intro pos hpos
  rw [end_spec hs]
  simp only [bind_ok]
  refine (mergeLoop_spec (src.cap + 1) d src pos d2 hs hpos.2.1 hpos.2.2.2 (by omega)).mono ?_
  rintro r ⟨r1, r2, r3, r4, r5⟩
  have hc : d.contents.Perm dst.contents := contents_perm d4
  have he : src.elemsFrom pos = src.contents := by rw [← elemsFrom_zero]; exact (elemsFrom_next hs.live hpos).symm
  have hm : Missing d.contents (src.elemsFrom pos) = Missing dst.contents src.contents := by
    rw [he]
    exact Missing_congr fun x _ => Spec.lookup_perm hc d2.contents_uniq _
  rw [hm] at r3 r4
  exact ⟨r1, r2, r3.trans (hc.append_left _), r4⟩

/-! ### erase(iterator) and erase_if -/

theorem eraseIter_spec {isa : Isa} {hash : K → Nat} {t : Table K V} (h : Inv isa hash t) {pos : Nat} {n : Node K V}
    (hp : pos < t.cap) (hn : t.node pos = some n) :
    Ends isa (t.eraseIter isa pos) (fun r => Inv isa hash r.1 ∧ r.1.cap = t.cap ∧ r.1.size + 1 = t.size ∧
      t.contents.Perm ((n.key, n.val) :: r.1.contents) ∧ r.1.numEmpty = t.numEmpty ∧
      (∀ i, i ≠ pos → r.1.node i = t.node i) ∧
      r.1.elemsFrom r.2 = t.elemsFrom (pos + 1) ∧ r.2 ≤ r.1.cap ∧
      (r.2 < r.1.cap → (r.1.ctl r.2).isOccupied = true) ∧ pos < r.2) := by
  have : t.eraseIter isa pos = t.doErase isa pos := by
    simp [Table.eraseIter, end_spec h, show pos ≠ t.cap by omega]
  rw [this]
  refine (doErase_spec h hp hn).mono ?_
  rintro r ⟨h1, h2, h3, h4, h5, h6, h7, h8⟩
  have hsz : 1 ≤ t.size := by
    have := h5.length_eq
    rw [h.nodes_length] at this
    simp at this; omega
  refine ⟨h1, h2, by omega, h5.map _, h7, fun i hi => by rw [h4 i, if_neg hi], h8, h6.2.1, h6.2.2.2, ?_⟩
  have hne : r.2 ≠ pos := by
    intro e
    have h9 := h6.2.2.2 (by rw [e]; omega)
    have h10 := h1.live pos (by omega)
    rw [h4 pos, if_pos rfl, ← e, h9] at h10
    cases h10
  have := h6.1
  omega

theorem eraseIfLoop_spec {isa : Isa} {hash : K → Nat} (pred : K × V → Bool) :
    ∀ (fuel : Nat) (t : Table K V) (pos count : Nat) (calls : List (K × V)), Inv isa hash t → pos ≤ t.cap →
      (pos < t.cap → (t.ctl pos).isOccupied = true) → t.cap - pos < fuel →
      Ends isa (Table.eraseIfLoop isa pred fuel t pos t.cap count calls) (fun r => Inv isa hash r.1 ∧
        t.contents.Perm ((t.elemsFrom pos).filter pred ++ r.1.contents) ∧
        r.2.1 = count + ((t.elemsFrom pos).filter pred).length ∧
        r.2.2 = calls.reverse ++ t.elemsFrom pos ∧ r.1.cap = t.cap) := by
  intro fuel
  induction fuel with
  | zero => intro _ _ _ _ _ _ _ h; omega
  | succ fuel ih =>
    intro t pos count calls h hle hocc hf
    unfold Table.eraseIfLoop
    by_cases he : pos = t.cap
    · rw [if_pos he]
      have : t.elemsFrom pos = [] := elemsFrom_end t (by omega)
      rw [this]
      exact Ends.of_ok rfl ⟨h, List.Perm.refl _, rfl, by simp, rfl⟩
    · rw [if_neg he]
      have hp : pos < t.cap := by omega
      obtain ⟨n, hn⟩ := node_of_occupied h hp (hocc hp)
      obtain ⟨hel, hne⟩ := elemsFrom_occupied h hp hn
      rw [readNode_some hp hn]
      simp only [bind_ok]
      by_cases hpr : pred (n.key, n.val) = true
      · rw [if_pos hpr]
        refine (eraseIter_spec h hp hn).bind ?_
        rintro ⟨t', q⟩ ⟨x1, x2, x3, x4, x5, x6, x7, x8, x9, x10⟩
        simp only at x1 x2 x3 x4 x5 x6 x7 x8 x9 x10
        simp only
        rw [← x2]
        refine (ih t' q (count + 1) ((n.key, n.val) :: calls) x1 x8 x9 (by omega)).mono ?_
        rintro r ⟨r1, r2, r3, r4, r5⟩
        rw [x7] at r2 r3 r4
        rw [hel]
        refine ⟨r1, ?_, ?_, ?_, r5⟩
        · rw [List.filter_cons, if_pos hpr]
          exact x4.trans (r2.cons _)
        · rw [List.filter_cons, if_pos hpr, List.length_cons, r3]; omega
        · rw [r4]; simp
      · rw [if_neg hpr]
        refine (step_iter h hp).bind ?_
        rintro q ⟨q1, q2, q3, q4⟩
        refine (ih t q count ((n.key, n.val) :: calls) h q2 q3 (by omega)).mono ?_
        rintro r ⟨r1, r2, r3, r4, r5⟩
        rw [q4] at r2 r3 r4
        rw [hel]
        refine ⟨r1, ?_, ?_, ?_, r5⟩
        · rw [List.filter_cons, if_neg hpr]; exact r2
        · rw [List.filter_cons, if_neg hpr]; exact r3
        · rw [r4]; simp

theorem eraseIf_spec {isa : Isa} {hash : K → Nat} (pred : K × V → Bool) {t : Table K V} (h : Inv isa hash t) :
    Ends isa (t.eraseIf isa pred) (fun r => Inv isa hash r.1 ∧
      r.1.contents.Perm (t.contents.filter fun x => !pred x) ∧ r.2.1 = (t.contents.filter pred).length ∧
      r.2.2 = t.contents ∧ r.1.cap = t.cap) := by
  unfold Table.eraseIf Table.begin_
  refine (toIter_spec h (Nat.zero_le _)).bind ?_
  intro pos hpos
  rw [end_spec h]
  simp only [bind_ok]
  have he : t.elemsFrom pos = t.contents := by rw [← elemsFrom_zero]; exact (elemsFrom_next h.live hpos).symm
  refine (eraseIfLoop_spec pred (t.cap + 1) t pos 0 [] h hpos.2.1 hpos.2.2.2 (by omega)).mono ?_
  rintro r ⟨r1, r2, r3, r4, r5⟩
  rw [he] at r2 r3 r4
  refine ⟨r1, ?_, by rw [r3]; omega, by rw [r4]; rfl, r5⟩
  have h1 : (t.contents.filter pred ++ t.contents.filter fun x => !pred x).Perm t.contents :=
    List.filter_append_perm pred t.contents
  exact ((List.perm_append_left_iff _).mp (h1.trans r2)).symm

/-! ### Range insertion -/

theorem insertList_spec {isa : Isa} {hash : K → Nat} (xs : List (K × V)) :
    ∀ (t : Table K V) (m : List (K × V)), Inv isa hash t → t.contents.Perm m →
      ∃ t', xs.foldlM (fun (t : Table K V) x => do
        let (t, _, _) ← t.insert isa hash x.1 x.2
        .ok t) t = .ok t' ∧ Inv isa hash t' ∧
        t'.contents.Perm (xs.foldl (fun m x => Spec.insert m x.1 x.2) m) ∧ (NoTomb t → NoTomb t') := by
  induction xs with
  | nil => intro t m h hm; exact ⟨t, rfl, h, hm, id⟩
  | cons x xs ih =>
    intro t m h hm
    obtain ⟨t', p, b, h1, h2, hg, h3⟩ := insert_spec h x.1 x.2
    simp only [List.foldlM_cons, h1, bind_ok, List.foldl_cons]
    obtain ⟨u, u1, u2, u3, u4⟩ := ih t' (Spec.insert m x.1 x.2) h2 (by
      have hl := Spec.lookup_perm hm h.contents_uniq x.1
      unfold Spec.insert
      rcases h3 with ⟨_, h4, h5, _⟩ | ⟨w, _, h4, h5, _⟩
      · rw [← hl, h4]
        exact h5.trans (hm.cons _)
      · rw [← hl, h4, h5]
        exact hm)
    exact ⟨u, u1, u2, u3, fun hn => u4 (hg.2 hn)⟩

theorem insertRange_spec {isa : Isa} {hash : K → Nat} (ra : Bool) {t : Table K V} (h : Inv isa hash t)
    (xs : List (K × V)) :
    ∃ t', t.insertRange isa hash ra xs = .ok t' ∧ Inv isa hash t' ∧
      t'.contents.Perm (xs.foldl (fun m x => Spec.insert m x.1 x.2) t.contents) ∧ (NoTomb t → NoTomb t') := by
  unfold Table.insertRange
  cases ra with
  | false =>
    simp only [Bool.false_eq_true, if_false, bind_ok]
    exact insertList_spec xs t _ h (List.Perm.refl _)
  | true =>
    simp only [if_true]
    obtain ⟨d, d1, d2, d3, d4, d5, _, d7⟩ := reserve_spec h (t.size + xs.length)
    rw [d1]
    simp only [bind_ok]
    obtain ⟨u, u1, u2, u3, u4⟩ := insertList_spec xs d _ d2 (contents_perm d4)
    exact ⟨u, u1, u2, u3, fun hn => u4 (d7 hn)⟩

theorem withCapacity_spec {isa : Isa} {hash : K → Nat} {n m : Nat} (hn : n + 1 = 2 ^ m) :
    ∃ t : Table K V, Table.withCapacity isa n = .ok t ∧ Inv isa hash t ∧ t.contents = [] ∧ t.cap = n := by
  have h0 : (n + 1) &&& n = 0 := by
    rw [land_pow hn]
    exact Nat.mod_self _
  unfold Table.withCapacity
  rw [if_pos h0]
  refine ⟨_, rfl, fresh_inv hn rfl rfl (fun _ _ => rfl) rfl rfl, ?_, rfl⟩
  show List.map _ (collect _ _) = []
  rw [collect_none (fun _ _ => rfl)]; rfl

/-! ### Map accessors, throwing insertion -/

theorem at_spec {isa : Isa} {hash : K → Nat} {t : Table K V} (h : Inv isa hash t) (k : K) :
    t.at_ isa hash k = .ok (match Spec.lookup t.contents k with
      | some v => .value v
      | none => .outOfRange) := by
  rcases find_cases h k with ⟨i, n, hi, hn, hk, hf, hl⟩ | ⟨hno, hf, hl⟩
  · have ho : (t.ctl i).isOccupied = true := by rw [h.tag i hi n hn]; rfl
    simp [Table.at_, hf, hl, toIter_stay h (Or.inr ⟨hi, ho⟩), end_spec h, show i ≠ t.cap by omega, readNode_some hi hn]
  · simp [Table.at_, hf, hl, toIter_stay h (Or.inl rfl), end_spec h]

theorem index_spec {isa : Isa} {hash : K → Nat} {t : Table K V} (h : Inv isa hash t) (dflt : V) (k : K) :
    ∃ t' v, t.index isa hash dflt k = .ok (t', v) ∧ Inv isa hash t' ∧
      t'.contents.Perm (Spec.insert t.contents k dflt) ∧ Spec.lookup t'.contents k = some v ∧
      v = (Spec.lookup t.contents k).getD dflt ∧ GrowOk isa t t' := by
  obtain ⟨t', p, b, h1, h2, hg, h3⟩ := insert_spec h k dflt
  have key : ∀ w, t'.At p (k, w) → t.index isa hash dflt k = .ok (t', w) := by
    rintro w ⟨a1, n, a2, a3⟩
    have ho : (t'.ctl p).isOccupied = true := by rw [h2.tag p a1 n a2]; rfl
    have : n.val = w := (Prod.mk.inj a3).2
    simp [Table.index, h1, toIter_stay h2 (Or.inr ⟨a1, ho⟩), readNode_some a1 a2, this]
  rcases h3 with ⟨_, h4, h5, h6, _⟩ | ⟨w, _, h4, h5, h6⟩
  · refine ⟨t', dflt, key _ h6, h2, ?_, ?_, by rw [h4]; rfl, hg⟩
    · rw [Spec.insert, h4]; exact h5
    · rw [Spec.lookup_perm h5 h2.contents_uniq, Spec.lookup_cons]; simp
  · subst h5
    refine ⟨t', w, key _ h6, h2, ?_, h4, by rw [h4]; rfl, hg⟩
    rw [Spec.insert, h4]

theorem insertThrow_spec {isa : Isa} {hash : K → Nat} {t : Table K V} (h : Inv isa hash t) (k : K) :
    ∃ t', t.insertThrow isa hash k = .ok (t', (Spec.lookup t.contents k).isNone) ∧ Inv isa hash t' ∧
      t'.contents.Perm t.contents ∧ t'.size = t.size ∧ GrowOk isa t t' := by
  rcases find_cases h k with ⟨i, n, hi, hn, hk, hf, hl⟩ | ⟨hno, hf, hl⟩
  · refine ⟨t, ?_, h, List.Perm.refl _, rfl, GrowOk.refl isa t⟩
    simp [Table.insertThrow, hf, hl, show i ≠ t.cap by omega]
  · obtain ⟨t1, target, p1, p2, p3, p4, _, _, _, _, _, p10⟩ := prepare_spec h (hash k)
    refine ⟨t1, ?_, p2, contents_perm p3, p4, p10⟩
    simp [Table.insertThrow, hf, hl, p1]

end Tpp.Swiss
