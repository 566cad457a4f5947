import Verif.Ordered.SwissOps

/-!
# Ordered sparse containers: iteration, erasure of ranges, and whole histories
-/

set_option linter.unusedSectionVars false

namespace Tpp.OSwiss

open Tpp.Swiss (Node Ev Table Inv NoTomb)
open Tpp.Ordered

variable {K V : Type} [DecidableEq K] {c : Cfg K} {m : Mem} {t : OTable K V} {o : List Nat}

/-! ## Iteration -/

/-- The elements are linked in the order `o`, and there are `size` of them.  This is all that iteration needs. -/
structure Shows (c : Cfg K) (m : Mem) (t : OTable K V) (o : List Nat) : Prop where
  link : Linked c.sz m t.hd t.base t.core.cap t.core.node o
  size : o.length = t.core.size

theorem Rep.shows (h : Rep c m t o) : Shows c m t o := ⟨h.link, h.length⟩

/-- The element at an address. -/
def valAt (sz : Int) (t : OTable K V) (e : K × V) (a : Int) : K × V :=
  (((t.slotOf sz a).bind t.core.node).map fun n => (n.key, n.val)).getD e

theorem valAt_addr (hsz : 0 < c.sz) {i : Nat} {n : Node K V} (hi : i < t.core.cap) (hn : t.core.node i = some n) (e : K × V) :
    valAt c.sz t e (t.addr c.sz i) = (n.key, n.val) := by
  unfold valAt
  rw [slotOf_ok hsz hi, Option.bind_some, hn]
  rfl

namespace Shows

theorem ring (h : Shows c m t o) : Ring m t.hd (o.map (t.addr c.sz)) := h.link.ring

theorem map_valAt (hsz : 0 < c.sz) (h : Shows c m t o) (e : K × V) : ∀ {r : List Nat}, (∀ i ∈ r, i ∈ o) →
    (r.map (t.addr c.sz)).map (valAt c.sz t e) = seqOf t.core.node r
  | [], _ => rfl
  | i :: r, hr => by
    have hi := hr i (by simp)
    obtain ⟨n, hn⟩ := h.link.get hi
    rw [List.map_cons, List.map_cons, map_valAt hsz h e (fun j hj => hr j (List.mem_cons_of_mem _ hj)), seqOf_cons hn,
      valAt_addr hsz (h.link.lt hi) hn]

theorem elemAt_val (hsz : 0 < c.sz) (h : Shows c m t o) (e : K × V) : ∀ x ∈ o.map (t.addr c.sz),
    t.elemAt c.sz x = .ok (valAt c.sz t e x) := by
  intro x hx
  rw [List.mem_map] at hx
  obtain ⟨i, hi, rfl⟩ := hx
  obtain ⟨n, hn⟩ := h.link.get hi
  rw [elemAt_ok hsz (h.link.lt hi) hn, valAt_addr hsz (h.link.lt hi) hn]

theorem first_ok (h : Shows c m t o) : t.first m = .ok ((o.map (t.addr c.sz)).headD t.hd) := by
  unfold OTable.first
  rw [Mem.nextOf_ok h.link.hd_live]
  have := (Ring.place (l := []) h.ring).1
  rw [← this]
  rfl

theorem last_ok (h : Shows c m t o) : m.prevOf t.hd = .ok ((o.map (t.addr c.sz)).getLastD t.hd) := by
  rw [Mem.prevOf_ok h.link.hd_live]
  have := (Ring.place (r := []) (by rw [List.append_nil]; exact h.ring)).2
  rw [← this]
  rfl

/-- Forward iteration. -/
theorem iterate_ok (hsz : 0 < c.sz) (h : Shows c m t o) :
    walk m t.hd (t.elemAt c.sz) (t.core.size + 1) ((o.map (t.addr c.sz)).headD t.hd) = .ok (seqOf t.core.node o) := by
  cases ho : o with
  | nil => simp [walk, seqOf]
  | cons i o' =>
    obtain ⟨n, hn⟩ := h.link.get (i := i) (by rw [ho]; simp)
    rw [← ho, ← map_valAt hsz h (n.key, n.val) (fun i hi => hi)]
    refine walk_ok (l := []) h.ring (elemAt_val hsz h _) ?_
    rw [List.length_map, h.size]
    omega

/-- Backward iteration. -/
theorem reverse_ok (hsz : 0 < c.sz) (h : Shows c m t o) :
    rwalk m ((o.map (t.addr c.sz)).headD t.hd) (t.elemAt c.sz) (t.core.size + 1) t.hd = .ok (seqOf t.core.node o).reverse := by
  cases ho : o with
  | nil => simp [rwalk, seqOf]
  | cons i o' =>
    obtain ⟨n, hn⟩ := h.link.get (i := i) (by rw [ho]; simp)
    rw [← ho, ← map_valAt hsz h (n.key, n.val) (fun i hi => hi), ← List.map_reverse]
    refine rwalk_ok h.ring (elemAt_val hsz h _) (l := (o.map (t.addr c.sz)).reverse) (r := []) (by simp) ?_
    rw [List.length_reverse, List.length_map, h.size]
    omega

end Shows

theorem map_valAt (hsz : 0 < c.sz) (h : Rep c m t o) (e : K × V) {r : List Nat} (hr : ∀ i ∈ r, i ∈ o) :
    (r.map (t.addr c.sz)).map (valAt c.sz t e) = seqOf t.core.node r := h.shows.map_valAt hsz e hr

theorem elemAt_val (hsz : 0 < c.sz) (h : Rep c m t o) (e : K × V) : ∀ x ∈ o.map (t.addr c.sz),
    t.elemAt c.sz x = .ok (valAt c.sz t e x) := h.shows.elemAt_val hsz e

theorem first_ok (h : Rep c m t o) : t.first m = .ok ((o.map (t.addr c.sz)).headD t.hd) := h.shows.first_ok

theorem last_ok (h : Rep c m t o) : m.prevOf t.hd = .ok ((o.map (t.addr c.sz)).getLastD t.hd) := h.shows.last_ok

/-- Forward iteration. -/
theorem iterate_ok (hsz : 0 < c.sz) (h : Rep c m t o) :
    walk m t.hd (t.elemAt c.sz) (t.core.size + 1) ((o.map (t.addr c.sz)).headD t.hd) = .ok (seqOf t.core.node o) :=
  h.shows.iterate_ok hsz

/-- Backward iteration. -/
theorem reverse_ok (hsz : 0 < c.sz) (h : Rep c m t o) :
    rwalk m ((o.map (t.addr c.sz)).headD t.hd) (t.elemAt c.sz) (t.core.size + 1) t.hd = .ok (seqOf t.core.node o).reverse :=
  h.shows.reverse_ok hsz

theorem nth_ok (h : Rep c m t o) {n : Nat} (hn : n ≤ t.core.size) :
    t.nth m n = .ok (((o.drop n).map (t.addr c.sz)).headD t.hd) := by
  unfold OTable.nth
  rw [first_ok h, bind_ok, advance_ok (l := []) h.ring (by rw [List.length_map, h.length]; exact hn), List.map_drop]

theorem nth_split {o1 o2 : List Nat} (h : Rep c m t (o1 ++ o2)) : t.nth m o1.length = .ok ((o2.map (t.addr c.sz)).headD t.hd) := by
  have hl := h.length
  rw [List.length_append] at hl
  rw [nth_ok h (by omega), List.drop_left]

theorem nth_end (h : Rep c m t o) : t.nth m t.core.size = .ok t.hd := by
  rw [nth_ok h (Nat.le_refl _), ← h.length, List.drop_length]
  rfl

theorem take_seqOf (h : Rep c m t o) (n : Nat) : seqOf t.core.node (o.take n) = (seqOf t.core.node o).take n ∧
    seqOf t.core.node (o.drop n) = (seqOf t.core.node o).drop n := by
  have h1 : (seqOf t.core.node (o.take n)).length = min n o.length := by
    rw [seqOf_length (fun i hi => h.link.isSome i (List.mem_of_mem_take hi)), List.length_take]
  have h2 : seqOf t.core.node o = seqOf t.core.node (o.take n) ++ seqOf t.core.node (o.drop n) := by
    rw [← seqOf_append, List.take_append_drop]
  rcases Nat.le_total n o.length with q | q
  · rw [Nat.min_eq_left q] at h1
    rw [h2]
    exact ⟨(List.take_left' h1).symm, (List.drop_left' h1).symm⟩
  · have h3 := seqOf_length h.link.isSome
    rw [List.take_of_length_le q, List.drop_of_length_le q, List.take_of_length_le (by omega), List.drop_of_length_le (by omega)]
    exact ⟨rfl, rfl⟩

/-- The order split at position `n`. -/
theorem split_at (h : Rep c m t o) {n : Nat} (hn : n < t.core.size) :
    ∃ o1 i o2, o = o1 ++ i :: o2 ∧ o1.length = n ∧ i ∈ o ∧ seqOf t.core.node o1 = (seqOf t.core.node o).take n ∧
      seqOf t.core.node o2 = (seqOf t.core.node o).drop (n + 1) := by
  have ho : n < o.length := by rw [h.length]; exact hn
  refine ⟨o.take n, o[n], o.drop (n + 1), by rw [← List.drop_eq_getElem_cons ho, List.take_append_drop], by rw [List.length_take]; omega,
    List.getElem_mem ho, (take_seqOf h n).1, (take_seqOf h (n + 1)).2⟩

/-! ## Erasing a range -/

/-- The loop of `erase(first, last)`: `mid` is the range, `last` an address whose link designates the end of `mid`. -/
theorem eraseRange_ok (hsz : 0 < c.sz) {first : Int} : ∀ {fuel : Nat} {mid : List Nat} {m : Mem} {t : OTable K V} {o1 o2 : List Nat}
    {last result : Int}, Rep c m t (o1 ++ mid ++ o2) → last ∈ m.live →
    (∀ x, mid.getLast? = some x → m.prv last = t.addr c.sz x ∧ last ≠ first) →
    (∀ x, mid.head? = some x → first = t.addr c.sz x) → (mid = [] → last = first) → mid.length < fuel →
    ∃ m' t', OTable.eraseRange c first fuel m t last result =
        .ok (m', t', if mid = [] then result else (o2.map (t.addr c.sz)).headD t.hd) ∧
      Rep c m' t' (o1 ++ o2) ∧ (∀ i ∈ o1 ++ o2, t'.core.node i = t.core.node i) ∧ t'.hd = t.hd ∧ t'.base = t.base ∧
      t'.core.cap = t.core.cap ∧ Frame m m' (t.foot c.sz) (t.foot c.sz)
  | 0, _, _, _, _, _, _, _, _, _, _, _, _, hf => absurd hf (Nat.not_lt_zero _)
  | fuel + 1, mid, m, t, o1, o2, last, result, h, hl, h1, h2, h3, hf => by
    unfold OTable.eraseRange
    rcases List.eq_nil_or_concat mid with rfl | ⟨mid', x, rfl⟩
    · rw [if_pos (h3 rfl)]
      rw [List.append_nil] at h
      exact ⟨m, t, rfl, h, fun _ _ => rfl, rfl, rfl, rfl, Frame.refl _ _⟩
    · rw [List.concat_eq_append] at h h1 h2 hf ⊢
      obtain ⟨p1, p2⟩ := h1 x (by simp)
      have h' : Rep c m t ((o1 ++ mid') ++ x :: o2) := by simpa using h
      obtain ⟨m1, t1, e1, he⟩ := eraseIter_ok hsz h'
      rw [if_neg p2, Mem.prevOf_ok hl, bind_ok, p1, e1, bind_ok]
      have hnd := List.perm_middle.nodup_iff.mp h'.link.nodup
      rw [List.nodup_cons] at hnd
      have hx : x ∈ o1 ++ mid' ++ x :: o2 := by simp
      have hlive : t.addr c.sz x ∈ m1.live := by
        exact he.rep.link.foot_live _ (by
          have := h'.link.slot hx
          rw [he.base, he.cap]
          exact List.mem_cons_of_mem _ this)
      obtain ⟨m2, t2, e2, q1, q2, q3, q4, q5, q6⟩ := eraseRange_ok (fuel := fuel) (mid := mid') (first := first) (o1 := o1) (o2 := o2)
        (last := t.addr c.sz x) (result := (o2.map (t.addr c.sz)).headD t.hd) hsz he.rep hlive (by
          intro y hy
          have hym : y ∈ mid' := List.mem_of_getLast? hy
          constructor
          · obtain ⟨r, rfl⟩ : ∃ r, mid' = r ++ [y] := by
              rcases List.eq_nil_or_concat mid' with q | ⟨r, z, q⟩
              · rw [q] at hy; cases hy
              · rw [List.concat_eq_append] at q
                refine ⟨r, ?_⟩
                rw [q] at hy ⊢
                rw [List.getLast?_concat] at hy
                rw [Option.some.inj hy]
            have hr := h'.ring
            rw [List.map_append, List.map_cons] at hr
            have := hr.around.2
            have hp : m1.prv (t.addr c.sz x) = m.prv (t.addr c.sz x) := by
              unfold Mem.prv
              rw [he.stale]
            rw [hp, this, he.addr]
            simp
          · intro q
            obtain ⟨z, hz⟩ : ∃ z, mid'.head? = some z := by
              cases hm : mid' with
              | nil => rw [hm] at hym; cases hym
              | cons z r => exact ⟨z, rfl⟩
            have := h2 z (by rw [List.head?_append, hz]; rfl)
            have hzx := addr_inj hsz (q.trans this)
            refine hnd.1 ?_
            rw [hzx]
            exact List.mem_append_left _ (List.mem_append_right _ (List.mem_of_mem_head? hz))) (by
          intro y hy
          rw [he.addr]
          exact h2 y (by rw [List.head?_append, hy]; rfl)) (by
          rintro rfl
          exact (h2 x rfl).symm) (by simp at hf; omega)
      refine ⟨m2, t2, ?_, q1, ?_, q3.trans he.hd, q4.trans he.base, q5.trans he.cap, ?_⟩
      · rw [e2, he.addr, he.hd]
        simp
      · intro i hi
        rw [q2 i hi, he.node, upd_ne _ _ (show i ≠ x from ?_)]
        rintro rfl
        refine hnd.1 ?_
        rw [List.mem_append] at hi ⊢
        exact hi.imp_left (List.mem_append_left _)
      · have : t1.foot c.sz = t.foot c.sz := by unfold OTable.foot; rw [he.hd, he.base, he.cap]
        rw [this] at q6
        exact he.frame.trans q6

/-- `erase(std::next(begin(), i), std::next(begin(), j))`. -/
theorem eraseRange_nth (hsz : 0 < c.sz) (h : Rep c m t o) {i j : Nat} (hij : i ≤ j) (hj : j ≤ t.core.size) :
    ∃ a b m' t' r, t.nth m i = .ok a ∧ t.nth m j = .ok b ∧ OTable.eraseRange c a (t.core.size + 1) m t b t.hd = .ok (m', t', r) ∧
      Becomes c m t m' t' ((seqOf t.core.node o).take i ++ (seqOf t.core.node o).drop j) ∧
      (i = j → r = t'.hd) ∧ (i < j → r = b ∧ t'.nth m' i = .ok r) := by
  have hlen := h.length
  obtain ⟨o1, mid, o2, ho, hl1, hl2⟩ : ∃ o1 mid o2, o = o1 ++ mid ++ o2 ∧ o1.length = i ∧ mid.length = j - i := by
    refine ⟨o.take i, (o.drop i).take (j - i), o.drop j, ?_, by rw [List.length_take]; omega, by
      rw [List.length_take, List.length_drop]; omega⟩
    rw [List.append_assoc]
    have : (o.drop i).take (j - i) ++ o.drop j = o.drop i := by
      conv => rhs; rw [← List.take_append_drop (j - i) (o.drop i)]
      rw [List.drop_drop, show i + (j - i) = j by omega]
    rw [this, List.take_append_drop]
  subst ho
  have hb : t.nth m j = .ok ((o2.map (t.addr c.sz)).headD t.hd) := by
    have := nth_split h
    rw [List.length_append, hl1, hl2, show i + (j - i) = j by omega] at this
    exact this
  have ha : t.nth m i = .ok (((mid ++ o2).map (t.addr c.sz)).headD t.hd) := by
    rw [List.append_assoc] at h
    have := nth_split h
    rw [hl1] at this
    exact this
  have hring : Ring m t.hd ((o1 ++ mid).map (t.addr c.sz) ++ o2.map (t.addr c.sz)) := by
    rw [← List.map_append]; exact h.ring
  have hbm := Ring.right_mem (hd := t.hd) ((o1 ++ mid).map (t.addr c.sz)) (o2.map (t.addr c.sz))
  obtain ⟨m', t', e, q1, q2, q3, q4, q5, q6⟩ := eraseRange_ok (first := ((mid ++ o2).map (t.addr c.sz)).headD t.hd) (fuel := t.core.size + 1)
    (last := (o2.map (t.addr c.sz)).headD t.hd) (result := t.hd) hsz h (hring.live _ hbm) (by
      intro x hx
      constructor
      · rw [hring.place.2]
        have : (o1 ++ mid).getLast? = some x := by rw [List.getLast?_append, hx]; rfl
        rw [List.getLastD_eq_getLast?, List.getLast?_map, this]
        rfl
      · cases mid with
        | nil => cases hx
        | cons y mid =>
          rw [List.cons_append, List.map_cons, List.headD_cons]
          intro q
          have hy : t.addr c.sz y ∈ (o1 ++ y :: mid).map (t.addr c.sz) := List.mem_map.mpr ⟨y, by simp, rfl⟩
          have hn := hring.nodup
          rw [List.nodup_cons, List.nodup_append] at hn
          rw [← q] at hy
          rcases List.mem_cons.mp (headD_mem (o2.map (t.addr c.sz)) t.hd) with g | g
          · rw [g] at hy
            exact hn.1 (List.mem_append_left _ hy)
          · exact hn.2.2.2 _ hy _ g rfl) (by
      intro x hx
      cases mid with
      | nil => cases hx
      | cons y mid => cases hx; rfl) (by rintro rfl; rfl) (by
      have := h.length
      simp only [List.length_append] at this
      omega)
  refine ⟨_, _, m', t', _, ha, hb, e, ⟨⟨o1 ++ o2, q1, ?_⟩, q3, ?_⟩, ?_, ?_⟩
  · rw [seqOf_congr q2, seqOf_append]
    have h1 := (take_seqOf h i).1
    have h2 := (take_seqOf h j).2
    rw [List.append_assoc, List.take_left' hl1, ← List.append_assoc] at h1
    rw [List.drop_left' (by rw [List.length_append]; omega)] at h2
    rw [h1, h2]
  · have : t'.foot c.sz = t.foot c.sz := by unfold OTable.foot; rw [q3, q4, q5]
    rw [this]
    exact q6
  · intro hij'
    have : mid = [] := List.length_eq_zero_iff.mp (by omega)
    rw [if_pos this, q3]
  · intro hij'
    have : mid ≠ [] := fun q => by rw [q, List.length_nil] at hl2; omega
    rw [if_neg this]
    refine ⟨rfl, ?_⟩
    have := nth_split q1
    rw [hl1] at this
    rw [this, q3]
    have : t'.addr c.sz = t.addr c.sz := by funext n; unfold OTable.addr; rw [q4]
    rw [this]

/-- `erase_if`. -/
theorem eraseIf_ok (hsz : 0 < c.sz) (p : K × V → Bool) : ∀ (fuel : Nat) {m : Mem} {t : OTable K V} {o1 o2 : List Nat} (n : Nat),
    Rep c m t (o1 ++ o2) → o2.length < fuel →
    ∃ m' t', OTable.eraseIf c p fuel m t ((o2.map (t.addr c.sz)).headD t.hd) n = .ok (m', t', n + ((seqOf t.core.node o2).filter p).length) ∧
      Becomes c m t m' t' (seqOf t.core.node o1 ++ (seqOf t.core.node o2).filter (fun e => !p e))
  | 0, _, _, _, _, _, _, hf => absurd hf (Nat.not_lt_zero _)
  | fuel + 1, m, t, o1, [], n, h, _ => by
    refine ⟨m, t, ?_, ?_⟩
    · simp [OTable.eraseIf, seqOf]
    · have := Becomes.refl h
      rw [seqOf_append] at this
      exact this
  | fuel + 1, m, t, o1, i :: o2, n, h, hf => by
    have hi : i ∈ o1 ++ i :: o2 := by simp
    obtain ⟨x, hx⟩ := h.link.get hi
    rw [seqOf_cons hx]
    simp only [List.map_cons, List.headD_cons, OTable.eraseIf]
    rw [if_neg (h.addr_ne hi), h.elem hsz hi hx, bind_ok]
    cases hp : p (x.key, x.val) with
    | false =>
      simp only [Bool.false_eq_true, if_false]
      have hr : Ring m t.hd (o1.map (t.addr c.sz) ++ t.addr c.sz i :: o2.map (t.addr c.sz)) := by
        have := h.ring
        rwa [List.map_append, List.map_cons] at this
      rw [Mem.nextOf_ok (h.addr_live hi), bind_ok, hr.around.1]
      have h' : Rep c m t ((o1 ++ [i]) ++ o2) := by rw [List.append_assoc]; exact h
      have := eraseIf_ok hsz p fuel n h' (by simp at hf; omega)
      rw [List.filter_cons_of_neg (by simp [hp]), List.filter_cons_of_pos (by simp [hp])]
      rw [seqOf_append, seqOf_cons hx, List.append_assoc] at this
      exact this
    | true =>
      simp only [if_true]
      obtain ⟨m1, t1, e1, he⟩ := eraseIter_ok hsz h
      rw [e1, bind_ok]
      obtain ⟨m2, t2, e2, h2⟩ := eraseIf_ok hsz p fuel (n + 1) he.rep (by simp at hf; omega)
      rw [he.addr, he.hd, he.seq h (fun i hi => List.mem_append_right _ hi)] at e2
      rw [he.seq h (fun i hi => List.mem_append_left _ hi), he.seq h (fun i hi => List.mem_append_right _ hi)] at h2
      rw [List.filter_cons_of_pos (by simp [hp]), List.filter_cons_of_neg (by simp [hp])]
      refine ⟨m2, t2, ?_, (he.becomes h).trans h2⟩
      rw [e2, List.length_cons, Nat.add_assoc, Nat.add_comm 1]

/-! ## Room after erasures -/

/-- Same control bytes budget and capacity. -/
def SameRoom (t t' : OTable K V) : Prop := t'.core.numEmpty = t.core.numEmpty ∧ t'.core.cap = t.core.cap

theorem SameRoom.room {t' : OTable K V} (h : SameRoom t t') {n : Nat} (q : Room t n) : Room t' n :=
  ⟨by rw [h.1]; exact q.1, by rw [h.2]; exact q.2⟩

theorem SameRoom.trans {t' t'' : OTable K V} (h : SameRoom t t') (h' : SameRoom t' t'') : SameRoom t t'' :=
  ⟨h'.1.trans h.1, h'.2.trans h.2⟩

theorem eraseNode_room {isa : Isa} {x x' : Table K V} {pos : Nat} (h : x.eraseNode isa pos = .ok x') :
    x'.numEmpty = x.numEmpty ∧ x'.cap = x.cap := by
  unfold Table.eraseNode at h
  split at h
  case isFalse => cases h
  obtain ⟨_, _, h⟩ := Dense.bind_eq_ok h
  split at h
  case isFalse => cases h
  obtain ⟨d, h1, h⟩ := Dense.bind_eq_ok h
  have e1 := setMetadata_numEmpty h1
  have e2 := (Swiss.setMetadata_node h1).2.1
  split at h
  · cases h
    exact ⟨e1, e2⟩
  · cases h

theorem destroy_room {x x' : Table K V} {pos : Nat} (h : x.destroy pos = .ok x') : x'.numEmpty = x.numEmpty ∧ x'.cap = x.cap := by
  obtain ⟨_, _, rfl⟩ := Swiss.destroy_eq h
  exact ⟨rfl, rfl⟩

theorem doErase_room {r : Mem × OTable K V × Int} {pos : Nat} (h : t.doErase c m pos = .ok r) : SameRoom t r.2.1 := by
  unfold OTable.doErase OTable.eraseCore at h
  obtain ⟨_, _, h⟩ := Dense.bind_eq_ok h
  obtain ⟨x, h1, h⟩ := Dense.bind_eq_ok h
  obtain ⟨y, h2, h1⟩ := Dense.bind_eq_ok h1
  cases h
  have a := eraseNode_room h2
  have b := destroy_room h1
  exact ⟨b.1.trans a.1, b.2.trans a.2⟩

theorem eraseIter_room {r : Mem × OTable K V × Int} {a : Int} (h : t.eraseIter c m a = .ok r) : SameRoom t r.2.1 := by
  unfold OTable.eraseIter at h
  split at h
  · cases h; exact ⟨rfl, rfl⟩
  · split at h
    · cases h
    · exact doErase_room h

theorem erase_room {r : Mem × OTable K V × Int} {k : K} (h : t.erase c m k = .ok r) : SameRoom t r.2.1 := by
  unfold OTable.erase at h
  obtain ⟨_, _, h⟩ := Dense.bind_eq_ok h
  split at h
  · cases h; exact ⟨rfl, rfl⟩
  · exact doErase_room h

theorem extract_room {r : Mem × OTable K V × Option (K × V)} {k : K} (h : t.extract c m k = .ok r) : SameRoom t r.2.1 := by
  unfold OTable.extract at h
  obtain ⟨_, _, h⟩ := Dense.bind_eq_ok h
  split at h
  · cases h; exact ⟨rfl, rfl⟩
  · obtain ⟨q, h1, h⟩ := Dense.bind_eq_ok h
    cases h
    unfold OTable.extractAt OTable.extractCore at h1
    obtain ⟨_, _, h1⟩ := Dense.bind_eq_ok h1
    obtain ⟨x, h2, h1⟩ := Dense.bind_eq_ok h1
    obtain ⟨y, h3, h2⟩ := Dense.bind_eq_ok h2
    obtain ⟨n, _, h2⟩ := Dense.bind_eq_ok h2
    obtain ⟨z, h4, h2⟩ := Dense.bind_eq_ok h2
    cases h2
    cases h1
    have a := eraseNode_room h3
    have b := destroy_room h4
    exact ⟨b.1.trans a.1, b.2.trans a.2⟩

theorem eraseRange_room {first : Int} : ∀ {fuel : Nat} {m : Mem} {t : OTable K V} {last result : Int} {r : Mem × OTable K V × Int},
    OTable.eraseRange c first fuel m t last result = .ok r → SameRoom t r.2.1
  | 0, _, _, _, _, _, h => by cases h
  | fuel + 1, m, t, last, result, r, h => by
    unfold OTable.eraseRange at h
    split at h
    · cases h; exact ⟨rfl, rfl⟩
    · obtain ⟨p, _, h⟩ := Dense.bind_eq_ok h
      obtain ⟨q, h1, h⟩ := Dense.bind_eq_ok h
      exact (eraseIter_room h1).trans (eraseRange_room h)

theorem eraseIf_room {p : K × V → Bool} : ∀ {fuel : Nat} {m : Mem} {t : OTable K V} {a : Int} {n : Nat} {r : Mem × OTable K V × Nat},
    OTable.eraseIf c p fuel m t a n = .ok r → SameRoom t r.2.1
  | 0, _, _, _, _, _, h => by cases h
  | fuel + 1, m, t, a, n, r, h => by
    unfold OTable.eraseIf at h
    split at h
    · cases h; exact ⟨rfl, rfl⟩
    · obtain ⟨e, _, h⟩ := Dense.bind_eq_ok h
      split at h
      · obtain ⟨q, h1, h⟩ := Dense.bind_eq_ok h
        exact (eraseIter_room h1).trans (eraseIf_room h)
      · obtain ⟨b, _, h⟩ := Dense.bind_eq_ok h
        exact eraseIf_room h

/-! ## Histories -/

/-- The operations that erase single elements, which leaves erased slots. -/
def Op.erases : Op K V → Bool
  | .erase _ => true
  | .eraseNth _ => true
  | .eraseRange _ _ => true
  | .eraseIf _ => true
  | .extract _ => true
  | _ => false

/-- The number of elements an operation may insert. -/
def Op.inserts : Op K V → Nat
  | .insert _ _ => 1
  | .assign _ _ => 1
  | .index _ _ => 1
  | .insertRange _ xs => xs.length
  | .assignRange _ xs => xs.length
  | _ => 0

/-- `rehash` may give up room. -/
def Op.rehashes : Op K V → Bool
  | .rehash _ => true
  | _ => false

/-- One operation.  `b` is implied if the nodes may be exchanged, which neither happens without erased slots nor with enough room. -/
theorem step_ok (hsz : 0 < c.sz) (hA : c.A.Sound c.sz) (hst : c.strict = true) {s : List (K × V)} (h : Holds c m t s) (op : Op K V)
    {b : Prop} (hb : b ∨ NoTomb t.core ∨ Room t op.inserts) :
    Okay b (t.step c m op) (fun r => r.2.2 = (Spec.step s op).2 ∧ Becomes c m t r.1 r.2.1 (Spec.step s op).1 ∧
      (op.erases = false → NoTomb t.core → NoTomb r.2.1.core) ∧
      (op.rehashes = false → ∀ n, Room t (op.inserts + n) → Room r.2.1 n)) := by
  obtain ⟨o, h, rfl⟩ := h
  cases op with
  | insert k v =>
    simp only [OTable.step, Spec.step]
    refine Okay.bind ((insert_ok hsz hA hst h (hb.imp_right (Or.imp_right fun q => q.1)) k v).with
      (Q := fun r => ∀ n, Room t (n + 1) → Room r.2.1 n) (fun r e n q => Room.insert e q)) id ?_
    rintro ⟨m1, t1, a, b⟩ ⟨⟨h1, h2, h3, h4⟩, h5⟩
    simp only at h1 h2 h3 h4 h5 ⊢
    rw [h1, bind_ok, h2]
    exact Okay.ok ⟨rfl, h3, fun _ => h4, fun _ n q => h5 n (q.mono (by simp only [Op.inserts]; omega))⟩
  | assign k v =>
    simp only [OTable.step, Spec.step]
    refine Okay.bind ((assign_ok hsz hA hst h (hb.imp_right (Or.imp_right fun q => q.1)) k v).with
      (Q := fun r => ∀ n, Room t (n + 1) → Room r.2.1 n) (fun r e n q => Room.assign e q)) id ?_
    rintro ⟨m1, t1, a, b⟩ ⟨⟨h1, h2, h3, h4⟩, h5⟩
    simp only at h1 h2 h3 h4 h5 ⊢
    rw [h1, bind_ok, h2]
    exact Okay.ok ⟨rfl, h3, fun _ => h4, fun _ n q => h5 n (q.mono (by simp only [Op.inserts]; omega))⟩
  | index k v =>
    simp only [OTable.step, Spec.step]
    refine Okay.bind ((insert_ok hsz hA hst h (hb.imp_right (Or.imp_right fun q => q.1)) k v).with
      (Q := fun r => ∀ n, Room t (n + 1) → Room r.2.1 n) (fun r e n q => Room.insert e q)) id ?_
    rintro ⟨m1, t1, a, b⟩ ⟨⟨h1, h2, h3, h4⟩, h5⟩
    simp only at h1 h2 h3 h4 h5 ⊢
    rw [h1, bind_ok]
    exact Okay.ok ⟨rfl, h3, fun _ => h4, fun _ n q => h5 n (q.mono (by simp only [Op.inserts]; omega))⟩
  | erase k =>
    obtain ⟨m1, t1, a, e1, e2, h1⟩ := erase_ok hsz h k
    simp only [OTable.step, Spec.step]
    rw [e1, bind_ok, e2, bind_ok]
    exact Okay.ok ⟨rfl, h1, fun q => (by cases q), fun _ n q => (erase_room e1).room (q.mono (by simp [Op.inserts]))⟩
  | eraseNth n =>
    simp only [OTable.step, Spec.step]
    rw [seqOf_length h.link.isSome, h.length]
    by_cases hn : n < t.core.size
    · obtain ⟨o1, i, o2, rfl, hlen, hi, s1, s2⟩ := split_at h hn
      obtain ⟨m1, t1, e1, he⟩ := eraseIter_ok hsz h
      have hnth := nth_split h
      rw [hlen, List.map_cons, List.headD_cons] at hnth
      rw [if_pos hn, if_pos hn, hnth, bind_ok, e1, bind_ok]
      simp only
      rw [he.deref hsz h, bind_ok]
      refine Okay.ok ⟨?_, ?_, fun q => (by cases q), fun _ n q => (eraseIter_room e1).room (q.mono (by simp [Op.inserts]))⟩
      · rw [s2, List.head?_drop]
      · have := he.becomes h
        rw [s1, s2, ← List.eraseIdx_eq_take_drop_succ] at this
        exact this
    · rw [if_neg hn, if_neg hn, List.eraseIdx_of_length_le (by rw [seqOf_length h.link.isSome, h.length]; omega)]
      exact Okay.ok ⟨rfl, Becomes.refl h, fun q => (by cases q), fun _ n q => q.mono (by simp [Op.inserts])⟩
  | eraseRange i j =>
    simp only [OTable.step, Spec.step]
    rw [seqOf_length h.link.isSome, h.length]
    by_cases hg : i ≤ j ∧ j ≤ t.core.size
    · obtain ⟨a, b, m', t', r, e1, e2, e3, h1, _⟩ := eraseRange_nth hsz h hg.1 hg.2
      rw [if_pos hg, if_pos hg, e1, bind_ok, e2, bind_ok, e3, bind_ok]
      exact Okay.ok ⟨rfl, h1, fun q => (by cases q), fun _ n q => (eraseRange_room e3).room (q.mono (by simp [Op.inserts]))⟩
    · rw [if_neg hg, if_neg hg]
      exact Okay.ok ⟨rfl, Becomes.refl h, fun q => (by cases q), fun _ n q => q.mono (by simp [Op.inserts])⟩
  | eraseIf p =>
    simp only [OTable.step, Spec.step]
    obtain ⟨m', t', e, h1⟩ := eraseIf_ok (o1 := []) hsz p (t.core.size + 1) 0 h (by rw [h.length]; omega)
    rw [first_ok h, bind_ok, e, bind_ok]
    refine Okay.ok ⟨?_, h1, fun q => (by cases q), fun _ n q => (eraseIf_room e).room (q.mono (by simp [Op.inserts]))⟩
    rw [Nat.zero_add]
  | extract k =>
    obtain ⟨m1, t1, e1, h1⟩ := extract_ok hsz h k
    simp only [OTable.step, Spec.step]
    rw [e1, bind_ok]
    exact Okay.ok ⟨rfl, h1, fun q => (by cases q), fun _ n q => (extract_room e1).room (q.mono (by simp [Op.inserts]))⟩
  | insertRange ra xs =>
    simp only [OTable.step, Spec.step]
    refine Okay.bind (insertRange_ok hsz hA hst h ra xs hb) id ?_
    rintro ⟨m1, t1⟩ ⟨h1, h2, h3⟩
    exact Okay.ok ⟨rfl, h1, fun _ => h2, fun _ => h3⟩
  | assignRange ra xs =>
    obtain ⟨m0, t0, e0, h0, hd0, f0, n0, c0, r0⟩ := clear_ok h
    simp only [OTable.step, Spec.step]
    rw [e0, bind_ok]
    have hroom : ∀ n, Room t n → Room t0 n := by
      intro n q
      rcases q.2 with g | g
      · exact ⟨by omega, Or.inl g⟩
      · exact ⟨Nat.le_trans q.1 (r0 g), Or.inr (by rw [c0]; exact g)⟩
    refine Okay.bind (insertRange_ok hsz hA hst h0 ra xs (hb.imp_right (Or.imp n0 (hroom _)))) id ?_
    rintro ⟨m1, t1⟩ ⟨h1, h2, h3⟩
    exact Okay.ok ⟨rfl, ⟨h1.holds, h1.hd.trans hd0, f0.trans h1.frame⟩, fun _ q => h2 (n0 q), fun _ n q => h3 n (hroom _ q)⟩
  | clear =>
    obtain ⟨m0, t0, e0, h0, hd0, f0, n0, c0, r0⟩ := clear_ok h
    simp only [OTable.step, Spec.step]
    rw [e0, bind_ok]
    refine Okay.ok ⟨rfl, ⟨⟨_, h0, rfl⟩, hd0, f0⟩, fun _ => n0, ?_⟩
    intro _ n q
    have q := q.mono (k' := n) (by simp [Op.inserts])
    rcases q.2 with g | g
    · exact ⟨by omega, Or.inl g⟩
    · exact ⟨Nat.le_trans q.1 (r0 g), Or.inr (by rw [c0]; exact g)⟩
  | reserve n =>
    obtain ⟨m0, t0, e0, h0, n0, _, h3, h4⟩ := reserve_ok hsz hA hst h n
    simp only [OTable.step, Spec.step]
    rw [e0, bind_ok]
    refine Okay.ok ⟨rfl, h0, fun _ => n0, ?_⟩
    intro _ n q
    have q := q.mono (k' := n) (by simp [Op.inserts])
    exact ⟨Nat.le_trans q.1 h3, q.2.imp_right h4⟩
  | rehash n =>
    obtain ⟨m0, t0, e0, h0, n0, _⟩ := rehash_ok hsz hA hst h (n := n + 1) (by omega)
    simp only [OTable.step, Spec.step]
    rw [e0, bind_ok]
    exact Okay.ok ⟨rfl, h0, fun _ => n0, fun q => (by cases q)⟩
  | find k =>
    simp only [OTable.step, Spec.step]
    rcases h.cases k with ⟨i, n, hio, hi, hn, hk, hf, hl⟩ | ⟨hno, hf, hl⟩
    · rw [hf, bind_ok, hl]
      unfold OTable.iterAt OTable.deref
      rw [if_pos hi, if_neg (h.addr_ne hio), h.elem hsz hio hn, bind_ok, bind_ok]
      exact Okay.ok ⟨rfl, Becomes.refl h, fun _ q => q, fun _ n q => q.mono (by simp [Op.inserts])⟩
    · rw [hf, bind_ok, hl]
      unfold OTable.iterAt OTable.deref
      rw [if_neg (Nat.lt_irrefl _), if_pos rfl, bind_ok]
      exact Okay.ok ⟨rfl, Becomes.refl h, fun _ q => q, fun _ n q => q.mono (by simp [Op.inserts])⟩
  | contains k =>
    simp only [OTable.step, Spec.step]
    unfold Table.contains
    rcases h.cases k with ⟨i, n, hio, hi, hn, hk, hf, hl⟩ | ⟨hno, hf, hl⟩
    · rw [hf, bind_ok, bind_ok, hl]
      refine Okay.ok ⟨?_, Becomes.refl h, fun _ q => q, fun _ n q => q.mono (by simp [Op.inserts])⟩
      have : (i != t.core.cap) = true := by simp; omega
      rw [this]
      rfl
    · rw [hf, bind_ok, bind_ok, hl]
      refine Okay.ok ⟨?_, Becomes.refl h, fun _ q => q, fun _ n q => q.mono (by simp [Op.inserts])⟩
      simp
  | size =>
    simp only [OTable.step, Spec.step]
    rw [seqOf_length h.link.isSome, h.length]
    exact Okay.ok ⟨rfl, Becomes.refl h, fun _ q => q, fun _ n q => q.mono (by simp [Op.inserts])⟩
  | front =>
    simp only [OTable.step, Spec.step]
    by_cases e : t.core.size = 0
    · have : o = [] := List.length_eq_zero_iff.mp (by rw [h.length, e])
      subst this
      rw [if_pos e]
      exact Okay.ok ⟨rfl, Becomes.refl h, fun _ q => q, fun _ n q => q.mono (by simp [Op.inserts])⟩
    · obtain ⟨i, o', ho⟩ : ∃ i o', o = i :: o' := List.exists_cons_of_ne_nil (fun q => e (by rw [← h.length, q]; rfl))
      have hi : i ∈ o := by rw [ho]; simp
      obtain ⟨n, hn⟩ := h.link.get hi
      have e1 := first_ok h
      rw [ho, List.map_cons, List.headD_cons] at e1
      rw [if_neg e, e1, bind_ok, h.elem hsz hi hn, bind_ok]
      refine Okay.ok ⟨?_, Becomes.refl h, fun _ q => q, fun _ n q => q.mono (by simp [Op.inserts])⟩
      rw [ho, seqOf_cons hn]
      rfl
  | back =>
    simp only [OTable.step, Spec.step]
    by_cases e : t.core.size = 0
    · have : o = [] := List.length_eq_zero_iff.mp (by rw [h.length, e])
      subst this
      rw [if_pos e]
      exact Okay.ok ⟨rfl, Becomes.refl h, fun _ q => q, fun _ n q => q.mono (by simp [Op.inserts])⟩
    · obtain ⟨o', i, ho⟩ : ∃ o' i, o = o' ++ [i] := by
        rcases List.eq_nil_or_concat o with q | ⟨o', i, q⟩
        · exact absurd (by rw [← h.length, q]; rfl) e
        · exact ⟨o', i, by rw [q, List.concat_eq_append]⟩
      have hi : i ∈ o := by rw [ho]; simp
      obtain ⟨n, hn⟩ := h.link.get hi
      have e1 := last_ok h
      rw [ho, List.map_append, List.map_singleton, List.getLastD_concat] at e1
      rw [if_neg e, e1, bind_ok, h.elem hsz hi hn, bind_ok]
      refine Okay.ok ⟨?_, Becomes.refl h, fun _ q => q, fun _ n q => q.mono (by simp [Op.inserts])⟩
      rw [ho, seqOf_append, seqOf_cons hn]
      simp [seqOf]
  | iterate =>
    simp only [OTable.step, Spec.step]
    rw [first_ok h, bind_ok, iterate_ok hsz h, bind_ok]
    exact Okay.ok ⟨rfl, Becomes.refl h, fun _ q => q, fun _ n q => q.mono (by simp [Op.inserts])⟩
  | reverse =>
    simp only [OTable.step, Spec.step]
    rw [first_ok h, bind_ok, reverse_ok hsz h, bind_ok]
    exact Okay.ok ⟨rfl, Becomes.refl h, fun _ q => q, fun _ n q => q.mono (by simp [Op.inserts])⟩

end Tpp.OSwiss
