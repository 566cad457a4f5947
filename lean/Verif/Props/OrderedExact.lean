import Verif.Ordered.Exact

/-!
# C57, C58: where exactly ranges of ordered dense containers and exchanges of ordered containers go wrong

In the theorems on ranges `p` is the position of the element that is in the last slot of the array:
`t.nth m p = .ok (t.addr sz (t.core.size - 1))`.  In a container without erasures this is the last position.
-/

set_option linter.unusedSectionVars false

namespace Tpp.ODense

open Tpp.Dense (Elem LF Table Inv swapRemove conflict idxOf elemOf)
open Tpp.Ordered

variable {k : Nat} {K V : Type} [DecidableEq K]

/-! ## C58 -/

/-- C58 is false for all containers of which one is empty at least: afterwards iterating over the first one leaves the container; the
second one is broken in the same way, unless the first one had elements: these are there then. -/
theorem C58_dense_swap_empty_false {hash : K → Nat} {sz : Int} (hsz : 0 < sz) {A : Alloc} (hA : A.Sound sz) {w : World k K V}
    {s : Seqs k K V} (h : Reached hash sz A w s) {i j : Nat} (hij : i ≠ j) {t u : OTable k K V} (ht : w.tab i = some t)
    (hu : w.tab j = some u) {q q' : List (Elem k K V)} (hq : s i = some q) (hq' : s j = some q') (he : q = [] ∨ q' = []) :
    ∃ m' t' u', t.swap w.mem u = .ok (m', t', u') ∧ t'.elements sz m' = .error .dangling ∧
      (q = [] → u'.elements sz m' = .error .dangling) ∧ (q ≠ [] → u'.elements sz m' = .ok q) := by
  have ha := (h.inv hsz hA).apart i j t u hij ht hu
  obtain ⟨l, o, hr, rfl⟩ := h.holds hsz hA ht hq
  obtain ⟨l', o', hr', rfl⟩ := h.holds hsz hA hu hq'
  obtain ⟨m', t', u', e, h1, h2, h3⟩ := swap_empty hsz hr hr' ha (he.imp hr.nil_iff.mp hr'.nil_iff.mp)
  exact ⟨m', t', u', e, h1, fun g => h2 (hr.nil_iff.mp g), fun g => h3 (fun g' => g (hr.nil_iff.mpr g'))⟩

/-- Container 0 holds two elements, container 1 none. -/
example : (do
    let w := after (fill 0 2 ++ fill 1 0)
    let r ← (w.get 0).swap w.mem (w.get 1)
    r.2.2.elements 24 r.1 : M (List (Elem 1 Nat Nat))) = .ok [el 1 10, el 2 20] := rfl

/-! ## C57 -/

theorem at_last {hash : K → Nat} {sz : Int} (hsz : 0 < sz) {m : Mem} {t : OTable k K V} {l : List (Elem k K V)} {o : List Nat}
    (h : Rep hash sz m t l o) {p x : Nat} (hp : p < l.length) (hx : t.nth m p = .ok (t.addr sz x)) : o[p]? = some x := by
  have ho : p < o.length := by rw [h.length]; exact hp
  rw [nth_ok h (Nat.le_of_lt hp), List.drop_eq_getElem_cons ho] at hx
  have := addr_inj hsz (Except.ok.inj hx)
  rw [List.getElem?_eq_getElem ho, this]

theorem mem_seq {E : Type} {l : List E} {o : List Nat} {e : E} : e ∈ seq l o ↔ ∃ i ∈ o, l[i]? = some e := by
  unfold seq
  rw [List.mem_filterMap]

theorem not_mem_seq {hash : K → Nat} {t : Table k K V} {l : List (Elem k K V)} (hk : 0 < k) (h : Inv hash t l) {o : List Nat} {y : Nat}
    (hy : y < l.length) (ho : y ∉ o) : l[y] ∉ seq l o := by
  have hnd : l.Nodup := List.Nodup.of_map _ (h.uniq ⟨0, hk⟩)
  rw [mem_seq]
  rintro ⟨i, hi, e⟩
  obtain ⟨hil, e⟩ := List.getElem?_eq_some_iff.mp e
  have := (hnd.getElem_inj_iff).mp e
  exact ho (this ▸ hi)

theorem split_three {α : Type} {o : List α} {a b : Nat} (hab : a < b) (hb : b < o.length) :
    o = o.take a ++ o[a] :: ((o.drop (a + 1)).take (b - (a + 1)) ++ o[b] :: o.drop (b + 1)) := by
  have h2 : o.drop (a + 1) = (o.drop (a + 1)).take (b - (a + 1)) ++ o[b] :: o.drop (b + 1) := by
    rw [← List.drop_eq_getElem_cons hb]
    conv => lhs; rw [← List.take_append_drop (b - (a + 1)) (o.drop (a + 1))]
    rw [List.drop_drop, show a + 1 + (b - (a + 1)) = b by omega]
  rw [← h2, ← List.drop_eq_getElem_cons (by omega), List.take_append_drop]

/-- C57 is false for all ranges of at least two elements if the element in the last slot is behind the range, but not directly behind it,
or is the first of the range or before it: if the code returns at all, an element outside the range is missing afterwards. -/
theorem C57_dense_range_jump_false {hash : K → Nat} {sz : Int} (hsz : 0 < sz) {A : Alloc} (hA : A.Sound sz) (hk : 0 < k) {w : World k K V}
    {s : Seqs k K V} (h : Reached hash sz A w s) {id : Nat} {t : OTable k K V} (ht : w.tab id = some t) {q : List (Elem k K V)}
    (hq : s id = some q) {i j p : Nat} (hij : i + 2 ≤ j) (hj : j ≤ q.length) (hp : p < q.length)
    (hlast : t.nth w.mem p = .ok (t.addr sz (t.core.size - 1))) (hout : p ≤ i ∨ j < p) :
    ∃ a b, t.nth w.mem i = .ok a ∧ t.nth w.mem j = .ok b ∧ ∀ fuel m' t' r, OTable.eraseRange sz a fuel w.mem t b t.hd = .ok (m', t', r) →
      0 < p ∧ ∃ e q', q[p - 1]? = some e ∧ t'.elements sz m' = .ok q' ∧ e ∉ q' := by
  obtain ⟨l, o, hr, rfl⟩ := h.holds hsz hA ht hq
  have hol := hr.length
  have hlen : (seq l o).length = l.length := by rw [seq_length hr.perm, hol]
  rw [hlen] at hj hp
  have hX := at_last hsz hr hp hlast
  rw [hr.core.size] at hX
  have hnd := hr.nodup
  have hpo : p < o.length := by omega
  rw [List.getElem?_eq_getElem hpo] at hX
  have hXe : o[p] = l.length - 1 := Option.some.inj hX
  refine ⟨_, _, nth_ok hr (by omega), nth_ok hr hj, ?_⟩
  intro fuel m' t' r e
  have hfirst : ((o.drop i).map (t.addr sz)).headD t.hd = t.addr sz (o[i]'(by omega)) := by
    rw [List.drop_eq_getElem_cons (by omega)]; rfl
  rw [hfirst] at e
  have hne' : t.addr sz (o[j - 1]'(by omega)) ≠ t.addr sz (o[i]'(by omega)) := by
    intro g
    have := (hnd.getElem_inj_iff).mp (addr_inj hsz g)
    omega
  have hne : ((o.drop j).map (t.addr sz)).headD t.hd ≠ t.addr sz (o[i]'(by omega)) := by
    intro g
    rcases Nat.lt_or_ge j o.length with c | c
    · rw [List.drop_eq_getElem_cons c] at g
      have := (hnd.getElem_inj_iff).mp (addr_inj hsz g)
      omega
    · rw [List.drop_eq_nil_of_le c] at g
      exact hr.hdr (by rw [show t.hd = _ from g]; exact hr.addr_slots (List.getElem_mem _))
  have hgone : ∀ (y : Nat) (hy : y < o.length), (seq l o)[y]? = l[o[y]]? := by
    intro y hy
    rw [seq_getElem? (fun i hi => hr.lt hi), List.getElem?_eq_getElem hy]
    rfl
  rcases hout with hpi | hpj
  · have hs := split_three (o := o) (a := p) (b := j - 1) (by omega) (by omega)
    rw [show j - 1 + 1 = j by omega] at hs
    have hr2 : Rep hash sz w.mem t l ((o.take p ++ (l.length - 1) :: (o.drop (p + 1)).take (j - 1 - (p + 1))) ++ o[j - 1]'(by omega) :: o.drop j) := by
      rw [← hXe, List.append_assoc, List.cons_append, ← hs]
      exact hr
    obtain ⟨h0, l', o', h1, h2⟩ := eraseRange_wrong_before hsz hr2 hne hne' e
    have hp0 : 0 < p := by
      rcases Nat.eq_zero_or_pos p with g | g
      · exact absurd (by rw [g]; rfl) h0
      · exact g
    have hy : p - 1 < o.length := by omega
    have hyl : o[p - 1] < l.length := hr.lt (List.getElem_mem hy)
    refine ⟨hp0, l[o[p - 1]], _, ?_, elements_ok hsz h1, ?_⟩
    · rw [hgone _ hy, List.getElem?_eq_getElem hyl]
    · intro g
      refine not_mem_seq hk hr.core hyl ?_ (h2.subset g)
      have hd : (o.take p).dropLast = o.take (p - 1) := by
        rw [List.dropLast_take (by omega)]
      rw [hd, ← hXe]
      have hsub : (o.take (p - 1) ++ o[p] :: ((o.drop (p + 1)).take (j - 1 - (p + 1)) ++ o.drop j)).Sublist (o.take (p - 1) ++ o.drop p) := by
        refine List.Sublist.append_left ?_ _
        rw [List.drop_eq_getElem_cons hpo]
        refine List.Sublist.cons_cons _ ?_
        conv => rhs; rw [← List.take_append_drop (j - 1 - (p + 1)) (o.drop (p + 1)), List.drop_drop]
        refine List.Sublist.append_left ?_ _
        exact List.drop_sublist_drop_left o (by omega)
      intro g
      have g' := hsub.subset g
      have hns : o = o.take (p - 1) ++ o[p - 1] :: o.drop p := by
        have := (List.take_append_drop (p - 1) o).symm
        rw [List.drop_eq_getElem_cons hy, show p - 1 + 1 = p by omega] at this
        exact this
      have := hnd
      rw [hns] at this
      have := (List.nodup_cons.mp (List.perm_middle.nodup_iff.mp this)).1
      exact this g'
  · have hs := split_three (o := o) (a := j - 1) (b := p) (by omega) (by omega)
    rw [show j - 1 + 1 = j by omega] at hs
    have hy : p - 1 < o.length := by omega
    have hyl : o[p - 1] < l.length := hr.lt (List.getElem_mem hy)
    have hd : (o.drop j).take (p - j) = (o.drop j).take (p - 1 - j) ++ [o[p - 1]] := by
      rw [show p - j = (p - 1 - j) + 1 by omega, List.take_add_one]
      congr 1
      rw [List.getElem?_drop, show j + (p - 1 - j) = p - 1 by omega, List.getElem?_eq_getElem hy]
      rfl
    have hrest : o.drop j = (o.drop j).take (p - 1 - j) ++ o[p - 1] :: (l.length - 1) :: o.drop (p + 1) := by
      have h1 : o.drop j = (o.drop j).take (p - j) ++ o[p] :: o.drop (p + 1) := by
        rw [← List.drop_eq_getElem_cons hpo]
        conv => lhs; rw [← List.take_append_drop (p - j) (o.drop j)]
        rw [List.drop_drop, show j + (p - j) = p by omega]
      rw [← hXe]
      conv => lhs; rw [h1, hd]
      simp
    have hr2 : Rep hash sz w.mem t l (o.take (j - 1) ++ o[j - 1]'(by omega) :: o.drop j) := by
      have hg := (List.take_append_drop (j - 1) o).symm
      rw [List.drop_eq_getElem_cons (by omega), show j - 1 + 1 = j by omega] at hg
      rw [← hg]; exact hr
    obtain ⟨l', o', h1, h2⟩ := eraseRange_wrong hsz hrest hr2 hne hne' e
    refine ⟨by omega, l[o[p - 1]], _, ?_, elements_ok hsz h1, ?_⟩
    · rw [hgone _ hy, List.getElem?_eq_getElem hyl]
    · intro g
      refine not_mem_seq hk hr.core hyl ?_ (h2.subset g)
      have := hr2.nodup
      rw [hrest] at this
      have hperm : (o.take (j - 1) ++ o[j - 1]'(by omega) :: ((o.drop j).take (p - 1 - j) ++ o[p - 1] :: (l.length - 1) :: o.drop (p + 1))).Perm
          (o[p - 1] :: o[j - 1]'(by omega) :: (o.take (j - 1) ++ (o.drop j).take (p - 1 - j) ++ (l.length - 1) :: o.drop (p + 1))) := by
        refine List.perm_middle.trans ?_
        refine (List.Perm.cons _ ?_).trans (List.Perm.swap _ _ _)
        rw [← List.append_assoc]
        exact List.perm_middle
      have := (List.nodup_cons.mp (hperm.nodup_iff.mp this)).1
      exact fun g' => this (List.mem_cons_of_mem _ g')

/-- C57 for ranges of two elements if the second one is in the last slot, or the element directly behind it is.  In all other cases
`C57_dense_range_jump_false` applies. -/
theorem C57_dense_range_two_partial {hash : K → Nat} {sz : Int} (hsz : 0 < sz) {A : Alloc} (hA : A.Sound sz) {w : World k K V}
    {s : Seqs k K V} (h : Reached hash sz A w s) {id : Nat} {t : OTable k K V} (ht : w.tab id = some t) {q : List (Elem k K V)}
    (hq : s id = some q) {i p : Nat} (hi : i + 2 ≤ q.length) (hp : p < q.length)
    (hlast : t.nth w.mem p = .ok (t.addr sz (t.core.size - 1))) (hg : p = i + 1 ∨ p = i + 2) :
    ∃ a b m' t' r, t.nth w.mem i = .ok a ∧ t.nth w.mem (i + 2) = .ok b ∧
      OTable.eraseRange sz a (q.length + 1) w.mem t b t.hd = .ok (m', t', r) ∧ t'.elements sz m' = .ok (q.take i ++ q.drop (i + 2)) := by
  obtain ⟨l, o, hr, rfl⟩ := h.holds hsz hA ht hq
  have hol := hr.length
  have hlen : (seq l o).length = l.length := by rw [seq_length hr.perm, hol]
  rw [hlen] at hi hp ⊢
  have hX := at_last hsz hr hp hlast
  rw [hr.core.size] at hX
  have hpo : p < o.length := by omega
  rw [List.getElem?_eq_getElem hpo] at hX
  have hXe : o[p] = l.length - 1 := Option.some.inj hX
  obtain ⟨o1, x, o2, rfl, hl1, hx, hs1, _, _⟩ := split_at hr (n := i) (by omega)
  have hro : Rep hash sz w.mem t l ((o1 ++ [x]) ++ o2) := by rw [List.append_assoc]; exact hr
  cases o2 with
  | nil => simp at hol; omega
  | cons pos o2 =>
    have h1 := nth_split hr
    rw [hl1] at h1
    have h2 : t.nth w.mem (((o1 ++ [x]) ++ [pos]).length) = _ := nth_split (by rw [List.append_assoc]; exact hro)
    rw [List.length_append, List.length_append, List.length_singleton, List.length_singleton, hl1] at h2
    have hcase : pos = l.length - 1 ∨ ∃ ob, o2 = (l.length - 1) :: ob := by
      rcases hg with g | g
      · left
        rw [← hXe]
        subst g
        simp only [← hl1]
        simp
      · right
        subst g
        cases o2 with
        | nil => simp at hpo; omega
        | cons y ob =>
          refine ⟨ob, ?_⟩
          rw [← hXe]
          simp only [← hl1]
          simp
    obtain ⟨m', t', r, l', o', e, h3, h4⟩ := eraseRange_two hsz hro hcase (fuel := l.length + 1) (by omega) t.hd
    refine ⟨_, _, m', t', r, h1, h2, e, ?_⟩
    rw [elements_ok hsz h3, h4, hs1]
    have hpl : pos < l.length := hr.lt (by simp)
    have h5 : seq l (o1 ++ x :: pos :: o2) = (seq l o1 ++ [l[x], l[pos]]) ++ seq l o2 := by
      rw [seq_split hx, seq_cons hpl]
      simp
    have h6 : (seq l o1).length = i := by
      rw [hs1, List.length_take, hlen]
      omega
    congr 2
    rw [h5, List.drop_left' (by rw [List.length_append, h6]; rfl)]

/-- C57 for ranges that reach the end, or the last element, in a container whose elements from the first of the range on are stored in
the order of insertion (as they are if nothing was erased).  If the range reaches the end the result is `end()`; otherwise it designates a
dead slot.  By `C57_dense_range_jump_false` all other ranges of at least two elements in such a container fail. -/
theorem C57_dense_range_tail_partial {hash : K → Nat} {sz : Int} (hsz : 0 < sz) {A : Alloc} (hA : A.Sound sz) {w : World k K V}
    {s : Seqs k K V} (h : Reached hash sz A w s) {id : Nat} {t : OTable k K V} (ht : w.tab id = some t) {q : List (Elem k K V)}
    (hq : s id = some q) {i j : Nat} (hij : i < j) (hj : j ≤ q.length) (hjl : q.length ≤ j + 1)
    (hord : ∀ n, i ≤ n → n < q.length → t.nth w.mem n = .ok (t.addr sz n)) :
    ∃ a b m' t' r, t.nth w.mem i = .ok a ∧ t.nth w.mem j = .ok b ∧
      OTable.eraseRange sz a (q.length + 1) w.mem t b t.hd = .ok (m', t', r) ∧ t'.elements sz m' = .ok (q.take i ++ q.drop j) ∧
      (j = q.length → r = t'.hd) ∧ (j < q.length → r ≠ t'.hd ∧ t'.elemAt sz r = .error .deadRead) := by
  obtain ⟨l, o, hr, rfl⟩ := h.holds hsz hA ht hq
  have hol := hr.length
  have hlen : (seq l o).length = l.length := by rw [seq_length hr.perm, hol]
  rw [hlen] at hj hjl hord ⊢
  have hdrop : o.drop i = List.range' i (l.length - i) := by
    refine List.ext_getElem? ?_
    intro n
    rw [List.getElem?_drop]
    rcases Nat.lt_or_ge (i + n) l.length with g | g
    · rw [at_last hsz hr g (hord _ (by omega) g), List.getElem?_range' (by omega), Nat.one_mul]
    · rw [List.getElem?_eq_none (by omega), List.getElem?_eq_none (by rw [List.length_range']; omega)]
  have ho : o = o.take i ++ List.range' i (l.length - i) := by rw [← hdrop, List.take_append_drop]
  have hr2 : Rep hash sz w.mem t l (o.take i ++ List.range' i (l.length - i)) := by rw [← ho]; exact hr
  have hlt : ∀ x ∈ o.take i, x < l.length := fun x hx => hr.lt (List.mem_of_mem_take hx)
  have hseq : seq l (o.take i) = (seq l o).take i := by
    refine List.ext_getElem? ?_
    intro n
    rw [seq_getElem? hlt, List.getElem?_take, List.getElem?_take]
    split
    · rw [seq_getElem? (fun x hx => hr.lt hx)]
    · rfl
  rcases Nat.lt_or_ge j l.length with c | c
  · have e1 : l.length - i = (j - i) + 1 := by omega
    rw [e1] at hr2
    obtain ⟨m', t', r, l', e, hhd, h3, h4, _, h6⟩ := eraseRange_before_last hsz (j - i) (l.length + 1) t.hd hr2 (by omega) rfl (by omega)
    rw [show i + (j - i) = j by omega] at e h4
    refine ⟨_, _, m', t', r, hord i (by omega) (by omega), hord j (by omega) c, e, ?_, fun g => by omega, fun _ => ?_⟩
    · rw [elements_ok hsz h3, h4, seq_append, hseq]
      congr 2
      have hjq : j < (seq l o).length := by omega
      rw [List.drop_eq_getElem_cons hjq, List.drop_eq_nil_of_le (by omega), seq_cons c]
      have : (seq l o)[j]? = some l[j] := by
        rw [seq_getElem? (fun x hx => hr.lt hx), at_last hsz hr c (hord _ (by omega) c)]
        exact List.getElem?_eq_getElem c
      rw [List.getElem?_eq_getElem hjq] at this
      rw [Option.some.inj this]
      rfl
    · rw [hhd]
      exact h6 (by omega)
  · have hjl' : j = l.length := by omega
    subst hjl'
    have hend := nth_end hr
    have hlast : w.mem.prv t.hd = (o.map (t.addr sz)).getLastD t.hd := by
      have := last_ok hr
      rw [Mem.prevOf_ok hr.hd_live] at this
      exact Except.ok.inj this
    obtain ⟨m', t', r, l', e, hhd, h3, h4, _, h6⟩ := eraseRange_tail hsz (first := t.addr sz i) (l.length - i) (l.length + 1) t.hd t.hd hr2
      (by omega) rfl (by omega) (fun g => by omega)
      (fun _ => ⟨fun g => hr.hdr (by rw [g]; exact mem_slots.mpr ⟨i, hr.lt_cap (by omega), rfl⟩), hr.hd_live, by rw [← ho]; exact hlast⟩)
    refine ⟨_, _, m', t', r, hord i (by omega) (by omega), hend, e, ?_, fun _ => ?_, fun g => by omega⟩
    · rw [elements_ok hsz h3, h4, hseq, List.drop_eq_nil_of_le (by omega), List.append_nil]
    · rw [hhd]
      exact h6 (by omega)

/-- The iterators of a container that was only filled, for the hypothesis of `C57_dense_range_tail_partial`. -/
example : ∀ n < 5, ((after (fill 0 5)).get 0).nth (after (fill 0 5)).mem n = .ok (((after (fill 0 5)).get 0).addr 24 n) := by
  intro n hn
  rcases n with _ | _ | _ | _ | _ | n
  · rfl
  · rfl
  · rfl
  · rfl
  · rfl
  · omega

/-- `erase(first, last)` on a container of five elements and the elements afterwards. -/
def rangeOf (i j : Nat) : M (List (Elem 1 Nat Nat)) := do
  let w := after (fill 0 5)
  let a ← (w.get 0).nth w.mem i
  let b ← (w.get 0).nth w.mem j
  let r ← OTable.eraseRange 24 a 6 w.mem (w.get 0) b (w.get 0).hd
  r.2.1.elements 24 r.1

/-- The second to the fourth element; the third to the last. -/
example : rangeOf 1 4 = .ok [el 1 10, el 5 50] ∧ rangeOf 2 5 = .ok [el 1 10, el 2 20] := ⟨rfl, rfl⟩

/-- The first two elements: the fourth goes instead of the first, and more. -/
example : rangeOf 0 2 = .ok [el 5 50] := rfl

end Tpp.ODense

namespace Tpp.OSwiss

open Tpp.Ordered

variable {K V : Type} [DecidableEq K] {c : Cfg K}

/-- C58 is false for all containers of which one is empty at least, as for the dense containers. -/
theorem C58_swiss_swap_empty_false (hsz : 0 < c.sz) (hA : c.A.Sound c.sz) {w : World K V} {s : Seqs K V} (h : Reached c w s) {i j : Nat}
    (hij : i ≠ j) {t u : OTable K V} (ht : w.tab i = some t) (hu : w.tab j = some u) {q q' : List (K × V)} (hq : s i = some q)
    (hq' : s j = some q') (he : q = [] ∨ q' = []) :
    ∃ m' t' u', t.swap w.mem u = .ok (m', t', u') ∧ t'.elements c.sz m' = .error .dangling ∧
      (q = [] → u'.elements c.sz m' = .error .dangling) ∧ (q ≠ [] → u'.elements c.sz m' = .ok q) := by
  have ha := (h.inv hsz hA).apart i j t u hij ht hu
  obtain ⟨o, hr, rfl⟩ := h.holds hsz hA ht hq
  obtain ⟨o', hr', rfl⟩ := h.holds hsz hA hu hq'
  have h1 := Shows.nonempty hr
  have h2 := Shows.nonempty hr'
  obtain ⟨m', t', u', e, g1, g2, g3⟩ := swap_empty hsz hr hr' ha (he.imp h1.mp h2.mp)
  exact ⟨m', t', u', e, g1, fun g => g2 (h1.mp g), fun g => g3 (fun g' => g (h1.mpr g'))⟩

set_option maxRecDepth 100000 in
/-- Container 0 holds two elements, container 1 none. -/
example : (do
    let w := after c16 (fill 0 2 ++ fill 1 0)
    let r ← (w.get 0).swap w.mem (w.get 1)
    r.2.2.elements 24 r.1 : M (List (Nat × Nat))).toOption = some [(1, 10), (2, 20)] := by decide +kernel

end Tpp.OSwiss
