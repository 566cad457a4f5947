import Verif.Props.OrderedDense
import Verif.Props.OrderedSwiss
import Verif.Ordered.DenseThrow

/-!
# Ordered containers where the code goes wrong: exchange with an empty container, ranges of several elements
-/

set_option linter.unusedSectionVars false

namespace Tpp.Ordered

/-- Swapping the headers of two rings of which one is empty at least: the first header points to the second.  If the first ring is empty
the second header points to the first, otherwise the second ring is as it should be. -/
theorem swapHeaders_empty {m : Mem} {a b : Int} {as bs : List Int} (ha : Ring m a as) (hb : Ring m b bs) (he : as = [] ∨ bs = [])
    (hd : ∀ x ∈ a :: as, x ∉ b :: bs) :
    ∃ m', m.swapHeaders a b = .ok m' ∧ m'.nxt a = b ∧ (as = [] → m'.nxt b = a) ∧ (as ≠ [] → Ring m' b as) ∧ m'.live = m.live := by
  have la : a ∈ m.live := ha.live a (by simp)
  have lb : b ∈ m.live := hb.live b (by simp)
  have hne : a ≠ b := fun q => hd a (by simp) (by simp [q])
  have n1 : m.nxt a = as.headD a := ha.fwd.first
  have n2 : m.nxt b = bs.headD b := hb.fwd.first
  have p1 : m.prv a = as.getLastD a := by rw [ha.bwd.first, headD_reverse]
  have p2 : m.prv b = bs.getLastD b := by rw [hb.bwd.first, headD_reverse]
  have hbn : bs.headD b ∈ b :: bs := headD_mem bs b
  have hbp : bs.getLastD b ∈ b :: bs := getLastD_mem bs b
  have han : as.headD a ∈ a :: as := headD_mem as a
  have hap : as.getLastD a ∈ a :: as := getLastD_mem as a
  obtain ⟨m1, e1, x1, _, s1⟩ := Mem.link2_ok la (hb.live _ hbn) (hb.live _ hbp) (fun q => hd a (by simp) (q ▸ hbn))
    (fun q => hd a (by simp) (q ▸ hbp))
  obtain ⟨m2, e2, x2, _, s2⟩ := Mem.link2_ok (m := m1) (self := b) (next := as.headD a) (prev := as.getLastD a) (by rw [s1.live]; exact lb)
    (by rw [s1.live]; exact ha.live _ han) (by rw [s1.live]; exact ha.live _ hap) (fun q => hd _ han (by rw [q]; simp))
    (fun q => hd _ hap (by rw [q]; simp))
  refine ⟨m2, ?_, ?_, ?_, ?_, by rw [s2.live, s1.live]⟩
  · unfold Mem.swapHeaders
    rw [Mem.nextOf_ok la, bind_ok, Mem.nextOf_ok lb, bind_ok, Mem.prevOf_ok la, bind_ok, Mem.prevOf_ok lb, bind_ok, n1, n2, p1, p2, e1,
      bind_ok, e2]
  · rw [x2]
    by_cases g : as = []
    · subst g
      exact set_same _ _ _
    · have hb' : bs = [] := he.resolve_left g
      subst hb'
      have hnot : a ≠ as.getLastD a := by
        intro q
        obtain ⟨l', c, rfl⟩ := (List.eq_nil_or_concat as).resolve_left g
        have : a ∈ l'.concat c := by
          rw [List.concat_eq_append] at q ⊢
          simp at q
          simp [q]
        exact (List.nodup_cons.mp ha.nodup).1 this
      rw [set_ne _ _ hnot, set_ne _ _ hne, x1]
      simp only [List.headD_nil, List.getLastD_nil]
      rw [set_ne _ _ hne, set_same]
  · rintro rfl
    rw [x2]
    simp only [List.headD_nil, List.getLastD_nil]
    rw [set_ne _ _ (Ne.symm hne), set_same]
  · intro g
    have hb' : bs = [] := he.resolve_left g
    subst hb'
    have c2 : Chain m1 as := by
      refine ha.chain.frame (fun x hx => by rw [s1.live]; exact ha.chain.live x hx) (fun x hx => s1.link x ?_)
      have h1 : x ≠ a := fun q => (List.nodup_cons.mp ha.nodup).1 (q ▸ hx)
      have h2 : x ≠ b := fun q => hd x (List.mem_cons_of_mem _ hx) (by simp [q])
      exact ⟨h1, h2, h2⟩
    have hba : b ∉ as := fun q => hd b (List.mem_cons_of_mem _ q) (by simp)
    obtain ⟨m3, e3, r3, _⟩ := c2.adopt g (by rw [s1.live]; exact lb) hba
    have : as.headD b = as.headD a ∧ as.getLastD b = as.getLastD a := by
      obtain ⟨x, r, rfl⟩ := List.exists_cons_of_ne_nil g
      exact ⟨rfl, rfl⟩
    rw [this.1, this.2, e2] at e3
    cases e3
    exact r3

end Tpp.Ordered

namespace Tpp.ODense

open Tpp.Dense (Elem LF Table Inv swapRemove conflict idxOf elemOf)
open Tpp.Ordered

variable {k : Nat} {K V : Type} [DecidableEq K]
variable {hash : K → Nat} {sz : Int} {A : Alloc} {m : Mem} {t u : OTable k K V} {l l' : List (Elem k K V)} {o o' : List Nat}

/-- Iterating over a container whose header points outside. -/
theorem elements_outside {m : Mem} {t : OTable k K V} {x : Int} (hl : t.hd ∈ m.live) (hx : m.nxt t.hd = x) (hne : x ≠ t.hd)
    (hn : x ∉ slots sz t.base t.core.cap) : t.elements sz m = .error .dangling := by
  unfold OTable.elements OTable.first
  rw [Mem.nextOf_ok hl, bind_ok, hx]
  simp only [walk]
  rw [if_neg hne, elemAt_none hn]
  rfl

/-- Swapping two containers of which one is empty at least. -/
theorem swap_empty (hsz : 0 < sz) (ht : Rep hash sz m t l o) (h : Rep hash sz m u l' o') (ha : Apart sz t u) (he : l = [] ∨ l' = []) :
    ∃ m' t' u', t.swap m u = .ok (m', t', u') ∧ t'.elements sz m' = .error .dangling ∧ (l = [] → u'.elements sz m' = .error .dangling) ∧
      (l ≠ [] → u'.elements sz m' = .ok (seq l o)) := by
  have hdis : ∀ x ∈ t.hd :: o.map (t.addr sz), x ∉ u.hd :: o'.map (u.addr sz) := fun x hx q => ha x (ht.ring_foot x hx) (h.ring_foot x q)
  have hn : o.map (t.addr sz) = [] ↔ l = [] := by
    rw [List.map_eq_nil_iff, ← List.length_eq_zero_iff, ← List.length_eq_zero_iff, ht.length]
  have hn' : o'.map (u.addr sz) = [] ↔ l' = [] := by
    rw [List.map_eq_nil_iff, ← List.length_eq_zero_iff, ← List.length_eq_zero_iff, h.length]
  obtain ⟨m1, e1, x1, x2, x3, lv⟩ := swapHeaders_empty ht.ring h.ring (by rw [hn, hn']; exact he) hdis
  obtain ⟨c1, c2, _, _⟩ := Dense.swap_ok ht.core h.core
  unfold OTable.swap
  rw [e1, bind_ok]
  have hne : u.hd ≠ t.hd := fun q => ha t.hd (by simp [OTable.foot]) (by simp [OTable.foot, q])
  refine ⟨m1, _, _, rfl, ?_, ?_, ?_⟩
  · refine elements_outside (x := u.hd) ?_ x1 hne h.hdr
    rw [lv]; exact ht.hd_live
  · intro g
    refine elements_outside (x := t.hd) ?_ (x2 (hn.mpr g)) (Ne.symm hne) ht.hdr
    rw [lv]; exact h.hd_live
  · intro g
    refine elements_ok (hash := hash) hsz ⟨c2, ht.perm, x3 (fun q => g (hn.mp q)), ?_, ?_⟩
    · change ∀ x ∈ slots sz t.base t.core.cap, _
      rw [lv]; exact ht.live
    · change u.hd ∉ slots sz t.base t.core.cap
      exact fun q => ha _ (List.mem_cons_of_mem _ q) List.mem_cons_self

/-! ## Ranges -/

/-- Whatever `erase(first, last)` does, it only removes elements. -/
theorem eraseRange_sublist (hsz : 0 < sz) (first : Int) : ∀ (fuel : Nat) {m : Mem} {t : OTable k K V} {l : List (Elem k K V)} {o : List Nat}
    (last res : Int), Rep hash sz m t l o → ∀ {m' : Mem} {t' : OTable k K V} {r : Int},
    OTable.eraseRange sz first fuel m t last res = .ok (m', t', r) →
    ∃ l' o', Rep hash sz m' t' l' o' ∧ (seq l' o').Sublist (seq l o)
  | 0, _, _, _, _, _, _, _, _, _, _, e => by cases e
  | fuel + 1, m, t, l, o, last, res, h, m', t', r, e => by
    simp only [OTable.eraseRange] at e
    split at e
    · cases e
      exact ⟨l, o, h, List.Sublist.refl _⟩
    · obtain ⟨p, ep, e⟩ := Dense.bind_eq_ok e
      obtain ⟨x, ex, e⟩ := Dense.bind_eq_ok e
      cases hso : t.slotOf sz p with
      | none =>
        unfold OTable.eraseIter at ex
        rw [hso] at ex
        cases ex
      | some pos =>
        have hpa : t.addr sz pos = p := by
          have := List.find?_some hso
          simpa using this
        have hpos : pos < l.length := by
          unfold OTable.eraseIter at ex
          rw [hso] at ex
          simp only at ex
          rw [h.core.size] at ex
          by_contra g
          rw [if_neg g] at ex
          cases ex
        obtain ⟨o1, o2, rfl⟩ := List.append_of_mem (h.mem hpos)
        obtain ⟨m1, c, next, e1, _, hcap, _, he⟩ := eraseIter_ok hsz h
        rw [hpa, ex] at e1
        cases e1
        obtain ⟨l', o', h', hs⟩ := eraseRange_sublist hsz first fuel _ _ he.rep e
        refine ⟨l', o', h', hs.trans ?_⟩
        rw [seq_ren h.perm (fun _ q => q), seq_split hpos, seq_append]
        exact List.Sublist.append_left (List.sublist_cons_self _ _) _

/-- One step of `erase(first, last)`: the element before `last` goes, and its address becomes `last`. -/
theorem eraseRange_step (hsz : 0 < sz) {o1 o2 : List Nat} {pos : Nat} (h : Rep hash sz m t l (o1 ++ pos :: o2)) {first last res : Int}
    (hne : last ≠ first) (hlive : last ∈ m.live) (hprev : m.prv last = t.addr sz pos) :
    ∃ m' c next, c.cap = t.core.cap ∧ ErasedAt hash sz m t l o1 o2 pos m' c next ∧ ∀ fuel,
      OTable.eraseRange sz first (fuel + 1) m t last res =
        OTable.eraseRange sz first fuel m' { t with core := c } (t.addr sz pos) next := by
  obtain ⟨m1, c, next, e1, _, hcap, _, he⟩ := eraseIter_ok hsz h
  refine ⟨m1, c, next, hcap, he, ?_⟩
  intro fuel
  rw [OTable.eraseRange]
  rw [if_neg hne, Mem.prevOf_ok hlive, bind_ok, hprev, e1, bind_ok]

/-- After the erasure of an element in the last slot the stale link leads to its predecessor. -/
theorem ErasedAt.prev_last {o1 o2 : List Nat} {pos : Nat} (h : Rep hash sz m t l (o1 ++ pos :: o2)) {m' : Mem} {c : Table k K V} {next : Int}
    (he : ErasedAt hash sz m t l o1 o2 pos m' c next) (hp : pos = l.length - 1) :
    m'.prv (t.addr sz pos) = (o1.map (t.addr sz)).getLastD t.hd := by
  have hr := h.ring
  rw [List.map_append, List.map_cons] at hr
  unfold Mem.prv
  rw [he.stale hp]
  exact hr.around.2

theorem ren_id {last pos : Nat} {o : List Nat} (h : last ∉ o) : o.map (ren last pos) = o := by
  conv => rhs; rw [← List.map_id o]
  refine List.map_congr_left ?_
  intro i hi
  have hne : i ≠ last := fun q => h (q ▸ hi)
  unfold ren
  rw [if_neg hne]
  rfl

/-- After the erasure of an element in another slot the link there is that of the element which was in the last slot. -/
theorem ErasedAt.prev_moved {o1 oa ob : List Nat} {pos : Nat} (h : Rep hash sz m t l (o1 ++ pos :: (oa ++ (l.length - 1) :: ob)))
    {m' : Mem} {c : Table k K V} {next : Int} (he : ErasedAt hash sz m t l o1 (oa ++ (l.length - 1) :: ob) pos m' c next) :
    Rep hash sz m' { t with core := c } (swapRemove l pos) ((o1 ++ oa) ++ pos :: ob) ∧
    m'.prv (t.addr sz pos) = ((o1 ++ oa).map (t.addr sz)).getLastD t.hd := by
  have hnd := h.nodup
  have hr := he.rep
  have e : (o1 ++ (oa ++ (l.length - 1) :: ob)).map (ren (l.length - 1) pos) = (o1 ++ oa) ++ pos :: ob := by
    simp only [List.nodup_append, List.nodup_cons, List.mem_append, List.mem_cons] at hnd
    rw [List.map_append, List.map_append, List.map_cons, ren_id, ren_id, ren_id]
    · unfold ren
      simp
    · exact hnd.2.1.2.2.1.1
    · intro q
      exact hnd.2.1.2.2.2 _ q _ (Or.inl rfl) rfl
    · intro q
      exact hnd.2.2 _ q _ (Or.inr (Or.inr (Or.inl rfl))) rfl
  rw [e] at hr
  refine ⟨hr, ?_⟩
  have hr2 := hr.ring
  rw [List.map_append, List.map_cons] at hr2
  exact hr2.around.2

/-- If the element in the last slot is behind the range and not directly behind it, the second erasure hits its predecessor. -/
theorem eraseRange_wrong (hsz : 0 < sz) {o1 oa ob : List Nat} {pos y : Nat} {rest : List Nat} (hrest : rest = oa ++ y :: (l.length - 1) :: ob)
    (h : Rep hash sz m t l (o1 ++ pos :: rest)) {first res : Int} {fuel : Nat} (hne : (rest.map (t.addr sz)).headD t.hd ≠ first)
    (hne' : t.addr sz pos ≠ first) {m' : Mem} {t' : OTable k K V} {r : Int}
    (e : OTable.eraseRange sz first fuel m t ((rest.map (t.addr sz)).headD t.hd) res = .ok (m', t', r)) :
    ∃ l' o', Rep hash sz m' t' l' o' ∧ (seq l' o').Sublist (seq l (o1 ++ oa ++ (l.length - 1) :: ob)) := by
  have hring : Ring m t.hd ((o1 ++ [pos]).map (t.addr sz) ++ rest.map (t.addr sz)) := by
    rw [← List.map_append, List.append_assoc]
    exact h.ring
  have hlive := hring.live _ (Ring.right_mem _ _)
  have hp := hring.place.2
  have hl : ((o1 ++ [pos]).map (t.addr sz)).getLastD t.hd = t.addr sz pos := by simp
  rw [hl] at hp
  subst hrest
  cases fuel with
  | zero => cases e
  | succ fuel =>
    obtain ⟨m1, c, next, hcap, he, hstep⟩ := eraseRange_step (first := first) (res := res) hsz h hne hlive hp
    rw [hstep] at e
    have h' : Rep hash sz m t l (o1 ++ pos :: ((oa ++ [y]) ++ (l.length - 1) :: ob)) := by
      rw [List.append_assoc]; exact h
    have he' : ErasedAt hash sz m t l o1 ((oa ++ [y]) ++ (l.length - 1) :: ob) pos m1 c next := by
      rw [List.append_assoc]; exact he
    obtain ⟨h1, p1⟩ := he'.prev_moved h'
    have py : ((o1 ++ (oa ++ [y])).map (t.addr sz)).getLastD t.hd = t.addr sz y := by
      rw [← List.append_assoc]; simp
    rw [py] at p1
    have h1' : Rep hash sz m1 { t with core := c } (swapRemove l pos) ((o1 ++ oa) ++ y :: (pos :: ob)) := by
      have : (o1 ++ oa) ++ y :: (pos :: ob) = (o1 ++ (oa ++ [y])) ++ pos :: ob := by simp
      rw [this]; exact h1
    cases fuel with
    | zero => cases e
    | succ fuel =>
      have hin : t.addr sz pos ∈ m1.live := by
        have := h1'.live _ (h1'.addr_slots (i := pos) (by simp))
        exact this
      obtain ⟨m2, c2, next2, _, he2, hstep2⟩ := eraseRange_step (first := first) (res := next) hsz h1' hne' hin p1
      rw [hstep2] at e
      obtain ⟨l', o', h3, h4⟩ := eraseRange_sublist hsz first fuel _ _ he2.rep e
      refine ⟨l', o', h3, ?_⟩
      have s1 : seq (swapRemove (swapRemove l pos) y)
          (((o1 ++ oa) ++ (pos :: ob)).map (ren ((swapRemove l pos).length - 1) y)) =
          seq (swapRemove l pos) ((o1 ++ oa) ++ (pos :: ob)) := seq_ren h1'.perm (fun _ q => q)
      rw [s1] at h4
      have hnd := h.nodup
      have s2 : seq (swapRemove l pos) ((o1 ++ oa ++ (l.length - 1) :: ob).map (ren (l.length - 1) pos)) =
          seq l (o1 ++ oa ++ (l.length - 1) :: ob) := by
        refine seq_ren h.perm ?_
        intro i hi
        simp only [List.mem_append, List.mem_cons] at hi ⊢
        rcases hi with (q | q) | q | q
        · exact Or.inl q
        · exact Or.inr (Or.inl q)
        · exact Or.inr (Or.inr (Or.inr (Or.inl q)))
        · exact Or.inr (Or.inr (Or.inr (Or.inr q)))
      have s3 : (o1 ++ oa ++ (l.length - 1) :: ob).map (ren (l.length - 1) pos) = o1 ++ oa ++ pos :: ob := by
        simp only [List.nodup_append, List.nodup_cons, List.mem_append, List.mem_cons] at hnd
        rw [List.map_append, List.map_append, List.map_cons, ren_id, ren_id, ren_id]
        · unfold ren
          simp
        · exact hnd.2.1.2.2.1.2.1
        · intro q
          exact hnd.2.1.2.2.2 _ q _ (Or.inr (Or.inl rfl)) rfl
        · intro q
          exact hnd.2.2 _ q _ (Or.inr (Or.inr (Or.inr (Or.inl rfl)))) rfl
      rw [← s2, s3]
      exact h4

/-- A range up to the end whose elements are in the last slots, in this order. -/
theorem eraseRange_tail (hsz : 0 < sz) {o1 : List Nat} {i : Nat} {first : Int} : ∀ (n fuel : Nat) {m : Mem} {t : OTable k K V}
    {l : List (Elem k K V)} (last res : Int), Rep hash sz m t l (o1 ++ List.range' i n) → l.length = i + n → first = t.addr sz i → n < fuel →
    (n = 0 → last = first) → (n ≠ 0 → last ≠ first ∧ last ∈ m.live ∧ m.prv last = ((o1 ++ List.range' i n).map (t.addr sz)).getLastD t.hd) →
    ∃ m' t' r l', OTable.eraseRange sz first fuel m t last res = .ok (m', t', r) ∧ t'.hd = t.hd ∧ Rep hash sz m' t' l' o1 ∧
      seq l' o1 = seq l o1 ∧ (n = 0 → r = res) ∧ (n ≠ 0 → r = t.hd)
  | n, 0, _, _, _, _, _, _, _, _, hf, _, _ => absurd hf (Nat.not_lt_zero _)
  | 0, fuel + 1, m, t, l, last, res, h, _, _, _, hz, _ => by
    refine ⟨m, t, res, l, ?_, rfl, by simpa using h, rfl, fun _ => rfl, fun q => absurd rfl q⟩
    simp only [OTable.eraseRange]
    rw [if_pos (hz rfl)]
  | n + 1, fuel + 1, m, t, l, last, res, h, hl, hfirst, hf, _, hs => by
    obtain ⟨hne, hlive, hprev⟩ := hs (Nat.succ_ne_zero _)
    have ho : o1 ++ List.range' i (n + 1) = (o1 ++ List.range' i n) ++ (i + n) :: [] := by
      rw [List.range'_1_concat, ← List.append_assoc]
    rw [ho] at h hprev
    have hp : i + n = l.length - 1 := by omega
    have hprev' : m.prv last = t.addr sz (i + n) := by rw [hprev]; simp
    obtain ⟨m1, c, next, hcap, he, hstep⟩ := eraseRange_step (first := first) (res := res) hsz h hne hlive hprev'
    have hnot : l.length - 1 ∉ (o1 ++ List.range' i n) ++ [] := by
      rw [← hp, List.append_nil]
      intro q
      have := h.nodup
      rw [List.nodup_append] at this
      exact this.2.2 _ q _ (by simp) rfl
    have hr := he.rep
    have hsq := seq_ren h.perm (r := o1) (fun x q => List.mem_append_left _ (List.mem_append_left _ q))
    have ho1 : o1.map (ren (l.length - 1) (i + n)) = o1 := ren_id (fun q => hnot (List.mem_append_left _ (List.mem_append_left _ q)))
    rw [ren_id hnot, List.append_nil] at hr
    rw [ho1] at hsq
    have hlen : (swapRemove l (i + n)).length = i + n := by rw [Dense.swapRemove_length]; omega
    have hlp : t.addr sz (i + n) ∈ m1.live := by
      refine hr.live _ (mem_slots.mpr ⟨i + n, ?_, rfl⟩)
      simp only
      rw [hcap]
      exact h.lt_cap (by omega)
    obtain ⟨m2, t2, r, l2, e2, hhd, h2, h3, h4, h5⟩ := eraseRange_tail hsz n fuel (t.addr sz (i + n)) next hr hlen hfirst (by omega)
      (fun q => by rw [hfirst, q]; rfl)
      (fun q => ⟨fun g => q (by have := addr_inj hsz (g.trans hfirst); omega), hlp, he.prev_last h hp⟩)
    refine ⟨m2, t2, r, l2, ?_, hhd, h2, h3.trans hsq, fun q => absurd q (Nat.succ_ne_zero _), fun _ => ?_⟩
    · rw [hstep]; exact e2
    · by_cases q : n = 0
      · rw [h4 q, he.next]; rfl
      · exact h5 q

/-- A range up to the last element whose elements are in the last slots, in this order. -/
theorem eraseRange_before_last (hsz : 0 < sz) {o1 : List Nat} {i : Nat} {first : Int} : ∀ (n fuel : Nat) {m : Mem} {t : OTable k K V}
    {l : List (Elem k K V)} (res : Int), Rep hash sz m t l (o1 ++ List.range' i (n + 1)) → l.length = i + n + 1 → first = t.addr sz i →
    n < fuel →
    ∃ m' t' r l', OTable.eraseRange sz first fuel m t (t.addr sz (i + n)) res = .ok (m', t', r) ∧ t'.hd = t.hd ∧
      Rep hash sz m' t' l' (o1 ++ [i]) ∧ seq l' (o1 ++ [i]) = seq l (o1 ++ [i + n]) ∧ (n = 0 → r = res) ∧
      (n ≠ 0 → r ≠ t.hd ∧ t'.elemAt sz r = .error .deadRead)
  | n, 0, _, _, _, _, _, _, _, hf => absurd hf (Nat.not_lt_zero _)
  | 0, fuel + 1, m, t, l, res, h, _, hfirst, _ => by
    refine ⟨m, t, res, l, ?_, rfl, by simpa using h, rfl, fun _ => rfl, fun q => absurd rfl q⟩
    simp only [OTable.eraseRange]
    rw [if_pos (by rw [hfirst]; rfl)]
  | n + 1, fuel + 1, m, t, l, res, h, hl, hfirst, hf => by
    have ho : o1 ++ List.range' i (n + 1 + 1) = (o1 ++ List.range' i n) ++ (i + n) :: ([] ++ (l.length - 1) :: []) := by
      rw [List.range'_1_concat, List.range'_1_concat, show l.length - 1 = i + (n + 1) by omega]
      simp
    rw [ho] at h
    have hring : Ring m t.hd (((o1 ++ List.range' i n) ++ [i + n]).map (t.addr sz) ++ [l.length - 1].map (t.addr sz)) := by
      rw [← List.map_append, List.append_assoc]
      exact h.ring
    have hlive := hring.live _ (Ring.right_mem _ _)
    have hprev := hring.place.2
    have e1 : ([l.length - 1].map (t.addr sz)).headD t.hd = t.addr sz (i + (n + 1)) := by
      rw [show l.length - 1 = i + (n + 1) by omega]; rfl
    rw [e1] at hlive hprev
    have e2 : (((o1 ++ List.range' i n) ++ [i + n]).map (t.addr sz)).getLastD t.hd = t.addr sz (i + n) := by simp
    rw [e2] at hprev
    have hne : t.addr sz (i + (n + 1)) ≠ first := by
      intro q
      have := addr_inj hsz (q.trans hfirst)
      omega
    obtain ⟨m1, c, next, hcap, he, hstep⟩ := eraseRange_step (first := first) (res := res) hsz h hne hlive hprev
    obtain ⟨hr, _⟩ := he.prev_moved h
    have ho' : (o1 ++ List.range' i n ++ []) ++ [i + n] = o1 ++ List.range' i (n + 1) := by
      rw [List.range'_1_concat]; simp
    rw [ho'] at hr
    have hlen : (swapRemove l (i + n)).length = i + n + 1 := by rw [Dense.swapRemove_length]; omega
    have hsq : seq (swapRemove l (i + n)) ((o1 ++ [l.length - 1]).map (ren (l.length - 1) (i + n))) = seq l (o1 ++ [l.length - 1]) := by
      refine seq_ren h.perm ?_
      intro x q
      simp only [List.mem_append, List.mem_cons, List.not_mem_nil, or_false] at q ⊢
      rcases q with q | q
      · exact Or.inl (Or.inl q)
      · exact Or.inr (Or.inr q)
    have hnot : l.length - 1 ∉ o1 := by
      intro q
      have := h.nodup
      simp only [List.nodup_append, List.mem_append, List.mem_cons, List.not_mem_nil, or_false] at this
      exact this.2.2 _ (Or.inl q) _ (Or.inr (Or.inr rfl)) rfl
    have hm : (o1 ++ [l.length - 1]).map (ren (l.length - 1) (i + n)) = o1 ++ [i + n] := by
      rw [List.map_append, ren_id hnot]
      simp [ren]
    rw [hm] at hsq
    obtain ⟨m2, t2, r, l2, e3, hhd, h2, h3, h4, h5⟩ := eraseRange_before_last hsz n fuel (t := { t with core := c }) next hr hlen hfirst
      (by omega)
    refine ⟨m2, t2, r, l2, ?_, hhd, h2, ?_, fun q => absurd q (Nat.succ_ne_zero _), fun _ => ?_⟩
    · rw [hstep]; exact e3
    · rw [h3, hsq, show l.length - 1 = i + (n + 1) by omega]
    · by_cases q : n = 0
      · subst q
        have hres := (he.result hsz h hcap).2 ?_
        · cases fuel with
          | zero => omega
          | succ fuel =>
            have : OTable.eraseRange sz first (fuel + 1) m1 { t with core := c } (t.addr sz (i + 0)) next =
                .ok (m1, { t with core := c }, next) := by
              simp only [OTable.eraseRange]
              rw [if_pos (by rw [hfirst]; rfl)]
            have e3' : OTable.eraseRange sz first (fuel + 1) m1 { t with core := c } (t.addr sz (i + 0)) next = .ok (m2, t2, r) := e3
            rw [this] at e3'
            cases e3'
            exact hres
        · have hh : Rep hash sz m t l ((o1 ++ List.range' i 0 ++ [i + 0]) ++ [l.length - 1]) := by
            rw [List.append_assoc]; exact h
          have := nth_split hh
          rw [List.length_append, List.length_singleton] at this
          rw [this, h.core.size]
          rfl
      · exact h5 q

/-- The same as `ErasedAt.prev_moved` if the element in the last slot is before the erased one. -/
theorem ErasedAt.prev_moved_before {oa ob o2 : List Nat} {pos : Nat} (h : Rep hash sz m t l ((oa ++ (l.length - 1) :: ob) ++ pos :: o2))
    {m' : Mem} {c : Table k K V} {next : Int} (he : ErasedAt hash sz m t l (oa ++ (l.length - 1) :: ob) o2 pos m' c next) :
    Rep hash sz m' { t with core := c } (swapRemove l pos) (oa ++ pos :: (ob ++ o2)) ∧
    m'.prv (t.addr sz pos) = (oa.map (t.addr sz)).getLastD t.hd := by
  have hnd := h.nodup
  have hr := he.rep
  have e : ((oa ++ (l.length - 1) :: ob) ++ o2).map (ren (l.length - 1) pos) = oa ++ pos :: (ob ++ o2) := by
    simp only [List.nodup_append, List.nodup_cons, List.mem_append, List.mem_cons] at hnd
    rw [List.map_append, List.map_append, List.map_cons, ren_id, ren_id, ren_id]
    · unfold ren
      simp
    · intro q
      exact hnd.2.2 _ (Or.inr (Or.inl rfl)) _ (Or.inr q) rfl
    · exact hnd.1.2.1.1
    · intro q
      exact hnd.1.2.2 _ q _ (Or.inl rfl) rfl
  rw [e] at hr
  refine ⟨hr, ?_⟩
  have hr2 := hr.ring
  rw [List.map_append, List.map_cons] at hr2
  exact hr2.around.2

/-- If the element in the last slot is before the erased one, the second erasure hits its predecessor, or the header if there is none. -/
theorem eraseRange_wrong_before (hsz : 0 < sz) {oa ob o2 : List Nat} {pos : Nat}
    (h : Rep hash sz m t l ((oa ++ (l.length - 1) :: ob) ++ pos :: o2)) {first res : Int} {fuel : Nat}
    (hne : (o2.map (t.addr sz)).headD t.hd ≠ first) (hne' : t.addr sz pos ≠ first) {m' : Mem} {t' : OTable k K V} {r : Int}
    (e : OTable.eraseRange sz first fuel m t ((o2.map (t.addr sz)).headD t.hd) res = .ok (m', t', r)) :
    oa ≠ [] ∧ ∃ l' o', Rep hash sz m' t' l' o' ∧ (seq l' o').Sublist (seq l (oa.dropLast ++ (l.length - 1) :: (ob ++ o2))) := by
  have hring : Ring m t.hd (((oa ++ (l.length - 1) :: ob) ++ [pos]).map (t.addr sz) ++ o2.map (t.addr sz)) := by
    rw [← List.map_append, List.append_assoc]
    exact h.ring
  have hlive := hring.live _ (Ring.right_mem _ _)
  have hp := hring.place.2
  have hl : (((oa ++ (l.length - 1) :: ob) ++ [pos]).map (t.addr sz)).getLastD t.hd = t.addr sz pos := by
    rw [List.map_append, List.map_singleton, List.getLastD_concat]
  rw [hl] at hp
  cases fuel with
  | zero => cases e
  | succ fuel =>
    obtain ⟨m1, c, next, hcap, he, hstep⟩ := eraseRange_step (first := first) (res := res) hsz h hne hlive hp
    rw [hstep] at e
    obtain ⟨h1, p1⟩ := he.prev_moved_before h
    have hin : t.addr sz pos ∈ m1.live := h1.live _ (h1.addr_slots (i := pos) (by simp))
    cases fuel with
    | zero => cases e
    | succ fuel =>
      rcases List.eq_nil_or_concat oa with rfl | ⟨ob', y, rfl⟩
      · exfalso
        simp only [OTable.eraseRange] at e
        rw [if_neg hne', Mem.prevOf_ok hin, bind_ok, p1] at e
        have : OTable.eraseIter sz m1 ({ t with core := c } : OTable k K V) t.hd = .error .dangling := by
          unfold OTable.eraseIter
          rw [slotOf_none h1.hdr]
        simp only [List.map_nil, List.getLastD_nil] at e
        rw [this] at e
        cases e
      · rw [List.concat_eq_append] at h1 p1 h ⊢
        refine ⟨by simp, ?_⟩
        have py : ((ob' ++ [y]).map (t.addr sz)).getLastD t.hd = t.addr sz y := by simp
        rw [py] at p1
        rw [List.append_assoc] at h1
        obtain ⟨m2, c2, next2, _, he2, hstep2⟩ := eraseRange_step (first := first) (res := next) hsz h1 hne' hin p1
        rw [hstep2] at e
        obtain ⟨l', o', h3, h4⟩ := eraseRange_sublist hsz first fuel _ _ he2.rep e
        refine ⟨l', o', h3, ?_⟩
        rw [seq_ren h1.perm (fun _ q => q)] at h4
        have hnd := h.nodup
        have s2 : seq (swapRemove l pos) ((ob' ++ (l.length - 1) :: (ob ++ o2)).map (ren (l.length - 1) pos)) =
            seq l (ob' ++ (l.length - 1) :: (ob ++ o2)) := by
          refine seq_ren h.perm ?_
          intro i hi
          simp only [List.mem_append, List.mem_cons] at hi ⊢
          rcases hi with q | q | q | q
          · exact Or.inl (Or.inl (Or.inl q))
          · exact Or.inl (Or.inr (Or.inl q))
          · exact Or.inl (Or.inr (Or.inr q))
          · exact Or.inr q
        have s3 : (ob' ++ (l.length - 1) :: (ob ++ o2)).map (ren (l.length - 1) pos) = ob' ++ pos :: (ob ++ o2) := by
          simp only [List.nodup_append, List.nodup_cons, List.mem_append, List.mem_cons] at hnd
          rw [List.map_append, List.map_cons, ren_id, ren_id]
          · unfold ren
            simp
          · intro q
            rcases List.mem_append.mp q with q | q
            · exact hnd.1.2.1.1 q
            · exact hnd.2.2 _ (Or.inr (Or.inl rfl)) _ (Or.inr q) rfl
          · intro q
            exact hnd.1.2.2 _ (Or.inl q) _ (Or.inl rfl) rfl
        rw [List.dropLast_concat, ← s2, s3]
        exact h4

/-- A range of two elements if the second one is in the last slot, or the element behind it is. -/
theorem eraseRange_two (hsz : 0 < sz) {o1 o2 : List Nat} {x pos : Nat} (h : Rep hash sz m t l ((o1 ++ [x]) ++ pos :: o2))
    (hg : pos = l.length - 1 ∨ ∃ ob, o2 = (l.length - 1) :: ob) {fuel : Nat} (hf : 3 ≤ fuel) (res : Int) :
    ∃ m' t' r l' o', OTable.eraseRange sz (t.addr sz x) fuel m t ((o2.map (t.addr sz)).headD t.hd) res = .ok (m', t', r) ∧
      Rep hash sz m' t' l' o' ∧ seq l' o' = seq l o1 ++ seq l o2 := by
  have hring : Ring m t.hd (((o1 ++ [x]) ++ [pos]).map (t.addr sz) ++ o2.map (t.addr sz)) := by
    rw [← List.map_append, List.append_assoc]
    exact h.ring
  have hlive := hring.live _ (Ring.right_mem _ _)
  have hp := hring.place.2
  have hl : (((o1 ++ [x]) ++ [pos]).map (t.addr sz)).getLastD t.hd = t.addr sz pos := by simp
  rw [hl] at hp
  have hnd := h.nodup
  simp only [List.nodup_append, List.nodup_cons, List.mem_append, List.mem_cons, List.not_mem_nil, or_false] at hnd
  have hxp : t.addr sz pos ≠ t.addr sz x := fun q => hnd.2.2 _ (Or.inr rfl) _ (Or.inl rfl) (addr_inj hsz q).symm
  have hne : (o2.map (t.addr sz)).headD t.hd ≠ t.addr sz x := by
    cases o2 with
    | nil => exact fun q => h.hdr (by rw [show t.hd = t.addr sz x from q]; exact h.addr_slots (by simp))
    | cons y o2 => exact fun q => hnd.2.2 _ (Or.inr rfl) y (Or.inr (by simp)) (addr_inj hsz q).symm
  obtain ⟨f, rfl⟩ : ∃ f, fuel = f + 3 := ⟨fuel - 3, by omega⟩
  obtain ⟨m1, c, next, hcap, he, hstep⟩ := eraseRange_step (first := t.addr sz x) (res := res) hsz h hne hlive hp
  have hxl : x ≠ l.length - 1 := by
    intro q
    rcases hg with g | ⟨ob, g⟩
    · exact hnd.2.2 _ (Or.inr rfl) _ (Or.inl rfl) (q.trans g.symm)
    · exact hnd.2.2 _ (Or.inr rfl) (l.length - 1) (Or.inr (by simp [g])) q
  have hprev : m1.prv (t.addr sz pos) = t.addr sz x := by
    have : ((o1 ++ [x]).map (t.addr sz)).getLastD t.hd = t.addr sz x := by simp
    rcases hg with g | ⟨ob, rfl⟩
    · rw [he.prev_last h g, this]
    · rw [(ErasedAt.prev_moved (oa := []) h he).2, List.append_nil, this]
  have hin : t.addr sz pos ∈ m1.live := by
    refine he.rep.live _ (mem_slots.mpr ⟨pos, ?_, rfl⟩)
    simp only
    rw [hcap]
    exact h.lt_cap (h.lt (by simp))
  have hr := he.rep
  rw [List.map_append, List.map_append, show [x].map (ren (l.length - 1) pos) = [x] by simp [ren, hxl], List.append_assoc] at hr
  obtain ⟨m2, c2, next2, hcap2, he2, hstep2⟩ := eraseRange_step (first := t.addr sz x) (res := next) hsz hr hxp hin hprev
  refine ⟨m2, _, next2, _, _, ?_, he2.rep, ?_⟩
  · rw [hstep, hstep2]
    simp only [OTable.eraseRange]
    exact if_pos rfl
  · rw [seq_ren hr.perm (fun _ q => q)]
    change seq (swapRemove l pos) (o1.map _ ++ o2.map _) = _
    rw [← List.map_append, seq_ren h.perm, seq_append]
    intro i hi
    simp only [List.mem_append] at hi ⊢
    rcases hi with q | q
    · exact Or.inl (Or.inl q)
    · exact Or.inr q

end Tpp.ODense

namespace Tpp.OSwiss

open Tpp.Swiss (Node Table)
open Tpp.Ordered

variable {K V : Type} [DecidableEq K] {c : Cfg K}

/-- Iterating over a container whose header points outside. -/
theorem elements_outside {m : Mem} {t : OTable K V} {x : Int} (hl : t.hd ∈ m.live) (hx : m.nxt t.hd = x) (hne : x ≠ t.hd)
    (hn : x ∉ slots c.sz t.base t.core.cap) : t.elements c.sz m = .error .dangling := by
  unfold OTable.elements OTable.first
  rw [Mem.nextOf_ok hl, bind_ok, hx]
  simp only [walk]
  rw [if_neg hne]
  have : t.elemAt c.sz x = .error .dangling := by
    unfold OTable.elemAt
    have : t.slotOf c.sz x = none := by
      unfold OTable.slotOf
      rw [List.find?_eq_none]
      intro i hi q
      simp only [decide_eq_true_eq] at q
      exact hn (mem_slots.mpr ⟨i, List.mem_range.mp hi, q.symm⟩)
    rw [this]
  rw [this]
  rfl

/-- Swapping two containers of which one is empty at least. -/
theorem swap_empty (hsz : 0 < c.sz) {m : Mem} {t u : OTable K V} {o o' : List Nat} (ht : Rep c m t o) (h : Rep c m u o')
    (ha : Apart c.sz t u) (he : t.core.size = 0 ∨ u.core.size = 0) :
    ∃ m' t' u', t.swap m u = .ok (m', t', u') ∧ t'.elements c.sz m' = .error .dangling ∧
      (t.core.size = 0 → u'.elements c.sz m' = .error .dangling) ∧ (t.core.size ≠ 0 → u'.elements c.sz m' = .ok (seqOf t.core.node o)) := by
  have hdis : ∀ x ∈ t.hd :: o.map (t.addr c.sz), x ∉ u.hd :: o'.map (u.addr c.sz) := fun x hx q => ha x (ht.link.foot x hx) (h.link.foot x q)
  have hn : o.map (t.addr c.sz) = [] ↔ t.core.size = 0 := by
    rw [List.map_eq_nil_iff, ← List.length_eq_zero_iff, ht.length]
  have hn' : o'.map (u.addr c.sz) = [] ↔ u.core.size = 0 := by
    rw [List.map_eq_nil_iff, ← List.length_eq_zero_iff, h.length]
  obtain ⟨m1, e1, x1, x2, x3, lv⟩ := swapHeaders_empty ht.ring h.ring (by rw [hn, hn']; exact he) hdis
  unfold OTable.swap
  rw [e1, bind_ok]
  have hne : u.hd ≠ t.hd := fun q => ha t.hd (by simp [OTable.foot]) (by simp [OTable.foot, q])
  refine ⟨m1, _, _, rfl, ?_, ?_, ?_⟩
  · refine elements_outside (x := u.hd) ?_ x1 hne h.link.hdr
    rw [lv]; exact ht.link.hd_live
  · intro g
    refine elements_outside (x := t.hd) ?_ (x2 (hn.mpr g)) (Ne.symm hne) ht.link.hdr
    rw [lv]; exact h.link.hd_live
  · intro g
    refine Shows.elements (c := c) (o := o) hsz ⟨⟨ht.link.occ, x3 (fun q => g (hn.mp q)), ?_, ?_⟩, ht.length⟩
    · change ∀ x ∈ slots c.sz t.base t.core.cap, _
      rw [lv]; exact ht.link.live
    · change u.hd ∉ slots c.sz t.base t.core.cap
      exact fun q => ha _ (List.mem_cons_of_mem _ q) List.mem_cons_self

end Tpp.OSwiss
