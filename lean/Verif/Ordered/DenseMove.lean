import Verif.Ordered.DenseCopy

/-!
# Moving ordered dense containers between unequal allocators

`move_data` relocates the nodes one by one into the array of the target after the header was relinked.
-/

set_option linter.unusedSectionVars false

namespace Tpp.ODense

open Tpp.Dense
open Tpp.Ordered

variable {k : Nat} {K V : Type} [DecidableEq K]
variable {hash : K → Nat} {sz : Int} {A : Alloc} {m : Mem} {t u : OTable k K V} {l l' : List (Elem k K V)} {o o' : List Nat}

/-- The links after the elements were moved: the target has them in the same order in an array of its own; storage outside the
target and the source's array is as before. -/
theorem moveDataLinks_ok (hsz : 0 < sz) (hA : A.Sound sz) (hu : u.core.size = l.length) (hp : o.Perm (List.range l.length))
    (hcap : l.length ≤ u.core.cap) (hr : Ring m t.hd (o.map (u.addr sz))) (hlu : ∀ x ∈ slots sz u.base u.core.cap, x ∈ m.live)
    (hne : l ≠ []) (hl : ∀ x ∈ slots sz t.base t.core.cap, x ∈ m.live) (hh : t.hd ∉ slots sz t.base t.core.cap)
    (hhu : t.hd ∉ slots sz u.base u.core.cap) (ha : ∀ x ∈ slots sz u.base u.core.cap, x ∉ slots sz t.base t.core.cap) :
    ∃ m' b, t.moveDataLinks sz A m u = .ok (m', b) ∧ Ring m' t.hd (o.map (fun i : Nat => b + sz * (i : Int))) ∧
      (∀ x ∈ slots sz b (if t.core.cap < l.length then l.length else t.core.cap), x ∈ m'.live) ∧
      t.hd ∉ slots sz b (if t.core.cap < l.length then l.length else t.core.cap) ∧
      (∀ x ∈ slots sz b (if t.core.cap < l.length then l.length else t.core.cap), x ∉ slots sz u.base u.core.cap) ∧
      (∀ x ∈ slots sz u.base u.core.cap, x ∈ m'.live) ∧
      Frame m m' (t.foot sz ++ slots sz u.base u.core.cap)
        ((t.hd :: slots sz b (if t.core.cap < l.length then l.length else t.core.cap)) ++ slots sz u.base u.core.cap) := by
  have hpos : 0 < l.length := List.length_pos_iff.mpr hne
  unfold OTable.moveDataLinks
  rw [if_neg (by omega)]
  obtain ⟨m1, b, e1, l1, f1⟩ := realloc_ok hA hl l.length
  generalize hc : (if t.core.cap < l.length then l.length else t.core.cap) = c at *
  have hlc : l.length ≤ c := by rw [← hc]; split <;> omega
  have hhl : t.hd ∈ m.live := hr.live _ (by simp)
  have hmo : ∀ i ∈ o, i < l.length := fun i hi => List.mem_range.mp (hp.mem_iff.mp hi)
  have hsl : ∀ i, i < l.length → b + sz * (i : Int) ∈ slots sz b c := fun i hi => mem_slots.mpr ⟨i, by omega, rfl⟩
  have hso : ∀ i, i < l.length → u.addr sz i ∈ slots sz u.base u.core.cap := fun i hi => mem_slots.mpr ⟨i, by omega, rfl⟩
  have hdb : t.hd ∉ slots sz b c := by
    intro q
    rcases f1.fresh _ q with g | g
    · exact hh g
    · exact g hhl
  have hub : ∀ x ∈ slots sz b c, x ∉ slots sz u.base u.core.cap := by
    intro x q hx
    rcases f1.fresh _ q with g | g
    · exact ha x hx g
    · exact g (hlu x hx)
  have hring : ∀ x ∈ t.hd :: o.map (u.addr sz), x = t.hd ∨ x ∈ slots sz u.base u.core.cap := by
    intro x hx
    rcases List.mem_cons.mp hx with q | q
    · exact Or.inl q
    · rw [List.mem_map] at q
      obtain ⟨i, hi, rfl⟩ := q
      exact Or.inr (hso i (hmo i hi))
  have hr1 : Ring m1 t.hd (o.map (u.addr sz)) := f1.ring hr (by
    intro x hx
    rcases hring x hx with q | q
    · rw [q]; exact hh
    · exact ha x q)
  obtain ⟨m2, e2, r2, s2⟩ := relinkAll_ok (f := u.addr sz) (g := fun i : Nat => b + sz * (i : Int)) (js := List.range l.length) hr1
    List.nodup_range (fun i hi => hp.mem_iff.mpr hi) (fun _ _ => rfl) (fun i hi => l1 _ (hsl i (List.mem_range.mp hi)))
    (fun i hi q => by
      have hi := hsl i (List.mem_range.mp hi)
      rcases hring _ q with g | g
      · exact hdb (g ▸ hi)
      · exact hub _ hi g)
    (fun i _ j _ e => slot_inj hsz e)
  have hfun : o.map (fun i => if i ∈ List.range l.length then b + sz * (i : Int) else u.addr sz i) =
      o.map (fun i : Nat => b + sz * (i : Int)) := by
    refine List.map_congr_left ?_
    intro i hi
    rw [if_pos (hp.mem_iff.mp hi)]
  rw [hfun] at r2
  rw [hu, e1, bind_ok]
  unfold moveLinks
  simp only
  rw [show (fun (m : Mem) (i : Nat) => m.relinkFrom (b + sz * (i : Int)) (u.base + sz * (i : Int))) =
    (fun (m : Mem) (i : Nat) => m.relinkFrom (b + sz * (i : Int)) (u.addr sz i)) from rfl, e2, bind_ok]
  refine ⟨m2, b, rfl, r2, ?_, hdb, hub, ?_, ?_⟩
  · intro x hx
    rw [s2.live]
    exact l1 x hx
  · intro x hx
    rw [s2.live]
    exact (f1.keep x (hlu x hx) (ha x hx)).1
  · have f2 : Frame m1 m2 ((t.hd :: slots sz b c) ++ slots sz u.base u.core.cap)
        ((t.hd :: slots sz b c) ++ slots sz u.base u.core.cap) := by
      refine s2.frame ?_
      intro x hx
      rw [List.mem_append, not_or] at hx
      refine ⟨?_, ?_⟩
      · intro q
        rw [List.mem_map] at q
        obtain ⟨i, hi, q⟩ := q
        exact hx.1 (List.mem_cons_of_mem _ (q ▸ hsl i (List.mem_range.mp hi)))
      · intro q
        rcases hring x q with g | g
        · exact hx.1 (g ▸ List.mem_cons_self)
        · exact hx.2 g
    refine Frame.trans ?_ f2
    refine (f1.add (t.hd :: slots sz u.base u.core.cap)).congr ?_ ?_
    · intro x hx
      simp only [OTable.foot, List.cons_append, List.mem_cons, List.mem_append] at hx ⊢
      tauto
    · intro x hx
      simp only [OTable.foot, List.cons_append, List.mem_cons, List.mem_append] at hx ⊢
      tauto

/-- What an unequal move leaves: the target holds the sequence, the source's header is empty, its array is still its own. -/
structure MovedU (hash : K → Nat) (sz : Int) (m : Mem) (F : List Int) (m' : Mem) (t' u u' : OTable k K V)
    (l : List (Elem k K V)) (o : List Nat) : Prop where
  fst : Rep hash sz m' t' l o
  snd : Ring m' u.hd []
  hd2 : u'.hd = u.hd
  base2 : u'.base = u.base
  size2 : u'.core.size = 0
  cap2 : u'.core.cap = u.core.cap
  live2 : ∀ x ∈ u'.foot sz, x ∈ m'.live
  apart : Apart sz t' u'
  frame : Frame m m' (F ++ u.foot sz) (t'.foot sz ++ u'.foot sz)

/-- Moving into a container whose header was relinked. -/
theorem moveInto_ok (hsz : 0 < sz) (hA : A.Sound sz) {m0 : Mem} {F : List Int} (hu : Inv hash u.core l) (hp : o.Perm (List.range l.length))
    (hr : Ring m t.hd (o.map (u.addr sz))) (hr' : Ring m u.hd []) (hlu : ∀ x ∈ slots sz u.base u.core.cap, x ∈ m.live)
    (hhu' : u.hd ∉ slots sz u.base u.core.cap)
    (hl : ∀ x ∈ slots sz t.base t.core.cap, x ∈ m.live) (hh : t.hd ∉ slots sz t.base t.core.cap)
    (ha : Apart sz t u) (hf : Frame m0 m (F ++ u.foot sz) (t.foot sz ++ u.foot sz)) {c d : Table k K V} (hc : Inv hash c l)
    (hcap : c.cap = if l = [] then t.core.cap else if t.core.cap < l.length then l.length else t.core.cap)
    (hd : d.cap = u.core.cap) (hds : d.size = 0) :
    ∃ m' b, t.moveDataLinks sz A m u = .ok (m', b) ∧
      MovedU hash sz m0 F m' { t with core := c, base := b } u { u with core := d } l o := by
  have hlt : ∀ x ∈ u.foot sz, x ∉ t.foot sz := fun x hx q => ha x q hx
  by_cases hne : l = []
  · rw [if_pos hne] at hcap
    unfold OTable.moveDataLinks
    rw [if_pos (by rw [hu.size, hne]; rfl)]
    have ho : o = [] := List.length_eq_zero_iff.mp (by rw [hp.length_eq, hne]; rfl)
    subst ho
    have hft : OTable.foot sz { t with core := c, base := t.base } = t.foot sz := by
      change t.hd :: slots sz t.base c.cap = t.hd :: slots sz t.base t.core.cap
      rw [hcap]
    have hfu : OTable.foot sz { u with core := d } = u.foot sz := by
      change u.hd :: slots sz u.base d.cap = u.hd :: slots sz u.base u.core.cap
      rw [hd]
    refine ⟨m, t.base, rfl, ⟨hc, hp, hr, ?_, ?_⟩, hr', rfl, rfl, hds, hd, ?_, ?_, ?_⟩
    · change ∀ x ∈ slots sz t.base c.cap, _
      rw [hcap]; exact hl
    · change t.hd ∉ slots sz t.base c.cap
      rw [hcap]; exact hh
    · rw [hfu]
      intro x hx
      rcases List.mem_cons.mp hx with q | q
      · rw [q]; exact hr'.live _ (by simp)
      · exact hlu x q
    · unfold Apart
      rw [hft, hfu]
      exact ha
    · rw [hft, hfu]
      exact hf
  · rw [if_neg hne] at hcap
    obtain ⟨m', b, e, h1, h2, h3, h4, hsl, h5⟩ := moveDataLinks_ok hsz hA hu.size hp (by rw [← hu.size]; exact hu.le_cap) hr hlu hne hl hh
      (fun q => ha _ List.mem_cons_self (List.mem_cons_of_mem _ q))
      (fun x hx q => ha x (List.mem_cons_of_mem _ q) (List.mem_cons_of_mem _ hx))
    have huk : ∀ x ∈ m.live, x = u.hd → x ∉ t.foot sz ++ slots sz u.base u.core.cap := by
      intro x _ hx q
      rcases List.mem_append.mp q with g | g
      · exact ha x g (hx ▸ List.mem_cons_self)
      · exact hhu' (hx ▸ g)
    have hul : u.hd ∈ m.live := hr'.live _ (by simp)
    have hft : OTable.foot sz { t with core := c, base := b } = t.hd :: slots sz b (if t.core.cap < l.length then l.length else t.core.cap) := by
      change t.hd :: slots sz b c.cap = _
      rw [hcap]
    have hfu : OTable.foot sz { u with core := d } = u.foot sz := by
      change u.hd :: slots sz u.base d.cap = u.hd :: slots sz u.base u.core.cap
      rw [hd]
    generalize (if t.core.cap < l.length then l.length else t.core.cap) = n at *
    refine ⟨m', b, e, ⟨hc, hp, h1, ?_, ?_⟩, ?_, rfl, rfl, hds, hd, ?_, ?_, ?_⟩
    · change ∀ x ∈ slots sz b c.cap, _
      rw [hcap]; exact h2
    · change t.hd ∉ slots sz b c.cap
      rw [hcap]; exact h3
    · refine h5.ring hr' ?_
      intro x hx
      have hx : x = u.hd := by simpa using hx
      exact huk x (hx ▸ hul) hx
    · rw [hfu]
      intro x hx
      rcases List.mem_cons.mp hx with q | q
      · rw [q]; exact (h5.keep _ hul (huk _ hul rfl)).1
      · exact hsl x q
    · unfold Apart
      rw [hft, hfu]
      intro x hx q
      rcases List.mem_cons.mp hx with g | g <;> rcases List.mem_cons.mp q with g' | g'
      · exact ha x (g ▸ List.mem_cons_self) (g' ▸ List.mem_cons_self)
      · exact ha x (g ▸ List.mem_cons_self) (List.mem_cons_of_mem _ g')
      · rcases h5.fresh x (List.mem_append_left _ (List.mem_cons_of_mem _ g)) with y | y
        · exact huk x (g' ▸ hul) g' y
        · exact y (g' ▸ hul)
      · exact h4 x g g'
    · rw [hft, hfu]
      refine hf.trans ((h5.add [u.hd]).congr ?_ ?_)
      · intro x hx
        simp only [OTable.foot, List.cons_append, List.nil_append, List.mem_cons, List.mem_append] at hx ⊢
        tauto
      · intro x hx
        simp only [OTable.foot, List.cons_append, List.nil_append, List.mem_cons, List.mem_append] at hx ⊢
        tauto

/-- The unordered part of a source whose elements were moved away. -/
def gone (other : Table k K V) : Table k K V :=
  { other with size := 0, node := fun i => if i < other.size then none else other.node i }

/-- The unordered part of an unequal move. -/
theorem moveData_ok {t other : Table k K V} (h : Inv hash other l) (hs : t.size = 0) (hn : ∀ i, t.node i = none)
    (hg : l ≠ [] ∨ Inv hash t []) :
    ∃ c, t.moveData other = .ok (c, gone other) ∧ Inv hash c l ∧
      c.cap = if l = [] then t.cap else if t.cap < l.length then l.length else t.cap := by
  by_cases hl : l = []
  · have hz : other.size = 0 := by rw [h.size, hl]; rfl
    have hgone : gone other = other := by
      unfold gone
      rw [hz]
      simp only [Nat.not_lt_zero, if_false]
      obtain ⟨⟩ := other
      simp only at hz
      rw [hz]
    rcases hg with q | q
    · exact absurd hl q
    refine ⟨t, ?_, by rw [hl]; exact q, by rw [if_pos hl]⟩
    unfold Table.moveData Table.copyData
    rw [if_pos hz, if_neg (by omega), if_pos hz, bind_ok, hgone]
    obtain ⟨⟩ := t
    simp only at hs
    rw [hs]
  · obtain ⟨c, e, hc, _, _, hcap⟩ := Dense.copyData_ok h hl hs hn
    have hz : other.size ≠ 0 := by
      rw [h.size]
      exact fun g => hl (List.length_eq_zero_iff.mp g)
    refine ⟨c, ?_, hc, by rw [if_neg hl, hcap, h.size]⟩
    unfold Table.moveData
    rw [if_neg hz, e, bind_ok]
    rfl

/-- Move construction with an unequal allocator. -/
theorem moveCtorUnequal_ok (hsz : 0 < sz) (hA : A.Sound sz) (h : Rep hash sz m u l o) :
    ∃ m' t u', OTable.moveCtorUnequal sz A m u = .ok (m', t, u') ∧ u'.core = gone u.core ∧ t.hd ∉ m.live ∧
      MovedU hash sz m [] m' t u u' l o := by
  obtain ⟨m1, t1, e1, c1, b1, h1, n1, f1⟩ := create_ok (hash := hash) (k := k) (K := K) (V := V) hA m u.core.lf
  have hu1 : Rep hash sz m1 u l o := h.frame f1 (fun _ _ => by simp)
  have hnf : t1.hd ∉ u.hd :: o.map (u.addr sz) := fun q => n1 (h.foot_live _ (h.ring_foot _ q))
  obtain ⟨m2, e2, r1, r2, s2⟩ := hu1.ring.rebase h1.hd_live hnf
  have hap : Apart sz t1 u := fun x hx q => by
    rcases f1.fresh x hx with g | g
    · cases g
    · exact g (h.foot_live x q)
  have f2 : Frame m m2 ([] ++ u.foot sz) (t1.foot sz ++ u.foot sz) := by
    have g1 : Frame m m1 ([] ++ u.foot sz) (t1.foot sz ++ u.foot sz) := by
      refine (f1.add (u.foot sz)).congr (by simp) ?_
      intro x hx
      simp only [List.mem_append] at hx ⊢
      tauto
    refine g1.trans (s2.frame ?_)
    intro x hx
    rw [List.mem_append, not_or] at hx
    exact ⟨fun q => hx.1 (q ▸ List.mem_cons_self), fun q => hx.2 (h.ring_foot x q)⟩
  obtain ⟨c, e3, hc, hcap⟩ := moveData_ok (t := Table.init u.core.lf) h.core rfl (fun _ => rfl) (Or.inr (init_inv hash u.core.lf))
  obtain ⟨m3, b, e4, hm⟩ := moveInto_ok (t := t1) (u := u) (m := m2) (m0 := m) (F := []) hsz hA h.core h.perm r1 r2
    (by rw [s2.live]; exact hu1.live) h.hdr (by rw [s2.live]; exact h1.live) h1.hdr hap f2 hc (by rw [c1]; exact hcap)
    (d := gone u.core) rfl rfl
  unfold OTable.moveCtorUnequal
  rw [e1]
  simp only
  rw [e2, bind_ok, e4, bind_ok]
  unfold Table.moveCtor Table.moveFrom
  simp only [Bool.false_eq_true, if_false]
  rw [e3, bind_ok]
  exact ⟨m3, _, _, rfl, rfl, n1, hm⟩

/-- Move assignment with unequal allocators that are not propagated. -/
theorem moveAssignUnequal_ok (hsz : 0 < sz) (hA : A.Sound sz) (ht : Rep hash sz m t l' o') (h : Rep hash sz m u l o)
    (ha : Apart sz t u) (hg : l ≠ [] ∨ l' = []) :
    ∃ m' t' u', t.moveAssignUnequal sz A m u = .ok (m', t', u') ∧ u'.core = gone u.core ∧ t'.hd = t.hd ∧
      MovedU hash sz m (t.foot sz) m' t' u u' l o := by
  have hnf : t.hd ∉ u.hd :: o.map (u.addr sz) := fun q => ha _ List.mem_cons_self (h.ring_foot _ q)
  obtain ⟨m1, e1, r1, r2, s1⟩ := h.ring.rebase ht.hd_live hnf
  obtain ⟨c0, e2, c2⟩ := Dense.clearData_ok (ht.core.setLoad u.core.lf).toArr
  have hg' : l ≠ [] ∨ Inv hash c0 [] := by
    rcases hg with q | q
    · exact Or.inl q
    · right
      subst q
      have hz : t.core.size = 0 := ht.core.size
      have : (t.core.setLoad u.core.lf).clearData = .ok (t.core.setLoad u.core.lf) := by
        unfold Table.clearData
        rw [show (t.core.setLoad u.core.lf).size = 0 from hz]
        show Except.ok _ = _
        congr 1
        unfold Table.setLoad
        rw [← hz]
      rw [this] at e2
      cases e2
      exact ht.core.setLoad u.core.lf
  obtain ⟨c, e3, hc, hcap⟩ := moveData_ok (t := c0) h.core c2.size c2.node hg'
  rw [c2.cap] at hcap
  have f1 : Frame m m1 (t.foot sz ++ u.foot sz) (t.foot sz ++ u.foot sz) := s1.frame (by
    intro x hx
    rw [List.mem_append, not_or] at hx
    exact ⟨fun q => hx.1 (q ▸ List.mem_cons_self), fun q => hx.2 (h.ring_foot x q)⟩)
  obtain ⟨m3, b, e4, hm⟩ := moveInto_ok (t := t) (u := u) (m := m1) (m0 := m) (F := t.foot sz) hsz hA h.core h.perm r1 r2
    (by rw [s1.live]; exact h.live) h.hdr (by rw [s1.live]; exact ht.live) ht.hdr ha f1 hc hcap (d := gone u.core) rfl rfl
  unfold OTable.moveAssignUnequal
  rw [e1, bind_ok, e4, bind_ok]
  unfold Table.moveAssign Table.moveFrom
  rw [show ({ t.core with lf := u.core.lf } : Table k K V) = t.core.setLoad u.core.lf from rfl, e2, bind_ok]
  simp only [Bool.false_eq_true, if_false, Bool.or_false]
  rw [e3, bind_ok]
  exact ⟨m3, _, _, rfl, rfl, rfl, hm⟩

end Tpp.ODense
