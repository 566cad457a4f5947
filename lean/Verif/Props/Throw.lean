import Verif.Swiss.Throw
import Verif.Props.Copies
import Mathlib.Order.Nat

/-!
# C69, C70: exceptions thrown while elements are copied or moved in bulk (sparse containers)
-/

set_option linter.unusedSectionVars false

namespace Tpp.Swiss

variable {K V : Type} [DecidableEq K]

/-- The elements of the slots below `q`, in slot order. -/
def Table.before (t : Table K V) (q : Nat) : List (K × V) := (collect t.node q).map fun n => (n.key, n.val)

/-- Slot `q` holds an element. -/
def Table.holds (t : Table K V) (q : Nat) : Prop := q < t.cap ∧ (t.node q).isSome = true

theorem Table.holds.occ {isa : Isa} {hash : K → Nat} {t : Table K V} (h : Inv isa hash t) {q : Nat} (hq : t.holds q) :
    (t.ctl q).isOccupied = true := by
  rw [← h.live q hq.1]; exact hq.2

theorem before_ne {t : Table K V} {q : Nat} (h : t.before q ≠ []) : ∃ p, p < q ∧ (t.node p).isSome = true := by
  have : 0 < cnt (fun i => (t.node i).isSome) q := by
    rw [← collect_length]
    refine List.length_pos_iff.mpr fun e => h ?_
    unfold Table.before
    rw [e]; rfl
  exact cnt_pos this

/-! ## C69 -/

/-- C69 is false for copy construction, all sources, whichever element throws: the memory of the unfinished copy and the
elements copied before are lost (no destructor runs). -/
theorem C69_copy_construct_false {isa : Isa} {hash : K → Nat} {a : Table K V} (ha : Reachable isa hash a) {q : Nat}
    (hq : a.holds q) :
    ∃ c, Table.copyCtorThrow isa a q = .ok (some c) ∧ c.cap = a.cap ∧ 0 < c.cap ∧ c.contents = a.before q := by
  obtain ⟨x, _, h1, h2, _, _, _, h3, _⟩ := copyDataThrow_spec (t := Table.init) ha.inv rfl
    (fun i hi => absurd hi (Nat.not_lt_zero _)) (Or.inl rfl) hq.1 (hq.occ ha.inv)
  have hc : x.cap = a.cap := by rw [h2]; simp [Table.init]
  exact ⟨x, h1, hc, by have := hq.1; omega, h3⟩

theorem copyAssignThrow_spec {isa : Isa} {hash hash' : K → Nat} {al : AllocP} {t a : Table K V}
    (ht : Inv isa hash t) (ha : Inv isa hash' a) {q : Nat} (hq : a.holds q) :
    ∃ x, Table.copyAssignThrow isa al t a q = .ok (some x) ∧ x.size = 0 ∧ MetaOk isa x.cap x.len x.ctl ∧
      (∀ i, i < x.cap → (x.node i).isSome = (x.ctl i).isOccupied) ∧ x.contents = a.before q := by
  obtain ⟨f, h1, h2⟩ := ht.erased
  unfold Table.copyAssignThrow
  rw [h1, bind_ok]
  unfold Table.bufAssign
  cases al.copyProp with
  | true =>
    simp only [if_true]
    rw [dropBuffer_spec (t := { t with node := f, size := 0 }) h2, bind_ok]
    obtain ⟨x, _, e1, _, e2, e3, e4, e5, _⟩ := copyDataThrow_spec
      (t := { t with node := fun _ => none, size := 0, cap := 0, len := 0, ctl := fun _ => .empty }) ha rfl
      (fun i hi => absurd hi (Nat.not_lt_zero _)) (Or.inl rfl) hq.1 (hq.occ ha)
    exact ⟨x, e1, e2, e3, e4, e5⟩
  | false =>
    simp only [Bool.false_eq_true, if_false, bind_ok]
    obtain ⟨x, _, e1, _, e2, e3, e4, e5, _⟩ := copyDataThrow_spec (t := { t with node := f, size := 0 }) ha rfl h2 ht.copyShape
      hq.1 (hq.occ ha)
    exact ⟨x, e1, e2, e3, e4, e5⟩

theorem lax_iterate {isa : Isa} {t : Table K V} (hm : MetaOk isa t.cap t.len t.ctl)
    (hlive : ∀ i, i < t.cap → (t.node i).isSome = (t.ctl i).isOccupied) : Ends isa (t.iterate isa) (· = t.contents) := by
  unfold Table.iterate Table.begin_
  refine (lax_toIter (Or.inr hm) (Nat.zero_le _)).bind ?_
  intro r hr
  unfold Table.iterateFrom
  rw [lax_end (Or.inr hm)]
  simp only [bind_ok]
  refine (lax_walk (Or.inr hm) hlive _ _ hr.2.1 hr.2.2.2 (by omega)).mono ?_
  intro l hl
  rw [hl, ← elemsFrom_next hlive hr, elemsFrom_zero]

theorem live_of_contents {t : Table K V} (h : t.contents ≠ []) : ∃ i, i < t.cap ∧ (t.node i).isSome = true := by
  have : 0 < cnt (fun i => (t.node i).isSome) t.cap := by
    rw [← collect_length]
    refine List.length_pos_iff.mpr fun e => h ?_
    unfold Table.contents Table.nodes
    rw [e]; rfl
  exact cnt_pos this

/-- C69 is false for copy assignment, all targets and sources, if any but the first element throws: iteration shows the
elements copied so far, but the size is 0 and no key is found, `clear` does nothing and the destructor leaks them. -/
theorem C69_copy_assign_false {isa : Isa} {hash hash' : K → Nat} {al : AllocP} {t a : Table K V}
    (ht : Reachable isa hash t) (ha : Reachable isa hash' a) {q : Nat} (hq : a.holds q) (hne : a.before q ≠ []) :
    ∃ c, Table.copyAssignThrow isa al t a q = .ok (some c) ∧ c.size = 0 ∧ (∀ k, c.contains isa hash' k = .ok false) ∧
      Ends isa (c.iterate isa) (· = a.before q) ∧ c.clear isa = .ok c ∧ c.dtor = .error .leak := by
  obtain ⟨x, h1, h2, h3, h4, h5⟩ := copyAssignThrow_spec (al := al) ht.inv ha.inv hq
  refine ⟨x, h1, h2, ?_, h5 ▸ lax_iterate h3 h4, ?_, ?_⟩
  · intro k
    simp [Table.contains, Table.findNode, h2]
  · simp [Table.clear, h2]
  · obtain ⟨i, hi, hn⟩ := live_of_contents (t := x) (by rw [h5]; exact hne)
    unfold Table.dtor
    rw [if_neg (by simp [h2])]
    exact dropBuffer_leak hi hn

/-- C69, copy assignment in which the first element throws: the target is left empty. -/
theorem C69_copy_assign_first_partial {isa : Isa} {hash hash' : K → Nat} {al : AllocP} {t a : Table K V}
    (ht : Reachable isa hash t) (ha : Reachable isa hash' a) {q : Nat} (hq : a.holds q) (he : a.before q = []) :
    ∃ c, Table.copyAssignThrow isa al t a q = .ok (some c) ∧ c.size = 0 ∧ (∀ k, c.contains isa hash' k = .ok false) ∧
      Ends isa (c.iterate isa) (· = []) ∧ ∃ c', c.dtor = .ok c' := by
  obtain ⟨x, h1, h2, h3, h4, h5⟩ := copyAssignThrow_spec (al := al) ht.inv ha.inv hq
  refine ⟨x, h1, h2, ?_, he ▸ h5 ▸ lax_iterate h3 h4, ?_⟩
  · intro k
    simp [Table.contains, Table.findNode, h2]
  · unfold Table.dtor
    rw [if_neg (by simp [h2])]
    refine ⟨_, dropBuffer_spec fun i hi => ?_⟩
    cases hn : x.node i with
    | none => rfl
    | some n =>
      have : (n.key, n.val) ∈ x.contents := mem_contents.mpr ⟨i, n, hi, hn, rfl, rfl⟩
      rw [h5, he] at this
      cases this

theorem dead_destroy {isa : Isa} {t : Table K V} (hm : MetaOk isa t.cap t.len t.ctl) {p : Nat} (hp : p < t.cap)
    (ho : (t.ctl p).isOccupied = true) (hdead : ∀ i, i ≤ p → t.node i = none) :
    (List.range t.cap).foldlM (fun (t : Table K V) i => do
      let c ← t.readCtl i
      if c.isOccupied then t.destroy i else .ok t) t = .error .deadDestroy := by
  have hex : ∃ p, (t.ctl p).isOccupied = true := ⟨p, ho⟩
  have h1 := Nat.find_spec hex
  have h2 : ∀ i, i < Nat.find hex → (t.ctl i).isOccupied = false := fun i hi => by
    have := Nat.find_min hex hi
    revert this
    cases (t.ctl i).isOccupied <;> simp
  have h3 := Nat.find_le (h := hex) ho
  generalize Nat.find hex = p0 at h1 h2 h3
  obtain ⟨s, e1, e2⟩ := foldlM_range (f := fun (t : Table K V) i => do
      let c ← t.readCtl i
      if c.isOccupied then t.destroy i else .ok t) (fun _ s => s = t) p0 (s := t) rfl (by
    rintro i hi s rfl
    rw [readCtl_ok hm (by omega)]
    simp only [bind_ok, h2 i hi, Bool.false_eq_true, if_false]
    exact ⟨_, rfl, rfl⟩)
  have : ∀ d, (List.range (p0 + 1 + d)).foldlM (fun (t : Table K V) i => do
      let c ← t.readCtl i
      if c.isOccupied then t.destroy i else .ok t) t = .error .deadDestroy := by
    intro d
    induction d with
    | zero =>
      rw [Nat.add_zero, List.range_succ, List.foldlM_append, e1, e2, bind_ok, List.foldlM_cons, readCtl_ok hm (by omega)]
      simp only [bind_ok, h1, if_true, Table.destroy, show p0 < t.cap by omega, hdead p0 h3]
      rfl
    | succ d ih =>
      rw [← Nat.add_assoc, List.range_succ, List.foldlM_append, ih]
      rfl
  have h4 := this (t.cap - (p0 + 1))
  rw [show p0 + 1 + (t.cap - (p0 + 1)) = t.cap by omega] at h4
  exact h4

/-- C69 is false for move assignment between unequal allocators, all targets and sources, if any but the first element throws:
the source reports its old size and iterating over it reads an element that was moved away and destroyed; the target is as for
copy assignment. -/
theorem C69_move_assign_false {isa : Isa} {hash hash' : K → Nat} {t a : Table K V} (ht : Reachable isa hash t)
    (ha : Reachable isa hash' a) {q : Nat} (hq : a.holds q) (hne : a.before q ≠ []) :
    ∃ c a', Table.moveAssignThrow isa t a q = .ok (some (c, a')) ∧ c.size = 0 ∧ (∀ k, c.contains isa hash' k = .ok false) ∧
      Ends isa (c.iterate isa) (· = a.before q) ∧ c.dtor = .error .leak ∧ a'.size = a.size ∧
      (a'.iterate isa = .error .deadRead ∨ (isa.W = 8 ∧ a'.iterate isa = .error .ctzZero)) ∧ a'.dtor = .error .deadDestroy := by
  obtain ⟨f, h1, h2⟩ := ht.inv.erased
  obtain ⟨x, t1, e1, _, e2, e3, e4, e5, e6, e7⟩ := copyDataThrow_spec (t := { t with node := f, size := 0 }) ha.inv rfl h2
    ht.inv.copyShape hq.1 (hq.occ ha.inv)
  obtain ⟨p, hp, hpn⟩ := before_ne hne
  have hpc : p < a.cap := by have := hq.1; omega
  have hpo : (a.ctl p).isOccupied = true := by rw [← ha.inv.live p hpc]; exact hpn
  have hm := ha.inv.meta_ok (show 0 < a.cap by omega)
  have hdead : ∀ i, i ≤ p → (a.without (List.range q)).node i = none := by
    intro i hi
    show (if i ∈ List.range q ∧ (a.ctl i).isOccupied = true then none else a.node i) = none
    split
    · rfl
    · rename_i hh
      have hl := ha.inv.live i (by omega)
      cases hn : a.node i with
      | none => rfl
      | some n => rw [hn] at hl; exact absurd ⟨List.mem_range.mpr (by omega), hl.symm⟩ hh
  refine ⟨x, a.without (List.range q), ?_, e2, ?_, (lax_iterate e3 e4).mono (fun l hl => hl.trans e5), ?_, rfl, ?_, ?_⟩
  · unfold Table.moveAssignThrow
    rw [h1, bind_ok]
    exact moveDataThrow_spec ha.inv rfl hq.1 (hq.occ ha.inv) e6 e7
  · intro k
    simp [Table.contains, Table.findNode, e2]
  · obtain ⟨i, hi, hn⟩ := live_of_contents (t := x) (by rw [e5]; exact hne)
    unfold Table.dtor
    rw [if_neg (by simp [e2])]
    exact dropBuffer_leak hi hn
  · exact ghost_first (t := a.without (List.range q)) hm hpc hpo hdead
  · have hz : a.size ≠ 0 := by
      have h1 := ha.inv.size_eq
      have := cnt_pos_of (p := fun i => (a.ctl i).isOccupied) hpc hpo
      omega
    have hfail := dead_destroy (t := a.without (List.range q)) hm hpc hpo hdead
    unfold Table.dtor Table.eraseNodes
    rw [if_pos (show (a.without (List.range q)).size ≠ 0 from hz), hfail]
    rfl

/-! ## C70 -/

theorem Frag.hidden {isa : Isa} {hash : K → Nat} {t s : Table K V} (h : Frag isa hash s) (hc : 0 < s.cap) (hz : s.size ≠ 0)
    (ht : Inv isa hash t) {n : Node K V} {q : Nat} (hq : q < t.cap) (hn : t.node q = some n)
    (hno : ∀ x ∈ (s.shown isa).contents, x.1 ≠ n.key) :
    t.contains isa hash n.key = .ok true ∧ s.contains isa hash n.key = .ok false := by
  constructor
  · rw [contains_spec ht, (Spec.lookup_some ht.contents_uniq).mpr (mem_contents.mpr ⟨q, n, hq, hn, rfl, rfl⟩)]
    rfl
  · rw [(h.find hc hz n.key).1]
    cases hx : Spec.lookup (s.shown isa).contents n.key with
    | none => rfl
    | some v =>
      rw [Spec.lookup_some h.inv.contents_uniq] at hx
      exact absurd rfl (hno _ hx)

/-- The size of a table with an element is not zero. -/
theorem Table.holds.size {isa : Isa} {hash : K → Nat} {t : Table K V} (h : Inv isa hash t) {q : Nat} (hq : t.holds q) : t.size ≠ 0 := by
  have h1 := h.size_eq
  have := cnt_pos_of (p := fun i => (t.ctl i).isOccupied) hq.1 (hq.occ h)
  omega

theorem collect_split {α : Type} (f : Nat → Option α) {q n : Nat} (h : q ≤ n) :
    collect f n = collect f q ++ (List.range' q (n - q)).filterMap f := by
  obtain ⟨d, rfl⟩ : ∃ d, n = q + d := ⟨n - q, by omega⟩
  rw [Nat.add_sub_cancel_left]
  unfold collect
  rw [List.range_eq_range', List.range_eq_range', ← List.filterMap_append]
  have := List.range'_append_1 (s := 0) (m := q) (n := d)
  rw [Nat.zero_add] at this
  rw [this]

/-- C70, growth: exactly the elements relocated before the exception are shown, found and destroyed by the destructor. -/
theorem C70_growth_partial {isa : Isa} {hash : K → Nat} {t : Table K V} (ht : Reachable isa hash t) {m : List (K × V)}
    (hb : Behaves isa hash t m) {n e : Nat} (hn : n + 1 = 2 ^ e) (hsz : t.size ≤ maxSize isa n) {q : Nat} (hq : t.holds q) :
    ∃ old new m1 m2, t.doRehashThrow isa n q = .ok (some (old, new)) ∧ m.Perm (m1 ++ m2) ∧ m2 ≠ [] ∧
      Ends isa (new.iterate isa) (fun l => l.Perm m1) ∧
      (∀ k, new.contains isa hash k = .ok (Spec.lookup m1 k).isSome ∧ new.lookup isa hash k = .ok (Spec.lookup m1 k)) ∧
      ∃ c, new.dtor = .ok c := by
  have hi := ht.inv
  have ho := hq.occ hi
  obtain ⟨old, new, h1, h2, h3, h4, h5, h6, h7⟩ := doRehashThrow_spec hi hn hsz hq.1 ho
  obtain ⟨x, hx⟩ := Option.isSome_iff_exists.mp hq.2
  have hz := hq.size hi
  have hc : 0 < new.cap := by
    have := hi.size_le
    rcases Nat.eq_zero_or_pos n with h0 | h0
    · rw [h0] at hsz
      have : maxSize isa 0 = 0 := by cases isa <;> rfl
      omega
    · omega
  refine ⟨old, new, new.contents, ((List.range' q (t.cap - q)).filterMap t.node).map (fun n => (n.key, n.val)), h1, ?_, ?_, ?_, ?_,
    shown_dtor h5.md h5.live (by rw [h4]; exact hz)⟩
  · refine (hb.contents_perm hi).symm.trans ?_
    unfold Table.contents at h7 ⊢
    unfold Table.nodes at h7 ⊢
    rw [collect_split t.node (Nat.le_of_lt hq.1), List.map_append]
    exact (h7.symm).append_right _
  · intro hnil
    have : (x.key, x.val) ∈ ((List.range' q (t.cap - q)).filterMap t.node).map (fun n => (n.key, n.val)) :=
      List.mem_map.mpr ⟨x, List.mem_filterMap.mpr ⟨q, List.mem_range'_1.mpr ⟨Nat.le_refl _, by have := hq.1; omega⟩, hx⟩, rfl⟩
    rw [hnil] at this
    cases this
  · refine (lax_iterate h5.md h5.live).mono ?_
    rintro l rfl
    exact List.Perm.refl _
  · intro k
    have := h6.find hc (by rw [h4]; exact hz) k
    rw [h5.shown_contents] at this
    exact this

/-- C70 is false for growth, all containers, all new bucket counts, whichever element throws: elements are lost although the
size still counts them, and they leak in the old buffer, to which nothing refers any more. -/
theorem C70_growth_false {isa : Isa} {hash : K → Nat} {t : Table K V} (ht : Reachable isa hash t)
    {n e : Nat} (hn : n + 1 = 2 ^ e) (hsz : t.size ≤ maxSize isa n) {q : Nat} (hq : t.holds q) :
    ∃ old new, t.doRehashThrow isa n q = .ok (some (old, new)) ∧ new.size = t.size ∧
      Ends isa (new.iterate isa) (fun l => l.length < t.size) ∧
      (∃ k, t.contains isa hash k = .ok true ∧ new.contains isa hash k = .ok false) ∧ old.dropBuffer = .error .leak := by
  have hi := ht.inv
  obtain ⟨m, hb⟩ := ht.behaves
  obtain ⟨old, new, m1, m2, g1, g2, g3, g4, g5, _⟩ := C70_growth_partial ht hb hn hsz hq
  obtain ⟨old', new', h1, h2, h3, h4, h5, h6, h7⟩ := doRehashThrow_spec hi hn hsz hq.1 (hq.occ hi)
  rw [h1] at g1
  cases g1
  refine ⟨old, new, h1, h4, g4.mono ?_, ?_, ?_⟩
  · intro l hl
    rw [hb.size, hl.length_eq, g2.length_eq, List.length_append]
    have := List.length_pos_iff.mpr g3
    omega
  · obtain ⟨y, m3, rfl⟩ := List.exists_cons_of_ne_nil g3
    have hu : ((m1 ++ y :: m3).map Prod.fst).Nodup := (g2.map _).nodup_iff.mp hb.uniq
    refine ⟨y.1, ?_, ?_⟩
    · rw [hb.contains, (Spec.lookup_some hb.uniq).mpr (g2.symm.subset (List.mem_append_right m1 List.mem_cons_self))]
      rfl
    · rw [(g5 y.1).1]
      cases hx : Spec.lookup m1 y.1 with
      | none => rfl
      | some v =>
        rw [List.map_append, List.nodup_append] at hu
        rw [Spec.lookup_some hu.1] at hx
        exact absurd rfl (hu.2.2 y.1 (List.mem_map.mpr ⟨_, hx, rfl⟩) y.1 (List.mem_map.mpr ⟨y, List.mem_cons_self, rfl⟩))
  · rw [h2]
    refine dropBuffer_leak (i := q) hq.1 ?_
    show (if q < q then none else t.node q).isSome = true
    rw [if_neg (Nat.lt_irrefl q)]
    exact hq.2

/-- C70, reclaiming erased slots in place: what is shown is a part of the elements, which lookups find. -/
theorem C70_reclaim_partial {isa : Isa} {hash : K → Nat} {t s : Table K V} (ht : Reachable isa hash t) (hW : isa.W ≤ t.cap + 1)
    {m : List (K × V)} (hb : Behaves isa hash t m) {q r : Nat} (he : t.rehashDeletedThrow isa q r = .ok (some s)) :
    ∃ m1, m1 ⊆ m ∧ s.contents.Perm m ∧ Ends isa (s.iterate isa) (· = m1) ∧
      (∀ k, s.contains isa hash k = .ok (Spec.lookup m1 k).isSome ∧ s.lookup isa hash k = .ok (Spec.lookup m1 k)) := by
  have hi := ht.inv
  obtain ⟨hq, hR, hd⟩ := rehashDeletedThrow_spec hi hW he
  have hsz := hi.size_le
  have hlen := hi.nodes_length
  have hF := hR.frag (by rw [hR.cap_eq]; omega)
  have hc : 0 < s.cap := by rw [hR.cap_eq]; omega
  have hperm : s.contents.Perm m := (hR.nodes.map _).trans (hb.contents_perm hi)
  have hzz : s.size ≠ 0 := by
    rw [hR.size_eq]
    have h1 := hR.live q (by rw [hR.cap_eq]; exact hq)
    rw [hd] at h1
    have h2 := cnt_pos_of (p := fun i => (s.node i).isSome) (show q < s.cap by rw [hR.cap_eq]; exact hq) h1
    rw [← collect_length, hR.nodes.length_eq] at h2
    omega
  refine ⟨(s.shown isa).contents, ?_, hperm, shown_iterate hF.md hF.live, hF.find hc hzz⟩
  rintro ⟨k, v⟩ hx
  obtain ⟨i, n, h1, h2, h3, h4⟩ := mem_contents.mp hx
  exact hperm.subset (mem_contents.mpr ⟨i, n, h1, (shown_some h2).2, h3, h4⟩)

/-- C70 is false for reclaiming in place, all containers, wherever the exception occurs: elements can no longer be found
although the size still counts them, and the destructor leaks them. -/
theorem C70_reclaim_false {isa : Isa} {hash : K → Nat} {t s : Table K V} (ht : Reachable isa hash t) (hW : isa.W ≤ t.cap + 1)
    {q r : Nat} (he : t.rehashDeletedThrow isa q r = .ok (some s)) :
    s.size = t.size ∧ Ends isa (s.iterate isa) (fun l => l.length < t.size) ∧
    (∃ k, t.contains isa hash k = .ok true ∧ s.contains isa hash k = .ok false) ∧ s.dtor = .error .leak := by
  have hi := ht.inv
  obtain ⟨hq, hR, hd⟩ := rehashDeletedThrow_spec hi hW he
  have hsz := hi.size_le
  have hlen := hi.nodes_length
  have hF := hR.frag (by rw [hR.cap_eq]; omega)
  have hc : 0 < s.cap := by rw [hR.cap_eq]; omega
  have hqs : q < s.cap := by rw [hR.cap_eq]; omega
  have h1 := hR.live q hqs
  rw [hd] at h1
  have hpos := cnt_pos_of (p := fun i => (s.node i).isSome) hqs h1
  have hcnt : cnt (fun i => (s.node i).isSome) s.cap = t.size := by
    rw [← collect_length, hR.nodes.length_eq, hlen]
  have hzz : s.size ≠ 0 := by rw [hR.size_eq]; omega
  obtain ⟨n, hn⟩ := Option.isSome_iff_exists.mp (show (s.node q).isSome = true from h1)
  refine ⟨hR.size_eq, (shown_iterate hF.md hF.live).mono ?_, ?_, hidden_dtor hF.md hF.live hzz hqs (by rw [hd]; rfl) h1⟩
  · rintro l rfl
    rw [hF.inv.contents_length, ← hcnt]
    show cnt (fun i => (s.ctl i).isOccupied) s.cap < _
    have h2 := cnt_two_le (p := fun i => (s.ctl i).isOccupied) (q := fun i => (s.ctl i).isDeleted) (r := fun i => (s.node i).isSome)
      (n := s.cap) (fun i hi => by
        rw [hR.live i hi]
        cases s.ctl i <;> simp [Ctl.isOccupied, Ctl.isEmpty, Ctl.isDeleted])
    have h3 := cnt_pos_of (p := fun i => (s.ctl i).isDeleted) hqs (by rw [hd]; rfl)
    omega
  · obtain ⟨i, hi', hn'⟩ : ∃ i, i < t.cap ∧ t.node i = some n := by
      have : n ∈ collect s.node s.cap := List.mem_filterMap.mpr ⟨q, List.mem_range.mpr hqs, hn⟩
      have := hR.nodes.subset this
      obtain ⟨i, a, b⟩ := List.mem_filterMap.mp this
      exact ⟨i, List.mem_range.mp a, b⟩
    refine ⟨n.key, hF.hidden hc hzz hi hi' hn' ?_⟩
    rintro ⟨k, v⟩ hx hk
    obtain ⟨j, y, a, b, c, _⟩ := mem_contents.mp hx
    have := hR.uniq j a q hqs y n (shown_some b).2 hn (c.trans hk)
    have hocc := (shown_some b).1
    rw [this, hd] at hocc
    cases hocc

/-- C70 is false for every insertion during which making room throws: the container has lost elements. -/
theorem C70_insert_false {isa : Isa} {hash : K → Nat} {t s : Table K V} (ht : Reachable isa hash t) {k : K} {q r : Nat}
    (he : t.insertMoveThrow isa hash k q r = .ok (some s)) :
    s.size = t.size ∧ Ends isa (s.iterate isa) (fun l => l.length < s.size) ∧
    ∃ k, t.contains isa hash k = .ok true ∧ s.contains isa hash k = .ok false := by
  have hi := ht.inv
  unfold Table.insertMoveThrow at he
  obtain ⟨pos, _, he⟩ := Dense.bind_eq_ok he
  split at he
  · cases he
  · rename_i hc
    obtain ⟨target, _, he⟩ := Dense.bind_eq_ok he
    obtain ⟨c, _, he⟩ := Dense.bind_eq_ok he
    split at he
    · split at he
      · rename_i hW
        obtain ⟨h1, h2, h3, _⟩ := C70_reclaim_false ht (by omega) he
        exact ⟨h1, h1 ▸ h2, h3⟩
      · obtain ⟨p, h1, he⟩ := Dense.bind_eq_ok he
        cases hp : p with
        | none => rw [hp] at he; cases he
        | some p' =>
          rw [hp] at he h1
          cases he
          have hq : t.holds q := by
            unfold Table.doRehashThrow at h1
            split at h1
            · rename_i hq
              obtain ⟨c, h2, h1⟩ := Dense.bind_eq_ok h1
              split at h1
              · rename_i ho
                rw [readCtl_ok (hi.meta_ok (by omega)) (Nat.le_of_lt hq)] at h2
                cases h2
                exact ⟨hq, by rw [hi.live q hq]; exact ho⟩
              · cases h1
            · cases h1
          obtain ⟨e, hpow⟩ := hi.pow
          obtain ⟨old, new, g1, g2, g3, g4, _⟩ := C70_growth_false ht (n := (t.cap + 1) * 2 - 1) (e := e + 1)
            (by rw [Nat.pow_succ, ← hpow]; omega)
            (by
              have := hi.size_le
              have := maxSize_mono (isa := isa) (show t.cap ≤ (t.cap + 1) * 2 - 1 by omega)
              omega) hq
          rw [g1] at h1
          cases h1
          exact ⟨g2, g2 ▸ g3, g4⟩
    · cases he

/-- A hash function that sends all keys but 100 to the first slot. -/
def hFar (n : Nat) : Nat := if n = 100 then 28 * 128 else n % 4

/-- 28 keys of which eight in the first block were erased; there is no unused budget left. -/
def worn : Table Nat Nat :=
  after .sse2 hFar (((List.range 28).map fun i => Op.insert (i + 1) i) ++ (List.range 8).map fun i => Op.erase (i + 1))

/-- What a function for a throwing constructor leaves, if the constructor is called. -/
def left {α : Type} (x : M (Option α)) : Option α := x.toOption.join

set_option maxRecDepth 100000 in
/-- Inserting key 100 into `worn` reclaims in place; the exception at slot 16 leaves 8 of 20 elements visible, size 20. -/
example : Reachable .sse2 hFar worn ∧ worn.size = 20 ∧ worn.contains .sse2 hFar 20 = .ok true ∧
    (left (worn.insertMoveThrow .sse2 hFar 100 16 0)).map (·.size) = some 20 ∧
    (left (worn.insertMoveThrow .sse2 hFar 100 16 0)).map (·.iterate .sse2)
      = some (.ok [(9, 8), (10, 9), (11, 10), (12, 11), (13, 12), (14, 13), (15, 14), (16, 15)]) ∧
    (left (worn.insertMoveThrow .sse2 hFar 100 16 0)).map (·.contains .sse2 hFar 20) = some (.ok false) ∧
    (left (worn.insertMoveThrow .sse2 hFar 100 16 0)).map (fun s => s.dtor.map fun t => t.size) = some (.error .leak) :=
  ⟨after_reachable _ _ _, by decide +kernel, by decide +kernel, by decide +kernel, by decide +kernel, by decide +kernel,
    by decide +kernel⟩

set_option maxRecDepth 100000 in
/-- The growth of a container with 14 elements, the move of the element in slot 5 throwing: 5 elements are left. -/
example : ∃ t : Table Nat Nat, Reachable .sse2 (fun n => n * 128) t ∧ t.size = 14 ∧
    (left (t.insertMoveThrow .sse2 (fun n => n * 128) 14 5 0)).map (·.size) = some 14 ∧
    (left (t.insertMoveThrow .sse2 (fun n => n * 128) 14 5 0)).map (·.iterate .sse2)
      = some (.ok [(0, 0), (1, 1), (2, 2), (3, 3), (4, 4)]) ∧
    (left (t.insertMoveThrow .sse2 (fun n => n * 128) 14 5 0)).map (·.contains .sse2 (fun n => n * 128) 7) = some (.ok false) :=
  ⟨after .sse2 (fun n => n * 128) ((List.range 14).map fun i => Op.insert i i), after_reachable _ _ _, by decide +kernel,
    by decide +kernel, by decide +kernel, by decide +kernel⟩

set_option maxRecDepth 100000 in
/-- Copy and move assignment from `demo`, the third and the first element throwing. -/
example : Reachable .sse2 h64 demo ∧ demo.size = 4 ∧
    (left (Table.copyAssignThrow .sse2 .std (after .sse2 h64 [.insert 5 5]) demo 3)).map (·.iterate .sse2)
      = some (.ok [(1, 10), (3, 33)]) ∧
    (left (Table.copyAssignThrow .sse2 .std (after .sse2 h64 [.insert 5 5]) demo 3)).map (·.contains .sse2 h64 1) = some (.ok false) ∧
    (left (Table.copyAssignThrow .sse2 .std (after .sse2 h64 [.insert 5 5]) demo 0)).map (·.iterate .sse2) = some (.ok []) ∧
    (left (Table.moveAssignThrow .sse2 (after .sse2 h64 [.insert 5 5]) demo 3)).map (·.1.iterate .sse2)
      = some (.ok [(1, 10), (3, 33)]) ∧
    (left (Table.moveAssignThrow .sse2 (after .sse2 h64 [.insert 5 5]) demo 3)).map (·.2.iterate .sse2) = some (.error .deadRead) :=
  ⟨demo_reachable, by decide, by decide +kernel, by decide +kernel, by decide +kernel, by decide +kernel, by decide +kernel⟩

end Tpp.Swiss
