import Verif.Ordered.Chain
import Verif.Ordered.SwissIter
import Verif.Swiss.Move

/-!
# Ordered sparse containers: construction, copies, moves, swaps, destruction
-/

set_option linter.unusedSectionVars false

namespace Tpp.OSwiss

open Tpp.Swiss (Node Ev Table Inv NoTomb AllocP Copied Blank Copyable CopyFits)
open Tpp.Ordered

variable {K V : Type} [DecidableEq K] {c : Cfg K} {m : Mem} {t u : OTable K V} {o o' : List Nat}

/-- Two containers do not share storage. -/
def Apart (sz : Int) (t u : OTable K V) : Prop := ∀ x ∈ t.foot sz, x ∉ u.foot sz

/-- The same for a container with another hash function (swiss_table.hpp 1545-1547). -/
abbrev Cfg.with (c : Cfg K) (g : K → Nat) : Cfg K := { c with hash := g }

theorem Apart.symm {sz : Int} (h : Apart sz t u) : Apart sz u t := fun x hx hx' => h x hx' hx

/-! ## Storage -/

theorem create_ok (hA : c.A.Sound c.sz) (m : Mem) :
    ∃ m' t, OTable.create (V := V) c m = (m', t) ∧ t.core = Table.init ∧ t.base = 0 ∧ Rep c m' t [] ∧ t.hd ∉ m.live ∧
      Frame m m' [] (t.foot c.sz) := by
  have hs := hA m.clock m.live 1
  rw [slots_one] at hs
  have hn := hs _ (List.mem_singleton_self _)
  have hlv : (m.alloc c.sz c.A 1).1.live = c.A m.clock m.live 1 :: m.live := by
    change slots c.sz (c.A m.clock m.live 1) 1 ++ m.live = _
    rw [slots_one]; rfl
  refine ⟨_, _, rfl, rfl, rfl, ⟨Inv.init c.isa c.hash, Linked.ofRaw ?_ ?_ ?_ (fun i hi => absurd hi (Nat.not_lt_zero _))⟩, hn, ?_, ?_⟩
  · rw [Ring.nil_iff]
    refine ⟨?_, ?_⟩
    · change _ ∈ (m.alloc c.sz c.A 1).1.live
      rw [hlv]
      exact List.mem_cons_self
    · simp
  · intro x hx
    change x ∈ slots c.sz 0 0 at hx
    rw [slots_zero] at hx
    cases hx
  · change _ ∉ slots c.sz 0 0
    rw [slots_zero]
    simp
  · intro x hx _
    refine ⟨?_, ?_⟩
    · change _ ∈ (m.alloc c.sz c.A 1).1.live
      rw [hlv]
      exact List.mem_cons_of_mem _ hx
    · have : x ≠ (m.alloc c.sz c.A 1).2 := fun q => hn (by rw [q] at hx; exact hx)
      simp only
      rw [if_neg this]
      rfl
  · intro x hx
    right
    change x ∈ (m.alloc c.sz c.A 1).2 :: slots c.sz 0 0 at hx
    rw [slots_zero, List.mem_singleton] at hx
    rw [hx]
    exact hn

theorem createN_ok (hA : c.A.Sound c.sz) (m : Mem) {n k : Nat} (hn : n + 1 = 2 ^ k) :
    ∃ m' t, OTable.createN (V := V) c m n = .ok (m', t) ∧ Rep c m' t [] ∧ NoTomb t.core ∧ t.hd ∉ m.live ∧ t.core.cap = n ∧
      Frame m m' [] (t.foot c.sz) := by
  obtain ⟨m1, t1, e1, c1, b1, h1, n1, f1⟩ := create_ok (V := V) hA m
  obtain ⟨x, e2, h2, h3, h4⟩ := Swiss.withCapacity_spec (K := K) (V := V) (isa := c.isa) (hash := c.hash) hn
  have hx : (x.node = fun _ => none) ∧ x.ctl = Swiss.fillEmpty n := by
    unfold Table.withCapacity at e2
    split at e2
    · cases e2; exact ⟨rfl, rfl⟩
    · cases e2
  unfold OTable.createN
  rw [e1]
  simp only
  rw [e2, bind_ok]
  have f2 := alloc_frame hA m1 n
  have hfr : t1.hd ∉ slots c.sz (m1.alloc c.sz c.A n).2 n := fun q => hA _ _ _ _ q h1.hd_live
  refine ⟨_, _, rfl, ⟨h2, Linked.ofRaw ?_ ?_ ?_ ?_⟩, ?_, n1, h4, ?_⟩
  · exact f2.ring h1.ring (fun _ _ => by simp)
  · change ∀ y ∈ slots c.sz (m1.alloc c.sz c.A n).2 x.cap, _
    rw [h4]
    intro y hy
    exact List.mem_append_left _ hy
  · change _ ∉ slots c.sz (m1.alloc c.sz c.A n).2 x.cap
    rw [h4]; exact hfr
  · intro i _
    change x.node i = none
    rw [hx.1]
  · intro i hi q
    change x.ctl i = _ at q
    change i < x.cap at hi
    rw [hx.2] at q
    unfold Swiss.fillEmpty at q
    split at q <;> cases q
  · have f3 := f2.add (t1.foot c.sz)
    rw [List.append_nil] at f3
    refine (f1.trans f3).congr (fun _ q => q) ?_
    intro y hy
    left
    change y ∈ t1.hd :: slots c.sz (m1.alloc c.sz c.A n).2 x.cap at hy
    rw [h4] at hy
    rcases List.mem_cons.mp hy with q | q
    · exact List.mem_append_left _ (q ▸ List.mem_cons_self)
    · exact List.mem_append_right _ q

theorem destroy_ok (h : Rep c m t o) :
    ∃ m', t.destroy c m = .ok m' ∧ Frame m m' (t.foot c.sz) [] ∧ ∀ x ∈ t.foot c.sz, x ∉ m'.live := by
  obtain ⟨x, e⟩ := Swiss.dtor_spec h.core
  unfold OTable.destroy
  rw [e, bind_ok, free_ok h.link.live, bind_ok]
  have hl : ∀ x ∈ slots c.sz t.hd 1, x ∈ (m.live.filter fun x => x ∉ slots c.sz t.base t.core.cap) := by
    intro x hx
    rw [slots_one, List.mem_singleton] at hx
    rw [hx, List.mem_filter]
    exact ⟨h.hd_live, by simpa using h.link.hdr⟩
  rw [free_ok (m := { m with live := m.live.filter fun x => x ∉ slots c.sz t.base t.core.cap }) hl]
  refine ⟨_, rfl, ?_, ?_⟩
  · have f1 := (free_frame (m := m) (sz := c.sz) (a := t.base) (n := t.core.cap)).add [t.hd]
    have f2 := free_frame (m := { m with live := m.live.filter fun x => x ∉ slots c.sz t.base t.core.cap }) (sz := c.sz) (a := t.hd) (n := 1)
    rw [slots_one] at f2
    rw [slots_one]
    exact f1.trans f2
  · intro x hx
    rw [slots_one]
    simp only [List.mem_filter, List.mem_singleton, decide_eq_true_eq, not_and, not_not]
    intro hx'
    rcases List.mem_cons.mp hx with q | q
    · exact q
    · exact absurd q hx'.2

theorem realloc_ok (hA : c.A.Sound c.sz) {base : Int} {cap : Nat} (hl : ∀ x ∈ slots c.sz base cap, x ∈ m.live) (n : Nat) :
    ∃ m' b, OTable.reallocArray c m base cap n = .ok (m', b) ∧ (∀ x ∈ slots c.sz b (max cap n), x ∈ m'.live) ∧
      Frame m m' (slots c.sz base cap) (slots c.sz b (max cap n)) := by
  unfold OTable.reallocArray
  by_cases e : cap < n
  · rw [if_pos e, show max cap n = n by omega, free_ok hl, bind_ok]
    exact ⟨_, _, rfl, fun x hx => List.mem_append_left _ hx, free_frame.trans (alloc_frame hA _ n)⟩
  · rw [if_neg e, show max cap n = cap by omega]
    exact ⟨m, base, rfl, hl, Frame.refl _ _⟩

/-- The slots that are copied or moved. -/
theorem mem_occupied {isa : Isa} {hash : K → Nat} {x : Table K V} (h : Inv isa hash x) {i : Nat} :
    i ∈ OTable.occupied x ↔ i < x.cap ∧ (x.node i).isSome := by
  unfold OTable.occupied
  rw [List.mem_filter, List.mem_range]
  constructor
  · rintro ⟨h1, h2⟩
    exact ⟨h1, by rw [h.live i h1]; exact h2⟩
  · rintro ⟨h1, h2⟩
    exact ⟨h1, by rw [← h.live i h1]; exact h2⟩

/-! ## Copies -/

/-- The links after copying a container that is not empty. -/
theorem copyDataLinks_ok (hsz : 0 < c.sz) (hA : c.A.Sound c.sz) (h : Rep c m u o) (hne : u.core.size ≠ 0) (hd : t.hd ∈ m.live)
    (hl : ∀ x ∈ slots c.sz t.base t.core.cap, x ∈ m.live) (hh : t.hd ∉ slots c.sz t.base t.core.cap) (ha : Apart c.sz u t) :
    ∃ m' b, t.copyDataLinks c m u = .ok (m', b) ∧ Ring m' t.hd (o.map (fun i : Nat => b + c.sz * (i : Int))) ∧
      (∀ x ∈ slots c.sz b (max t.core.cap u.core.cap), x ∈ m'.live) ∧
      t.hd ∉ slots c.sz b (max t.core.cap u.core.cap) ∧
      Frame m m' (t.foot c.sz) (t.hd :: slots c.sz b (max t.core.cap u.core.cap)) := by
  have hs := h.length
  have hne' : o ≠ [] := fun q => hne (by rw [← hs, q]; rfl)
  unfold OTable.copyDataLinks
  rw [if_neg hne]
  obtain ⟨m1, b, e1, l1, f1⟩ := realloc_ok hA hl u.core.cap
  have hle : u.core.cap ≤ max t.core.cap u.core.cap := Nat.le_max_right _ _
  generalize max t.core.cap u.core.cap = n at *
  have h1 : Rep c m1 u o := h.frame f1 (fun x hx q => ha x hx (List.mem_cons_of_mem _ q))
  have hd1 := f1.keep t.hd hd hh
  have hdb : t.hd ∉ slots c.sz b n := by
    intro q
    rcases f1.fresh _ q with g | g
    · exact hh g
    · exact g hd
  have hub : ∀ x ∈ u.foot c.sz, x ∉ slots c.sz b n := by
    intro x hx q
    rcases f1.fresh _ q with g | g
    · exact ha x hx (List.mem_cons_of_mem _ g)
    · exact g (h.link.foot_live x hx)
  have hoc : ∀ i ∈ OTable.occupied u.core, i < u.core.cap := fun i hi => ((mem_occupied h.core).mp hi).1
  have hio : ∀ i, i ∈ o → i ∈ OTable.occupied u.core := fun i hi => (mem_occupied h.core).mpr ((h.link.occ i).mp hi)
  have hsl : ∀ i, i < u.core.cap → b + c.sz * (i : Int) ∈ slots c.sz b n := by
    intro i hi
    exact mem_slots.mpr ⟨i, by omega, rfl⟩
  have hso : ∀ i, i < u.core.cap → u.base + c.sz * (i : Int) ∈ slots c.sz u.base u.core.cap := by
    intro i hi
    exact mem_slots.mpr ⟨i, hi, rfl⟩
  have hnd : (OTable.occupied u.core).Nodup := List.nodup_range.filter _
  obtain ⟨m2, e2, k2, s2⟩ := copyAll_ok (f := fun i => u.base + c.sz * (i : Int)) (g := fun i => b + c.sz * (i : Int)) (m := m1)
    hnd (fun i hi => h1.link.live _ (hso i (hoc i hi))) (fun i hi => l1 _ (hsl i (hoc i hi))) (fun i _ j _ q => slot_inj hsz q)
    (fun i hi j hj q => hub _ (List.mem_cons_of_mem _ (hso j (hoc j hj))) (q ▸ hsl i (hoc i hi)))
  have h2 : Rep c m2 u o := by
    refine h1.frame (F := slots c.sz b n) (F' := slots c.sz b n) (s2.frame ?_) hub
    intro x hx i hi q
    exact hx (q ▸ hsl i (hoc i hi))
  obtain ⟨i, o1, ho⟩ : ∃ i o', o = i :: o' := List.exists_cons_of_ne_nil hne'
  obtain ⟨o2, j, ho'⟩ : ∃ o' j, o = o' ++ [j] := by
    rcases List.eq_nil_or_concat o with q | ⟨o', i, q⟩
    · rw [q] at ho; cases ho
    · exact ⟨o', i, by rw [q, List.concat_eq_append]⟩
  have hi : i < u.core.cap := h.link.lt (by rw [ho]; simp)
  have hj : j < u.core.cap := h.link.lt (by rw [ho']; simp)
  have n1 : m2.nextOf u.hd = .ok (u.addr c.sz i) := by
    have := first_ok h2
    unfold OTable.first at this
    rw [this, ho]
    rfl
  have p1 : m2.prevOf u.hd = .ok (u.addr c.sz j) := by
    rw [last_ok h2, ho']
    simp
  have hch : Chain m2 ((o.map (u.addr c.sz)).map (· + (b - u.base))) := by
    refine h.ring.chain.shift ?_ ?_
    · intro a ha'
      rw [List.mem_map] at ha'
      obtain ⟨n, hn, rfl⟩ := ha'
      have : u.addr c.sz n + (b - u.base) = b + c.sz * (n : Int) := by unfold OTable.addr; omega
      rw [this, s2.live]
      exact l1 _ (hsl n (h.link.lt hn))
    · intro a ha'
      rw [List.mem_map] at ha'
      obtain ⟨n, hn, rfl⟩ := ha'
      have : u.addr c.sz n + (b - u.base) = b + c.sz * (n : Int) := by unfold OTable.addr; omega
      rw [this, k2 n (hio n hn)]
      have hx := h.link.slot hn
      exact (f1.keep _ (h.link.live _ hx) (fun q => ha _ (List.mem_cons_of_mem _ hx) (List.mem_cons_of_mem _ q))).2
  have hmap : (o.map (u.addr c.sz)).map (· + (b - u.base)) = o.map (fun i : Nat => b + c.sz * (i : Int)) := by
    rw [List.map_map]
    refine List.map_congr_left ?_
    intro n _
    simp only [Function.comp_apply]
    unfold OTable.addr
    omega
  rw [hmap] at hch
  obtain ⟨m3, e3, r3, s3⟩ := hch.adopt (hd := t.hd) (by rw [ho]; simp) (by rw [s2.live]; exact hd1.1) (by
    intro q
    rw [List.mem_map] at q
    obtain ⟨n, hn, q⟩ := q
    exact hdb (q ▸ hsl n (h.link.lt hn)))
  have e3' : m2.link2 t.hd (b + c.sz * (i : Int)) (b + c.sz * (j : Int)) = .ok m3 := by
    rw [← e3]
    congr 1
    · rw [ho]; rfl
    · rw [ho']; simp
  rw [e1, bind_ok]
  simp only
  rw [e2, bind_ok, n1, bind_ok, p1, bind_ok, slotOf_ok hsz hi, slotOf_ok hsz hj]
  simp only
  rw [e3', bind_ok]
  refine ⟨m3, b, rfl, r3, ?_, hdb, ?_⟩
  · intro x hx
    rw [s3.live, s2.live]
    exact l1 x hx
  · have f2 : Frame m1 m2 (slots c.sz b n) (slots c.sz b n) := s2.frame (by
      intro x hx i hi q
      exact hx (q ▸ hsl i (hoc i hi)))
    have f3 : Frame m2 m3 (t.hd :: slots c.sz b n) (t.hd :: slots c.sz b n) := s3.frame (by
      intro x hx q
      rcases List.mem_cons.mp q with g | g
      · exact hx (g ▸ List.mem_cons_self)
      · rw [List.mem_map] at g
        obtain ⟨n, hn, g⟩ := g
        exact hx (List.mem_cons_of_mem _ (g ▸ hsl n (h.link.lt hn))))
    exact ((f1.trans f2).add [t.hd]).trans f3

/-- The slots of a copy. -/
theorem copied_occ {x : Table K V} {n : Nat} (hc : Copied n u.core x) (h : Rep c m u o) : ∀ i, i ∈ o ↔ i < x.cap ∧ (x.node i).isSome := by
  intro i
  rw [h.link.occ i]
  by_cases hz : u.core.size = 0
  · constructor
    · rintro ⟨q1, q2⟩
      rw [h.core.raw_of_size hz i q1] at q2
      cases q2
    · rintro ⟨q1, q2⟩
      rw [hc.node i q1, if_neg (by simp [hz])] at q2
      cases q2
  · have hcap := hc.cap
    rw [if_neg hz] at hcap
    constructor
    · rintro ⟨q1, q2⟩
      have q3 : i < x.cap := by omega
      refine ⟨q3, ?_⟩
      rw [hc.node i q3, if_pos ⟨hz, q1⟩]
      exact q2
    · rintro ⟨q1, q2⟩
      rw [hc.node i q1] at q2
      split at q2
      · rename_i g
        exact ⟨g.2, q2⟩
      · cases q2

theorem copied_seq {x : Table K V} {n : Nat} (hc : Copied n u.core x) (h : Rep c m u o) : seqOf x.node o = seqOf u.core.node o := by
  refine seqOf_congr ?_
  intro i hi
  have h1 := (h.link.occ i).mp hi
  have h2 := ((copied_occ hc h) i).mp hi
  have hz : u.core.size ≠ 0 := by
    intro hz
    rw [h.core.raw_of_size hz i h1.1] at h1
    cases h1.2
  rw [hc.node i h2.1, if_pos ⟨hz, h1.1⟩]

/-- Copying into a container whose header was overwritten. -/
theorem copyInto_ok (hsz : 0 < c.sz) (hA : c.A.Sound c.sz) (h : Rep c m u o) (hd : t.hd ∈ m.live)
    (hl : ∀ x ∈ slots c.sz t.base t.core.cap, x ∈ m.live) (hh : t.hd ∉ slots c.sz t.base t.core.cap) (ha : Apart c.sz u t)
    (hlink : o = [] → m.link t.hd = ⟨0, 0⟩) {x : Table K V} (hc : Copied t.core.cap u.core x) :
    ∃ m' b, t.copyDataLinks c m u = .ok (m', b) ∧ Shows c m' { t with core := x, base := b } o ∧ seqOf x.node o = seqOf u.core.node o ∧
      Frame m m' (t.foot c.sz) (OTable.foot c.sz { t with core := x, base := b }) := by
  have hcap := hc.cap
  by_cases hne : u.core.size = 0
  · rw [if_pos hne] at hcap
    unfold OTable.copyDataLinks
    rw [if_pos hne]
    have ho : o = [] := List.length_eq_zero_iff.mp (by rw [h.length, hne])
    refine ⟨m, t.base, rfl, ⟨⟨copied_occ hc h, ?_, ?_, ?_⟩, by rw [h.length]; exact hc.size.symm⟩, copied_seq hc h, ?_⟩
    · rw [ho, List.map_nil, Ring.nil_iff]
      exact ⟨hd, hlink ho⟩
    · change ∀ y ∈ slots c.sz t.base x.cap, _
      rw [hcap]; exact hl
    · change t.hd ∉ slots c.sz t.base x.cap
      rw [hcap]; exact hh
    · change Frame m m _ (t.hd :: slots c.sz t.base x.cap)
      rw [hcap]; exact Frame.refl _ _
  · rw [if_neg hne] at hcap
    obtain ⟨m', b, e, h1, h2, h3, h4⟩ := copyDataLinks_ok hsz hA h hne hd hl hh ha
    refine ⟨m', b, e, ⟨⟨copied_occ hc h, h1, ?_, ?_⟩, by rw [h.length]; exact hc.size.symm⟩, copied_seq hc h, ?_⟩
    · change ∀ y ∈ slots c.sz b x.cap, _
      rw [hcap]; exact h2
    · change t.hd ∉ slots c.sz b x.cap
      rw [hcap]; exact h3
    · change Frame m m' _ (t.hd :: slots c.sz b x.cap)
      rw [hcap]; exact h4

/-- `link_base::operator=(other)` (table_common.hpp 120). -/
theorem copyHeader_ok (hsrc : u.hd ∈ m.live) (hdst : t.hd ∈ m.live) :
    ∃ m', m.copyFrom t.hd u.hd = .ok m' ∧ m'.link t.hd = m.link u.hd ∧ m'.live = m.live ∧ Frame m m' (t.foot c.sz) (t.foot c.sz) := by
  unfold Mem.copyFrom
  rw [Mem.read_ok hsrc, bind_ok, Mem.write_ok hdst]
  refine ⟨_, rfl, by simp, rfl, fun x hx hn => ⟨hx, ?_⟩, fun x hx => Or.inl hx⟩
  have : x ≠ t.hd := fun q => hn (q ▸ List.mem_cons_self)
  simp only
  rw [if_neg this]

/-- Copy construction. -/
theorem copyCtor_ok (hsz : 0 < c.sz) (hA : c.A.Sound c.sz) (h : Rep c m u o) :
    ∃ m' t, OTable.copyCtor c m u = .ok (m', t) ∧ Shows c m' t o ∧ seqOf t.core.node o = seqOf u.core.node o ∧
      (Copyable u.core → Rep c m' t o) ∧ t.hd ∉ m.live ∧ Frame m m' [] (t.foot c.sz) := by
  obtain ⟨m1, t1, e1, c1, b1, h1, n1, f1⟩ := create_ok (V := V) hA m
  have hu1 : Rep c m1 u o := h.frame f1 (fun _ _ => by simp)
  have hapart : Apart c.sz u t1 := by
    intro x hx q
    rcases f1.fresh x q with g | g
    · cases g
    · exact g (h.link.foot_live x hx)
  obtain ⟨x, e3, hx⟩ := Swiss.copyCtor_copied h.core
  have hx' : Copied t1.core.cap u.core x := by rw [c1]; exact hx
  obtain ⟨m3, b, e4, h4, hq, f4⟩ := copyInto_ok hsz hA hu1 h1.hd_live h1.link.live h1.link.hdr hapart
    (fun q => (Ring.nil_iff.mp h1.ring).2) hx'
  unfold OTable.copyCtor
  rw [e1]
  simp only
  rw [e4, bind_ok, e3, bind_ok]
  refine ⟨m3, _, rfl, h4, hq, ?_, n1, f1.trans f4⟩
  intro hn
  obtain ⟨y, e5, h5, _⟩ := Swiss.copyCtor_spec h.core hn
  rw [e3] at e5
  cases e5
  exact ⟨h5, h4.link⟩

/-- What is left of the container before the copy: the header and, unless the allocator is propagated, the array. -/
theorem dropArray_ok {prop : Bool} (hd : t.hd ∈ m.live) (hl : ∀ x ∈ slots c.sz t.base t.core.cap, x ∈ m.live)
    (hh : t.hd ∉ slots c.sz t.base t.core.cap) :
    ∃ m' t', t.dropArray c prop m = .ok (m', t') ∧ t'.hd = t.hd ∧ t'.core.cap = (if prop then 0 else t.core.cap) ∧ t'.hd ∈ m'.live ∧
      (∀ x ∈ slots c.sz t'.base t'.core.cap, x ∈ m'.live) ∧ t'.hd ∉ slots c.sz t'.base t'.core.cap ∧ m'.link = m.link ∧
      Frame m m' (t.foot c.sz) (t'.foot c.sz) ∧ (∀ x ∈ t'.foot c.sz, x ∈ t.foot c.sz) := by
  unfold OTable.dropArray
  cases prop with
  | false =>
    simp only [Bool.false_eq_true, if_false]
    exact ⟨m, t, rfl, rfl, rfl, hd, hl, hh, rfl, Frame.refl _ _, fun _ h => h⟩
  | true =>
    simp only [if_true]
    rw [free_ok hl, bind_ok]
    refine ⟨_, { t with core := { t.core with cap := 0 }, base := 0 }, rfl, rfl, rfl, ?_, ?_, ?_, rfl, ?_, ?_⟩
    · exact List.mem_filter.mpr ⟨hd, by simpa using hh⟩
    · intro x hx
      change x ∈ slots c.sz 0 0 at hx
      rw [slots_zero] at hx
      cases hx
    · change t.hd ∉ slots c.sz 0 0
      rw [slots_zero]
      simp
    · exact free_frame.add [t.hd]
    · intro x hx
      change x ∈ t.hd :: slots c.sz 0 0 at hx
      rw [slots_zero, List.mem_singleton] at hx
      rw [hx]
      exact List.mem_cons_self

/-- Copy assignment. -/
theorem copyAssign_ok (hsz : 0 < c.sz) (hA : c.A.Sound c.sz) (al : AllocP) {g : K → Nat} (ht : Rep (c.with g) m t o') (h : Rep c m u o) (ha : Apart c.sz u t) :
    ∃ m' t', t.copyAssign c al m u = .ok (m', t') ∧ Shows c m' t' o ∧ seqOf t'.core.node o = seqOf u.core.node o ∧
      (Copyable u.core → CopyFits al t.core u.core → Rep c m' t' o) ∧ t'.hd = t.hd ∧ Frame m m' (t.foot c.sz) (t'.foot c.sz) := by
  obtain ⟨m1, e1, k1, l1, f1⟩ := copyHeader_ok (c := c) (t := t) h.hd_live ht.hd_live
  have h1 := h.frame f1 ha
  obtain ⟨m2, t2, e2, hd2, hcap2, hl2, hs2, hh2, hk2, f2, hsub⟩ := dropArray_ok (c := c) (prop := al.copyProp) (t := t) (m := m1)
    (by rw [l1]; exact ht.hd_live) (by rw [l1]; exact ht.link.live) ht.link.hdr
  have h2 := h1.frame f2 ha
  have ha2 : Apart c.sz u t2 := fun x hx q => ha x hx (hsub x q)
  obtain ⟨x, e3, hx⟩ := Swiss.copyAssign_copied (al := al) ht.core h.core
  rw [← hcap2] at hx
  obtain ⟨m3, b, e4, h4, hq, f4⟩ := copyInto_ok hsz hA h2 hl2 hs2 hh2 ha2
    (fun q => by
      rw [hk2, hd2, k1]
      have := h.ring
      rw [q, List.map_nil, Ring.nil_iff] at this
      exact this.2) hx
  unfold OTable.copyAssign
  rw [e1, bind_ok, e2, bind_ok, e4, bind_ok, e3, bind_ok]
  have e : ({ t with core := x, base := b } : OTable K V) = { t2 with core := x, base := b } := by
    rw [hd2]
  refine ⟨m3, { t with core := x, base := b }, rfl, by rw [e]; exact h4, hq, ?_, rfl, by rw [e]; exact (f1.trans f2).trans f4⟩
  intro hn hf
  obtain ⟨y, e5, h5, _⟩ := Swiss.copyAssign_spec ht.core h.core hn hf
  rw [e3] at e5
  cases e5
  exact ⟨h5, by rw [e]; exact h4.link⟩

/-! ## Moves -/

/-- Two containers `t` and `u` become `t'` and `u'`. -/
structure Moved (c : Cfg K) (m : Mem) (t u : OTable K V) (m' : Mem) (t' u' : OTable K V) (o o' : List Nat) : Prop where
  fst : Shows c m' t' o
  snd : Shows c m' u' o'
  hd1 : t'.hd = t.hd
  hd2 : u'.hd = u.hd
  apart : Apart c.sz t' u'
  frame : Frame m m' (t.foot c.sz ++ u.foot c.sz) (t'.foot c.sz ++ u'.foot c.sz)

/-- The header of `t` took over the list of `u`, and the array of `t` is unused. -/
structure Ready (c : Cfg K) (m : Mem) (t u : OTable K V) (o : List Nat) : Prop where
  ring : Ring m t.hd (o.map (u.addr c.sz))
  ring' : Ring m u.hd []
  live : ∀ x ∈ slots c.sz u.base u.core.cap, x ∈ m.live
  live' : ∀ x ∈ slots c.sz t.base t.core.cap, x ∈ m.live
  hdr : t.hd ∉ slots c.sz t.base t.core.cap
  hdr' : u.hd ∉ slots c.sz u.base u.core.cap
  apart : Apart c.sz t u

/-- `move_from` with equal allocators: the arrays change places. -/
theorem Ready.equal (h : Ready c m t u o) (hocc : ∀ i, i ∈ o ↔ i < u.core.cap ∧ (u.core.node i).isSome) (hsize : o.length = u.core.size)
    {y : Table K V} (hy : Blank t.core.cap y) :
    t.moveFromLinks c true m u = .ok (m, u.base, t.base) ∧
      Moved c m t u m { t with core := u.core, base := u.base } { u with core := y, base := t.base } o [] := by
  have hap := h.apart
  refine ⟨rfl, ⟨⟨hocc, h.ring, h.live, ?_⟩, hsize⟩, ⟨Linked.ofRaw h.ring' ?_ ?_ ?_, hy.size.symm⟩, rfl, rfl, ?_, ?_⟩
  · change t.hd ∉ slots c.sz u.base u.core.cap
    exact fun q => hap _ List.mem_cons_self (List.mem_cons_of_mem _ q)
  · change ∀ x ∈ slots c.sz t.base y.cap, _
    rw [hy.cap]; exact h.live'
  · change u.hd ∉ slots c.sz t.base y.cap
    rw [hy.cap]
    exact fun q => hap _ (List.mem_cons_of_mem _ q) List.mem_cons_self
  · change ∀ i, i < y.cap → y.node i = none
    rw [hy.cap]; exact hy.node
  · intro x hx q
    change x ∈ t.hd :: slots c.sz u.base u.core.cap at hx
    change x ∈ u.hd :: slots c.sz t.base y.cap at q
    rw [hy.cap] at q
    rcases List.mem_cons.mp hx with g | g <;> rcases List.mem_cons.mp q with g' | g'
    · exact hap _ List.mem_cons_self (by rw [← g, g']; exact List.mem_cons_self)
    · exact h.hdr (g ▸ g')
    · exact h.hdr' (g' ▸ g)
    · exact hap x (List.mem_cons_of_mem _ g') (List.mem_cons_of_mem _ g)
  · refine (Frame.refl m _).congr (fun _ q => q) ?_
    intro x hx
    left
    rw [List.mem_append] at hx ⊢
    rcases hx with q | q
    · change x ∈ t.hd :: slots c.sz u.base u.core.cap at q
      rcases List.mem_cons.mp q with g | g
      · exact Or.inl (g ▸ List.mem_cons_self)
      · exact Or.inr (List.mem_cons_of_mem _ g)
    · change x ∈ u.hd :: slots c.sz t.base y.cap at q
      rw [hy.cap] at q
      rcases List.mem_cons.mp q with g | g
      · exact Or.inr (g ▸ List.mem_cons_self)
      · exact Or.inl (List.mem_cons_of_mem _ g)

/-- `move_from` with unequal allocators: the nodes are relocated. -/
theorem Ready.unequal (hsz : 0 < c.sz) (hA : c.A.Sound c.sz) (h : Ready c m t u o) {m0 : Mem} (hr : Rep c m0 u o)
    {x y : Table K V} (hx : Copied t.core.cap u.core x) (hy : Blank u.core.cap y) :
    ∃ m' b, t.moveFromLinks c false m u = .ok (m', b, u.base) ∧
      Moved c m t u m' { t with core := x, base := b } { u with core := y, base := u.base } o [] := by
  have hap := h.apart
  have hcap := hx.cap
  have hfoot : OTable.foot c.sz { u with core := y, base := u.base } = u.foot c.sz := by
    show u.hd :: slots c.sz u.base y.cap = u.hd :: slots c.sz u.base u.core.cap
    rw [hy.cap]
  by_cases hz : u.core.size = 0
  · rw [if_pos hz] at hcap
    have ho : o = [] := List.length_eq_zero_iff.mp (by rw [hr.length, hz])
    refine ⟨m, t.base, ?_, ⟨⟨copied_occ hx hr, ?_, ?_, ?_⟩, by rw [hr.length]; exact hx.size.symm⟩, ⟨Linked.ofRaw h.ring' ?_ ?_ ?_, hy.size.symm⟩,
      rfl, rfl, ?_, ?_⟩
    · unfold OTable.moveFromLinks OTable.moveDataLinks
      simp only [Bool.false_eq_true, if_false]
      rw [if_pos hz, bind_ok]
    · have := h.ring
      rw [ho] at this ⊢
      exact this
    · change ∀ z ∈ slots c.sz t.base x.cap, _
      rw [hcap]; exact h.live'
    · change _ ∉ slots c.sz t.base x.cap
      rw [hcap]; exact h.hdr
    · change ∀ z ∈ slots c.sz u.base y.cap, _
      rw [hy.cap]; exact h.live
    · change u.hd ∉ slots c.sz u.base y.cap
      rw [hy.cap]; exact h.hdr'
    · change ∀ i, i < y.cap → y.node i = none
      rw [hy.cap]; exact hy.node
    · intro z hz' q
      rw [hfoot] at q
      change z ∈ t.hd :: slots c.sz t.base x.cap at hz'
      rw [hcap] at hz'
      exact hap z hz' q
    · rw [hfoot]
      change Frame m m _ (t.hd :: slots c.sz t.base x.cap ++ _)
      rw [hcap]
      exact Frame.refl _ _
  · rw [if_neg hz] at hcap
    unfold OTable.moveFromLinks OTable.moveDataLinks
    simp only [Bool.false_eq_true, if_false]
    rw [if_neg hz]
    obtain ⟨m1, b, e1, l1, f1⟩ := realloc_ok hA h.live' u.core.cap
    rw [← hcap] at l1 f1
    have hle : u.core.cap ≤ x.cap := by omega
    have hd0 : t.hd ∈ m.live := h.ring.live _ (by simp)
    have hut : ∀ z ∈ u.foot c.sz, z ∉ slots c.sz t.base t.core.cap := fun z hz q => hap z (List.mem_cons_of_mem _ q) hz
    have hulive : ∀ z ∈ u.foot c.sz, z ∈ m.live := by
      intro z hz
      rcases List.mem_cons.mp hz with q | q
      · rw [q]; exact h.ring'.live _ (by simp)
      · exact h.live z q
    have hub : ∀ z ∈ u.foot c.sz, z ∉ slots c.sz b x.cap := by
      intro z hz q
      rcases f1.fresh _ q with g | g
      · exact hut z hz g
      · exact g (hulive z hz)
    have hdb : t.hd ∉ slots c.sz b x.cap := by
      intro q
      rcases f1.fresh _ q with g | g
      · exact h.hdr g
      · exact g hd0
    have haddr : ∀ i ∈ o, u.addr c.sz i ∈ u.foot c.sz := fun i hi => List.mem_cons_of_mem _ (hr.link.slot hi)
    have hr1 : Ring m1 t.hd (o.map (u.addr c.sz)) := by
      refine f1.ring h.ring ?_
      intro z hz
      rcases List.mem_cons.mp hz with q | q
      · rw [q]; exact h.hdr
      · rw [List.mem_map] at q
        obtain ⟨i, hi, rfl⟩ := q
        exact hut _ (haddr i hi)
    have hoc : ∀ i ∈ OTable.occupied u.core, i ∈ o := fun i hi => (hr.link.occ i).mpr ((mem_occupied hr.core).mp hi)
    have hoc' : ∀ i ∈ o, i ∈ OTable.occupied u.core := fun i hi => (mem_occupied hr.core).mpr ((hr.link.occ i).mp hi)
    have hnd : (OTable.occupied u.core).Nodup := List.nodup_range.filter _
    have hsl : ∀ i ∈ o, b + c.sz * (i : Int) ∈ slots c.sz b x.cap := by
      intro i hi
      have := hr.link.lt hi
      exact mem_slots.mpr ⟨i, by omega, rfl⟩
    obtain ⟨m2, e2, r2, s2⟩ := relinkAll_ok (f := fun i => u.base + c.sz * (i : Int)) (g := fun i => b + c.sz * (i : Int)) hr1 hnd hoc
      (fun i _ => rfl) (fun i hi => l1 _ (hsl i (hoc i hi))) (fun i hi q => by
        rcases List.mem_cons.mp q with g | g
        · exact hdb (g ▸ hsl i (hoc i hi))
        · rw [List.mem_map] at g
          obtain ⟨j, hj, g⟩ := g
          exact hub _ (haddr j hj) (g ▸ hsl i (hoc i hi))) (fun i _ j _ q => slot_inj hsz q)
    have hmap : o.map (fun i => if i ∈ OTable.occupied u.core then b + c.sz * (i : Int) else u.addr c.sz i) =
        o.map (fun i : Nat => b + c.sz * (i : Int)) := by
      refine List.map_congr_left ?_
      intro i hi
      rw [if_pos (hoc' i hi)]
    rw [hmap] at r2
    have hs2 : ∀ z, z ∉ t.hd :: slots c.sz b x.cap → z ∉ u.foot c.sz → m2.link z = m1.link z := by
      intro z hz hz'
      refine s2.link z ⟨?_, ?_⟩
      · intro q
        rw [List.mem_map] at q
        obtain ⟨i, hi, rfl⟩ := q
        exact hz (List.mem_cons_of_mem _ (hsl i (hoc i hi)))
      · intro q
        rcases List.mem_cons.mp q with g | g
        · exact hz (g ▸ List.mem_cons_self)
        · rw [List.mem_map] at g
          obtain ⟨i, hi, rfl⟩ := g
          exact hz' (haddr i hi)
    rw [e1, bind_ok]
    simp only
    rw [e2, bind_ok, bind_ok]
    refine ⟨m2, b, rfl, ⟨⟨copied_occ hx hr, r2, ?_, hdb⟩, by rw [hr.length]; exact hx.size.symm⟩, ⟨Linked.ofRaw ?_ ?_ ?_ ?_, hy.size.symm⟩,
      rfl, rfl, ?_, ?_⟩
    · intro z hz
      rw [s2.live]
      exact l1 z hz
    · have r3 : Ring m1 u.hd [] := f1.ring h.ring' (fun z hz => by
        have : z = u.hd := by simpa using hz
        rw [this]
        exact hut _ List.mem_cons_self)
      refine r3.same s2 ?_
      intro z hz
      have : z = u.hd := by simpa using hz
      rw [this]
      refine ⟨?_, ?_⟩
      · intro q
        rw [List.mem_map] at q
        obtain ⟨i, hi, q⟩ := q
        exact hub _ List.mem_cons_self (q ▸ hsl i (hoc i hi))
      · intro q
        rcases List.mem_cons.mp q with g | g
        · exact hap _ List.mem_cons_self (g ▸ List.mem_cons_self)
        · rw [List.mem_map] at g
          obtain ⟨i, hi, g⟩ := g
          exact h.hdr' (g ▸ hr.link.slot hi)
    · change ∀ z ∈ slots c.sz u.base y.cap, _
      rw [hy.cap, s2.live]
      intro z hz
      exact (f1.keep z (h.live z hz) (hut z (List.mem_cons_of_mem _ hz))).1
    · change u.hd ∉ slots c.sz u.base y.cap
      rw [hy.cap]; exact h.hdr'
    · change ∀ i, i < y.cap → y.node i = none
      rw [hy.cap]; exact hy.node
    · intro z hz q
      rw [hfoot] at q
      change z ∈ t.hd :: slots c.sz b x.cap at hz
      rcases List.mem_cons.mp hz with g | g
      · exact hap z (g ▸ List.mem_cons_self) q
      · exact hub z q g
    · rw [hfoot]
      change Frame m m2 _ (t.hd :: slots c.sz b x.cap ++ _)
      have f2 : Frame m1 m2 (u.foot c.sz ++ ([t.hd] ++ slots c.sz b x.cap)) (u.foot c.sz ++ ([t.hd] ++ slots c.sz b x.cap)) := by
        refine ⟨?_, fun z hz => Or.inl hz⟩
        intro z hz hn
        rw [List.mem_append, not_or] at hn
        refine ⟨by rw [s2.live]; exact hz, hs2 z hn.2 hn.1⟩
      refine (((f1.add [t.hd]).add (u.foot c.sz)).trans f2).congr ?_ ?_
      · intro z hz
        rw [List.mem_append] at hz ⊢
        exact hz.symm
      · intro z hz
        left
        rw [List.mem_append] at hz ⊢
        exact hz.symm

/-- The buffer that a move hands over is complete. -/
def MoveFits (al : AllocP) (t u : Table K V) : Prop :=
  (al.equal || al.moveProp) = true ∨ (Copyable u ∧ CopyFits { al with copyProp := false } t u)

/-- Move construction. -/
theorem moveCtor_ok (hsz : 0 < c.sz) (hA : c.A.Sound c.sz) (al : AllocP) (h : Rep c m u o) :
    ∃ m' t u', OTable.moveCtor c al m u = .ok (m', t, u') ∧ Shows c m' t o ∧ seqOf t.core.node o = seqOf u.core.node o ∧
      (al.equal = true ∨ Copyable u.core → Rep c m' t o) ∧ Rep c m' u' [] ∧ t.hd ∉ m.live ∧ u'.hd = u.hd ∧ Apart c.sz t u' ∧
      Frame m m' (u.foot c.sz) (t.foot c.sz ++ u'.foot c.sz) := by
  obtain ⟨m1, t1, e1, c1, b1, h1, n1, f1⟩ := create_ok (V := V) hA m
  have hu1 : Rep c m1 u o := h.frame f1 (fun _ _ => by simp)
  have hap : Apart c.sz t1 u := by
    intro x hx q
    rcases f1.fresh x hx with g | g
    · cases g
    · exact g (h.link.foot_live x q)
  obtain ⟨m2, e2, r1, r2, s2⟩ := hu1.ring.rebase h1.hd_live (fun q => n1 (h.link.foot_live _ (h.link.foot _ q)))
  have hrd : Ready c m2 t1 u o := by
    refine ⟨r1, r2, ?_, ?_, h1.link.hdr, h.link.hdr, hap⟩
    · rw [s2.live]; exact hu1.link.live
    · rw [s2.live]; exact h1.link.live
  have f2 : Frame m1 m2 (t1.foot c.sz ++ u.foot c.sz) (t1.foot c.sz ++ u.foot c.sz) := by
    refine s2.frame ?_
    intro x hx
    rw [List.mem_append, not_or] at hx
    exact ⟨fun q => hx.1 (q ▸ List.mem_cons_self), fun q => hx.2 (h.link.foot x q)⟩
  have f12 : Frame m m2 (u.foot c.sz) (t1.foot c.sz ++ u.foot c.sz) := by
    have g := f1.add (u.foot c.sz)
    rw [List.append_nil] at g
    refine (g.congr (fun _ q => q) ?_).trans f2
    intro x hx
    left
    rw [List.mem_append] at hx ⊢
    exact hx.symm
  unfold OTable.moveCtor
  rw [e1]
  simp only
  rw [e2, bind_ok]
  cases he : al.equal with
  | true =>
    obtain ⟨e3, hm⟩ := hrd.equal h.link.occ h.length (y := Table.init)
      ⟨by rw [c1], rfl, fun i hi => rfl⟩
    rw [e3, bind_ok, Swiss.moveCtor_spec al he, bind_ok]
    refine ⟨m2, _, _, rfl, hm.fst, rfl, fun _ => ⟨h.core, hm.fst.link⟩, ⟨Inv.init c.isa c.hash, hm.snd.link⟩, n1, rfl, hm.apart, f12.trans hm.frame⟩
  | false =>
    obtain ⟨x, y, e3, e4, hx, hy, hy'⟩ := Swiss.moveCtor_unequal h.core he
    have hx' : Copied t1.core.cap u.core x := by rw [c1]; exact hx
    obtain ⟨m3, b, e5, hm⟩ := hrd.unequal hsz hA h hx' hy
    rw [e5, bind_ok, e3, bind_ok]
    refine ⟨m3, _, _, rfl, hm.fst, copied_seq hx h, ?_, ⟨hy', hm.snd.link⟩, n1, rfl, hm.apart, f12.trans hm.frame⟩
    rintro (q | q)
    · cases q
    · obtain ⟨x', e6, h6, _⟩ := Swiss.copyCtor_spec h.core q
      rw [e4] at e6
      cases e6
      exact ⟨h6, hm.fst.link⟩

/-- Move assignment. -/
theorem moveAssign_ok (hsz : 0 < c.sz) (hA : c.A.Sound c.sz) (al : AllocP) {g : K → Nat} (ht : Rep (c.with g) m t o') (h : Rep c m u o) (ha : Apart c.sz t u) :
    ∃ m' t' u', t.moveAssign c al m u = .ok (m', t', u') ∧ Moved c m t u m' t' u' o [] ∧ seqOf t'.core.node o = seqOf u.core.node o ∧
      (MoveFits al t.core u.core → Rep c m' t' o) ∧ (al.moveProp = true ∨ al.equal = false ∨ t.core.size = 0 → Rep c m' u' []) := by
  have hnf : t.hd ∉ u.hd :: o.map (u.addr c.sz) := fun q => ha _ List.mem_cons_self (h.link.foot _ q)
  have hne : t.hd ≠ u.hd := fun q => hnf (by simp [q])
  obtain ⟨m1, e1, r1, r2, s1⟩ := h.ring.rebase ht.hd_live hnf
  obtain ⟨m2, t2, e2, hd2, hcap2, hl2, hs2, hh2, hk2, f2, hsub⟩ := dropArray_ok (c := c) (prop := al.moveProp) (t := t) (m := m1)
    (by rw [s1.live]; exact ht.hd_live) (by rw [s1.live]; exact ht.link.live) ht.link.hdr
  have hout : ∀ x ∈ u.foot c.sz, x ∉ t.foot c.sz := fun x hx q => ha x q hx
  have hrd : Ready c m2 t2 u o := by
    refine ⟨?_, ?_, ?_, hs2, hh2, h.link.hdr, fun x hx q => ha x (hsub x hx) q⟩
    · rw [hd2]
      refine r1.frame ?_ (fun x _ => by rw [hk2])
      intro x hx
      rcases List.mem_cons.mp hx with q | q
      · rw [q, ← hd2]; exact hl2
      · have : x ∈ u.foot c.sz := h.link.foot x (List.mem_cons_of_mem _ q)
        exact (f2.keep x (by rw [s1.live]; exact h.link.foot_live x this) (hout x this)).1
    · refine r2.frame ?_ (fun x _ => by rw [hk2])
      intro x hx
      have hx' : x = u.hd := by simpa using hx
      rw [hx']
      exact (f2.keep _ (by rw [s1.live]; exact h.hd_live) (hout _ List.mem_cons_self)).1
    · intro x hx
      exact (f2.keep x (by rw [s1.live]; exact h.link.live x hx) (hout x (List.mem_cons_of_mem _ hx))).1
  have f12 : Frame m m2 (t.foot c.sz ++ u.foot c.sz) (t2.foot c.sz ++ u.foot c.sz) := by
    have g1 : Frame m m1 (u.foot c.sz ++ t.foot c.sz) (u.foot c.sz ++ t.foot c.sz) := s1.frame (by
      intro x hx
      rw [List.mem_append, not_or] at hx
      exact ⟨fun q => hx.2 (q ▸ List.mem_cons_self), fun q => hx.1 (h.link.foot x q)⟩)
    refine (g1.trans (f2.add (u.foot c.sz))).congr ?_ ?_
    · intro x hx
      rw [List.mem_append] at hx ⊢
      exact hx.symm
    · intro x hx
      left
      rw [List.mem_append] at hx ⊢
      exact hx.symm
  have hcast : ∀ (x : Table K V) (b : Int), ({ t with core := x, base := b } : OTable K V) = { t2 with core := x, base := b } := by
    intro x b; rw [hd2]
  have hmoved : ∀ {m' : Mem} {x : Table K V} {b : Int} {u' : OTable K V}, Moved c m2 t2 u m' { t2 with core := x, base := b } u' o [] →
      Moved c m t u m' { t with core := x, base := b } u' o [] := by
    intro m' x b u' hm
    rw [hcast]
    exact ⟨hm.fst, hm.snd, hd2, hm.hd2, hm.apart, f12.trans hm.frame⟩
  unfold OTable.moveAssign
  rw [e1, bind_ok, e2, bind_ok]
  cases he : (al.equal || al.moveProp) with
  | true =>
    obtain ⟨y, e3, hy, hy'⟩ := Swiss.moveAssign_equal ht.core h.core he
    rw [← hcap2] at hy
    obtain ⟨e4, hm⟩ := hrd.equal h.link.occ h.length hy
    rw [e4, bind_ok, e3, bind_ok]
    have hm' := hmoved hm
    refine ⟨m2, _, _, rfl, hm', rfl, fun _ => ⟨h.core, hm'.fst.link⟩, ?_⟩
    intro q
    refine ⟨hy' ?_ _, hm'.snd.link⟩
    rcases q with q | q | q
    · exact Or.inl q
    · rw [q] at he
      exact Or.inl (by simpa using he)
    · exact Or.inr q
  | false =>
    rw [Bool.or_eq_false_iff] at he
    obtain ⟨x, y, e3, e4, hx, hy, hy'⟩ := Swiss.moveAssign_unequal ht.core h.core he.1 he.2
    have hx' : Copied t2.core.cap u.core x := by
      rw [hcap2, he.2]
      exact hx
    obtain ⟨m3, b, e5, hm⟩ := hrd.unequal hsz hA h hx' hy
    rw [e5, bind_ok, e3, bind_ok]
    have hm' := hmoved hm
    refine ⟨m3, _, _, rfl, hm', copied_seq hx h, ?_, fun _ => ⟨hy', hm'.snd.link⟩⟩
    rintro (q | ⟨q, q'⟩)
    · rw [he.1, he.2] at q
      cases q
    · obtain ⟨x', e6, h6, _⟩ := Swiss.copyAssign_spec ht.core h.core q q'
      rw [e4] at e6
      cases e6
      exact ⟨h6, hm'.fst.link⟩

/-- Swapping a container with itself does nothing. -/
theorem swap_self (h : Rep c m t o) : t.swap m t = .ok (m, t, t) := by
  unfold OTable.swap
  rw [swapHeaders_self h.ring, bind_ok]
  rfl

/-- Swapping two containers that are not empty. -/
theorem swap_ok {g : K → Nat} (ht : Rep (c.with g) m t o) (h : Rep c m u o') (ha : Apart c.sz t u) (hne : t.core.size ≠ 0) (hne' : u.core.size ≠ 0) :
    ∃ m', t.swap m u = .ok (m', { t with core := u.core, base := u.base }, { u with core := t.core, base := t.base }) ∧
      Moved c m t u m' { t with core := u.core, base := u.base } { u with core := t.core, base := t.base } o' o := by
  have hdis : ∀ x ∈ t.hd :: o.map (t.addr c.sz), x ∉ u.hd :: o'.map (u.addr c.sz) := fun x hx q => ha x (ht.link.foot x hx) (h.link.foot x q)
  have ho : o.map (t.addr c.sz) ≠ [] := by
    intro q
    rw [List.map_eq_nil_iff] at q
    exact hne (by rw [← ht.length, q]; rfl)
  have ho' : o'.map (u.addr c.sz) ≠ [] := by
    intro q
    rw [List.map_eq_nil_iff] at q
    exact hne' (by rw [← h.length, q]; rfl)
  obtain ⟨m1, e1, r1, r2, s1⟩ := swapHeaders_ok ht.ring h.ring ho ho' hdis
  unfold OTable.swap
  rw [e1, bind_ok]
  refine ⟨m1, rfl, ⟨⟨h.link.occ, r1, ?_, ?_⟩, h.length⟩, ⟨⟨ht.link.occ, r2, ?_, ?_⟩, ht.length⟩, rfl, rfl, ?_, ?_⟩
  · change ∀ x ∈ slots c.sz u.base u.core.cap, _
    rw [s1.live]; exact h.link.live
  · change t.hd ∉ slots c.sz u.base u.core.cap
    exact fun q => ha _ List.mem_cons_self (List.mem_cons_of_mem _ q)
  · change ∀ x ∈ slots c.sz t.base t.core.cap, _
    rw [s1.live]; exact ht.link.live
  · change u.hd ∉ slots c.sz t.base t.core.cap
    exact fun q => ha _ (List.mem_cons_of_mem _ q) List.mem_cons_self
  · intro x hx q
    change x ∈ t.hd :: slots c.sz u.base u.core.cap at hx
    change x ∈ u.hd :: slots c.sz t.base t.core.cap at q
    rcases List.mem_cons.mp hx with g | g <;> rcases List.mem_cons.mp q with g' | g'
    · exact ha _ List.mem_cons_self (by rw [← g, g']; exact List.mem_cons_self)
    · exact ht.link.hdr (g ▸ g')
    · exact h.link.hdr (g' ▸ g)
    · exact ha x (List.mem_cons_of_mem _ g') (List.mem_cons_of_mem _ g)
  · constructor
    · intro x hx hn
      rw [List.mem_append, not_or] at hn
      exact ⟨by rw [s1.live]; exact hx, s1.link x ⟨fun q => hn.1 (ht.link.foot x q), fun q => hn.2 (h.link.foot x q)⟩⟩
    · intro x hx
      left
      rcases List.mem_append.mp hx with q | q
      · change x ∈ t.hd :: slots c.sz u.base u.core.cap at q
        rcases List.mem_cons.mp q with g | g
        · exact List.mem_append_left _ (g ▸ List.mem_cons_self)
        · exact List.mem_append_right _ (List.mem_cons_of_mem _ g)
      · change x ∈ u.hd :: slots c.sz t.base t.core.cap at q
        rcases List.mem_cons.mp q with g | g
        · exact List.mem_append_right _ (g ▸ List.mem_cons_self)
        · exact List.mem_append_left _ (List.mem_cons_of_mem _ g)

end Tpp.OSwiss
