import Verif.Ordered.Chain
import Verif.Ordered.DenseOps

/-!
# Ordered dense containers: construction, copies, moves, swaps, destruction
-/

set_option linter.unusedSectionVars false

namespace Tpp.ODense

open Tpp.Dense (Elem LF Table Inv swapRemove conflict idxOf elemOf)
open Tpp.Ordered

variable {k : Nat} {K V : Type} [DecidableEq K]
variable {hash : K → Nat} {sz : Int} {A : Alloc} {m : Mem} {t u : OTable k K V} {l l' : List (Elem k K V)} {o o' : List Nat}

/-- Two containers do not share storage. -/
def Apart (sz : Int) (t u : OTable k K V) : Prop := ∀ x ∈ t.foot sz, x ∉ u.foot sz

theorem Apart.symm (h : Apart sz t u) : Apart sz u t := fun x hx hx' => h x hx' hx

/-! ## Storage -/

theorem create_ok (hA : A.Sound sz) (m : Mem) (lf : LF) :
    ∃ m' t, OTable.create (k := k) (K := K) (V := V) sz A m lf = (m', t) ∧ t.core = Table.init lf ∧ t.base = 0 ∧ Rep hash sz m' t [] [] ∧ t.hd ∉ m.live ∧
      Frame m m' [] (t.foot sz) := by
  have hs := hA m.clock m.live 1
  rw [slots_one] at hs
  have hn := hs _ (List.mem_singleton_self _)
  have hlv : (m.alloc sz A 1).1.live = A m.clock m.live 1 :: m.live := by
    change slots sz (A m.clock m.live 1) 1 ++ m.live = _
    rw [slots_one]; rfl
  refine ⟨_, _, rfl, rfl, rfl, ⟨Dense.init_inv hash lf, by simp, ?_, ?_, ?_⟩, hn, ?_, ?_⟩
  · rw [List.map_nil, Ring.nil_iff]
    refine ⟨?_, ?_⟩
    · change _ ∈ (m.alloc sz A 1).1.live
      rw [hlv]
      exact List.mem_cons_self
    · simp
  · intro x hx
    change x ∈ slots sz 0 0 at hx
    rw [slots_zero] at hx
    cases hx
  · change _ ∉ slots sz 0 0
    rw [slots_zero]
    simp
  · intro x hx _
    refine ⟨?_, ?_⟩
    · change _ ∈ (m.alloc sz A 1).1.live
      rw [hlv]
      exact List.mem_cons_of_mem _ hx
    · have : x ≠ (m.alloc sz A 1).2 := fun q => hn (by rw [q] at hx; exact hx)
      simp only
      rw [if_neg this]
      rfl
  · intro x hx
    right
    change x ∈ (m.alloc sz A 1).2 :: slots sz 0 0 at hx
    rw [slots_zero, List.mem_singleton] at hx
    rw [hx]
    exact hn

theorem createN_ok (hA : A.Sound sz) (m : Mem) (lf : LF) (n : Nat) :
    ∃ m' t, OTable.createN (k := k) (K := K) (V := V) sz A m lf n = (m', t) ∧ Rep hash sz m' t [] [] ∧ t.hd ∉ m.live ∧ t.core.bc = n ∧
      Frame m m' [] (t.foot sz) := by
  obtain ⟨m1, t1, e1, c1, b1, h1, n1, f1⟩ := create_ok (hash := hash) (k := k) (K := K) (V := V) hA m lf
  unfold OTable.createN
  rw [e1]
  by_cases hn : n = 0
  · simp only [if_pos hn]
    exact ⟨m1, t1, rfl, h1, n1, by rw [c1, hn]; rfl, f1⟩
  · simp only [if_neg hn]
    have f2 := alloc_frame hA m1 n
    have hfr : t1.hd ∉ slots sz (m1.alloc sz A n).2 n := fun q => hA _ _ _ _ q h1.hd_live
    refine ⟨_, _, rfl, ⟨Dense.withBuckets_inv hash lf n, by simp, ?_, ?_, hfr⟩, n1, rfl, ?_⟩
    · exact f2.ring h1.ring (fun _ _ => by simp)
    · intro x hx
      exact List.mem_append_left _ hx
    · have f3 := f2.add (t1.foot sz)
      rw [List.append_nil] at f3
      refine (f1.trans f3).congr (fun _ q => q) ?_
      intro x hx
      left
      rcases List.mem_cons.mp hx with q | q
      · exact List.mem_append_left _ (q ▸ List.mem_cons_self)
      · exact List.mem_append_right _ q

theorem destroy_ok (h : Rep hash sz m t l o) :
    ∃ m', t.destroy sz m = .ok m' ∧ Frame m m' (t.foot sz) [] ∧ ∀ x ∈ t.foot sz, x ∉ m'.live := by
  obtain ⟨c, e, _⟩ := Dense.clearData_ok h.core.toArr
  unfold OTable.destroy
  rw [e, bind_ok, free_ok h.live, bind_ok]
  have hl : ∀ x ∈ slots sz t.hd 1, x ∈ (m.live.filter fun x => x ∉ slots sz t.base t.core.cap) := by
    intro x hx
    rw [slots_one, List.mem_singleton] at hx
    rw [hx, List.mem_filter]
    exact ⟨h.hd_live, by simpa using h.hdr⟩
  rw [free_ok (m := { m with live := m.live.filter fun x => x ∉ slots sz t.base t.core.cap }) hl]
  refine ⟨_, rfl, ?_, ?_⟩
  · have f1 := (free_frame (m := m) (sz := sz) (a := t.base) (n := t.core.cap)).add [t.hd]
    have f2 := free_frame (m := { m with live := m.live.filter fun x => x ∉ slots sz t.base t.core.cap }) (sz := sz) (a := t.hd) (n := 1)
    rw [slots_one] at f2
    rw [slots_one]
    exact f1.trans f2
  · intro x hx
    rw [slots_one]
    simp only [List.mem_filter, List.mem_singleton, decide_eq_true_eq, not_and, not_not]
    intro hx'
    rcases List.mem_cons.mp hx with q | q
    · exact q
    · exact absurd q hx'.2

theorem realloc_ok (hA : A.Sound sz) {base : Int} {cap : Nat} (hl : ∀ x ∈ slots sz base cap, x ∈ m.live) (n : Nat) :
    ∃ m' b, OTable.reallocArray sz A m base cap n = .ok (m', b) ∧ (∀ x ∈ slots sz b (if cap < n then n else cap), x ∈ m'.live) ∧
      Frame m m' (slots sz base cap) (slots sz b (if cap < n then n else cap)) := by
  unfold OTable.reallocArray
  by_cases e : cap < n
  · rw [if_pos e, if_pos e, free_ok hl, bind_ok]
    exact ⟨_, _, rfl, fun x hx => List.mem_append_left _ hx, free_frame.trans (alloc_frame hA _ n)⟩
  · rw [if_neg e, if_neg e]
    exact ⟨m, base, rfl, hl, Frame.refl _ _⟩

/-! ## Copies -/

/-- The links after copying a container that is not empty. -/
theorem copyDataLinks_ok (hsz : 0 < sz) (hA : A.Sound sz) (h : Rep hash sz m u l o) (hne : l ≠ []) (hd : t.hd ∈ m.live)
    (hl : ∀ x ∈ slots sz t.base t.core.cap, x ∈ m.live) (hh : t.hd ∉ slots sz t.base t.core.cap) (ha : Apart sz u t) :
    ∃ m' b, t.copyDataLinks sz A m u = .ok (m', b) ∧ Ring m' t.hd (o.map (fun i : Nat => b + sz * (i : Int))) ∧
      (∀ x ∈ slots sz b (if t.core.cap < l.length then l.length else t.core.cap), x ∈ m'.live) ∧
      t.hd ∉ slots sz b (if t.core.cap < l.length then l.length else t.core.cap) ∧
      Frame m m' (t.foot sz) (t.hd :: slots sz b (if t.core.cap < l.length then l.length else t.core.cap)) := by
  have hs := h.core.size
  have hpos : 0 < l.length := List.length_pos_iff.mpr hne
  unfold OTable.copyDataLinks
  rw [if_neg (by omega)]
  obtain ⟨m1, b, e1, l1, f1⟩ := realloc_ok hA hl l.length
  generalize hc : (if t.core.cap < l.length then l.length else t.core.cap) = c at *
  have hlc : l.length ≤ c := by rw [← hc]; split <;> omega
  have h1 : Rep hash sz m1 u l o := h.frame f1 (fun x hx q => ha x hx (List.mem_cons_of_mem _ q))
  have hd1 := f1.keep t.hd hd hh
  have hdb : t.hd ∉ slots sz b c := by
    intro q
    rcases f1.fresh _ q with g | g
    · exact hh g
    · exact g hd
  -- the new array is apart from the container that is copied
  have hub : ∀ x ∈ u.foot sz, x ∉ slots sz b c := by
    intro x hx q
    rcases f1.fresh _ q with g | g
    · exact ha x hx (List.mem_cons_of_mem _ g)
    · exact g (h.foot_live x hx)
  have hsl : ∀ i ∈ List.range l.length, b + sz * (i : Int) ∈ slots sz b c := by
    intro i hi
    rw [List.mem_range] at hi
    exact mem_slots.mpr ⟨i, by omega, rfl⟩
  have hso : ∀ i ∈ List.range l.length, u.base + sz * (i : Int) ∈ slots sz u.base u.core.cap := by
    intro i hi
    exact mem_slots.mpr ⟨i, h.lt_cap (List.mem_range.mp hi), rfl⟩
  obtain ⟨m2, e2, k2, s2⟩ := copyAll_ok (f := fun i => u.base + sz * (i : Int)) (g := fun i => b + sz * (i : Int)) (m := m1)
    (List.nodup_range (n := l.length)) (fun i hi => h1.live _ (hso i hi)) (fun i hi => l1 _ (hsl i hi)) (fun i _ j _ q => slot_inj hsz q)
    (fun i hi j hj q => hub _ (List.mem_cons_of_mem _ (hso j hj)) (q ▸ hsl i hi))
  have hs2 : ∀ x, x ∉ slots sz b c → m2.link x = m1.link x := by
    intro x hx
    refine s2.link x ?_
    intro i hi q
    exact hx (q ▸ hsl i hi)
  have h2 : Rep hash sz m2 u l o := by
    refine h1.frame (F := slots sz b c) (F' := slots sz b c) (s2.frame ?_) hub
    intro x hx i hi q
    exact hx (q ▸ hsl i hi)
  obtain ⟨i, o1, ho⟩ : ∃ i o', o = i :: o' := List.exists_cons_of_ne_nil (fun q => hne (List.length_eq_zero_iff.mp (by rw [← h.length, q]; rfl)))
  obtain ⟨o2, j, ho'⟩ : ∃ o' j, o = o' ++ [j] := by
    rcases List.eq_nil_or_concat o with q | ⟨o', i, q⟩
    · rw [q] at ho; cases ho
    · exact ⟨o', i, by rw [q, List.concat_eq_append]⟩
  have hi : i < l.length := h.lt (by rw [ho]; simp)
  have hj : j < l.length := h.lt (by rw [ho']; simp)
  have n1 : m2.nextOf u.hd = .ok (u.addr sz i) := by
    have := first_ok h2
    unfold OTable.first at this
    rw [this, ho]
    rfl
  have p1 : m2.prevOf u.hd = .ok (u.addr sz j) := by
    rw [last_ok h2, ho']
    simp
  have hch : Chain m2 ((o.map (u.addr sz)).map (· + (b - u.base))) := by
    refine h.ring.chain.shift ?_ ?_
    · intro a ha'
      rw [List.mem_map] at ha'
      obtain ⟨n, hn, rfl⟩ := ha'
      have : u.addr sz n + (b - u.base) = b + sz * (n : Int) := by unfold OTable.addr; omega
      rw [this, s2.live]
      exact l1 _ (hsl n (List.mem_range.mpr (h.lt hn)))
    · intro a ha'
      rw [List.mem_map] at ha'
      obtain ⟨n, hn, rfl⟩ := ha'
      have : u.addr sz n + (b - u.base) = b + sz * (n : Int) := by unfold OTable.addr; omega
      rw [this, k2 n (List.mem_range.mpr (h.lt hn))]
      have hx := h.addr_slots hn
      exact (f1.keep _ (h.live _ hx) (fun q => ha _ (List.mem_cons_of_mem _ hx) (List.mem_cons_of_mem _ q))).2
  have hmap : (o.map (u.addr sz)).map (· + (b - u.base)) = o.map (fun i : Nat => b + sz * (i : Int)) := by
    rw [List.map_map]
    refine List.map_congr_left ?_
    intro n _
    simp only [Function.comp_apply]
    unfold OTable.addr
    omega
  rw [hmap] at hch
  obtain ⟨m3, e3, r3, s3⟩ := hch.adopt (hd := t.hd) (by rw [ho]; simp) (by rw [s2.live]; exact hd1.1) (by
    intro q
    rw [List.mem_map] at q
    obtain ⟨n, hn, q⟩ := q
    exact hdb (q ▸ hsl n (List.mem_range.mpr (h.lt hn))))
  have e3' : m2.link2 t.hd (b + sz * (i : Int)) (b + sz * (j : Int)) = .ok m3 := by
    rw [← e3]
    congr 1
    · rw [ho]; rfl
    · rw [ho']; simp
  rw [hs, e1, bind_ok]
  unfold OTable.copyLinks
  simp only
  rw [e2, bind_ok, n1, bind_ok, p1, bind_ok, slotOf_ok hsz (h.lt_cap hi), slotOf_ok hsz (h.lt_cap hj)]
  simp only
  rw [e3', bind_ok]
  refine ⟨m3, b, rfl, r3, ?_, hdb, ?_⟩
  · intro x hx
    rw [s3.live, s2.live]
    exact l1 x hx
  · have f2 : Frame m1 m2 (slots sz b c) (slots sz b c) := s2.frame (by
      intro x hx i hi q
      exact hx (q ▸ hsl i hi))
    have f3 : Frame m2 m3 (t.hd :: slots sz b c) (t.hd :: slots sz b c) := s3.frame (by
      intro x hx q
      rcases List.mem_cons.mp q with g | g
      · exact hx (g ▸ List.mem_cons_self)
      · rw [List.mem_map] at g
        obtain ⟨n, hn, g⟩ := g
        exact hx (List.mem_cons_of_mem _ (g ▸ hsl n (List.mem_range.mpr (h.lt hn)))))
    exact ((f1.trans f2).add [t.hd]).trans f3

/-- Copying into a container whose header was overwritten. -/
theorem copyInto_ok (hsz : 0 < sz) (hA : A.Sound sz) (h : Rep hash sz m u l o) (hd : t.hd ∈ m.live)
    (hl : ∀ x ∈ slots sz t.base t.core.cap, x ∈ m.live) (hh : t.hd ∉ slots sz t.base t.core.cap) (ha : Apart sz u t)
    (hlink : l = [] → m.link t.hd = ⟨0, 0⟩) {c : Table k K V} (hc : Inv hash c l)
    (hcap : c.cap = if l = [] then t.core.cap else if t.core.cap < l.length then l.length else t.core.cap) :
    ∃ m' b, t.copyDataLinks sz A m u = .ok (m', b) ∧ Rep hash sz m' { t with core := c, base := b } l o ∧
      Frame m m' (t.foot sz) (OTable.foot sz { t with core := c, base := b }) := by
  by_cases hne : l = []
  · rw [if_pos hne] at hcap
    unfold OTable.copyDataLinks
    rw [if_pos (by rw [h.core.size, hne]; rfl)]
    have ho : o = [] := List.length_eq_zero_iff.mp (by rw [h.length, hne]; rfl)
    subst ho
    refine ⟨m, t.base, rfl, ⟨hc, h.perm, ?_, ?_, ?_⟩, ?_⟩
    · rw [List.map_nil, Ring.nil_iff]
      exact ⟨hd, hlink hne⟩
    · change ∀ x ∈ slots sz t.base c.cap, _
      rw [hcap]; exact hl
    · change t.hd ∉ slots sz t.base c.cap
      rw [hcap]; exact hh
    · change Frame m m _ (t.hd :: slots sz t.base c.cap)
      rw [hcap]; exact Frame.refl _ _
  · rw [if_neg hne] at hcap
    obtain ⟨m', b, e, h1, h2, h3, h4⟩ := copyDataLinks_ok hsz hA h hne hd hl hh ha
    refine ⟨m', b, e, ⟨hc, h.perm, h1, ?_, ?_⟩, ?_⟩
    · change ∀ x ∈ slots sz b c.cap, _
      rw [hcap]; exact h2
    · change t.hd ∉ slots sz b c.cap
      rw [hcap]; exact h3
    · change Frame m m' _ (t.hd :: slots sz b c.cap)
      rw [hcap]; exact h4

/-- `link_base::operator=(other)` (table_common.hpp 120). -/
theorem copyHeader_ok (hsrc : u.hd ∈ m.live) (hdst : t.hd ∈ m.live) :
    ∃ m', m.copyFrom t.hd u.hd = .ok m' ∧ m'.link t.hd = m.link u.hd ∧ m'.live = m.live ∧ Frame m m' (t.foot sz) (t.foot sz) := by
  unfold Mem.copyFrom
  rw [Mem.read_ok hsrc, bind_ok, Mem.write_ok hdst]
  refine ⟨_, rfl, by simp, rfl, fun x hx hn => ⟨hx, ?_⟩, fun x hx => Or.inl hx⟩
  have : x ≠ t.hd := fun q => hn (q ▸ List.mem_cons_self)
  simp only
  rw [if_neg this]

theorem copyData_cap {t other : Table k K V} (h : Inv hash other l) (hs : t.size = 0) (hn : ∀ i, t.node i = none) {c : Table k K V}
    (e : t.copyData other = .ok c) : c.cap = if l = [] then t.cap else if t.cap < l.length then l.length else t.cap := by
  by_cases hl : l = []
  · unfold Table.copyData at e
    rw [if_neg (by omega), if_pos (by rw [h.size, hl]; rfl)] at e
    cases e
    rw [if_pos hl]
  · obtain ⟨c', e', _, _, _, hc⟩ := Dense.copyData_ok h hl hs hn
    rw [e'] at e
    cases e
    rw [if_neg hl, hc, h.size]

/-- Copy construction. -/
theorem copyCtor_ok (hsz : 0 < sz) (hA : A.Sound sz) (h : Rep hash sz m u l o) :
    ∃ m' t, OTable.copyCtor sz A m u = .ok (m', t) ∧ Rep hash sz m' t l o ∧ t.hd ∉ m.live ∧ Frame m m' [] (t.foot sz) := by
  obtain ⟨m1, t1, e1, c1, b1, h1, n1, f1⟩ := create_ok (hash := hash) (k := k) (K := K) (V := V) hA m u.core.lf
  have hu1 : Rep hash sz m1 u l o := h.frame f1 (fun _ _ => by simp)
  have hapart : Apart sz u t1 := by
    intro x hx q
    rcases f1.fresh x q with g | g
    · cases g
    · exact g (h.foot_live x hx)
  obtain ⟨m2, e2, k2, l2, f2⟩ := copyHeader_ok (sz := sz) (t := t1) hu1.hd_live h1.hd_live
  have hu2 := hu1.frame f2 hapart
  obtain ⟨c, e3, hc, _⟩ := Dense.copyCtor_ok h.core
  have hcap : c.cap = if l = [] then t1.core.cap else if t1.core.cap < l.length then l.length else t1.core.cap := by
    rw [c1]
    exact copyData_cap h.core rfl (fun _ => rfl) e3
  obtain ⟨m3, b, e4, h4, f4⟩ := copyInto_ok hsz hA hu2 (by rw [l2]; exact h1.hd_live) (by rw [l2]; exact h1.live) h1.hdr hapart
    (fun q => by
      rw [k2]
      have ho : o = [] := List.length_eq_zero_iff.mp (by rw [h.length, q]; rfl)
      have := hu1.ring
      rw [ho, List.map_nil, Ring.nil_iff] at this
      exact this.2) hc hcap
  unfold OTable.copyCtor
  rw [e1]
  simp only
  rw [e2, bind_ok, e4, bind_ok, e3, bind_ok]
  exact ⟨m3, _, rfl, h4, n1, (f1.trans f2).trans f4⟩

/-- What is left of the container before the copy: the header and, unless the allocator is propagated, the array. -/
theorem dropArray_ok {prop : Bool} (hd : t.hd ∈ m.live) (hl : ∀ x ∈ slots sz t.base t.core.cap, x ∈ m.live)
    (hh : t.hd ∉ slots sz t.base t.core.cap) :
    ∃ m' t', t.dropArray sz prop m = .ok (m', t') ∧ t'.hd = t.hd ∧ t'.core.cap = (if prop then 0 else t.core.cap) ∧ t'.hd ∈ m'.live ∧
      (∀ x ∈ slots sz t'.base t'.core.cap, x ∈ m'.live) ∧ t'.hd ∉ slots sz t'.base t'.core.cap ∧ m'.link = m.link ∧
      Frame m m' (t.foot sz) (t'.foot sz) ∧ (∀ x ∈ t'.foot sz, x ∈ t.foot sz) := by
  unfold OTable.dropArray
  cases prop with
  | false =>
    simp only [Bool.false_eq_true, if_false]
    exact ⟨m, t, rfl, rfl, rfl, hd, hl, hh, rfl, Frame.refl _ _, fun _ h => h⟩
  | true =>
    simp only [if_true]
    rw [free_ok hl, bind_ok]
    refine ⟨_, { t with core := { t.core with cap := 0 }, base := 0 }, rfl, rfl, rfl, ?_, ?_, ?_, rfl, ?_, ?_⟩
    · exact List.mem_filter.mpr ⟨hd, by simpa using hh⟩
    · intro x hx
      change x ∈ slots sz 0 0 at hx
      rw [slots_zero] at hx
      cases hx
    · change t.hd ∉ slots sz 0 0
      rw [slots_zero]
      simp
    · exact free_frame.add [t.hd]
    · intro x hx
      change x ∈ t.hd :: slots sz 0 0 at hx
      rw [slots_zero, List.mem_singleton] at hx
      rw [hx]
      exact List.mem_cons_self

theorem copyAssign_cap {g : K → Nat} {prop : Bool} {t other : Table k K V} (ht : Inv g t l') (h : Inv hash other l) {c : Table k K V}
    (e : t.copyAssign prop other = .ok c) :
    c.cap = if l = [] then (if prop then 0 else t.cap)
      else if (if prop then 0 else t.cap) < l.length then l.length else (if prop then 0 else t.cap) := by
  unfold Table.copyAssign at e
  obtain ⟨t1, e1, c1⟩ := Dense.clearData_ok (ht.setLoad other.lf).toArr
  rw [show ({ t with lf := other.lf } : Table k K V) = t.setLoad other.lf from rfl, e1, bind_ok] at e
  cases prop with
  | true =>
    simp only [if_true] at e ⊢
    exact copyData_cap (t := t1.dropBuffers) h c1.size (fun _ => rfl) e
  | false =>
    simp only [Bool.false_eq_true, if_false] at e ⊢
    rw [copyData_cap h c1.size c1.node e, c1.cap]
    rfl

/-- An empty container goes with any hash function. -/
theorem Inv.any {hash : K → Nat} {t : Table k K V} (h : Inv hash t []) (g : K → Nat) : Inv g t [] := by
  refine ⟨⟨h.size, h.rep, h.le_cap, ?_⟩, h.uniq, h.empty, h.chained⟩
  intro i n hn
  have := h.rep i
  rw [hn] at this
  cases this

/-- Copy assignment. -/
theorem copyAssign_ok {g : K → Nat} (hsz : 0 < sz) (hA : A.Sound sz) {prop : Bool} (ht : Rep g sz m t l' o') (h : Rep hash sz m u l o)
    (ha : Apart sz u t) (hg : prop = true ∨ l ≠ [] ∨ l' = []) :
    ∃ m' t', t.copyAssign sz A prop m u = .ok (m', t') ∧ Rep hash sz m' t' l o ∧ t'.hd = t.hd ∧ Frame m m' (t.foot sz) (t'.foot sz) := by
  obtain ⟨m1, e1, k1, l1, f1⟩ := copyHeader_ok (sz := sz) (t := t) h.hd_live ht.hd_live
  have h1 := h.frame f1 ha
  obtain ⟨m2, t2, e2, hd2, hcap2, hl2, hs2, hh2, hk2, f2, hsub⟩ := dropArray_ok (prop := prop) (t := t) (m := m1) (sz := sz)
    (by rw [l1]; exact ht.hd_live) (by rw [l1]; exact ht.live) ht.hdr
  have h2 := h1.frame f2 ha
  have ha2 : Apart sz u t2 := fun x hx q => ha x hx (hsub x q)
  obtain ⟨c, e3, hc, _⟩ := Dense.copyAssign_ok ht.core h.core hg
  have hcap := copyAssign_cap ht.core h.core e3
  rw [← hcap2] at hcap
  obtain ⟨m3, b, e4, h4, f4⟩ := copyInto_ok hsz hA h2 hl2 hs2 hh2 ha2
    (fun q => by
      rw [hk2, hd2, k1]
      have ho : o = [] := List.length_eq_zero_iff.mp (by rw [h.length, q]; rfl)
      have := h.ring
      rw [ho, List.map_nil, Ring.nil_iff] at this
      exact this.2) hc hcap
  unfold OTable.copyAssign
  rw [e1, bind_ok, e2, bind_ok, e4, bind_ok, e3, bind_ok]
  have e : ({ t with core := c, base := b } : OTable k K V) = { t2 with core := c, base := b } := by
    rw [hd2]
  exact ⟨m3, { t with core := c, base := b }, rfl, by rw [e]; exact h4, rfl, by rw [e]; exact (f1.trans f2).trans f4⟩

/-! ## Moves -/

/-- Giving a container another header and array; the hash functions are those of the elements. -/
structure Moved (hash hash' : K → Nat) (sz : Int) (m : Mem) (t u : OTable k K V) (m' : Mem) (t' u' : OTable k K V)
    (l l' : List (Elem k K V)) (o o' : List Nat) : Prop where
  fst : Rep hash sz m' t' l o
  snd : Rep hash' sz m' u' l' o'
  hd1 : t'.hd = t.hd
  hd2 : u'.hd = u.hd
  apart : Apart sz t' u'
  frame : Frame m m' (t.foot sz ++ u.foot sz) (t'.foot sz ++ u'.foot sz)

/-- Move construction with equal allocators. -/
theorem moveCtor_ok (hA : A.Sound sz) (h : Rep hash sz m u l o) :
    ∃ m' t u', OTable.moveCtor sz A m u = .ok (m', t, u') ∧ Rep hash sz m' t l o ∧ Rep hash sz m' u' [] [] ∧ t.hd ∉ m.live ∧
      u'.hd = u.hd ∧ Apart sz t u' ∧ Frame m m' (u.foot sz) (t.foot sz ++ u'.foot sz) := by
  obtain ⟨m1, t1, e1, c1, b1, h1, n1, f1⟩ := create_ok (hash := hash) (k := k) (K := K) (V := V) hA m u.core.lf
  have hu1 : Rep hash sz m1 u l o := h.frame f1 (fun _ _ => by simp)
  have hne : t1.hd ≠ u.hd := fun q => n1 (q ▸ h.hd_live)
  obtain ⟨m2, e2, r1, r2, s2⟩ := hu1.ring.rebase h1.hd_live (fun q => n1 (h.foot_live _ (h.ring_foot _ q)))
  obtain ⟨c, d, e3, hc, _, hd, _⟩ := Dense.moveCtor_ok (hash₁ := hash) h.core
  have hcap : c.cap = u.core.cap ∧ d.cap = 0 := by
    unfold Table.moveCtor Table.moveFrom at e3
    simp only [if_true] at e3
    cases e3
    exact ⟨rfl, rfl⟩
  unfold OTable.moveCtor
  rw [e1]
  simp only
  rw [e2, bind_ok, e3, bind_ok]
  refine ⟨m2, _, _, rfl, ⟨hc, h.perm, r1, ?_, ?_⟩, ⟨hd, by simp, r2, ?_, ?_⟩, n1, rfl, ?_, ?_⟩
  · change ∀ x ∈ slots sz u.base c.cap, _
    rw [hcap.1, s2.live]
    exact hu1.live
  · change t1.hd ∉ slots sz u.base c.cap
    rw [hcap.1]
    exact fun q => n1 (h.live _ q)
  · change ∀ x ∈ slots sz t1.base d.cap, _
    rw [hcap.2, slots_zero]
    intro x hx
    cases hx
  · change u.hd ∉ slots sz t1.base d.cap
    rw [hcap.2, slots_zero]
    simp
  · intro x hx q
    change x ∈ t1.hd :: slots sz u.base c.cap at hx
    change x ∈ u.hd :: slots sz t1.base d.cap at q
    rw [hcap.2, slots_zero, List.mem_singleton] at q
    rw [q, hcap.1] at hx
    rcases List.mem_cons.mp hx with g | g
    · exact hne g.symm
    · exact h.hdr g
  · constructor
    · intro x hx hn
      obtain ⟨q1, q2⟩ := f1.keep x hx (by simp)
      refine ⟨by rw [s2.live]; exact q1, ?_⟩
      rw [s2.link x, q2]
      exact ⟨fun q => n1 (q ▸ hx), fun q => hn (h.ring_foot x q)⟩
    · intro x hx
      rcases List.mem_append.mp hx with q | q
      · change x ∈ t1.hd :: slots sz u.base c.cap at q
        rw [hcap.1] at q
        rcases List.mem_cons.mp q with g | g
        · right; rw [g]; exact n1
        · left; exact List.mem_cons_of_mem _ g
      · change x ∈ u.hd :: slots sz t1.base d.cap at q
        rw [hcap.2, slots_zero, List.mem_singleton] at q
        left
        rw [q]
        exact List.mem_cons_self

/-- Move assignment with equal or propagated allocators. -/
theorem moveAssign_ok {g : K → Nat} {prop : Bool} (ht : Rep g sz m t l' o') (h : Rep hash sz m u l o) (ha : Apart sz t u)
    (hg : prop = true ∨ l' = []) :
    ∃ m' t' u', t.moveAssign sz prop m u = .ok (m', t', u') ∧ Moved hash hash sz m t u m' t' u' l [] o [] := by
  have hnf : t.hd ∉ u.hd :: o.map (u.addr sz) := fun q => ha _ List.mem_cons_self (h.ring_foot _ q)
  have hne : t.hd ≠ u.hd := fun q => hnf (by simp [q])
  obtain ⟨m1, e1, r1, r2, s1⟩ := h.ring.rebase ht.hd_live hnf
  obtain ⟨m2, t2, e2, hd2, hcap2, hl2, hs2, hh2, hk2, f2, hsub⟩ := dropArray_ok (prop := prop) (t := t) (m := m1) (sz := sz)
    (by rw [s1.live]; exact ht.hd_live) (by rw [s1.live]; exact ht.live) ht.hdr
  have hcore : ∃ c d, t.core.moveAssign prop true u.core = .ok (c, d) ∧ Inv hash c l ∧ Inv hash d [] ∧ c.cap = u.core.cap ∧
      d.cap = t2.core.cap := by
    rw [hcap2]
    rcases hg with q | q
    · subst q
      obtain ⟨c, d, e3, hc, _, hd, _⟩ := Dense.moveAssign_ok (hash₁ := hash) (eq := true) ht.core h.core
      refine ⟨c, d, e3, hc, hd, ?_⟩
      unfold Table.moveAssign at e3
      obtain ⟨t1, e4, e5⟩ := Dense.bind_eq_ok e3
      simp only [Table.moveFrom, if_true, Bool.true_or] at e5
      cases e5
      exact ⟨rfl, rfl⟩
    · cases prop with
      | true =>
        obtain ⟨c, d, e3, hc, _, hd, _⟩ := Dense.moveAssign_ok (hash₁ := hash) (eq := true) ht.core h.core
        refine ⟨c, d, e3, hc, hd, ?_⟩
        unfold Table.moveAssign at e3
        obtain ⟨t1, e4, e5⟩ := Dense.bind_eq_ok e3
        simp only [Table.moveFrom, if_true, Bool.true_or] at e5
        cases e5
        exact ⟨rfl, rfl⟩
      | false =>
        subst q
        obtain ⟨c, d, e3, hc, _, hd, _⟩ := Dense.moveAssign_nonprop_ok (Inv.any (ht.core) hash) h.core
        refine ⟨c, d, e3, hc, hd, ?_⟩
        unfold Table.moveAssign at e3
        obtain ⟨t1, e4, e5⟩ := Dense.bind_eq_ok e3
        obtain ⟨t1', e4', c4⟩ := Dense.clearData_ok (ht.core.setLoad u.core.lf).toArr
        rw [show ({ t.core with lf := u.core.lf } : Table k K V) = t.core.setLoad u.core.lf from rfl, e4'] at e4
        cases e4
        simp only [Table.moveFrom, Bool.false_eq_true, if_false, Bool.or_true, if_true] at e5
        cases e5
        exact ⟨rfl, c4.cap⟩
  obtain ⟨c, d, e3, hc, hd, hcc, hdc⟩ := hcore
  unfold OTable.moveAssign
  rw [e1, bind_ok, e2, bind_ok, e3, bind_ok]
  have hout : ∀ x ∈ u.foot sz, x ∉ t.foot sz := fun x hx q => ha x q hx
  refine ⟨m2, { t with core := c, base := u.base }, { u with core := d, base := t2.base }, rfl,
    ⟨hc, h.perm, ?_, ?_, ?_⟩, ⟨hd, by simp, ?_, ?_, ?_⟩, rfl, rfl, ?_, ?_⟩
  · refine r1.frame ?_ (fun x _ => by rw [hk2])
    intro x hx
    rcases List.mem_cons.mp hx with q | q
    · change x = t.hd at q
      rw [q, ← hd2]
      exact hl2
    · have : x ∈ u.foot sz := h.ring_foot x (List.mem_cons_of_mem _ q)
      exact (f2.keep x (by rw [s1.live]; exact h.foot_live x this) (hout x this)).1
  · change ∀ x ∈ slots sz u.base c.cap, _
    rw [hcc]
    intro x hx
    exact (f2.keep x (by rw [s1.live]; exact h.live x hx) (hout x (List.mem_cons_of_mem _ hx))).1
  · change t.hd ∉ slots sz u.base c.cap
    rw [hcc]
    exact fun q => ha _ List.mem_cons_self (List.mem_cons_of_mem _ q)
  · refine r2.frame ?_ (fun x _ => by rw [hk2])
    intro x hx
    have hx' : x = u.hd := by simpa using hx
    rw [hx']
    exact (f2.keep _ (by rw [s1.live]; exact h.hd_live) (hout _ List.mem_cons_self)).1
  · change ∀ x ∈ slots sz t2.base d.cap, _
    rw [hdc]
    exact hs2
  · change u.hd ∉ slots sz t2.base d.cap
    rw [hdc]
    exact fun q => hout _ List.mem_cons_self (hsub _ (List.mem_cons_of_mem _ q))
  · intro x hx q
    change x ∈ t.hd :: slots sz u.base c.cap at hx
    change x ∈ u.hd :: slots sz t2.base d.cap at q
    rw [hcc] at hx
    rw [hdc] at q
    rcases List.mem_cons.mp hx with g | g <;> rcases List.mem_cons.mp q with g' | g'
    · exact hne (g.symm.trans g')
    · exact hh2 (by rw [hd2, ← g]; exact g')
    · exact h.hdr (g' ▸ g)
    · exact hout x (List.mem_cons_of_mem _ g) (hsub x (List.mem_cons_of_mem _ g'))
  · constructor
    · intro x hx hn
      rw [List.mem_append, not_or] at hn
      have q := s1.link x ⟨fun q => hn.1 (q ▸ List.mem_cons_self), fun q => hn.2 (h.ring_foot x q)⟩
      obtain ⟨g1, g2⟩ := f2.keep x (by rw [s1.live]; exact hx) hn.1
      exact ⟨g1, g2.trans q⟩
    · intro x hx
      left
      rcases List.mem_append.mp hx with q | q
      · change x ∈ t.hd :: slots sz u.base c.cap at q
        rw [hcc] at q
        rcases List.mem_cons.mp q with g | g
        · exact List.mem_append_left _ (g ▸ List.mem_cons_self)
        · exact List.mem_append_right _ (List.mem_cons_of_mem _ g)
      · change x ∈ u.hd :: slots sz t2.base d.cap at q
        rw [hdc] at q
        rcases List.mem_cons.mp q with g | g
        · exact List.mem_append_right _ (g ▸ List.mem_cons_self)
        · exact List.mem_append_left _ (hsub x (List.mem_cons_of_mem _ g))

/-- Swapping a container with itself does nothing. -/
theorem swap_self (h : Rep hash sz m t l o) : t.swap m t = .ok (m, t, t) := by
  unfold OTable.swap
  rw [swapHeaders_self h.ring, bind_ok]
  rfl

/-- Swapping two containers that are not empty. -/
theorem swap_ok {g : K → Nat} (ht : Rep g sz m t l o) (h : Rep hash sz m u l' o') (ha : Apart sz t u) (hne : l ≠ []) (hne' : l' ≠ []) :
    ∃ m' t' u', t.swap m u = .ok (m', t', u') ∧ Moved hash g sz m t u m' t' u' l' l o' o := by
  have hdis : ∀ x ∈ t.hd :: o.map (t.addr sz), x ∉ u.hd :: o'.map (u.addr sz) := fun x hx q => ha x (ht.ring_foot x hx) (h.ring_foot x q)
  have ho : o.map (t.addr sz) ≠ [] := by
    intro q
    rw [List.map_eq_nil_iff] at q
    exact hne (List.length_eq_zero_iff.mp (by rw [← ht.length, q]; rfl))
  have ho' : o'.map (u.addr sz) ≠ [] := by
    intro q
    rw [List.map_eq_nil_iff] at q
    exact hne' (List.length_eq_zero_iff.mp (by rw [← h.length, q]; rfl))
  obtain ⟨m1, e1, r1, r2, s1⟩ := swapHeaders_ok ht.ring h.ring ho ho' hdis
  obtain ⟨c1, c2, _, _⟩ := Dense.swap_ok ht.core h.core
  unfold OTable.swap
  rw [e1, bind_ok]
  refine ⟨m1, _, _, rfl, ⟨c1, h.perm, r1, ?_, ?_⟩, ⟨c2, ht.perm, r2, ?_, ?_⟩, rfl, rfl, ?_, ?_⟩
  · change ∀ x ∈ slots sz u.base u.core.cap, _
    rw [s1.live]; exact h.live
  · change t.hd ∉ slots sz u.base u.core.cap
    exact fun q => ha _ List.mem_cons_self (List.mem_cons_of_mem _ q)
  · change ∀ x ∈ slots sz t.base t.core.cap, _
    rw [s1.live]; exact ht.live
  · change u.hd ∉ slots sz t.base t.core.cap
    exact fun q => ha _ (List.mem_cons_of_mem _ q) List.mem_cons_self
  · intro x hx q
    change x ∈ t.hd :: slots sz u.base u.core.cap at hx
    change x ∈ u.hd :: slots sz t.base t.core.cap at q
    rcases List.mem_cons.mp hx with g | g <;> rcases List.mem_cons.mp q with g' | g'
    · exact ha _ List.mem_cons_self (by rw [← g, g']; exact List.mem_cons_self)
    · exact ht.hdr (g ▸ g')
    · exact h.hdr (g' ▸ g)
    · exact ha x (List.mem_cons_of_mem _ g') (List.mem_cons_of_mem _ g)
  · constructor
    · intro x hx hn
      rw [List.mem_append, not_or] at hn
      exact ⟨by rw [s1.live]; exact hx, s1.link x ⟨fun q => hn.1 (ht.ring_foot x q), fun q => hn.2 (h.ring_foot x q)⟩⟩
    · intro x hx
      left
      rcases List.mem_append.mp hx with q | q
      · change x ∈ t.hd :: slots sz u.base u.core.cap at q
        rcases List.mem_cons.mp q with g | g
        · exact List.mem_append_left _ (g ▸ List.mem_cons_self)
        · exact List.mem_append_right _ (List.mem_cons_of_mem _ g)
      · change x ∈ u.hd :: slots sz t.base t.core.cap at q
        rcases List.mem_cons.mp q with g | g
        · exact List.mem_append_right _ (g ▸ List.mem_cons_self)
        · exact List.mem_append_left _ (List.mem_cons_of_mem _ g)

end Tpp.ODense
