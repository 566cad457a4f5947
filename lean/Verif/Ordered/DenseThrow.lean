import Verif.Ordered.DenseMove
import Verif.Dense.Throw

/-!
# Ordered dense containers whose elements, hash function or key comparison throw

What a call leaves behind when it ends in an exception at some point: the links together with the unordered table of
`Verif/Dense/Throw.lean`.  `packed_node` copies or moves the link of a node before its value (table_common.hpp 228-245), so that the
link of the node whose value throws is changed already.
-/

set_option linter.unusedSectionVars false

namespace Tpp.ODense

open Tpp.Dense (Elem LF Table Inv swapRemove conflict idxOf elemOf)
open Tpp.Ordered

variable {k : Nat} {K V : Type} [DecidableEq K]

namespace OTable

/-- `do_insert`, `do_try_emplace` (dense_table.hpp 646-697) if the call number `b` of the hash function or of the comparison throws:
the links are touched by `maybe_resize` before and by `commit_node` after these calls. -/
def insertCall (hash : K → Nat) (sz : Int) (A : Alloc) (b : Nat) (m : Mem) (t : OTable k K V) (key : Fin k → K) (v : V)
    (hint : Option Int := none) : M (Mem × OTable k K V × Option (Int × Bool)) := do
  let g ← maybeGrow sz A m t
  let r ← t.core.insertCall hash b key v
  match r.2 with
  | none => .ok (g.1, { t with core := r.1, base := g.2 }, none)
  | some p => do
    let a := g.2 + sz * (p.1 : Int)
    let m ← (if p.2 then linkNew g.1 t.hd a (hint.map (· + (g.2 - t.base))) else .ok g.1 : M Mem)
    .ok (m, { t with core := r.1, base := g.2 }, some (a, p.2))

/-- `do_emplace` (dense_table.hpp 620-644) if the call number `b` throws: the new node is in the array, but not linked.  `g`: its
uninitialised hashes. -/
def emplaceCall (hash : K → Nat) (sz : Int) (A : Alloc) (b : Nat) (g : Fin k → Nat) (m : Mem) (t : OTable k K V) (key : Fin k → K)
    (v : V) (hint : Option Int := none) : M (Mem × OTable k K V × Option (Int × Bool)) := do
  let w ← maybeGrow sz A m t
  let r ← t.core.emplaceCall hash b g key v
  match r.2 with
  | none => .ok (w.1, { t with core := r.1, base := w.2 }, none)
  | some p => do
    let a := w.2 + sz * (p.1 : Int)
    let m ← (if p.2 then linkNew w.1 t.hd a (hint.map (· + (w.2 - t.base))) else .ok w.1 : M Mem)
    .ok (m, { t with core := r.1, base := w.2 }, some (a, p.2))

/-- `do_insert`, `do_try_emplace` (dense_table.hpp 646-697, 549-556) if the constructor of the element throws; the flag tells
whether anything was constructed. -/
def insertThrow (hash : K → Nat) (sz : Int) (A : Alloc) (m : Mem) (t : OTable k K V) (key : Fin k → K) : M (Mem × OTable k K V × Bool) := do
  let g ← maybeGrow sz A m t
  let r ← t.core.insertThrow hash key
  .ok (g.1, { t with core := r.1, base := g.2 }, r.2)

/-- `resize_data` (dense_table.hpp 783-801, 53-58, table_common.hpp 234-239) if the relocation of element `q` throws: the links of the
elements `0, …, q` lead to the new array of `c` nodes, which is freed. -/
def resizeThrow (sz : Int) (A : Alloc) (m : Mem) (t : OTable k K V) (c q : Nat) :
    M (Option (Mem × OTable k K V × List (Elem k K V))) := do
  match ← t.core.resizeThrow q with
  | none => .ok none
  | some r => do
    let a := m.alloc sz A c
    let m ← moveLinks sz t.base a.2 a.1 (q + 1)
    let m ← m.free sz a.2 c
    .ok (some (m, { t with core := r.1 }, r.2))

/-- An insertion (dense_table.hpp 802-806) if the relocation of element `q` into the larger array throws. -/
def insertRoomThrow (sz : Int) (A : Alloc) (m : Mem) (t : OTable k K V) (q : Nat) :
    M (Option (Mem × OTable k K V × List (Elem k K V))) :=
  if t.core.cap = t.core.size then t.resizeThrow sz A m (if t.core.cap = 0 then 1 else t.core.cap * 2) q else .ok none

/-- `reserve(n)` (dense_table.hpp 358-362) if the relocation of element `q` throws. -/
def reserveThrow (sz : Int) (A : Alloc) (m : Mem) (t : OTable k K V) (n q : Nat) :
    M (Option (Mem × OTable k K V × List (Elem k K V))) :=
  if n > t.core.cap then t.resizeThrow sz A m n q else .ok none

/-- Copy assignment (dense_table.hpp 250-275, 823-859, 39-43, table_common.hpp 228-233) if the copy of element `q` throws: the header
has the offsets of the other header, the links of the nodes `0, …, q` are copied, the ends are not linked to the header. -/
def copyAssignThrow (sz : Int) (A : Alloc) (prop : Bool) (m : Mem) (t other : OTable k K V) (q : Nat) :
    M (Option (Mem × OTable k K V)) := do
  match ← t.core.copyAssignThrow prop other.core q with
  | none => .ok none
  | some c => do
    let m ← m.copyFrom t.hd other.hd
    let d ← t.dropArray sz prop m
    let g ← reallocArray sz A d.1 d.2.base d.2.core.cap other.core.size
    let m ← copyLinks sz other.base g.2 g.1 (q + 1)
    .ok (some (m, { t with core := c, base := g.2 }))

/-- Move assignment (dense_table.hpp 276-302, 860-885, 53-58, table_common.hpp 234-239) between unequal allocators that do not
propagate, if the relocation of element `q` throws: the header and the links of the nodes `0, …, q` are moved. -/
def moveAssignThrow (sz : Int) (A : Alloc) (m : Mem) (t other : OTable k K V) (q : Nat) :
    M (Option (Mem × OTable k K V × OTable k K V)) := do
  match ← t.core.moveAssignThrow other.core q with
  | none => .ok none
  | some c => do
    let m ← m.relinkFrom t.hd other.hd
    let g ← reallocArray sz A m t.base t.core.cap other.core.size
    let m ← moveLinks sz other.base g.2 g.1 (q + 1)
    .ok (some (m, { t with core := c.1, base := g.2 }, { other with core := c.2 }))

/-- `erase(const_iterator)` (dense_table.hpp 594-618, 725-734, table_common.hpp 240-245) if the assignment of the last element's value
to the erased one throws: the erased node is unlinked and has the link of the last one. -/
def eraseMoveThrow (sz : Int) (m : Mem) (t : OTable k K V) (a : Int) : M (Option (Mem × OTable k K V)) :=
  match t.slotOf sz a with
  | none => .error .dangling
  | some pos => do
    match ← t.core.eraseMoveThrow pos with
    | none => .ok none
    | some c => do
      let r ← t.eraseLinks sz m pos
      .ok (some (r.1, { t with core := c }))

end OTable

variable {hash : K → Nat} {sz : Int} {A : Alloc} {m : Mem} {t : OTable k K V} {l : List (Elem k K V)} {o : List Nat}

/-! ## Walks -/

/-- Walking over nodes that hold elements. -/
theorem walk_nodes {r pre : List Nat} {fuel : Nat} (h : Ring m t.hd ((pre ++ r).map (t.addr sz)))
    (hv : ∀ i ∈ r, ∃ hi : i < l.length, t.elemAt sz (t.addr sz i) = .ok l[i]) (hf : r.length < fuel) :
    walk m t.hd (t.elemAt sz) fuel ((r.map (t.addr sz)).headD t.hd) = .ok (seq l r) := by
  cases hr : r with
  | nil =>
    cases fuel with
    | zero => exact absurd hf (Nat.not_lt_zero _)
    | succ fuel => simp [walk, seq]
  | cons a r' =>
    rw [← hr]
    obtain ⟨ha, _⟩ := hv a (by rw [hr]; simp)
    rw [List.map_append] at h
    have hw := walk_ok (rd := t.elemAt sz) (val := fun x => match t.elemAt sz x with | .ok e => e | .error _ => l[a]) (fuel := fuel) h
      (by
        intro x hx
        obtain ⟨i, hi, rfl⟩ := List.mem_map.mp hx
        obtain ⟨_, e⟩ := hv i hi
        simp only [e])
      (by rw [List.length_map]; exact hf)
    rw [hw]
    congr 1
    clear hw h hf hr
    induction r with
    | nil => rfl
    | cons i r ih =>
      obtain ⟨hi, e⟩ := hv i (by simp)
      rw [seq_cons hi, List.map_cons, List.map_cons, ih (fun j hj => hv j (List.mem_cons_of_mem _ hj))]
      simp only [e]

/-- A walk that meets an address which is no node. -/
theorem walk_dangling {E : Type} {hd : Int} {rd : Int → M E} {f : Fault} : ∀ {r pre : List Int} {fuel : Nat},
    Ring m hd (pre ++ r) → ∀ {m' : Mem}, (∀ x ∈ r, rd x = .error f ∨ ((∃ e, rd x = .ok e) ∧ m'.nextOf x = m.nextOf x)) →
    (∃ x ∈ r, rd x = .error f) → r.length < fuel → walk m' hd rd fuel (r.headD hd) = .error f
  | [], _, _, _, _, _, ⟨_, hx, _⟩, _ => absurd hx List.not_mem_nil
  | a :: r, pre, fuel, h, m', hv, hx, hf => by
    cases fuel with
    | zero => exact absurd hf (Nat.not_lt_zero _)
    | succ fuel =>
      rw [List.headD_cons]
      unfold walk
      rw [if_neg h.head_ne]
      rcases hv a (by simp) with e | ⟨⟨x, e⟩, en⟩
      · rw [e]; rfl
      · have ha : a ∈ m.live := h.live a (by simp)
        rw [e, bind_ok, en, Mem.nextOf_ok ha, bind_ok, h.around.1]
        have hx' : ∃ x ∈ r, rd x = .error f := by
          obtain ⟨y, hy, ey⟩ := hx
          rcases List.mem_cons.mp hy with q | q
          · rw [q, e] at ey; cases ey
          · exact ⟨y, q, ey⟩
        rw [walk_dangling (r := r) (pre := pre ++ [a]) (fuel := fuel) (by rw [List.append_assoc]; exact h)
          (fun y hy => hv y (List.mem_cons_of_mem _ hy)) hx' (by simp at hf; omega)]
        rfl

theorem slotOf_none {x : Int} (h : x ∉ slots sz t.base t.core.cap) : t.slotOf sz x = none := by
  unfold OTable.slotOf
  rw [List.find?_eq_none]
  intro i hi q
  simp only [decide_eq_true_eq] at q
  exact h (mem_slots.mpr ⟨i, List.mem_range.mp hi, q.symm⟩)

theorem elemAt_none {x : Int} (h : x ∉ slots sz t.base t.core.cap) : t.elemAt sz x = .error .dangling := by
  unfold OTable.elemAt
  rw [slotOf_none h]

/-! ## Hash function, comparison, constructor -/

/-- `maybe_resize` and `maybe_rehash` do not change the sequence. -/
theorem grown (hsz : 0 < sz) (hA : A.Sound sz) (h : Rep hash sz m t l o) :
    ∃ m' b t1 t2, t.maybeGrow sz A m = .ok (m', b) ∧ t.core.maybeResize = .ok t1 ∧ t1.maybeRehash = .ok t2 ∧ 0 < t2.bc ∧
      t2.size < t2.cap ∧ Rep hash sz m' { t with core := t2, base := b } l o ∧
      Frame m m' (t.foot sz) (OTable.foot sz ({ t with core := t2, base := b } : OTable k K V)) := by
  obtain ⟨m', b, t1, e1, e2, hlt, h1, h2, h3, h4, _⟩ := maybeGrow_ok hsz hA h
  obtain ⟨t1', e2', i1, _⟩ := Dense.maybeResize_ok h.core
  rw [e2] at e2'
  cases e2'
  obtain ⟨t2, e3, i2, c2, _, _, p2⟩ := Dense.maybeRehash_ok i1
  refine ⟨m', b, t1, t2, e1, e2, e3, p2, by rw [i2.size, c2]; exact hlt, ⟨i2, h.perm, h1, ?_, ?_⟩, ?_⟩
  · change ∀ x ∈ slots sz b t2.cap, _
    rw [c2]; exact h2
  · change t.hd ∉ slots sz b t2.cap
    rw [c2]; exact h3
  · unfold OTable.foot
    simp only
    rw [c2]
    exact h4

/-- The elements of a table that has the nodes of another one. -/
theorem elemAt_ext (hsz : 0 < sz) {c1 : Table k K V} (h : Rep hash sz m t l o) (hx : Dense.Extends t.core c1) {i : Nat} (hi : i < l.length) :
    OTable.elemAt sz ({ t with core := c1 } : OTable k K V) (t.addr sz i) = .ok l[i] := by
  have hc : i < c1.cap := by rw [hx.cap]; exact h.lt_cap hi
  unfold OTable.elemAt
  rw [show t.addr sz i = OTable.addr sz ({ t with core := c1 } : OTable k K V) i from rfl, slotOf_ok hsz hc]
  obtain ⟨n, hr, _, hn⟩ := h.core.toArr.read hi
  simp only
  rw [hx.readNode hr, bind_ok, hn]

/-! ## Making room -/

/-- The elements after a failed relocation: the first ones are destroyed. -/
def dead (q : Nat) (c : Table k K V) : Table k K V := { c with node := fun i => if i < q then none else c.node i }

/-- The nodes `0, …, q` are reached through freed storage. -/
theorem resizeThrow_ok (hsz : 0 < sz) (hA : A.Sound sz) (h : Rep hash sz m t l o) {c q : Nat} (hc : l.length ≤ c) (hq : q < l.length) :
    ∃ m' m1 b, t.resizeThrow sz A m c q = .ok (some (m', { t with core := dead q t.core }, l.take q)) ∧
      Ring m1 t.hd (o.map (fun i => if i < q + 1 then b + sz * (i : Int) else t.addr sz i)) ∧
      (∀ x, x ∉ slots sz b c → m'.nextOf x = m1.nextOf x) ∧ (∀ x ∈ slots sz b c, x ∉ m.live) ∧
      Frame m m' (t.foot sz) (t.foot sz) ∧ ∀ x ∈ m.live, x ∈ m'.live := by
  have hnew := hA m.clock m.live c
  unfold OTable.resizeThrow
  rw [Dense.resizeThrow_ok h.core hq, bind_ok]
  simp only
  have hal : (m.alloc sz A c).2 = A m.clock m.live c := rfl
  have hlv : (m.alloc sz A c).1.live = slots sz (A m.clock m.live c) c ++ m.live := rfl
  have hlk : (m.alloc sz A c).1.link = m.link := rfl
  rw [hal]
  generalize A m.clock m.live c = a at *
  generalize (m.alloc sz A c).1 = m0 at *
  have h0 : Ring m0 t.hd (o.map (t.addr sz)) := h.ring.frame
    (fun x hx => by rw [hlv]; exact List.mem_append_right _ (h.ring.live x hx)) (fun x _ => by rw [hlk])
  have hmem : ∀ i ∈ List.range (q + 1), a + sz * (i : Int) ∈ slots sz a c := fun i hi =>
    mem_slots.mpr ⟨i, by rw [List.mem_range] at hi; omega, rfl⟩
  obtain ⟨m1, e1, h1, s1⟩ := relinkAll_ok (f := t.addr sz) (g := fun i : Nat => a + sz * (i : Int)) (js := List.range (q + 1)) h0
    List.nodup_range (fun i hi => h.mem (by rw [List.mem_range] at hi; omega)) (fun _ _ => rfl)
    (fun i hi => by rw [hlv]; exact List.mem_append_left _ (hmem i hi))
    (fun i hi g => hnew _ (hmem i hi) (h.ring.live _ g))
    (fun i _ j _ e => slot_inj hsz e)
  simp only [List.mem_range] at h1
  unfold moveLinks
  rw [show (fun (m : Mem) (i : Nat) => m.relinkFrom (a + sz * (i : Int)) (t.base + sz * (i : Int))) =
    (fun (m : Mem) (i : Nat) => m.relinkFrom (a + sz * (i : Int)) (t.addr sz i)) from rfl, e1, bind_ok,
    free_ok (m := m1) (fun x hx => by rw [s1.live, hlv]; exact List.mem_append_left _ hx), bind_ok]
  refine ⟨_, m1, a, rfl, h1, ?_, hnew, ⟨?_, fun _ hx => Or.inl hx⟩, ?_⟩
  · intro x hx
    unfold Mem.nextOf Mem.read
    simp only [List.mem_filter, decide_eq_true_eq]
    by_cases g : x ∈ m1.live
    · rw [if_pos ⟨g, hx⟩, if_pos g]
    · rw [if_neg (fun g' => g g'.1), if_neg g]
  · intro x hx hn
    refine ⟨?_, ?_⟩
    · simp only [List.mem_filter, decide_eq_true_eq]
      exact ⟨by rw [s1.live, hlv]; exact List.mem_append_right _ hx, fun g => hnew x g hx⟩
    · change m1.link x = m.link x
      rw [s1.link x, hlk]
      refine ⟨?_, fun g => hn (h.ring_foot x g)⟩
      intro g
      rw [List.mem_map] at g
      obtain ⟨i, hi, g⟩ := g
      exact hnew _ (hmem i hi) (by rw [g]; exact hx)
  · intro x hx
    simp only [List.mem_filter, decide_eq_true_eq]
    exact ⟨by rw [s1.live, hlv]; exact List.mem_append_right _ hx, fun g => hnew x g hx⟩

/-! ## Erasing -/

theorem eraseMoveThrow_ok (hsz : 0 < sz) {o1 o2 : List Nat} {pos : Nat} (h : Rep hash sz m t l (o1 ++ pos :: o2))
    (hp : pos + 1 < l.length) :
    ∃ m' c, t.eraseMoveThrow sz m (t.addr sz pos) = .ok (some (m', { t with core := c })) ∧ t.core.SameBut c ∧
      Ring m' t.hd (((o1 ++ o2).map (ren (l.length - 1) pos)).map (t.addr sz)) ∧ Frame m m' (t.foot sz) (t.foot sz) := by
  obtain ⟨c, e1, s1, _⟩ := Dense.eraseMoveThrow_ok h.core hp
  obtain ⟨d, e2, hd, hb⟩ := Dense.eraseAt_ok h.core (pos := pos) (by omega)
  obtain ⟨m', next, e3, he⟩ := eraseLinks_ok hsz h hd hb.2.1
  unfold OTable.eraseMoveThrow
  rw [slotOf_ok hsz (h.lt_cap (by omega))]
  simp only
  rw [e1, bind_ok]
  simp only
  rw [e3, bind_ok]
  exact ⟨m', c, rfl, s1, he.rep.ring, he.frame⟩

/-! ## Copy assignment -/

variable {u : OTable k K V} {l' : List (Elem k K V)} {o' : List Nat}

/-- The target's header has the offsets of the source's header. -/
theorem copyAssignThrow_ok (hsz : 0 < sz) (hA : A.Sound sz) {prop : Bool} (ht : Rep hash sz m t l' o') (h : Rep hash sz m u l o)
    (ha : Apart sz u t) {q : Nat} (hq : q < l.length) :
    ∃ m' c b, t.copyAssignThrow sz A prop m u q = .ok (some (m', { t with core := c, base := b })) ∧ Inv hash c (l.take q) ∧
      m'.link t.hd = m.link u.hd ∧ t.hd ∈ m'.live ∧ (∀ x ∈ slots sz b c.cap, x ∈ m'.live) ∧ t.hd ∉ slots sz b c.cap ∧
      Frame m m' (t.foot sz) (t.hd :: slots sz b c.cap) := by
  have hcore : ∃ c, t.core.copyAssignThrow prop u.core q = .ok (some c) ∧ Inv hash c (l.take q) ∧
      c.cap = if (if prop then 0 else t.core.cap) < l.length then l.length else (if prop then 0 else t.core.cap) := by
    obtain ⟨t1, e1, c1⟩ := Dense.clearData_ok (ht.core.setLoad u.core.lf).toArr
    unfold Table.copyAssignThrow
    rw [show ({ t.core with lf := u.core.lf } : Table k K V) = t.core.setLoad u.core.lf from rfl, e1, bind_ok]
    cases prop with
    | true =>
      obtain ⟨c, e, hc, _, _, _, hcap⟩ := Dense.copyDataThrow_ok h.core hq (t := t1.dropBuffers) c1.size (fun _ => rfl)
      exact ⟨c, e, hc, hcap⟩
    | false =>
      obtain ⟨c, e, hc, _, _, _, hcap⟩ := Dense.copyDataThrow_ok h.core hq (t := t1) c1.size c1.node
      rw [c1.cap] at hcap
      exact ⟨c, e, hc, hcap⟩
  obtain ⟨c, e0, hc, hcap⟩ := hcore
  obtain ⟨m1, e1, k1, l1, f1⟩ := copyHeader_ok (sz := sz) (t := t) h.hd_live ht.hd_live
  have h1 := h.frame f1 ha
  obtain ⟨m2, t2, e2, hd2, hcap2, hl2, hs2, hh2, hk2, f2, hsub⟩ := dropArray_ok (prop := prop) (t := t) (m := m1) (sz := sz)
    (by rw [l1]; exact ht.hd_live) (by rw [l1]; exact ht.live) ht.hdr
  have h2 := h1.frame f2 ha
  have ha2 : Apart sz u t2 := fun x hx q => ha x hx (hsub x q)
  obtain ⟨m3, b, e3, l3, f3⟩ := realloc_ok hA hs2 l.length
  rw [hcap2, ← hcap] at l3 f3
  have h3 : Rep hash sz m3 u l o := h2.frame f3 (fun x hx q => ha2 x hx (List.mem_cons_of_mem _ (by rw [hcap2]; exact q)))
  have hdb : t.hd ∉ slots sz b c.cap := by
    intro g
    rcases f3.fresh _ g with g | g
    · rw [← hcap2, ← hd2] at g; exact hh2 g
    · rw [← hd2] at g; exact g hl2
  have hub : ∀ x ∈ u.foot sz, x ∉ slots sz b c.cap := by
    intro x hx g
    rcases f3.fresh _ g with g | g
    · exact ha2 x hx (List.mem_cons_of_mem _ (by rw [hcap2]; exact g))
    · exact g (h2.foot_live x hx)
  have hcl : l.length ≤ c.cap := by
    rw [hcap]
    generalize (if prop then 0 else t.core.cap) = d
    split <;> omega
  have hsl : ∀ i ∈ List.range (q + 1), b + sz * (i : Int) ∈ slots sz b c.cap := by
    intro i hi
    rw [List.mem_range] at hi
    exact mem_slots.mpr ⟨i, by omega, rfl⟩
  have hso : ∀ i ∈ List.range (q + 1), u.base + sz * (i : Int) ∈ slots sz u.base u.core.cap := by
    intro i hi
    rw [List.mem_range] at hi
    exact mem_slots.mpr ⟨i, h.lt_cap (by omega), rfl⟩
  obtain ⟨m4, e4, k4, s4⟩ := copyAll_ok (f := fun i => u.base + sz * (i : Int)) (g := fun i => b + sz * (i : Int)) (m := m3)
    (List.nodup_range (n := q + 1)) (fun i hi => h3.live _ (hso i hi)) (fun i hi => l3 _ (hsl i hi)) (fun i _ j _ q => slot_inj hsz q)
    (fun i hi j hj q => hub _ (List.mem_cons_of_mem _ (hso j hj)) (q ▸ hsl i hi))
  have f4 : Frame m3 m4 (slots sz b c.cap) (slots sz b c.cap) := s4.frame (by
    intro x hx i hi q
    exact hx (q ▸ hsl i hi))
  have hdm : t.hd ∈ m2.live := hd2 ▸ hl2
  have hdn : t.hd ∉ slots sz t2.base (if prop = true then 0 else t.core.cap) := by rw [← hcap2, ← hd2]; exact hh2
  obtain ⟨g1, g2⟩ := f3.keep t.hd hdm hdn
  obtain ⟨g3, g4⟩ := f4.keep t.hd g1 hdb
  unfold OTable.copyAssignThrow
  rw [e0, bind_ok]
  simp only
  rw [e1, bind_ok, e2, bind_ok, h.core.size, e3, bind_ok]
  unfold OTable.copyLinks
  simp only
  rw [e4, bind_ok]
  refine ⟨m4, c, b, rfl, hc, ?_, g3, ?_, hdb, ?_⟩
  · rw [g4, g2, hk2, k1]
  · intro x hx
    rw [s4.live]
    exact l3 x hx
  · have f34 := (f3.trans f4).add [t.hd]
    refine (f1.trans f2).trans (f34.congr ?_ ?_)
    · intro x hx
      unfold OTable.foot
      rw [hd2, hcap2]
      exact hx
    · intro x hx
      exact Or.inl hx

/-! ## Move assignment -/

theorem moveAssignThrow_ok (hsz : 0 < sz) (hA : A.Sound sz) (ht : Rep hash sz m t l' o') (h : Rep hash sz m u l o)
    (ha : Apart sz t u) {q : Nat} (hq : q < l.length) :
    ∃ m' c b, t.moveAssignThrow sz A m u q = .ok (some (m', { t with core := c, base := b }, { u with core := dead q u.core })) ∧
      Inv hash c (l.take q) ∧ l.length ≤ c.cap ∧ Ring m' u.hd [] ∧
      Ring m' t.hd (o.map (fun i => if i < q + 1 then b + sz * (i : Int) else u.addr sz i)) ∧
      (∀ x ∈ slots sz b c.cap, x ∉ u.foot sz) ∧ t.hd ∉ slots sz b c.cap ∧
      Frame m m' (t.foot sz ++ u.foot sz) ((t.hd :: slots sz b c.cap) ++ u.foot sz) := by
  have hnf : t.hd ∉ u.hd :: o.map (u.addr sz) := fun q => ha _ List.mem_cons_self (h.ring_foot _ q)
  obtain ⟨m1, e1, r1, r2, s1⟩ := h.ring.rebase ht.hd_live hnf
  obtain ⟨c0, e2, c2⟩ := Dense.clearData_ok (ht.core.setLoad u.core.lf).toArr
  obtain ⟨c, e3, hc, _, _, hcl, hcap⟩ := Dense.copyDataThrow_ok h.core hq (t := c0) c2.size c2.node
  rw [c2.cap, show (t.core.setLoad u.core.lf).cap = t.core.cap from rfl] at hcap
  have hlt : ∀ x ∈ slots sz t.base t.core.cap, x ∈ m1.live := by rw [s1.live]; exact ht.live
  obtain ⟨m2, b, e4, l2, f2⟩ := realloc_ok hA hlt l.length
  rw [← hcap] at l2 f2
  have hdb : t.hd ∉ slots sz b c.cap := by
    intro g
    rcases f2.fresh _ g with g | g
    · exact ht.hdr g
    · exact g (by rw [s1.live]; exact ht.hd_live)
  have hub : ∀ x ∈ slots sz b c.cap, x ∉ u.foot sz := by
    intro x g hx
    rcases f2.fresh _ g with g | g
    · exact ha x (List.mem_cons_of_mem _ g) hx
    · exact g (by rw [s1.live]; exact h.foot_live x hx)
  have hring : ∀ x ∈ t.hd :: o.map (u.addr sz), x = t.hd ∨ x ∈ slots sz u.base u.core.cap := by
    intro x hx
    rcases List.mem_cons.mp hx with g | g
    · exact Or.inl g
    · rw [List.mem_map] at g
      obtain ⟨i, hi, rfl⟩ := g
      exact Or.inr (h.addr_slots hi)
  have hsl : ∀ i ∈ List.range (q + 1), b + sz * (i : Int) ∈ slots sz b c.cap := by
    intro i hi
    rw [List.mem_range] at hi
    exact mem_slots.mpr ⟨i, by omega, rfl⟩
  have hr2 : Ring m2 t.hd (o.map (u.addr sz)) := f2.ring r1 (by
    intro x hx g
    rcases hring x hx with q | q
    · exact ht.hdr (q ▸ g)
    · exact ha x (List.mem_cons_of_mem _ g) (List.mem_cons_of_mem _ q))
  have hr2' : Ring m2 u.hd [] := f2.ring r2 (by
    intro x hx g
    rw [List.mem_singleton] at hx
    exact ha x (List.mem_cons_of_mem _ g) (hx ▸ List.mem_cons_self))
  obtain ⟨m3, e5, r3, s3⟩ := relinkAll_ok (f := u.addr sz) (g := fun i : Nat => b + sz * (i : Int)) (js := List.range (q + 1)) hr2
    List.nodup_range (fun i hi => h.mem (by rw [List.mem_range] at hi; omega)) (fun _ _ => rfl) (fun i hi => l2 _ (hsl i hi))
    (fun i hi g => by
      rcases hring _ g with g | g
      · exact hdb (g ▸ hsl i hi)
      · exact hub _ (hsl i hi) (List.mem_cons_of_mem _ g))
    (fun i _ j _ e => slot_inj hsz e)
  simp only [List.mem_range] at r3
  have hud : u.hd ∉ t.hd :: o.map (u.addr sz) := by
    intro g
    rcases hring _ g with g | g
    · exact ha t.hd List.mem_cons_self (g ▸ List.mem_cons_self)
    · exact h.hdr g
  have hs3 : ∀ x, x ∉ slots sz b c.cap → x ∉ t.hd :: o.map (u.addr sz) → m3.link x = m2.link x := by
    intro x hx hx'
    refine s3.link x ⟨?_, hx'⟩
    intro g
    rw [List.mem_map] at g
    obtain ⟨i, hi, g⟩ := g
    exact hx (g ▸ hsl i hi)
  have hr3' : Ring m3 u.hd [] := hr2'.frame (fun x hx => by rw [s3.live]; exact hr2'.live x hx) (fun x hx => by
    rw [List.mem_singleton] at hx
    rw [hx]
    exact hs3 _ (fun g => hub _ g List.mem_cons_self) hud)
  unfold OTable.moveAssignThrow Table.moveAssignThrow Table.moveDataThrow
  rw [show ({ t.core with lf := u.core.lf } : Table k K V) = t.core.setLoad u.core.lf from rfl, e2, bind_ok, e3, bind_ok, bind_ok]
  simp only [Option.map_some]
  rw [← h.core.size] at e4
  rw [e1, bind_ok, e4, bind_ok]
  unfold moveLinks
  simp only
  rw [show (fun (m : Mem) (i : Nat) => m.relinkFrom (b + sz * (i : Int)) (u.base + sz * (i : Int))) =
    (fun (m : Mem) (i : Nat) => m.relinkFrom (b + sz * (i : Int)) (u.addr sz i)) from rfl, e5, bind_ok]
  refine ⟨m3, c, b, rfl, hc, hcl, hr3', r3, hub, hdb, ?_⟩
  have f1 : Frame m m1 (t.foot sz ++ u.foot sz) (t.foot sz ++ u.foot sz) := s1.frame (by
    intro x hx
    rw [List.mem_append, not_or] at hx
    exact ⟨fun q => hx.1 (q ▸ List.mem_cons_self), fun q => hx.2 (h.ring_foot x q)⟩)
  have f3 : Frame m2 m3 ((t.hd :: slots sz b c.cap) ++ u.foot sz) ((t.hd :: slots sz b c.cap) ++ u.foot sz) :=
    ⟨fun x hx hn => by
      rw [List.mem_append, not_or] at hn
      refine ⟨by rw [s3.live]; exact hx, hs3 x (fun g => hn.1 (List.mem_cons_of_mem _ g)) ?_⟩
      intro g
      rcases hring x g with g | g
      · exact hn.1 (g ▸ List.mem_cons_self)
      · exact hn.2 (List.mem_cons_of_mem _ g), fun _ hx => Or.inl hx⟩
  refine f1.trans (Frame.trans ?_ f3)
  refine (f2.add (t.hd :: u.foot sz)).congr ?_ ?_
  · intro x hx
    simp only [OTable.foot, List.cons_append, List.mem_cons, List.mem_append] at hx ⊢
    tauto
  · intro x hx
    simp only [OTable.foot, List.cons_append, List.mem_cons, List.mem_append] at hx ⊢
    tauto

end Tpp.ODense
