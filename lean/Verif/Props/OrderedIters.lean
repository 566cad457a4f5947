import Verif.Ordered.SwissIters
import Verif.Ordered.DenseIters
import Verif.Props.OrderedSwiss
import Verif.Props.OrderedDense

/-!
# C98 for ordered containers: iterators and references after `reserve`
-/

set_option linter.unusedSectionVars false

namespace Tpp.OSwiss

open Tpp.Swiss (Node Ev Table Inv NoTomb)
open Tpp.Ordered

variable {K V : Type} [DecidableEq K] {c : Cfg K}

theorem orun_at (hsz : 0 < c.sz) (hA : c.A.Sound c.sz) {i : Nat} {k : K} : ∀ (ops : List (Op K V)) {m : Mem} {t : OTable K V}
    {s : List (K × V)} {b : Nat}, Holds c m t s → b ≤ t.core.numEmpty → At t i k → Spec.Stays k b s ops →
    ∃ m' t', t.run c m ops = .ok (m', t', (Spec.run s ops).2) ∧ Holds c m' t' (Spec.run s ops).1 ∧ Fixed t t' ∧ At t' i k
  | [], m, t, s, b, h, _, hk, _ => ⟨m, t, rfl, h, Fixed.refl t, hk⟩
  | o :: os, m, t, s, b, h, hb, hk, hf => by
    obtain ⟨r, e, h1, h2, h3, h4, h5⟩ := step_at (c := c.stop) hsz hA rfl h.restop hb hf.1 hk hf.2.1
    obtain ⟨m2, t2, e2, h6, h7, h8⟩ := orun_at hsz hA os h2.unstop h4 h5 hf.2.2
    refine ⟨m2, t2, ?_, h6, h3.trans h7, h8⟩
    simp only [OTable.run, Spec.run]
    rw [(OTable.step_le c m t o).ok e, bind_ok, e2, bind_ok, h1]

theorem elemAt_slot {sz : Int} {t : OTable K V} {a : Int} {e : K × V} (h : t.elemAt sz a = .ok e) :
    ∃ i n, a = t.addr sz i ∧ i < t.core.cap ∧ t.core.node i = some n ∧ e = (n.key, n.val) := by
  unfold OTable.elemAt at h
  split at h
  · cases h
  · rename_i i hi
    obtain ⟨n, h1, h⟩ := Dense.bind_eq_ok h
    cases h
    unfold OTable.slotOf at hi
    have h2 := List.find?_some hi
    obtain ⟨h3, h4⟩ := Swiss.readNode_eq h1
    exact ⟨i, n, (of_decide_eq_true h2).symm, h3, h4, rfl⟩

/-- C98, what holds for ordered sparse containers: as long as no more elements are added than there are free slots, an iterator (the
address of a node) from which an element could be read still designates that element, `end()` is the same, nothing is allocated, and
the elements are in insertion order. -/
theorem C98_ordered_swiss_room_partial (hsz : 0 < c.sz) (hA : c.A.Sound c.sz) {w : World K V} {s : Seqs K V} (h : Reached c w s) {id : Nat}
    {t : OTable K V} (ht : w.tab id = some t) {q : List (K × V)} (hq : s id = some q) {b : Nat} (hb : b ≤ t.core.numEmpty)
    {a : Int} {e : K × V} (ha : t.elemAt c.sz a = .ok e) {ops : List (Op K V)} (hf : Spec.Stays e.1 b q ops) :
    ∃ m' t', t.run c w.mem ops = .ok (m', t', (Spec.run q ops).2) ∧ t'.elements c.sz m' = .ok (Spec.run q ops).1 ∧
      t'.base = t.base ∧ t'.core.cap = t.core.cap ∧ t'.hd = t.hd ∧
      ∃ v, t'.elemAt c.sz a = .ok (e.1, v) ∧ (e.1, v) ∈ (Spec.run q ops).1 := by
  obtain ⟨i, n, rfl, hi, hn, rfl⟩ := elemAt_slot ha
  obtain ⟨m', t', e1, h1, h2, h3⟩ := orun_at hsz hA ops (h.holds hsz hA ht hq) hb ⟨hi, n, hn, rfl⟩ hf
  obtain ⟨hi', n', hn', hk'⟩ := h3
  refine ⟨m', t', e1, h1.elements hsz, h2.base, h2.cap, h2.hd, n'.val, ?_, ?_⟩
  · have : t.addr c.sz i = t'.addr c.sz i := by unfold OTable.addr; rw [h2.base]
    rw [this, elemAt_ok hsz hi' hn', hk']
  · obtain ⟨o, hr, e2⟩ := h1
    rw [← e2, ← hk']
    exact mem_seqOf.mpr ⟨i, hr.link.mem hi' hn', n', hn', rfl⟩

/-- C98, what holds for ordered sparse containers after `reserve`: `b` elements may be added to those that are there.  Missing:
histories that stay below the reserved number because elements are erased in between, see `C98_swiss_reserve_false`. -/
theorem C98_ordered_swiss_reserve_partial (hsz : 0 < c.sz) (hA : c.A.Sound c.sz) {w : World K V} {s : Seqs K V} (h : Reached c w s) {id : Nat}
    {t : OTable K V} (ht : w.tab id = some t) {q : List (K × V)} (hq : s id = some q) (b : Nat) :
    ∃ m0 t0, t.reserve c w.mem (q.length + b) = .ok (m0, t0) ∧ t0.elements c.sz m0 = .ok q ∧
    ∀ {a : Int} {e : K × V}, t0.elemAt c.sz a = .ok e → ∀ {ops : List (Op K V)}, Spec.Stays e.1 b q ops →
    ∃ m' t', t0.run c m0 ops = .ok (m', t', (Spec.run q ops).2) ∧ t'.elements c.sz m' = .ok (Spec.run q ops).1 ∧
      t'.base = t0.base ∧ t'.core.cap = t0.core.cap ∧ t'.hd = t0.hd ∧
      ∃ v, t'.elemAt c.sz a = .ok (e.1, v) ∧ (e.1, v) ∈ (Spec.run q ops).1 := by
  obtain ⟨o, hr, rfl⟩ := (h.holds hsz hA ht hq).restop
  obtain ⟨m0, t0, e, hb, _, h1, _⟩ := reserve_ok (c := c.stop) hsz hA rfl hr ((seqOf t.core.node o).length + b)
  have e' := (OTable.reserve_le c w.mem t _).ok e
  have hsize : t0.core.size = (seqOf t.core.node o).length := by
    obtain ⟨o', hr', e2⟩ := hb.holds
    rw [← e2, seqOf_length (fun i hi => ((hr'.link.occ i).mp hi).2), hr'.length]
  refine ⟨m0, t0, e', hb.holds.unstop.elements hsz, ?_⟩
  intro a x ha ops hf
  obtain ⟨i, n, rfl, hi, hn, rfl⟩ := elemAt_slot ha
  obtain ⟨m', t', e1, h1, h2, h3⟩ := orun_at hsz hA ops hb.holds.unstop (show b ≤ t0.core.numEmpty by omega) ⟨hi, n, hn, rfl⟩ hf
  obtain ⟨hi', n', hn', hk'⟩ := h3
  refine ⟨m', t', e1, h1.elements hsz, h2.base, h2.cap, h2.hd, n'.val, ?_, ?_⟩
  · have : t0.addr c.sz i = t'.addr c.sz i := by unfold OTable.addr; rw [h2.base]
    rw [this, elemAt_ok hsz hi' hn', hk']
  · obtain ⟨o, hr, e2⟩ := h1
    rw [← e2, ← hk']
    exact mem_seqOf.mpr ⟨i, hr.link.mem hi' hn', n', hn', rfl⟩

/-- Additions, overwrites and erasures around the element with key 4. -/
def around : List (Op Nat Nat) := [.insert 33 1, .erase 3, .assign 4 50, .insertRange true [(34, 1), (35, 2)], .eraseNth 0,
  .index 9 9, .reserve 8, .extract 5, .eraseIf fun e => e.1 == 34, .find 4]

example : Spec.Stays 4 5 ((List.range 6).map fun i => (i + 1, 10 * (i + 1))) around := by
  decide +kernel

-- the iterator to the element with key 4 is good for reading and for going on after the history
example : (do
    let w := after c16 (fill 0 6)
    let (m, t) ← (w.get 0).reserve c16 w.mem 11
    let p ← t.core.findNode c16.isa 4 (c16.hash 4)
    let a := t.iterAt c16.sz p
    let e ← t.elemAt c16.sz a
    let (m', t', _) ← t.run c16 m around
    let e' ← t'.elemAt c16.sz a
    let n ← m'.nextOf a
    let e2 ← t'.elemAt c16.sz n
    let l ← t'.elements c16.sz m'
    .ok [[e, e', e2], l]) = (.ok [[(4, 40), (4, 50), (6, 60)], [(2, 20), (4, 50), (6, 60), (33, 1), (35, 2), (9, 9)]] : M _) := by
  set_option maxRecDepth 100000 in decide +kernel

-- one element too many: the buffer is replaced and the iterator dangles
example : (do
    let w := after c16 (fill 0 6)
    let t := w.get 0
    let p ← t.core.findNode c16.isa 4 (c16.hash 4)
    let a := t.iterAt c16.sz p
    let (_, t', _) ← t.run c16 w.mem [.insert 7 70, .insert 8 80]
    .ok (t.core.numEmpty, [decide (t'.base = t.base), decide (t'.core.cap = t.core.cap),
      match t'.elemAt c16.sz a with | .error .dangling => true | _ => false])) = (.ok (1, [false, false, true]) : M _) := by
  set_option maxRecDepth 100000 in decide +kernel

end Tpp.OSwiss

namespace Tpp.ODense

open Tpp.Dense (Elem LF Table Inv swapRemove conflict idxOf elemOf)
open Tpp.Ordered

variable {k : Nat} {K V : Type} [DecidableEq K]

theorem orun_at {hash : K → Nat} {sz : Int} (hsz : 0 < sz) {A : Alloc} (hA : A.Sound sz) {p : Nat} {key : Fin k → K} {j : Fin k} :
    ∀ (os : List (Op k K V)) {m : Mem} {t : OTable k K V} {l : List (Elem k K V)} {o : List Nat} {b : Bool} {c : Nat}
    {e : Elem k K V}, Rep hash sz m t l o → (b = true → 0 < t.core.bc) → Spec.Guarded b os = true → c ≤ t.core.cap → l[p]? = some e →
    e.1 = key → Spec.Stays c p j (key j) (seq l o) os →
    ∃ m' t' l' o', t.run hash sz A m os = .ok (m', t', (Spec.run (seq l o) os).2) ∧ Rep hash sz m' t' l' o' ∧
      seq l' o' = (Spec.run (seq l o) os).1 ∧ Fixed t t' ∧ ∃ e', l'[p]? = some e' ∧ e'.1 = key
  | [], m, t, l, o, b, c, e, h, _, _, _, he, hk, _ => ⟨m, t, l, o, rfl, h, rfl, Fixed.refl t, e, he, hk⟩
  | op :: os, m, t, l, o, b, c, e, h, hb, hg, hc, he, hk, hf => by
    obtain ⟨g1, g2⟩ := guarded_cons hg
    obtain ⟨f1, f2, f3, f4⟩ := hf
    subst hk
    obtain ⟨m1, t1, l1, o1, e1, r1, s1, x1, ⟨e', i1, i2⟩, b1⟩ := step_at (op := op) hsz hA h (fun j x e => hb (g1 j x e))
      (Op.hasRoom_mono hc f1) he f2 f3
    rw [← s1] at f4
    obtain ⟨m2, t2, l2, o2, e2, r2, s2, x2, q2⟩ := orun_at hsz hA os r1 (b1 b hb) g2 (by rw [x1.cap]; exact hc) i1 i2 f4
    rw [s1] at e2 s2
    refine ⟨m2, t2, l2, o2, ?_, r2, s2, x1.trans x2, q2⟩
    simp only [OTable.run, Spec.run]
    rw [e1, bind_ok, e2, bind_ok]

theorem elemAt_slot {sz : Int} {t : OTable k K V} {a : Int} {e : Elem k K V} (h : t.elemAt sz a = .ok e) :
    ∃ i n, a = t.addr sz i ∧ i < t.core.cap ∧ t.core.node i = some n ∧ e = (n.key, n.val) := by
  unfold OTable.elemAt at h
  split at h
  · cases h
  · rename_i i hi
    obtain ⟨n, h1, h⟩ := Dense.bind_eq_ok h
    cases h
    unfold OTable.slotOf at hi
    have h2 := List.find?_some hi
    have h3 := List.mem_range.mp (List.mem_of_find?_eq_some hi)
    have hn : t.core.node i = some n := by
      unfold Table.readNode at h1
      cases hn : t.core.node i with
      | none => rw [hn] at h1; split at h1 <;> cases h1
      | some n' => rw [hn] at h1; split at h1 <;> cases h1 <;> rfl
    exact ⟨i, n, (of_decide_eq_true h2).symm, h3, hn, rfl⟩

/-- C98, what holds for ordered dense containers: while every insertion call finds the array not full, an iterator (the address of a
node) still designates its element, unless this is erased or the last one of the array when another is erased; `end()` is the same,
and the elements are in insertion order. -/
theorem C98_ordered_dense_room_partial {hash : K → Nat} {sz : Int} (hsz : 0 < sz) {A : Alloc} (hA : A.Sound sz) {w : World k K V}
    {s : Seqs k K V} (h : Reached hash sz A w s) {id : Nat} {t : OTable k K V} (ht : w.tab id = some t) {q : List (Elem k K V)}
    (hq : s id = some q) {c : Nat} (hc : c ≤ t.core.cap) {p : Nat} {e : Elem k K V} (ha : t.elemAt sz (t.addr sz p) = .ok e) {j : Fin k}
    {ops : List (Op k K V)} (hf : Spec.Stays c p j (e.1 j) q ops) (hg : Spec.Guarded (decide (0 < t.core.bc)) ops = true) :
    ∃ m' t', t.run hash sz A w.mem ops = .ok (m', t', (Spec.run q ops).2) ∧ t'.elements sz m' = .ok (Spec.run q ops).1 ∧
      t'.base = t.base ∧ t'.core.cap = t.core.cap ∧ t'.hd = t.hd ∧
      ∃ v, t'.elemAt sz (t.addr sz p) = .ok (e.1, v) ∧ (e.1, v) ∈ (Spec.run q ops).1 := by
  obtain ⟨l, o, hr, rfl⟩ := h.holds hsz hA ht hq
  obtain ⟨i, n, hi, hic, hn, rfl⟩ := elemAt_slot ha
  have hpi : p = i := slot_inj hsz hi
  subst hpi
  have hl := hr.core.rep p
  rw [hn, Option.map_some] at hl
  obtain ⟨m', t', l', o', e1, r1, s1, x1, e', i1, i2⟩ := orun_at hsz hA (key := n.key) ops hr (by simp) hg hc hl.symm rfl hf
  refine ⟨m', t', e1, Holds.elements hsz ⟨l', o', r1, s1⟩, x1.base, x1.cap, x1.hd, e'.2, ?_, ?_⟩
  · have : t.addr sz p = t'.addr sz p := by unfold OTable.addr; rw [x1.base]
    obtain ⟨hp, he⟩ := List.getElem?_eq_some_iff.mp i1
    rw [this, elemAt_ok hsz r1.core hp, he, ← i2]
  · rw [← s1, (seq_perm r1.perm).mem_iff]
    have := List.mem_of_getElem? i1
    rw [← i2]
    exact this

/-- C98 fails for ordered dense containers that are full, in every state: an insertion that is rejected because a key is present
replaces the array, and every iterator and reference to an element dangles. -/
theorem C98_ordered_dense_rejected_false {hash : K → Nat} {sz : Int} (hsz : 0 < sz) {A : Alloc} (hA : A.Sound sz) {w : World k K V}
    {s : Seqs k K V} (h : Reached hash sz A w s) {id : Nat} {t : OTable k K V} (ht : w.tab id = some t) {q : List (Elem k K V)}
    (hq : s id = some q) (hfull : t.core.cap = q.length) {key : Fin k → K} (hin : ∃ e ∈ q, ∃ j, e.1 j = key j) (v : V) :
    ∃ m' t' a, t.insert hash sz A w.mem key v = .ok (m', t', a, false) ∧ t'.elements sz m' = .ok q ∧
      ∀ {a0 : Int} {e0 : Elem k K V}, t.elemAt sz a0 = .ok e0 → t'.elemAt sz a0 = .error .dangling := by
  obtain ⟨l, o, hr, rfl⟩ := h.holds hsz hA ht hq
  obtain ⟨r, e, hr1⟩ := Dense.insert_ok hr.core key v
  obtain ⟨m1, t1, a, e1, e2, hb, h1⟩ := insertStep_ok (op := fun c => c.insert hash key v) hsz hA hr e hr1
  have hhit : (Spec.insert (seq l o) key v).2.2 = false ∧ (Spec.insert (seq l o) key v).1 = seq l o := by
    unfold Spec.insert
    cases hh : Spec.hit (seq l o) key with
    | some _ => exact ⟨rfl, rfl⟩
    | none =>
      exfalso
      obtain ⟨e0, he0, j, hj⟩ := hin
      unfold Spec.hit at hh
      rw [List.findSome?_eq_none_iff] at hh
      have := List.find?_eq_none.mp (hh j (List.mem_finRange j)) e0 he0
      simp [hj] at this
  rw [hhit.1] at e1
  rw [hhit.2] at h1
  refine ⟨m1, t1, a, e1, h1.holds.elements hsz, ?_⟩
  intro a0 e0 ha0
  obtain ⟨i, n, rfl, hic, hn, rfl⟩ := elemAt_slot ha0
  have hlen : (seq l o).length = t.core.size := by rw [(seq_perm hr.perm).length_eq, hr.core.size]
  have hcs : t.core.cap = t.core.size := by omega
  have hcap1 : t1.core = r.1 := by
    unfold OTable.insertWith at e1
    obtain ⟨_, _, e1⟩ := Dense.bind_eq_ok e1
    simp only at e1
    rw [e, bind_ok] at e1
    obtain ⟨_, _, e1⟩ := Dense.bind_eq_ok e1
    simp only [Except.ok.injEq, Prod.mk.injEq] at e1
    rw [← e1.2.1]
  have hcap : t1.core.cap = t.core.cap * 2 := by
    obtain ⟨u, f1, f2⟩ := Dense.maybeResize_ok hr.core
    rw [hcap1, hr1.cap u f1]
    unfold Table.maybeResize at f1
    rw [if_pos hcs, if_neg (by omega)] at f1
    obtain ⟨u', f3, _, f4, _⟩ := Dense.resizeData_ok hr.core (c := t.core.cap * 2) (by omega)
    rw [f1] at f3
    cases f3
    exact f4
  have hbase : t1.base = A w.mem.clock w.mem.live (t.core.cap * 2) := by
    unfold OTable.insertWith OTable.maybeGrow OTable.growLinks at e1
    rw [if_pos hcs, if_neg (by omega)] at e1
    obtain ⟨g, e3, e1⟩ := Dense.bind_eq_ok e1
    obtain ⟨_, _, e3⟩ := Dense.bind_eq_ok e3
    obtain ⟨_, _, e3⟩ := Dense.bind_eq_ok e3
    cases e3
    simp only at e1
    rw [e, bind_ok] at e1
    obtain ⟨_, _, e1⟩ := Dense.bind_eq_ok e1
    simp only [Except.ok.injEq, Prod.mk.injEq] at e1
    rw [← e1.2.1]
    rfl
  have hlive : t.addr sz i ∈ w.mem.live := hr.live _ (mem_slots.mpr ⟨i, hic, rfl⟩)
  have hnone : t1.slotOf sz (t.addr sz i) = none := by
    unfold OTable.slotOf
    rw [List.find?_eq_none]
    intro x hx heq
    have hx := List.mem_range.mp hx
    rw [hcap] at hx
    have heq := of_decide_eq_true heq
    refine hA w.mem.clock w.mem.live (t.core.cap * 2) (t.addr sz i) (mem_slots.mpr ⟨x, hx, ?_⟩) hlive
    rw [← hbase]
    exact heq.symm
  unfold OTable.elemAt
  rw [hnone]

/-- Five elements in an array of eight. -/
def five : World 1 Nat Nat := after (fill 0 5)

/-- Additions (one of them rejected) and erasures around the second element of the array. -/
def around : List (Op 1 Nat Nat) := [.insert (fun _ => 7) 7, .insert (fun _ => 2) 0, .erase 0 1, .eraseNth 2, .assign rfl 2 22, .rehash 100,
  .reserve 6, .insertRange true [el 8 8, el 2 9], .front]

example : Spec.Stays 8 1 0 2 ((List.range 5).map fun i => el (i + 1) (10 * (i + 1))) around ∧ Spec.Guarded true around = true := by
  decide +kernel

example : (do
    let t := five.get 0
    let a := t.addr 24 1
    let e ← t.elemAt 24 a
    let (m', t', _) ← t.run h3 24 bump five.mem around
    let e' ← t'.elemAt 24 a
    let l ← t'.elements 24 m'
    .ok (t.core.cap, [e, e'].map (fun e => (e.1 0, e.2)), l.map fun e => (e.1 0, e.2))) =
    (.ok (8, [(2, 20), (2, 22)], [(2, 22), (3, 30), (5, 50), (7, 7), (8, 8)]) : M _) := by
  set_option maxRecDepth 100000 in decide +kernel

-- a full container: the rejected insertion makes the iterator dangle
example : (do
    let w := after (fill 0 4)
    let t := w.get 0
    let a := t.addr 24 1
    let e ← t.elemAt 24 a
    let (m', t', _, b) ← t.insert h3 24 bump w.mem (fun _ => 3) 0
    let l ← t'.elements 24 m'
    .ok ([t.core.cap, t'.core.cap, e.1 0], b, (match t'.elemAt 24 a with | .error .dangling => true | _ => false), l.map fun e => e.1 0)) =
    (.ok ([4, 8, 2], false, true, [1, 2, 3, 4]) : M _) := by
  set_option maxRecDepth 100000 in decide +kernel

end Tpp.ODense
