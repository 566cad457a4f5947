import Verif.Ordered.DenseWorld
import Verif.Ordered.DenseIter
import Verif.Dense.Faults

/-!
# C51, C53, C55–C59, C61: the ordered dense containers

`Reached hash sz A w s`: a program that only uses operations the code supports (`WSpec.allowed`) has produced the world `w`, i.e. any
number of containers in one memory, and the containers ought to hold the sequences `s`.  The memory was in any state when the program
began; `A` is any allocator that does not hand out storage in use (`Alloc.Sound`); `sz` is any size of a node.

`t.nth m n`: the iterator `std::next(begin(), n)`.
-/

set_option linter.unusedSectionVars false

namespace Tpp.ODense

open Tpp.Dense (Elem LF Table Inv swapRemove conflict idxOf elemOf)
open Tpp.Ordered

variable {k : Nat} {K V : Type} [DecidableEq K]

/-- The worlds a program can produce, with the sequences the containers ought to hold. -/
def Reached (hash : K → Nat) (sz : Int) (A : Alloc) (w : World k K V) (s : Seqs k K V) : Prop :=
  ∃ m os outs, WSpec.Guarded (fun _ => none) os = true ∧ World.run hash sz A ⟨m, fun _ => none⟩ os = .ok (w, outs) ∧
    s = (WSpec.run (fun _ => none) os).1

theorem Reached.inv {hash : K → Nat} {sz : Int} (hsz : 0 < sz) {A : Alloc} (hA : A.Sound sz) {w : World k K V} {s : Seqs k K V}
    (h : Reached hash sz A w s) : WInv hash sz w s := by
  obtain ⟨m, os, outs, hg, e, rfl⟩ := h
  obtain ⟨w', e', h'⟩ := wrun_ok hsz hA os (winit (hash := hash) (sz := sz) m) hg
  rw [e'] at e
  cases e
  exact h'

theorem Reached.holds {hash : K → Nat} {sz : Int} (hsz : 0 < sz) {A : Alloc} (hA : A.Sound sz) {w : World k K V} {s : Seqs k K V}
    (h : Reached hash sz A w s) {i : Nat} {t : OTable k K V} (ht : w.tab i = some t) {q : List (Elem k K V)} (hq : s i = some q) :
    ∃ l o, Rep hash sz w.mem t l o ∧ seq l o = q := by
  obtain ⟨q', e, hh⟩ := (h.inv hsz hA).holds i t ht
  rw [hq] at e
  cases e
  exact hh

/-- `for (auto &e : t)`. -/
def OTable.elements (sz : Int) (m : Mem) (t : OTable k K V) : M (List (Elem k K V)) := do
  let a ← t.first m
  walk m t.hd (t.elemAt sz) (t.core.size + 1) a

theorem elements_ok {hash : K → Nat} {sz : Int} (hsz : 0 < sz) {m : Mem} {t : OTable k K V} {l : List (Elem k K V)} {o : List Nat}
    (h : Rep hash sz m t l o) : t.elements sz m = .ok (seq l o) := by
  unfold OTable.elements
  rw [first_ok h, bind_ok, iterate_ok hsz h]

theorem Holds.elements {hash : K → Nat} {sz : Int} (hsz : 0 < sz) {m : Mem} {t : OTable k K V} {q : List (Elem k K V)}
    (h : Holds hash sz m t q) : t.elements sz m = .ok q := by
  obtain ⟨l, o, h, rfl⟩ := h
  exact elements_ok hsz h

/-! ## A container used to illustrate the theorems -/

/-- An allocator: behind everything in use. -/
def bump : Alloc := fun _ live _ => live.foldl max 0 + 1

theorem le_foldl_max : ∀ (l : List Int) (a : Int), a ≤ l.foldl max a ∧ ∀ x ∈ l, x ≤ l.foldl max a
  | [], a => ⟨Int.le_refl _, by simp⟩
  | b :: l, a => by
    obtain ⟨h1, h2⟩ := le_foldl_max l (max a b)
    rw [List.foldl_cons]
    refine ⟨by omega, ?_⟩
    intro x hx
    rcases List.mem_cons.mp hx with e | e
    · rw [e]; omega
    · exact h2 x e

theorem bump_sound {sz : Int} (hsz : 0 < sz) : bump.Sound sz := by
  intro c live n x hx hl
  obtain ⟨i, _, e⟩ := mem_slots.mp hx
  have h1 := (le_foldl_max live 0).2 x hl
  have h2 : 0 ≤ sz * (i : Int) := Int.mul_nonneg (by omega) (by omega)
  unfold bump at e
  omega

/-- A hash function with collisions. -/
def h3 : Nat → Nat := fun n => n % 3

/-- An element of a container with one key component. -/
def el (x v : Nat) : Elem 1 Nat Nat := (fun _ => x, v)

/-- Nothing is in use. -/
def mem0 : Mem := ⟨0, [], fun _ => ⟨77, 99⟩⟩

/-- The world after a history that does not fault. -/
def after (os : List (WOp 1 Nat Nat)) : World 1 Nat Nat :=
  match World.run h3 24 bump ⟨mem0, fun _ => none⟩ os with
  | .ok r => r.1
  | .error _ => ⟨mem0, fun _ => none⟩

theorem after_reached {os : List (WOp 1 Nat Nat)} (hg : WSpec.Guarded (fun _ => none) os = true) :
    Reached h3 24 bump (after os) (WSpec.run (fun _ => none) os).1 := by
  obtain ⟨w', e, _⟩ := wrun_ok (by decide) (bump_sound (by decide)) os (winit (hash := h3) (sz := 24) mem0) hg
  refine ⟨mem0, os, (WSpec.run (fun _ => none) os).2, hg, ?_, rfl⟩
  unfold after
  rw [e]

/-- Insert the keys `1, …, n` into container `id`. -/
def fill (id n : Nat) : List (WOp 1 Nat Nat) :=
  .create id LF.initial :: (List.range n).map fun i => .op id (.insert (fun _ => i + 1) (10 * (i + 1)))

/-- The container with number `id`. -/
def World.get (w : World k K V) (id : Nat) : OTable k K V := (w.tab id).getD ⟨Table.init LF.initial, 0, 0⟩

/-! ## C51 -/

namespace Spec

def run (l : List (Elem k K V)) : List (Op k K V) → List (Elem k K V) × List (Out k K V)
  | [] => (l, [])
  | o :: os => ((run (step l o).1 os).1, (step l o).2 :: (run (step l o).1 os).2)

/-- `erase(key)` is only called once there are buckets (C41). -/
def Guarded (b : Bool) : List (Op k K V) → Bool
  | [] => true
  | .erase _ _ :: os => b && Guarded b os
  | .insert _ _ :: os => Guarded true os
  | .emplace _ _ :: os => Guarded true os
  | .assign _ _ _ :: os => Guarded true os
  | .insertRange _ xs :: os => Guarded (b || !xs.isEmpty) os
  | .assignRange _ xs :: os => Guarded (b || !xs.isEmpty) os
  | .rehash n :: os => Guarded (b || n ≠ 0) os
  | _ :: os => Guarded b os

end Spec

/-- A history on one container. -/
def OTable.run (hash : K → Nat) (sz : Int) (A : Alloc) (m : Mem) (t : OTable k K V) : List (Op k K V) → M (Mem × OTable k K V × List (Out k K V))
  | [] => .ok (m, t, [])
  | o :: os => do
    let r ← t.step hash sz A m o
    let r' ← r.2.1.run hash sz A r.1 os
    .ok (r'.1, r'.2.1, r.2.2 :: r'.2.2)

theorem guarded_cons {b : Bool} {o : Op k K V} {os : List (Op k K V)} (h : Spec.Guarded b (o :: os) = true) :
    (∀ j x, o = .erase j x → b = true) ∧ Spec.Guarded (o.buckets b) os = true := by
  cases o with
  | erase j x =>
    simp only [Spec.Guarded, Bool.and_eq_true] at h
    exact ⟨fun _ _ _ => h.1, h.2⟩
  | _ => exact ⟨fun _ _ e => (by cases e), h⟩

theorem orun_ok {hash : K → Nat} {sz : Int} (hsz : 0 < sz) {A : Alloc} (hA : A.Sound sz) : ∀ (os : List (Op k K V)) {m : Mem} {t : OTable k K V}
    {s : List (Elem k K V)} {b : Bool}, Holds hash sz m t s → (b = true → 0 < t.core.bc) → Spec.Guarded b os = true →
    ∃ m' t', t.run hash sz A m os = .ok (m', t', (Spec.run s os).2) ∧ Holds hash sz m' t' (Spec.run s os).1
  | [], m, t, s, b, h, _, _ => ⟨m, t, rfl, h⟩
  | o :: os, m, t, s, b, h, hb, hg => by
    obtain ⟨g1, g2⟩ := guarded_cons hg
    obtain ⟨m1, t1, e1, h1, hb1⟩ := step_ok hsz hA h o (fun j x e => hb (g1 j x e))
    obtain ⟨m2, t2, e2, h2⟩ := orun_ok hsz hA os h1.holds (hb1 b hb) g2
    refine ⟨m2, t2, ?_, h2⟩
    simp only [OTable.run, Spec.run]
    rw [e1, bind_ok, e2, bind_ok]

/-- C51: all answers of any history on a container, among them the sequences seen by iterating forwards and backwards, are those of
the list of elements in insertion order; afterwards iterating yields this list. -/
theorem C51_dense_insertion_order (hash : K → Nat) {sz : Int} (hsz : 0 < sz) {A : Alloc} (hA : A.Sound sz) (m : Mem) (lf : LF) (n : Nat)
    (ops : List (Op k K V)) (hg : Spec.Guarded (decide (0 < n)) ops = true) :
    ∃ m' t', (OTable.createN (k := k) (K := K) (V := V) sz A m lf n).2.run hash sz A (OTable.createN (k := k) (K := K) (V := V) sz A m lf n).1 ops =
        .ok (m', t', (Spec.run [] ops).2) ∧ t'.elements sz m' = .ok (Spec.run [] ops).1 := by
  obtain ⟨m1, t1, e, h, _, hb, _⟩ := createN_ok (hash := hash) (k := k) (K := K) (V := V) hA m lf n
  rw [e]
  obtain ⟨m2, t2, e2, h2⟩ := orun_ok hsz hA ops ⟨_, _, h, rfl⟩ (by rw [hb]; simp) hg
  exact ⟨m2, t2, e2, h2.elements hsz⟩

/-- C51 for programs with any number of containers: all answers are those of the lists, in particular no operation disturbs another
container. -/
theorem C51_dense_insertion_order_worlds (hash : K → Nat) {sz : Int} (hsz : 0 < sz) {A : Alloc} (hA : A.Sound sz) (m : Mem)
    (os : List (WOp k K V)) (hg : WSpec.Guarded (fun _ => none) os = true) :
    ∃ w, World.run hash sz A ⟨m, fun _ => none⟩ os = .ok (w, (WSpec.run (fun _ => none) os).2) ∧
      ∀ i q, (WSpec.run (fun _ => none) os).1 i = some q → ∃ t, w.tab i = some t ∧ t.elements sz w.mem = .ok q := by
  obtain ⟨w, e, h⟩ := wrun_ok hsz hA os (winit (hash := hash) (sz := sz) m) hg
  refine ⟨w, e, fun i q hq => ?_⟩
  obtain ⟨t, ht, hl⟩ := h.some_iff hq
  exact ⟨t, ht, hl.elements hsz⟩

/-- C51: a key that is present keeps its place when it is inserted again or assigned to. -/
theorem C51_dense_position_kept {hash : K → Nat} {sz : Int} (hsz : 0 < sz) {A : Alloc} (hA : A.Sound sz) {w : World 1 K V} {s : Seqs 1 K V}
    (h : Reached hash sz A w s) {i : Nat} {t : OTable 1 K V} (ht : w.tab i = some t) {q : List (Elem 1 K V)} (hq : s i = some q)
    {n : Nat} {e : Elem 1 K V} (hn : q[n]? = some e) (v : V) :
    (∃ m' t' a, t.insert hash sz A w.mem e.1 v = .ok (m', t', a, false) ∧ t'.elemAt sz a = .ok e ∧ t'.elements sz m' = .ok q) ∧
    (∃ m' t' a, t.assign hash sz A w.mem rfl (e.1 0) v = .ok (m', t', a, false) ∧ t'.elemAt sz a = .ok (e.1, v) ∧
      t'.elements sz m' = .ok (q.set n (e.1, v))) := by
  obtain ⟨l, o, hr, rfl⟩ := h.holds hsz hA ht hq
  have hu : Uniq (seq l o) := hr.uniq.perm (seq_perm hr.perm).symm
  obtain ⟨hlt, he⟩ := List.getElem?_eq_some_iff.mp hn
  have hmem : e ∈ seq l o := List.mem_of_getElem? hn
  have hkey : ∀ e' ∈ seq l o, e'.1 0 = e.1 0 → e' = e := by
    intro e' he' hk
    exact List.inj_on_of_nodup_map (hu 0) he' hmem hk
  have hany : (seq l o).any (fun e' => e'.1 0 = e.1 0) = true := List.any_eq_true.mpr ⟨e, hmem, by simp⟩
  constructor
  · obtain ⟨r, e1, hr1⟩ := Dense.insert_ok hr.core e.1 v
    obtain ⟨m', t', a, e2, e3, _, h4⟩ := insertStep_ok (op := fun c => c.insert hash e.1 v) hsz hA hr e1 hr1
    have hh : Spec.hit (seq l o) e.1 = some e := by
      unfold Spec.hit
      have hf : (seq l o).find? (fun e' => e'.1 0 = e.1 0) = some e := by
        cases hc : (seq l o).find? (fun e' => e'.1 0 = e.1 0) with
        | none =>
          rw [List.find?_eq_none] at hc
          exact absurd (by simp) (hc e hmem)
        | some e' =>
          have h1 := List.find?_some hc
          have h2 := List.mem_of_find?_eq_some hc
          simp only [decide_eq_true_eq] at h1
          rw [hkey e' h2 h1]
      rw [show List.finRange 1 = [0] from rfl, List.findSome?_cons, hf]
    unfold Spec.insert at e2 e3 h4
    rw [hh] at e2 e3 h4
    exact ⟨m', t', a, e2, e3, h4.holds.elements hsz⟩
  · obtain ⟨m', t', a, e2, e3, _, h4⟩ := assignStep_ok hsz hA hr (e.1 0) v
    unfold Spec.assign at e2 e3 h4
    rw [if_pos hany] at e2 e3 h4
    have hfun : (fun _ => e.1 0 : Fin 1 → K) = e.1 := by
      funext j
      rw [Subsingleton.elim j 0]
    rw [hfun] at e3
    refine ⟨m', t', a, e2, e3, ?_⟩
    rw [h4.holds.elements hsz]
    congr 1
    refine List.ext_getElem? fun n' => ?_
    rw [List.getElem?_map, List.getElem?_set]
    by_cases hnn : n = n'
    · subst hnn
      rw [if_pos rfl, if_pos hlt, hn]
      simp
    · rw [if_neg hnn]
      cases hc : (seq l o)[n']? with
      | none => rfl
      | some e' =>
        simp only [Option.map_some]
        rw [if_neg]
        intro hk
        have := hkey e' (List.mem_of_getElem? hc) hk
        subst this
        refine hnn ?_
        have hnd : (seq l o).Nodup := List.Nodup.of_map _ (hu 0)
        exact (List.getElem?_inj hlt hnd).mp (by rw [hn, hc])

/-- Insertions that grow the array, an erasure from the middle (the last node of the array moves), an assignment, an insertion of a
key erased before. -/
def demoOps : List (WOp 1 Nat Nat) :=
  fill 0 5 ++ [.op 0 (.erase 0 2), .op 0 (.assign rfl 4 44), .op 0 (.insert (fun _ => 2) 22), .op 0 .iterate, .op 0 .reverse]

example : WSpec.Guarded (fun _ => none) demoOps = true := rfl

example : (World.run h3 24 bump ⟨mem0, fun _ => none⟩ demoOps).map (fun r => r.2.drop 9) =
    .ok [.list [el 1 10, el 3 30, el 4 44, el 5 50, el 2 22], .list [el 2 22, el 5 50, el 4 44, el 3 30, el 1 10]] := rfl

example : (WSpec.run (fun _ => none) demoOps).1 0 = some [el 1 10, el 3 30, el 4 44, el 5 50, el 2 22] := rfl

/-! ## C53 -/

/-- C53: at every position of every container `++` leads to the next position and `--` back; the positions carry the elements in order,
and the last one is `end()`. -/
theorem C53_dense_increment_decrement {hash : K → Nat} {sz : Int} (hsz : 0 < sz) {A : Alloc} (hA : A.Sound sz) {w : World k K V}
    {s : Seqs k K V} (h : Reached hash sz A w s) {i : Nat} {t : OTable k K V} (ht : w.tab i = some t) {q : List (Elem k K V)}
    (hq : s i = some q) :
    (∀ n (hn : n < q.length), ∃ a b, t.nth w.mem n = .ok a ∧ t.nth w.mem (n + 1) = .ok b ∧ w.mem.nextOf a = .ok b ∧
      w.mem.prevOf b = .ok a ∧ a ≠ t.hd ∧ t.elemAt sz a = .ok q[n]) ∧ t.nth w.mem q.length = .ok t.hd := by
  obtain ⟨l, o, hr, rfl⟩ := h.holds hsz hA ht hq
  have hlen : (seq l o).length = l.length := by rw [seq_length hr.perm, hr.length]
  refine ⟨?_, by rw [hlen]; exact nth_end hr⟩
  intro n hn
  obtain ⟨o1, p, o2, rfl, hl1, hp, _, hel, _⟩ := split_at hr (n := n) (by omega)
  have h1 := nth_split hr
  have h2 : t.nth w.mem ((o1 ++ [p]).length) = _ := nth_split (by rw [List.append_assoc]; exact hr)
  rw [hl1] at h1
  rw [List.length_append, List.length_singleton, hl1] at h2
  have hring : Ring w.mem t.hd ((o1 ++ [p]).map (t.addr sz) ++ o2.map (t.addr sz)) := by
    rw [← List.map_append, List.append_assoc]
    exact hr.ring
  obtain ⟨q1, q2⟩ := hring.place
  have hlast : ((o1 ++ [p]).map (t.addr sz)).getLastD t.hd = t.addr sz p := by simp
  rw [hlast] at q1 q2
  refine ⟨_, _, h1, h2, ?_, ?_, ?_, ?_⟩
  · simp only [List.map_cons, List.headD_cons]
    rw [Mem.nextOf_ok (hr.live _ (hr.addr_slots (by simp))), q1]
  · rw [Mem.prevOf_ok (hring.live _ (Ring.right_mem _ _)), q2]
    rfl
  · exact fun g => hr.hdr (g ▸ hr.addr_slots (by simp))
  · simp only [List.map_cons, List.headD_cons]
    rw [elemAt_ok hsz hr.core hp]
    rw [List.getElem?_eq_getElem hn, List.getElem?_eq_getElem hp] at hel
    rw [Option.some.inj hel]

/-- C53: iterating backwards from `end()` yields the reverse of the sequence. -/
theorem C53_dense_reverse {hash : K → Nat} {sz : Int} (hsz : 0 < sz) {A : Alloc} (hA : A.Sound sz) {w : World k K V} {s : Seqs k K V}
    (h : Reached hash sz A w s) {i : Nat} {t : OTable k K V} (ht : w.tab i = some t) {q : List (Elem k K V)} (hq : s i = some q) :
    ∃ b, t.first w.mem = .ok b ∧ t.elements sz w.mem = .ok q ∧ rwalk w.mem b (t.elemAt sz) (t.core.size + 1) t.hd = .ok q.reverse := by
  obtain ⟨l, o, hr, rfl⟩ := h.holds hsz hA ht hq
  exact ⟨_, first_ok hr, elements_ok hsz hr, reverse_ok hsz hr⟩

example : Reached h3 24 bump (after demoOps) (WSpec.run (fun _ => none) demoOps).1 := after_reached rfl

example : (do
    let w := after demoOps
    let b ← (w.get 0).first w.mem
    rwalk w.mem b ((w.get 0).elemAt 24) 6 (w.get 0).hd : M (List (Elem 1 Nat Nat))) =
    .ok [el 2 22, el 5 50, el 4 44, el 3 30, el 1 10] := rfl

/-! ## C55 -/

/-- C55, without the guarantee that the result is always valid: `erase(iterator)` of the element at position `n` removes exactly this
element.  If the next element is not in the last slot of the array, the returned iterator designates the next element (or `end()`); if it
is there, the returned iterator designates a dead slot.  Missing: the second case (`C55_dense_successor_false`). -/
theorem C55_dense_erase_iterator_partial {hash : K → Nat} {sz : Int} (hsz : 0 < sz) {A : Alloc} (hA : A.Sound sz) {w : World k K V}
    {s : Seqs k K V} (h : Reached hash sz A w s) {i : Nat} {t : OTable k K V} (ht : w.tab i = some t) {q : List (Elem k K V)}
    (hq : s i = some q) {n : Nat} (hn : n < q.length) :
    ∃ a m' t' r, t.nth w.mem n = .ok a ∧ t.eraseIter sz w.mem a = .ok (m', t', r) ∧ t'.elements sz m' = .ok (q.eraseIdx n) ∧
      (t.nth w.mem (n + 1) ≠ .ok (t.addr sz (t.core.size - 1)) → t'.nth m' n = .ok r) ∧
      (t.nth w.mem (n + 1) = .ok (t.addr sz (t.core.size - 1)) → r ≠ t'.hd ∧ t'.elemAt sz r = .error .deadRead) := by
  obtain ⟨l, o, hr, rfl⟩ := h.holds hsz hA ht hq
  have hlen : (seq l o).length = l.length := by rw [seq_length hr.perm, hr.length]
  obtain ⟨o1, p, o2, rfl, hl1, hp, hs1, _, hs2⟩ := split_at hr (n := n) (by omega)
  have h1 := nth_split hr
  rw [hl1] at h1
  obtain ⟨m', c, next, e1, _, hcap, _, he⟩ := eraseIter_ok hsz hr
  obtain ⟨g1, g2⟩ := he.result hsz hr hcap
  rw [hl1] at g1 g2
  refine ⟨_, m', _, next, h1, e1, ?_, g1, g2⟩
  rw [(he.becomes hr hcap).holds.elements hsz, hs1, hs2, List.eraseIdx_eq_take_drop_succ]

/-- C55 for `erase(key)`, likewise. -/
theorem C55_dense_erase_key_partial {hash : K → Nat} {sz : Int} (hsz : 0 < sz) {A : Alloc} (hA : A.Sound sz) {w : World k K V}
    {s : Seqs k K V} (h : Reached hash sz A w s) {i : Nat} {t : OTable k K V} (ht : w.tab i = some t) {q : List (Elem k K V)}
    (hq : s i = some q) {n : Nat} (hn : n < q.length) (j : Fin k) :
    ∃ m' t' r, t.erase hash sz w.mem j (q[n].1 j) = .ok (m', t', r, true) ∧ t'.elements sz m' = .ok (q.eraseIdx n) ∧
      (t.nth w.mem (n + 1) ≠ .ok (t.addr sz (t.core.size - 1)) → t'.nth m' n = .ok r) ∧
      (t.nth w.mem (n + 1) = .ok (t.addr sz (t.core.size - 1)) → r ≠ t'.hd ∧ t'.elemAt sz r = .error .deadRead) := by
  obtain ⟨l, o, hr, rfl⟩ := h.holds hsz hA ht hq
  have hlen : (seq l o).length = l.length := by rw [seq_length hr.perm, hr.length]
  obtain ⟨o1, p, o2, rfl, hl1, hp, hs1, hel, hs2⟩ := split_at hr (n := n) (by omega)
  rw [List.getElem?_eq_getElem hn, List.getElem?_eq_getElem hp] at hel
  obtain ⟨m', c, next, e1, hcap, he⟩ := eraseKey_ok hsz hr (j := j) hp rfl
  obtain ⟨g1, g2⟩ := he.result hsz hr hcap
  rw [hl1] at g1 g2
  rw [Option.some.inj hel]
  refine ⟨m', _, next, e1, ?_, g1, g2⟩
  rw [(he.becomes hr hcap).holds.elements hsz, hs1, hs2, List.eraseIdx_eq_take_drop_succ]

/-- C55 is false: three elements, the second is erased; the result should designate the third one, which has moved. -/
theorem C55_dense_successor_false :
    Reached h3 24 bump (after (fill 0 3)) (WSpec.run (fun _ => none) (fill 0 3)).1 ∧
    (do
      let w := after (fill 0 3)
      let a ← (w.get 0).nth w.mem 1
      let r ← (w.get 0).eraseIter 24 w.mem a
      r.2.1.elemAt 24 r.2.2 : M (Elem 1 Nat Nat)) = .error .deadRead :=
  ⟨after_reached rfl, rfl⟩

/-- The first of three elements: the successor stays where it is. -/
example : (do
    let w := after (fill 0 3)
    let a ← (w.get 0).nth w.mem 0
    let r ← (w.get 0).eraseIter 24 w.mem a
    let e ← r.2.1.elemAt 24 r.2.2
    let l ← r.2.1.elements 24 r.1
    .ok (e, l) : M (Elem 1 Nat Nat × List (Elem 1 Nat Nat))) = .ok (el 2 20, [el 2 20, el 3 30]) := rfl

/-! ## C56 -/

/-- C56, partially: `erase_if` either reads an erased element (C55), or removes exactly the elements that satisfy the predicate, keeps the
order of the others and returns their number; it always ends.  Missing: the first case (`C56_dense_erase_if_false`). -/
theorem C56_dense_erase_if_partial {hash : K → Nat} {sz : Int} (hsz : 0 < sz) {A : Alloc} (hA : A.Sound sz) {w : World k K V}
    {s : Seqs k K V} (h : Reached hash sz A w s) {i : Nat} {t : OTable k K V} (ht : w.tab i = some t) {q : List (Elem k K V)}
    (hq : s i = some q) (p : Elem k K V → Bool) :
    ∃ b, t.first w.mem = .ok b ∧
      (OTable.eraseIf sz p (q.length + 1) w.mem t b 0 = .error .deadRead ∨
        ∃ m' t', OTable.eraseIf sz p (q.length + 1) w.mem t b 0 = .ok (m', t', q.countP p) ∧
          t'.elements sz m' = .ok (q.filter (fun e => !p e))) ∧
      (q.countP p = 0 → OTable.eraseIf sz p (q.length + 1) w.mem t b 0 = .ok (w.mem, t, 0)) := by
  obtain ⟨l, o, hr, rfl⟩ := h.holds hsz hA ht hq
  have hlen : (seq l o).length = o.length := seq_length hr.perm
  refine ⟨_, first_ok hr, ?_, ?_⟩
  · rcases eraseIf_ok hsz p ((seq l o).length + 1) (o1 := []) 0 hr (by omega) with g | ⟨m', t', e, hb⟩
    · exact Or.inl g
    · rw [Nat.zero_add] at e
      exact Or.inr ⟨m', t', e, hb.holds.elements hsz⟩
  · intro hc
    rw [List.countP_eq_zero] at hc
    exact eraseIf_none hsz p _ (o1 := []) 0 hr (by omega) (fun e he => by simpa using hc e he)

/-- C56 is false: erasing all of four elements reads an erased one. -/
theorem C56_dense_erase_if_false :
    Reached h3 24 bump (after (fill 0 4)) (WSpec.run (fun _ => none) (fill 0 4)).1 ∧
    (do
      let w := after (fill 0 4)
      let b ← (w.get 0).first w.mem
      let r ← OTable.eraseIf 24 (fun _ => true) 5 w.mem (w.get 0) b 0
      .ok r.2.2 : M Nat) = .error .deadRead :=
  ⟨after_reached rfl, rfl⟩

/-- Erasing the keys 1 and 4 of five. -/
example : (do
    let w := after (fill 0 5)
    let b ← (w.get 0).first w.mem
    let r ← OTable.eraseIf 24 (fun e => e.1 0 = 1 || e.1 0 = 4) 6 w.mem (w.get 0) b 0
    let l ← r.2.1.elements 24 r.1
    .ok (r.2.2, l) : M (Nat × List (Elem 1 Nat Nat))) = .ok (2, [el 2 20, el 3 30, el 5 50]) := rfl

/-! ## C57 -/

/-- C57 for ranges of one element: exactly this element is removed; the result is as in C55.  Missing: longer ranges
(`C57_dense_range_false`). -/
theorem C57_dense_range_one_partial {hash : K → Nat} {sz : Int} (hsz : 0 < sz) {A : Alloc} (hA : A.Sound sz) {w : World k K V}
    {s : Seqs k K V} (h : Reached hash sz A w s) {i : Nat} {t : OTable k K V} (ht : w.tab i = some t) {q : List (Elem k K V)}
    (hq : s i = some q) {n : Nat} (hn : n < q.length) :
    ∃ a b m' t' r, t.nth w.mem n = .ok a ∧ t.nth w.mem (n + 1) = .ok b ∧
      OTable.eraseRange sz a (q.length + 1) w.mem t b t.hd = .ok (m', t', r) ∧ t'.elements sz m' = .ok (q.eraseIdx n) ∧
      (t.nth w.mem (n + 1) ≠ .ok (t.addr sz (t.core.size - 1)) → t'.nth m' n = .ok r) := by
  obtain ⟨l, o, hr, rfl⟩ := h.holds hsz hA ht hq
  have hlen : (seq l o).length = l.length := by rw [seq_length hr.perm, hr.length]
  obtain ⟨o1, p, o2, rfl, hl1, hp, hs1, _, hs2⟩ := split_at hr (n := n) (by omega)
  have h1 := nth_split hr
  rw [hl1] at h1
  have h2 : t.nth w.mem ((o1 ++ [p]).length) = _ := nth_split (by rw [List.append_assoc]; exact hr)
  rw [List.length_append, List.length_singleton, hl1] at h2
  obtain ⟨m', c, next, e1, hcap, he⟩ := eraseRange_one hsz hr (fuel := (seq l (o1 ++ p :: o2)).length + 1) (by omega) t.hd
  obtain ⟨g1, g2⟩ := he.result hsz hr hcap
  rw [hl1] at g1 g2
  refine ⟨_, _, m', _, next, h1, h2, e1, ?_, g1⟩
  rw [(he.becomes hr hcap).holds.elements hsz, hs1, hs2, List.eraseIdx_eq_take_drop_succ]

/-- C57 is false: of the elements 1, 2, 3, 4 the range of the first two is to be erased; 3 goes as well. -/
theorem C57_dense_range_false :
    Reached h3 24 bump (after (fill 0 4)) (WSpec.run (fun _ => none) (fill 0 4)).1 ∧
    (do
      let w := after (fill 0 4)
      let a ← (w.get 0).nth w.mem 0
      let b ← (w.get 0).nth w.mem 2
      let r ← OTable.eraseRange 24 a 5 w.mem (w.get 0) b (w.get 0).hd
      r.2.1.elements 24 r.1 : M (List (Elem 1 Nat Nat))) = .ok [el 4 40] :=
  ⟨after_reached rfl, rfl⟩

example : (do
    let w := after (fill 0 4)
    let a ← (w.get 0).nth w.mem 1
    let b ← (w.get 0).nth w.mem 2
    let r ← OTable.eraseRange 24 a 5 w.mem (w.get 0) b (w.get 0).hd
    let e ← r.2.1.elemAt 24 r.2.2
    let l ← r.2.1.elements 24 r.1
    .ok (e, l) : M (Elem 1 Nat Nat × List (Elem 1 Nat Nat))) = .ok (el 3 30, [el 1 10, el 3 30, el 4 40]) := rfl

/-! ## C58 -/

/-- C58 for two containers that are not empty: the sequences are exchanged.  Missing: empty containers (`C58_dense_swap_false`). -/
theorem C58_dense_swap_partial {hash : K → Nat} {sz : Int} (hsz : 0 < sz) {A : Alloc} (hA : A.Sound sz) {w : World k K V}
    {s : Seqs k K V} (h : Reached hash sz A w s) {i j : Nat} (hij : i ≠ j) {t u : OTable k K V} (ht : w.tab i = some t)
    (hu : w.tab j = some u) {q q' : List (Elem k K V)} (hq : s i = some q) (hq' : s j = some q') (hne : q ≠ []) (hne' : q' ≠ []) :
    ∃ m' t' u', t.swap w.mem u = .ok (m', t', u') ∧ t'.elements sz m' = .ok q' ∧ u'.elements sz m' = .ok q := by
  have ha := (h.inv hsz hA).apart i j t u hij ht hu
  obtain ⟨l, o, hr, rfl⟩ := h.holds hsz hA ht hq
  obtain ⟨l', o', hr', rfl⟩ := h.holds hsz hA hu hq'
  obtain ⟨m', t', u', e, hm⟩ := swap_ok hr hr' ha (fun g => hne (hr.nil_iff.mpr g)) (fun g => hne' (hr'.nil_iff.mpr g))
  exact ⟨m', t', u', e, elements_ok hsz hm.fst, elements_ok hsz hm.snd⟩

/-- C58 is false if one of the containers is empty, or both: afterwards an iteration leaves the container. -/
theorem C58_dense_swap_false :
    (∀ n n', Reached h3 24 bump (after (fill 0 n ++ fill 1 n')) (WSpec.run (fun _ => none) (fill 0 n ++ fill 1 n')).1) ∧
    (∀ p ∈ [(0, 0), (0, 2), (2, 0)], ∃ f,
      (do
        let w := after (fill 0 p.1 ++ fill 1 p.2)
        let r ← (w.get 0).swap w.mem (w.get 1)
        let l ← r.2.1.elements 24 r.1
        let l' ← r.2.2.elements 24 r.1
        .ok (l, l') : M (List (Elem 1 Nat Nat) × List (Elem 1 Nat Nat))) = .error f) := by
  constructor
  · intro n n'
    refine after_reached ?_
    have hop : ∀ (id : Nat) (xs : List Nat) (s : Seqs 1 Nat Nat),
        WSpec.Guarded s (xs.map fun i => .op id (.insert (fun _ => i + 1) (10 * (i + 1)))) = true := by
      intro id xs
      induction xs with
      | nil => intro s; rfl
      | cons a xs ih =>
        intro s
        rw [List.map_cons, WSpec.Guarded, Bool.and_eq_true]
        exact ⟨rfl, ih _⟩
    have hfill : ∀ (id n : Nat) (s : Seqs 1 Nat Nat), WSpec.Guarded s (fill id n) = true := by
      intro id n s
      unfold fill
      rw [WSpec.Guarded, Bool.and_eq_true]
      exact ⟨rfl, hop _ _ _⟩
    have happ : ∀ (a b : List (WOp 1 Nat Nat)) (s : Seqs 1 Nat Nat), WSpec.Guarded s a = true → (∀ s', WSpec.Guarded s' b = true) →
        WSpec.Guarded s (a ++ b) = true := by
      intro a b
      induction a with
      | nil => intro s _ hb; exact hb s
      | cons x a ih =>
        intro s ha hb
        rw [List.cons_append, WSpec.Guarded, Bool.and_eq_true]
        rw [WSpec.Guarded, Bool.and_eq_true] at ha
        exact ⟨ha.1, ih _ ha.2 hb⟩
    exact happ _ _ _ (hfill 0 n _) (fun s' => hfill 1 n' s')
  · intro p hp
    simp only [List.mem_cons, List.not_mem_nil, or_false] at hp
    rcases hp with rfl | rfl | rfl
    · exact ⟨_, rfl⟩
    · exact ⟨_, rfl⟩
    · exact ⟨_, rfl⟩

example : (do
    let w := after (fill 0 2 ++ fill 1 3)
    let r ← (w.get 0).swap w.mem (w.get 1)
    let l ← r.2.1.elements 24 r.1
    let l' ← r.2.2.elements 24 r.1
    .ok (l, l') : M (List (Elem 1 Nat Nat) × List (Elem 1 Nat Nat))) = .ok ([el 1 10, el 2 20, el 3 30], [el 1 10, el 2 20]) := rfl

/-! ## C59 -/

/-- C59: a copy holds the same sequence in storage of its own; the original is as before. -/
theorem C59_dense_copy {hash : K → Nat} {sz : Int} (hsz : 0 < sz) {A : Alloc} (hA : A.Sound sz) {w : World k K V}
    {s : Seqs k K V} (h : Reached hash sz A w s) {i : Nat} {u : OTable k K V} (hu : w.tab i = some u) {q : List (Elem k K V)}
    (hq : s i = some q) :
    ∃ m' t, OTable.copyCtor sz A w.mem u = .ok (m', t) ∧ t.elements sz m' = .ok q ∧ u.elements sz m' = .ok q ∧
      (∀ x ∈ t.foot sz, x ∉ w.mem.live) ∧ ∀ n ≤ q.length, ∃ a, t.nth m' n = .ok a ∧ a ∈ t.foot sz := by
  obtain ⟨l, o, hr, rfl⟩ := h.holds hsz hA hu hq
  have hlen : (seq l o).length = l.length := by rw [seq_length hr.perm, hr.length]
  obtain ⟨m', t, e, h1, _, f⟩ := copyCtor_ok hsz hA hr
  refine ⟨m', t, e, elements_ok hsz h1, elements_ok hsz (hr.frame f (fun _ _ => by simp)), ?_, ?_⟩
  · intro x hx
    rcases f.fresh x hx with g | g
    · cases g
    · exact g
  · intro n hn
    refine ⟨_, nth_ok h1 (by omega), h1.ring_foot _ ?_⟩
    have := headD_mem ((o.drop n).map (t.addr sz)) t.hd
    rcases List.mem_cons.mp this with g | g
    · rw [g]; exact List.mem_cons_self
    · refine List.mem_cons_of_mem _ ?_
      rw [List.map_drop] at g ⊢
      exact List.mem_of_mem_drop g

/-- C59: copy assignment, whatever the allocator does. -/
theorem C59_dense_copy_assign {hash : K → Nat} {sz : Int} (hsz : 0 < sz) {A : Alloc} (hA : A.Sound sz) {w : World k K V}
    {s : Seqs k K V} (h : Reached hash sz A w s) {i j : Nat} (hij : i ≠ j) {t u : OTable k K V} (ht : w.tab i = some t)
    (hu : w.tab j = some u) {q' q : List (Elem k K V)} (hq' : s i = some q') (hq : s j = some q) (prop : Bool) :
    ∃ m' t', t.copyAssign sz A prop w.mem u = .ok (m', t') ∧ t'.elements sz m' = .ok q ∧ u.elements sz m' = .ok q ∧
      ∀ x ∈ t'.foot sz, x ∉ u.foot sz := by
  have ha := (h.inv hsz hA).apart i j t u hij ht hu
  obtain ⟨l, o, hr, rfl⟩ := h.holds hsz hA hu hq
  obtain ⟨l', o', hr', rfl⟩ := h.holds hsz hA ht hq'
  by_cases hg : prop = true ∨ l ≠ [] ∨ l' = []
  · obtain ⟨m', t', e, h1, h2, f⟩ := copyAssign_ok (prop := prop) hsz hA hr' hr ha.symm hg
    refine ⟨m', t', e, elements_ok hsz h1, elements_ok hsz (hr.frame f ha.symm), ?_⟩
    intro x hx q
    rcases f.fresh x hx with g | g
    · exact ha x g q
    · exact g (hr.foot_live x q)
  · simp only [not_or, Decidable.not_not] at hg
    obtain ⟨hp, hl, _⟩ := hg
    have hp : prop = false := by simpa using hp
    have ho : o = [] := List.length_eq_zero_iff.mp (by rw [hr.length, hl]; rfl)
    subst hp hl ho
    obtain ⟨m1, e1, k1, l1, f1⟩ := copyHeader_ok (sz := sz) (t := t) hr.hd_live hr'.hd_live
    obtain ⟨c, e2, c2⟩ := Dense.clearData_ok (hr'.core.setLoad u.core.lf).toArr
    have hus : u.core.size = 0 := hr.core.size
    have hcd : c.copyData u.core = .ok { c with size := 0 } := by
      unfold Table.copyData
      rw [if_neg (by rw [c2.size]; omega), if_pos hus]
    unfold OTable.copyAssign OTable.dropArray OTable.copyDataLinks Table.copyAssign
    rw [e1, bind_ok]
    simp only [Bool.false_eq_true, if_false]
    rw [bind_ok, if_pos hus, bind_ok, show ({ t.core with lf := u.core.lf } : Table k K V) = t.core.setLoad u.core.lf from rfl, e2,
      bind_ok, hcd, bind_ok]
    refine ⟨m1, _, rfl, ?_, elements_ok hsz (hr.frame f1 ha.symm), ?_⟩
    · have hk := (Ring.nil_iff.mp hr.ring).2
      unfold OTable.elements OTable.first
      rw [Mem.nextOf_ok (by rw [l1]; exact hr'.hd_live), bind_ok]
      have : m1.nxt t.hd = t.hd := by
        unfold Mem.nxt
        rw [k1, hk]
        simp
      rw [this]
      simp [walk, seq]
    · intro x hx q
      refine ha x ?_ q
      change x ∈ t.hd :: slots sz t.base c.cap at hx
      rw [c2.cap] at hx
      exact hx

/-- C59: move construction transfers the sequence, the source is empty. -/
theorem C59_dense_move {hash : K → Nat} {sz : Int} (hsz : 0 < sz) {A : Alloc} (hA : A.Sound sz) {w : World k K V}
    {s : Seqs k K V} (h : Reached hash sz A w s) {i : Nat} {u : OTable k K V} (hu : w.tab i = some u) {q : List (Elem k K V)}
    (hq : s i = some q) :
    ∃ m' t u', OTable.moveCtor sz A w.mem u = .ok (m', t, u') ∧ t.elements sz m' = .ok q ∧ u'.elements sz m' = .ok [] ∧
      ∀ x ∈ t.foot sz, x ∉ u'.foot sz := by
  obtain ⟨l, o, hr, rfl⟩ := h.holds hsz hA hu hq
  obtain ⟨m', t, u', e, h1, h2, _, _, ha, _⟩ := moveCtor_ok hA hr
  exact ⟨m', t, u', e, elements_ok hsz h1, elements_ok hsz h2, ha⟩

/-- C59: move assignment with a propagated allocator. -/
theorem C59_dense_move_assign {hash : K → Nat} {sz : Int} (hsz : 0 < sz) {A : Alloc} (hA : A.Sound sz) {w : World k K V}
    {s : Seqs k K V} (h : Reached hash sz A w s) {i j : Nat} (hij : i ≠ j) {t u : OTable k K V} (ht : w.tab i = some t)
    (hu : w.tab j = some u) {q' q : List (Elem k K V)} (hq' : s i = some q') (hq : s j = some q) :
    ∃ m' t' u', t.moveAssign sz true w.mem u = .ok (m', t', u') ∧ t'.elements sz m' = .ok q ∧ u'.elements sz m' = .ok [] ∧
      ∀ x ∈ t'.foot sz, x ∉ u'.foot sz := by
  have ha := (h.inv hsz hA).apart i j t u hij ht hu
  obtain ⟨l, o, hr, rfl⟩ := h.holds hsz hA hu hq
  obtain ⟨l', o', hr', rfl⟩ := h.holds hsz hA ht hq'
  obtain ⟨m', t', u', e, hm⟩ := moveAssign_ok (prop := true) hr' hr ha (Or.inl rfl)
  exact ⟨m', t', u', e, elements_ok hsz hm.fst, elements_ok hsz hm.snd, hm.apart⟩

/-- C59: move assignment with equal allocators that are not propagated: the destination has the sequence, the source yields nothing
(its buckets may be stale, C45). -/
theorem C59_dense_move_assign_nonprop {hash : K → Nat} {sz : Int} (hsz : 0 < sz) {A : Alloc} (hA : A.Sound sz) {w : World k K V}
    {s : Seqs k K V} (h : Reached hash sz A w s) {i j : Nat} (hij : i ≠ j) {t u : OTable k K V} (ht : w.tab i = some t)
    (hu : w.tab j = some u) {q' q : List (Elem k K V)} (hq' : s i = some q') (hq : s j = some q) :
    ∃ m' t' u', t.moveAssign sz false w.mem u = .ok (m', t', u') ∧ t'.elements sz m' = .ok q ∧ u'.elements sz m' = .ok [] := by
  have ha := (h.inv hsz hA).apart i j t u hij ht hu
  obtain ⟨l, o, hr, rfl⟩ := h.holds hsz hA hu hq
  obtain ⟨l', o', hr', rfl⟩ := h.holds hsz hA ht hq'
  have hnf : t.hd ∉ u.hd :: o.map (u.addr sz) := fun q => ha _ List.mem_cons_self (hr.ring_foot _ q)
  obtain ⟨m1, e1, r1, r2, s1⟩ := hr.ring.rebase hr'.hd_live hnf
  obtain ⟨c, e2, c2⟩ := Dense.clearData_ok (hr'.core.setLoad u.core.lf).toArr
  unfold OTable.moveAssign OTable.dropArray Table.moveAssign
  rw [e1, bind_ok]
  simp only [Bool.false_eq_true, if_false]
  rw [bind_ok, show ({ t.core with lf := u.core.lf } : Table k K V) = t.core.setLoad u.core.lf from rfl, e2, bind_ok]
  simp only [Table.moveFrom, Bool.or_true, if_true]
  refine ⟨m1, _, _, rfl, ?_, ?_⟩
  · refine elements_ok (hash := hash) hsz (l := l) (o := o) ⟨hr.core.setLoad c.lf, hr.perm, r1, ?_, ?_⟩
    · change ∀ x ∈ slots sz u.base u.core.cap, _
      rw [s1.live]
      exact hr.live
    · change t.hd ∉ slots sz u.base u.core.cap
      exact fun q => ha _ List.mem_cons_self (List.mem_cons_of_mem _ q)
  · obtain ⟨q1, q2⟩ := Ring.nil_iff.mp r2
    unfold OTable.elements OTable.first
    simp only
    rw [Mem.nextOf_ok q1, bind_ok]
    have : m1.nxt u.hd = u.hd := by
      unfold Mem.nxt
      rw [q2]
      simp
    rw [this]
    simp [walk]

/-- Container 1 is a copy of container 0, which is then changed and moved to container 2. -/
def copyOps : List (WOp 1 Nat Nat) :=
  fill 0 3 ++ [.op 0 (.eraseNth 0), .copyCtor 0 1, .op 0 (.insert (fun _ => 9) 90), .moveCtor 0 2, .op 1 (.insert (fun _ => 8) 80),
    .op 0 .iterate, .op 1 .iterate, .op 2 .reverse]

example : WSpec.Guarded (fun _ => none) copyOps = true := rfl

example : (World.run h3 24 bump ⟨mem0, fun _ => none⟩ copyOps).map (fun r => r.2.drop 9) =
    .ok [.list [], .list [el 2 20, el 3 30, el 8 80], .list [el 9 90, el 3 30, el 2 20]] := rfl

/-! ## C61 -/

/-- What the code does with a hint that designates an element: the new element is put behind this element, also if the array grows.
C61 asks for the place before it. -/
theorem C61_dense_behind_hint_partial {hash : K → Nat} {sz : Int} (hsz : 0 < sz) {A : Alloc} (hA : A.Sound sz) {w : World k K V}
    {s : Seqs k K V} (h : Reached hash sz A w s) {i : Nat} {t : OTable k K V} (ht : w.tab i = some t) {q : List (Elem k K V)}
    (hq : s i = some q) {key : Fin k → K} (v : V) (hnew : ∀ e ∈ q, ∀ j, e.1 j ≠ key j) {n : Nat} (hn : n < q.length) :
    ∃ a m' t' r, t.nth w.mem n = .ok a ∧ t.insert hash sz A w.mem key v (some a) = .ok (m', t', r, true) ∧
      t'.elemAt sz r = .ok (key, v) ∧ t'.elements sz m' = .ok (q.take (n + 1) ++ (key, v) :: q.drop (n + 1)) := by
  obtain ⟨l, o, hr, rfl⟩ := h.holds hsz hA ht hq
  have hlen : (seq l o).length = l.length := by rw [seq_length hr.perm, hr.length]
  obtain ⟨o1, p, o2, rfl, hl1, hp, hs1, hel, hs2⟩ := split_at hr (n := n) (by omega)
  have h1 := nth_split hr
  rw [hl1] at h1
  obtain ⟨r, e, hi⟩ := Dense.insert_ok hr.core key v
  have hc : conflict l key = none := by
    have hh : Spec.hit l key = none := by
      unfold Spec.hit
      rw [List.findSome?_eq_none_iff]
      intro j _
      rw [List.find?_eq_none]
      intro x hx
      simpa using hnew x ((seq_perm hr.perm).mem_iff.mpr hx) j
    rw [hit_eq] at hh
    cases hc : conflict l key with
    | none => rfl
    | some i =>
      rw [hc, Option.bind_some, List.getElem?_eq_getElem (conflict_lt hc)] at hh
      cases hh
  obtain ⟨hf1, hf2⟩ := hi.fresh hc
  obtain ⟨m', t', e1, _, _, h3, _⟩ := insertAfter_ok (op := fun c => c.insert hash key v) (l' := l ++ [(key, v)]) hsz hA hr e
    ⟨hi.cap, hf2, fun _ => ⟨by rw [hf1], by simp⟩, fun q => by rw [hf1] at q; cases q⟩ (by rw [hf1])
  refine ⟨_, m', t', _, h1, e1, ?_, ?_⟩
  · rw [elemAt_ok hsz h3.core (by simp)]
    simp
  · rw [elements_ok hsz h3]
    congr 1
    have hold : ∀ r : List Nat, (∀ i ∈ r, i < l.length) → seq (l ++ [(key, v)]) r = seq l r := by
      intro r hr'
      unfold seq
      refine List.filterMap_congr ?_
      intro i hi'
      rw [List.getElem?_append_left (hr' i hi')]
    have hl : ∀ i ∈ o1 ++ p :: o2, i < l.length := fun i hi' => hr.lt hi'
    rw [show o1 ++ p :: l.length :: o2 = (o1 ++ [p]) ++ l.length :: o2 by simp, seq_append, seq_cons (by simp)]
    rw [hold (o1 ++ [p]) (fun i hi' => hl i (by
      simp only [List.mem_append, List.mem_cons, List.not_mem_nil, or_false] at hi' ⊢
      rcases hi' with g | g
      · exact Or.inl g
      · exact Or.inr (Or.inl g))), hold o2 (fun i hi' => hl i (by simp [hi']))]
    have hx : (seq l (o1 ++ [p])).length = n + 1 := by
      have : seq l (o1 ++ p :: o2) = seq l (o1 ++ [p]) ++ seq l o2 := by
        rw [← seq_append]
        congr 1
        simp
      have h5 := congrArg List.length this
      rw [List.length_append, hs2, List.length_drop] at h5
      omega
    have hy : seq l (o1 ++ p :: o2) = seq l (o1 ++ [p]) ++ seq l o2 := by
      rw [← seq_append]
      congr 1
      simp
    rw [hy, List.take_left' hx, List.drop_left' hx]
    simp

/-- What the code does with the hint `end()` if the array does not grow: the new element becomes the first one.  C61 asks for the last
place. -/
theorem C61_dense_end_hint_partial {hash : K → Nat} {sz : Int} (hsz : 0 < sz) {A : Alloc} (hA : A.Sound sz) {w : World k K V}
    {s : Seqs k K V} (h : Reached hash sz A w s) {i : Nat} {t : OTable k K V} (ht : w.tab i = some t) {q : List (Elem k K V)}
    (hq : s i = some q) {key : Fin k → K} (v : V) (hnew : ∀ e ∈ q, ∀ j, e.1 j ≠ key j) (hroom : t.core.size < t.core.cap) :
    ∃ m' t' r, t.insert hash sz A w.mem key v (some t.hd) = .ok (m', t', r, true) ∧ t'.elemAt sz r = .ok (key, v) ∧
      t'.elements sz m' = .ok ((key, v) :: q) := by
  obtain ⟨l, o, hr, rfl⟩ := h.holds hsz hA ht hq
  obtain ⟨r, e, hi⟩ := Dense.insert_ok hr.core key v
  have hc : conflict l key = none := by
    have hh : Spec.hit l key = none := by
      unfold Spec.hit
      rw [List.findSome?_eq_none_iff]
      intro j _
      rw [List.find?_eq_none]
      intro x hx
      simpa using hnew x ((seq_perm hr.perm).mem_iff.mpr hx) j
    rw [hit_eq] at hh
    cases hc : conflict l key with
    | none => rfl
    | some i =>
      rw [hc, Option.bind_some, List.getElem?_eq_getElem (conflict_lt hc)] at hh
      cases hh
  obtain ⟨hf1, hf2⟩ := hi.fresh hc
  obtain ⟨m', t', e1, _, _, h3⟩ := insertEnd_ok (op := fun c => c.insert hash key v) (l' := l ++ [(key, v)]) hsz hr e
    ⟨hi.cap, hf2, fun _ => ⟨by rw [hf1], by simp⟩, fun q => by rw [hf1] at q; cases q⟩ (by rw [hf1]) hroom
  refine ⟨m', t', _, e1, ?_, ?_⟩
  · rw [elemAt_ok hsz h3.core (by simp)]
    simp
  · rw [elements_ok hsz h3]
    congr 1
    rw [seq_cons (by simp)]
    congr 1
    · simp
    · unfold seq
      refine List.filterMap_congr ?_
      intro i hi'
      rw [List.getElem?_append_left (hr.lt hi')]

/-- C61 is false: behind instead of before an element, in front instead of at the end, and with growth `end()` leads to an access to
storage that is not there. -/
theorem C61_dense_hint_false :
    (do
      let w := after (fill 0 3)
      let a ← (w.get 0).nth w.mem 0
      let r ← (w.get 0).insert h3 24 bump w.mem (fun _ => 9) 90 (some a)
      r.2.1.elements 24 r.1 : M (List (Elem 1 Nat Nat))) = .ok [el 1 10, el 9 90, el 2 20, el 3 30] ∧
    (do
      let w := after (fill 0 3)
      let r ← (w.get 0).insert h3 24 bump w.mem (fun _ => 9) 90 (some (w.get 0).hd)
      r.2.1.elements 24 r.1 : M (List (Elem 1 Nat Nat))) = .ok [el 9 90, el 1 10, el 2 20, el 3 30] ∧
    (do
      let w := after (fill 0 4)
      let r ← (w.get 0).insert h3 24 bump w.mem (fun _ => 9) 90 (some (w.get 0).hd)
      r.2.1.elements 24 r.1 : M (List (Elem 1 Nat Nat))) = .error .dangling ∧
    Reached h3 24 bump (after (fill 0 3)) (WSpec.run (fun _ => none) (fill 0 3)).1 ∧
    Reached h3 24 bump (after (fill 0 4)) (WSpec.run (fun _ => none) (fill 0 4)).1 :=
  ⟨rfl, rfl, rfl, after_reached rfl, after_reached rfl⟩

end Tpp.ODense
