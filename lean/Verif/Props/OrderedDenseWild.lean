import Verif.Ordered.DenseWild
import Verif.Props.OrderedDense

/-!
# C127: ordered dense containers with hash functions and comparisons that answer arbitrarily

What C126 says of ordered sparse and stable containers, for ordered dense ones with any number of key components, and without its exception:
dense containers do not exchange nodes.  `erase(key)` has to wait until there are buckets, whatever the functions answer (C41).
-/

set_option linter.unusedSectionVars false

namespace Tpp.ODense

open Tpp.Dense (Elem LF Table GTable Inv Below)
open Tpp.Ordered

variable {k : Nat} {K V : Type}

/-- A history each operation of which does what it may. -/
inductive Did : List (Elem k K V) → List (WildOp k K V) → List (Out k K V) → List (Elem k K V) → Prop
  | nil {l} : Did l [] [] l
  | cons {l l' l'' op ops o os} : Does l l' o op → Did l' ops os l'' → Did l (op :: ops) (o :: os) l''

/-- `erase(key)` is only called once there are buckets; the flag tells whether there are at the beginning. -/
def WildGuarded : Bool → List (WildOp k K V) → Bool
  | _, [] => true
  | b, .erase _ _ _ :: os => b && WildGuarded b os
  | _, .insert _ _ _ _ :: os | _, .emplace _ _ _ _ :: os | _, .assign _ _ _ _ _ :: os => WildGuarded true os
  | b, .rehash n :: os => WildGuarded (b || n ≠ 0) os
  | b, _ :: os => WildGuarded b os

theorem wildGuarded_cons {b : Bool} {o : WildOp k K V} {os : List (WildOp k K V)} (h : WildGuarded b (o :: os) = true) :
    (o.needs = true → b = true) ∧ WildGuarded (o.buckets b) os = true := by
  cases o with
  | erase j x p =>
    simp only [WildGuarded, Bool.and_eq_true] at h
    exact ⟨fun _ => h.1, h.2⟩
  | _ => exact ⟨fun e => (by cases e), h⟩

theorem runWild_ok {sz : Int} (hsz : 0 < sz) {A : Alloc} (hA : A.Sound sz) : ∀ (ops : List (WildOp k K V)) {g : Nat} {m : Mem} {t : GOTable k K V}
    {s : List (Elem k K V)} {b : Bool}, Has g sz m t s → (b = true → 0 < t.core.bc) → WildGuarded b ops = true →
    ∃ m' t' os s' g', t.runWild sz A g m ops = .ok (m', t', os) ∧ Did s ops os s' ∧ Has g' sz m' t' s'
  | [], g, m, t, s, b, h, _, _ => ⟨m, t, [], s, g, rfl, .nil, h⟩
  | op :: ops, g, m, t, s, b, h, hb, hw => by
    obtain ⟨w1, w2⟩ := wildGuarded_cons hw
    obtain ⟨m1, t1, o, s1, e, h1, h2, h3⟩ := stepWild_ok hsz hA h op (fun x => hb (w1 x))
    obtain ⟨m2, t2, os, s2, g', e', h4, h5⟩ := runWild_ok hsz hA ops h2 (h3 b hb) w2
    refine ⟨m2, t2, o :: os, s2, g', ?_, .cons h1 h4, h5⟩
    simp only [OTable.runWild]
    rw [e, bind_ok, e', bind_ok]

/-- What `Has` says of the code: iteration visits the elements in this order, and `size()` is their number. -/
theorem Has.elements {g : Nat} {sz : Int} (hsz : 0 < sz) {m : Mem} {t : GOTable k K V} {s : List (Elem k K V)} (h : Has g sz m t s) :
    (t.elements sz m).map (List.map Prod.snd) = .ok s ∧ t.core.size = s.length := by
  obtain ⟨q, h, -, rfl⟩ := h
  refine ⟨by rw [h.elements hsz]; rfl, ?_⟩
  obtain ⟨l, o, h, rfl⟩ := h
  rw [List.length_map, seq_length h.perm, h.length, h.core.size]

theorem created {sz : Int} {A : Alloc} (hA : A.Sound sz) {m m0 : Mem} {lf : LF} {t0 : GOTable k K V} (hc : OTable.create sz A m lf = (m0, t0)) :
    Has 0 sz m0 t0 [] := by
  obtain ⟨m1, t1, e, -, -, h, -⟩ := create_ok (hash := Prod.snd) (k := k) (K := Nat × Nat) (V := Elem k K V) hA m lf
  rw [hc] at e
  cases e
  exact ⟨[], ⟨[], [], h, rfl⟩, (fun x hx => by cases hx), rfl⟩

/-- C127: whatever the hash function and the comparison answer, every history of operations of a new ordered dense container, in any memory and with
any allocator, ends without undefined behaviour, each operation does to the sequence of elements what it may do and reports what it did, and
iteration visits that sequence. -/
theorem C127_history {sz : Int} (hsz : 0 < sz) {A : Alloc} (hA : A.Sound sz) {m m0 : Mem} {lf : LF} {t0 : GOTable k K V}
    (hc : OTable.create sz A m lf = (m0, t0)) (ops : List (WildOp k K V)) (hg : WildGuarded false ops = true) :
    ∃ m' t' os s, t0.runWild sz A 0 m0 ops = .ok (m', t', os) ∧ Did [] ops os s ∧
      (t'.elements sz m').map (List.map Prod.snd) = .ok s ∧ t'.core.size = s.length := by
  obtain ⟨m', t', os, s, g', e, d, h⟩ := runWild_ok hsz hA ops (created hA hc) (fun x => by cases x) hg
  exact ⟨m', t', os, s, e, d, h.elements hsz⟩

/-- C127: after such a history the element at any position of the iteration is found again, or another one in its place, by each key component, if
the hash is what it was when the element was inserted and the comparison always accepts the element. -/
theorem C127_found {sz : Int} (hsz : 0 < sz) {A : Alloc} (hA : A.Sound sz) {m m0 : Mem} {lf : LF} {t0 : GOTable k K V}
    (hc : OTable.create sz A m lf = (m0, t0)) (ops : List (WildOp k K V)) (hg : WildGuarded false ops = true)
    {r : Mem × GOTable k K V × List (Out k K V)} (e : t0.runWild sz A 0 m0 ops = .ok r) {l : List (Elem k (Nat × Nat) (Elem k K V))}
    (hl : r.2.1.elements sz r.1 = .ok l) {x : Elem k (Nat × Nat) (Elem k K V)} (hx : x ∈ l) (j : Fin k) {p : Nat → K → Bool}
    (hp : ∀ i, p i (x.2.1 j) = true) (g : Nat) :
    r.2.1.stepWild sz A g r.1 (.contains j (x.1 j).2 p) = .ok (r.1, r.2.1, .bool true) := by
  obtain ⟨m', t', os, s, g', e', d, q, h, -, -⟩ := runWild_ok hsz hA ops (created hA hc) (fun x => by cases x) hg
  rw [e] at e'
  cases e'
  rw [h.elements hsz] at hl
  cases hl
  obtain ⟨l, o, h, rfl⟩ := h
  obtain ⟨i, hi⟩ := List.getElem?_of_mem ((seq_perm h.perm).mem_iff.mp hx)
  obtain ⟨i', r', h1⟩ := Dense.findNodeWild_some h.core hi j (hp i)
  simp only [OTable.stepWild]
  rw [h1, bind_ok]
  rfl

/-- C127: after such a history the container can be copied, whatever was answered: the copy has the elements of the original in the same order, the
original keeps them, and any further history of the copy does what it may do. -/
theorem C127_copy {sz : Int} (hsz : 0 < sz) {A : Alloc} (hA : A.Sound sz) {m m0 : Mem} {lf : LF} {t0 : GOTable k K V}
    (hc : OTable.create sz A m lf = (m0, t0)) (ops : List (WildOp k K V)) (hg : WildGuarded false ops = true)
    {r : Mem × GOTable k K V × List (Out k K V)} (e : t0.runWild sz A 0 m0 ops = .ok r) (more : List (WildOp k K V))
    (hm : WildGuarded false more = true) :
    ∃ m1 u s, OTable.copyCtor sz A r.1 r.2.1 = .ok (m1, u) ∧ (r.2.1.elements sz r.1).map (List.map Prod.snd) = .ok s ∧
      r.2.1.elements sz m1 = r.2.1.elements sz r.1 ∧ u.elements sz m1 = r.2.1.elements sz r.1 ∧
      ∃ g m2 u2 os s2, u.runWild sz A g m1 more = .ok (m2, u2, os) ∧ Did s more os s2 ∧ (u2.elements sz m2).map (List.map Prod.snd) = .ok s2 := by
  obtain ⟨m', t', os, s, g', e', -, q, ⟨l, o, h, rfl⟩, hb, hq⟩ := runWild_ok hsz hA ops (created hA hc) (fun x => by cases x) hg
  rw [e] at e'
  cases e'
  obtain ⟨m1, u, e1, h1, -, f1⟩ := copyCtor_ok hsz hA h
  have h0 := h.frame f1 (fun _ _ => by simp)
  have hu : Has g' sz m1 u s := ⟨seq l o, ⟨l, o, h1, rfl⟩, hb, hq⟩
  obtain ⟨m2, u2, os2, s2, g2, e2, d2, k2⟩ := runWild_ok hsz hA more hu (b := false) (fun x => by cases x) hm
  have a0 := Holds.elements hsz ⟨l, o, h, rfl⟩
  have a1 := Holds.elements hsz ⟨l, o, h0, rfl⟩
  have a2 := Holds.elements hsz ⟨l, o, h1, rfl⟩
  refine ⟨m1, u, s, e1, ?_, by rw [a0, a1], by rw [a0, a2], g', m2, u2, os2, s2, e2, d2, (k2.elements hsz).1⟩
  rw [a0, ← hq]
  rfl

/-- C127: after such a history the container can be moved, whatever was answered: the new container has the elements in the same order, the former one is
empty, and any further histories of the one or the other do what they may do. -/
theorem C127_move {sz : Int} (hsz : 0 < sz) {A : Alloc} (hA : A.Sound sz) {m m0 : Mem} {lf : LF} {t0 : GOTable k K V}
    (hc : OTable.create sz A m lf = (m0, t0)) (ops : List (WildOp k K V)) (hg : WildGuarded false ops = true)
    {r : Mem × GOTable k K V × List (Out k K V)} (e : t0.runWild sz A 0 m0 ops = .ok r) (more : List (WildOp k K V))
    (hm : WildGuarded false more = true) :
    ∃ m1 u t1 s, OTable.moveCtor sz A r.1 r.2.1 = .ok (m1, u, t1) ∧ (r.2.1.elements sz r.1).map (List.map Prod.snd) = .ok s ∧
      u.elements sz m1 = r.2.1.elements sz r.1 ∧ t1.elements sz m1 = .ok [] ∧
      (∃ g m2 u2 os s2, u.runWild sz A g m1 more = .ok (m2, u2, os) ∧ Did s more os s2 ∧ (u2.elements sz m2).map (List.map Prod.snd) = .ok s2) ∧
      ∃ g m2 t2 os s2, t1.runWild sz A g m1 more = .ok (m2, t2, os) ∧ Did [] more os s2 ∧ (t2.elements sz m2).map (List.map Prod.snd) = .ok s2 := by
  obtain ⟨m', t', os, s, g', e', -, q, ⟨l, o, h, rfl⟩, hb, hq⟩ := runWild_ok hsz hA ops (created hA hc) (fun x => by cases x) hg
  rw [e] at e'
  cases e'
  obtain ⟨m1, u, t1, e1, h1, h2, -⟩ := moveCtor_ok hA h
  have hu : Has g' sz m1 u s := ⟨seq l o, ⟨l, o, h1, rfl⟩, hb, hq⟩
  have ht : Has 0 sz m1 t1 [] := ⟨[], ⟨[], [], h2, rfl⟩, (fun x hx => by cases hx), rfl⟩
  obtain ⟨m2, u2, os2, s2, g2, e2, d2, k2⟩ := runWild_ok hsz hA more hu (b := false) (fun x => by cases x) hm
  obtain ⟨m3, t3, os3, s3, g3, e3, d3, k3⟩ := runWild_ok hsz hA more ht (b := false) (fun x => by cases x) hm
  have a0 := Holds.elements hsz ⟨l, o, h, rfl⟩
  have a1 := Holds.elements hsz ⟨l, o, h1, rfl⟩
  refine ⟨m1, u, t1, s, e1, ?_, by rw [a0, a1], Holds.elements hsz ⟨[], [], h2, rfl⟩, ⟨g', m2, u2, os2, s2, e2, d2, (k2.elements hsz).1⟩,
    0, m3, t3, os3, s3, e3, d3, (k3.elements hsz).1⟩
  rw [a0, ← hq]
  rfl

/-- An answer without the functions in it, to compare. -/
def flatOut : Out 2 Nat Nat → List Nat
  | .unit => [0]
  | .bool b => [1, b.toNat]
  | .nat n => [2, n]
  | .ins e b => [3, e.1 0, e.1 1, e.2, b.toNat]
  | .elem none => [5]
  | .elem (some e) => [5, e.1 0, e.1 1, e.2]
  | .list l => 6 :: l.flatMap fun e => [e.1 0, e.1 1, e.2]

/-- The outcome of a history of a new container. -/
def wildly (ops : List (WildOp 2 Nat Nat)) : M (List (List Nat)) :=
  let c : Mem × GOTable 2 Nat Nat := OTable.create 24 bump mem0 .initial
  (c.2.runWild 24 bump 0 c.1 ops).map fun r => r.2.2.map flatOut

/-- Two key components; equal keys are rejected at first, different ones are accepted later.  The erased element was the first of the array, so that
the last one takes its place there, and the order is still that of the insertions. -/
example : wildly [.insert (fun _ => 7) (fun _ _ _ => false) (fun _ => 1) 10, .insert (fun _ => 7) (fun _ _ _ => false) (fun _ => 1) 11,
    .emplace (fun _ => 7) (fun j i _ => j == 1 && i == 0) (fun _ => 5) 12, .insert (fun j => 8 + j.val) (fun _ _ _ => true) (fun _ => 1) 13,
    .contains 0 9 (fun _ _ => true), .contains 1 9 (fun _ _ => true), .erase 1 7 (fun i _ => i == 0), .erase 0 7 (fun _ _ => false), .iterate,
    .reverse, .front] = .ok
    [[3, 1, 1, 10, 1], [3, 1, 1, 11, 1], [3, 1, 1, 10, 0], [3, 1, 1, 13, 1], [1, 0], [1, 1], [1, 1], [1, 0], [6, 1, 1, 11, 1, 1, 13],
      [6, 1, 1, 13, 1, 1, 11], [5, 1, 1, 11]] := by
  decide +kernel

/-- Twenty insertions of one key with one hash that the comparison rejects each time: the order is kept while the array grows. -/
example : wildly (((List.range 20).map fun v => .insert (fun _ => 5) (fun _ _ _ => false) (fun _ => 1) v) ++ [.iterate]) =
    .ok (((List.range 20).map fun v => [3, 1, 1, v, 1]) ++ [6 :: (List.range 20).flatMap fun v => [1, 1, v]]) := by
  decide +kernel

/-- The sequences of a container, of its copy and of the copy after a further insertion. -/
def twice (ops more : List (WildOp 2 Nat Nat)) : M (List (List Nat)) := do
  let c : Mem × GOTable 2 Nat Nat := OTable.create 24 bump mem0 .initial
  let r ← c.2.runWild 24 bump 0 c.1 ops
  let d ← OTable.copyCtor 24 bump r.1 r.2.1
  let s ← d.2.runWild 24 bump 100 d.1 more
  let a ← r.2.1.elements 24 s.1
  let b ← s.2.1.elements 24 s.1
  .ok [a.map fun x => x.2.2, b.map fun x => x.2.2]

example : twice [.insert (fun _ => 7) (fun _ _ _ => false) (fun _ => 1) 10, .insert (fun _ => 7) (fun _ _ _ => false) (fun _ => 1) 11,
    .insert (fun _ => 7) (fun _ _ _ => false) (fun _ => 1) 12, .erase 1 7 (fun i _ => i == 0)]
    [.insert (fun _ => 7) (fun _ _ _ => false) (fun _ => 1) 13] = .ok [[11, 12], [11, 12, 13]] := by
  decide +kernel

/-- The sequences of a moved container and of the former one after a further insertion. -/
example : (do
    let c : Mem × GOTable 2 Nat Nat := OTable.create 24 bump mem0 .initial
    let r ← c.2.runWild 24 bump 0 c.1 [.insert (fun _ => 7) (fun _ _ _ => false) (fun _ => 1) 10, .insert (fun _ => 7) (fun _ _ _ => false) (fun _ => 1) 11,
      .insert (fun _ => 7) (fun _ _ _ => false) (fun _ => 1) 12, .erase 1 7 (fun i _ => i == 0)]
    let d ← OTable.moveCtor 24 bump r.1 r.2.1
    let s ← d.2.2.runWild 24 bump 100 d.1 [.insert (fun _ => 7) (fun _ _ _ => true) (fun _ => 1) 13]
    let a ← d.2.1.elements 24 s.1
    let b ← s.2.1.elements 24 s.1
    .ok [a.map fun x => x.2.2, b.map fun x => x.2.2] : M (List (List Nat))) = .ok [[11, 12], [13]] := by
  decide +kernel

end Tpp.ODense
