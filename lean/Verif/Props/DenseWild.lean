import Verif.Dense.Wild
import Verif.Dense.Faults

/-!
# C124: hash functions and comparisons that answer arbitrarily (dense containers)

What C123 says of sparse and stable containers, for dense ones with any number of key components.  `erase(key)` has to wait until there are buckets,
whatever the functions answer (C41).
-/

set_option linter.unusedSectionVars false

namespace Tpp.Dense

variable {k : Nat} {K V : Type}

/-- A history each operation of which does what it may. -/
inductive Did : List (Elem k K V) → List (WildOp k K V) → List (Out k K V) → List (Elem k K V) → Prop
  | nil {l} : Did l [] [] l
  | cons {l l' l'' op ops o os} : Does l l' o op → Did l' ops os l'' → Did l (op :: ops) (o :: os) l''

/-- `erase(key)` is only called once there are buckets; the flag tells whether there are at the beginning. -/
def WildGuarded : Bool → List (WildOp k K V) → Bool
  | _, [] => true
  | b, .erase _ _ _ :: os => b && WildGuarded b os
  | _, .insert _ _ _ _ :: os | _, .emplace _ _ _ _ :: os | _, .assign _ _ _ _ _ :: os => WildGuarded true os
  | b, .rehash n :: os => WildGuarded (b || n ≠ 0) os
  | b, _ :: os => WildGuarded b os

theorem wildGuarded_cons {b : Bool} {o : WildOp k K V} {os : List (WildOp k K V)} (h : WildGuarded b (o :: os) = true) :
    (o.needs = true → b = true) ∧ WildGuarded (o.buckets b) os = true := by
  cases o with
  | erase j x p =>
    simp only [WildGuarded, Bool.and_eq_true] at h
    exact ⟨fun _ => h.1, h.2⟩
  | _ => exact ⟨fun e => (by cases e), h⟩

theorem runWild_ok : ∀ (ops : List (WildOp k K V)) {g : Nat} {t : GTable k K V} {m : List (Elem k (Nat × Nat) (Elem k K V))} {b : Bool},
    Inv Prod.snd t m → Below g m → (b = true → 0 < t.bc) → WildGuarded b ops = true →
    ∃ t' os m', t.runWild g ops = .ok (t', os) ∧ Inv Prod.snd t' m' ∧ Did (m.map Prod.snd) ops os (m'.map Prod.snd)
  | [], g, t, m, b, h, _, _, _ => ⟨t, [], m, rfl, h, .nil⟩
  | op :: ops, g, t, m, b, h, hg, hb, hw => by
    obtain ⟨w1, w2⟩ := wildGuarded_cons hw
    obtain ⟨r, m1, e, h1, h2, h3, h4⟩ := stepWild_ok h hg op (fun x => hb (w1 x))
    obtain ⟨t', os, m', e', h5, h6⟩ := runWild_ok ops h1 h2 (h4 b hb) w2
    refine ⟨t', r.2 :: os, m', ?_, h5, .cons h3 h6⟩
    unfold Table.runWild
    rw [e, bind_ok, e', bind_ok]

/-- C124: whatever the hash function and the comparison answer, every history of operations of a dense container ends without undefined behaviour,
every operation does to the sequence of elements what it may do, and reports what it did; afterwards iteration visits these elements in this order
and `size()` is their number. -/
theorem C124_dense_history (lf : LF) (ops : List (WildOp k K V)) (hg : WildGuarded false ops = true) :
    ∃ t os l, (Table.init lf : GTable k K V).runWild 0 ops = .ok (t, os) ∧ Did [] ops os l ∧ t.size = l.length ∧
      ∀ g, t.stepWild g .iterate = .ok (t, .list l) := by
  obtain ⟨t, os, m, e, h, hd⟩ := runWild_ok ops (g := 0) (init_inv Prod.snd lf) (fun x hx => by cases hx) (fun x => by cases x) hg
  refine ⟨t, os, m.map Prod.snd, e, hd, by rw [h.size, List.length_map], fun g => ?_⟩
  simp only [Table.stepWild]
  rw [iterate_ok h.toArr, bind_ok]

/-- C124: after such a history the chains are those of a proper container: with the stored element of any position, the hash that was computed for
component `j` when it was inserted and a comparison that accepts it, a search succeeds, whatever is answered for other elements. -/
theorem C124_dense_found (lf : LF) (ops : List (WildOp k K V)) (hg : WildGuarded false ops = true) {t : GTable k K V} {os : List (Out k K V)}
    (e : (Table.init lf : GTable k K V).runWild 0 ops = .ok (t, os)) {i : Nat} {n : Node k (Nat × Nat) (Elem k K V)} (hn : t.node i = some n)
    (j : Fin k) {p : Nat → K → Bool} (hp : p i (n.val.1 j) = true) (g : Nat) :
    t.stepWild g (.contains j (n.hash j) p) = .ok (t, .bool true) := by
  obtain ⟨t', os', m, e', h, -⟩ := runWild_ok ops (g := 0) (init_inv Prod.snd lf) (fun x hx => by cases hx) (fun x => by cases x) hg
  rw [e] at e'
  cases e'
  obtain ⟨i', r, h1⟩ := findNodeWild_some h (h.toArr.node_elem hn) j hp
  simp only [Table.stepWild]
  rw [h.hashed i n hn j, h1, bind_ok]
  rfl

/-- Two key components; the comparison rejects equal keys at first and accepts different ones later. -/
def moody : List (WildOp 2 Nat Nat) :=
  [.insert (fun _ => 7) (fun _ _ _ => false) (fun _ => 1) 10, .insert (fun _ => 7) (fun _ _ _ => false) (fun _ => 1) 11,
    .emplace (fun _ => 7) (fun j i _ => j == 1 && i == 0) (fun _ => 5) 12, .insert (fun j => 8 + j.val) (fun _ _ _ => true) (fun _ => 1) 13, .size,
    .contains 0 9 (fun _ _ => true), .contains 1 9 (fun _ _ => true), .erase 1 7 (fun i _ => i == 0), .erase 0 7 (fun _ _ => false), .iterate]

/-- An answer without the functions in it, to compare. -/
def plainOut : Out 2 Nat Nat → List Nat
  | .unit => [0]
  | .bool b => [1, b.toNat]
  | .nat n => [2, n]
  | .ins i b => [3, i, b.toNat]
  | .pos i => [4, i]
  | .elem none => [5]
  | .elem (some e) => [5, e.1 0, e.1 1, e.2]
  | .list l => 6 :: l.flatMap fun e => [e.1 0, e.1 1, e.2]

example : WildGuarded false moody = true := rfl

example : ((Table.init .initial : GTable 2 Nat Nat).runWild 0 moody).map (fun r => r.2.map plainOut) = .ok
    [[3, 0, 1], [3, 1, 1], [3, 0, 0], [3, 2, 1], [2, 3], [1, 0], [1, 1], [4, 0], [4, 2], [6, 1, 1, 13, 1, 1, 11]] := by
  decide +kernel

end Tpp.Dense
