import Verif.Ordered.DenseCore
import Verif.Ordered.SwissCore
import Verif.Props.Average
import Verif.Props.SwissAverage

/-!
# C112: an ordered container stores its elements where an unordered one would
-/

set_option linter.unusedSectionVars false

namespace Tpp.ODense

open Tpp.Dense (Elem LF Table)
open Tpp.Ordered

variable {k : Nat} {K V : Type} [DecidableEq K]

theorem createN_core (sz : Int) (A : Alloc) (m : Mem) (lf : LF) (n : Nat) :
    (OTable.createN sz A m lf n : Mem × OTable k K V).2.core = if n = 0 then Table.init lf else Table.withBuckets lf n := by
  unfold OTable.createN
  split <;> rfl

/-- C112: whatever a program does to an ordered dense container, its array and its buckets are exactly those of an unordered container made
and used in the same way. -/
theorem C112_dense_same {hash : K → Nat} {sz : Int} {A : Alloc} {m : Mem} {lf : LF} {n : Nat} {os : List (Op k K V)}
    {r : Mem × OTable k K V × List (Out k K V)}
    (e : (OTable.createN sz A m lf n : Mem × OTable k K V).2.run hash sz A (OTable.createN (k := k) (K := K) (V := V) sz A m lf n).1 os = .ok r) :
    ∃ ps : List Nat, ps.length = os.length ∧ ∃ outs,
      (if n = 0 then Table.init lf else Table.withBuckets lf n : Table k K V).run hash (List.zipWith Op.plain ps os) = .ok (r.2.1.core, outs) := by
  obtain ⟨ps, h1, outs, h2⟩ := run_plain e
  rw [createN_core] at h2
  exact ⟨ps, h1, outs, h2⟩

/-- An operation that does not name an element by an iterator. -/
def Op.noIter : Op k K V → Bool
  | .eraseNth _ => false
  | _ => true

theorem plain_any {o : Op k K V} (h : o.noIter = true) (p q : Nat) : o.plain p = o.plain q := by
  cases o <;> first | rfl | cases h

theorem zip_plain : ∀ {ps : List Nat} {os : List (Op k K V)}, ps.length = os.length → (∀ o ∈ os, o.noIter = true) →
    List.zipWith Op.plain ps os = os.map (Op.plain 0)
  | [], [], _, _ => rfl
  | p :: ps, o :: os, hl, h => by
    simp only [List.zipWith_cons_cons, List.map_cons]
    rw [zip_plain (by simpa using hl) (fun o ho => h o (List.mem_cons_of_mem _ ho)), plain_any (h o (List.mem_cons_self ..)) p 0]

/-- C112: in particular, if the program erases by key only, then the unordered container performs the very same operations. -/
theorem C112_dense_keys {hash : K → Nat} {sz : Int} {A : Alloc} {m : Mem} {lf : LF} {n : Nat} {os : List (Op k K V)}
    (ho : ∀ o ∈ os, o.noIter = true) {r : Mem × OTable k K V × List (Out k K V)}
    (e : (OTable.createN sz A m lf n : Mem × OTable k K V).2.run hash sz A (OTable.createN (k := k) (K := K) (V := V) sz A m lf n).1 os = .ok r) :
    ∃ outs, (if n = 0 then Table.init lf else Table.withBuckets lf n : Table k K V).run hash (os.map (Op.plain 0)) = .ok (r.2.1.core, outs) := by
  obtain ⟨ps, h1, outs, h2⟩ := C112_dense_same e
  rw [zip_plain h1 ho] at h2
  exact ⟨outs, h2⟩

theorem reach_run {hash : K → Nat} : ∀ {os : List (Dense.Op k K V)} {t : Table k K V} {r : Table k K V × List (Dense.Out k K V)},
    Dense.Reachable hash t → t.run hash os = .ok r → Dense.Reachable hash r.1
  | [], t, r, h, e => by cases e; exact h
  | o :: os, t, r, h, e => by
    simp only [Table.run] at e
    obtain ⟨s, e1, e⟩ := Dense.bind_eq_ok e
    obtain ⟨s', e2, e⟩ := Dense.bind_eq_ok e
    have e3 := reach_run (h.step e1) e2
    cases e
    exact e3

/-- C112: so everything proved of the unordered containers a program can obtain holds for what ordered ones store their elements in. -/
theorem C112_dense_reachable {hash : K → Nat} {sz : Int} {A : Alloc} {m : Mem} {lf : LF} {n : Nat} {os : List (Op k K V)}
    {r : Mem × OTable k K V × List (Out k K V)}
    (e : (OTable.createN sz A m lf n : Mem × OTable k K V).2.run hash sz A (OTable.createN (k := k) (K := K) (V := V) sz A m lf n).1 os = .ok r) :
    Dense.Reachable hash r.2.1.core := by
  obtain ⟨ps, _, outs, h2⟩ := C112_dense_same e
  refine reach_run ?_ h2
  split
  · exact .init lf
  · exact .withBuckets lf n

/-- C112: for instance, the failing searches of an ordered dense container visit, summed over its buckets, exactly as many nodes as the container
has elements. -/
theorem C112_dense_absent {hash : K → Nat} {sz : Int} {A : Alloc} {m : Mem} {lf : LF} {n : Nat} {os : List (Op k K V)}
    {r : Mem × OTable k K V × List (Out k K V)}
    (e : (OTable.createN sz A m lf n : Mem × OTable k K V).2.run hash sz A (OTable.createN (k := k) (K := K) (V := V) sz A m lf n).1 os = .ok r)
    (j : Fin k) (hb : r.2.1.core.bc ≠ 0) {x : Nat → K} (hx : ∀ b < r.2.1.core.bc, hash (x b) % r.2.1.core.bc = b)
    (habs : ∀ b < r.2.1.core.bc, r.2.1.core.contains hash j (x b) = .ok false) :
    ∃ w : Nat → Nat, (∀ b < r.2.1.core.bc, r.2.1.core.visits hash j (x b) = .ok (w b)) ∧
      ∑ b ∈ Finset.range r.2.1.core.bc, w b = r.2.1.core.size := by
  have h := C112_dense_reachable e
  obtain ⟨l, hi⟩ := h.inv
  obtain ⟨w, h1, h2⟩ := Dense.C108_dense_absent h (Dense.iterate_ok hi.toArr) j hb hx habs
  exact ⟨w, fun b hb => (h1 b hb).1, h2⟩

/-- The mapped values in the array, and the number of buckets. -/
def arrayOf (t : Table 1 Nat Nat) : List (Option Nat) × Nat := ((List.range t.size).map fun i => (t.node i).map Dense.Node.val, t.bc)

/-- An ordered container and an unordered one with the same history: the iterator to the second element of the ordered one designates the
element at position 0 of the array. -/
def coreOps : List (Op 1 Nat Nat) :=
  [.insert (fun _ => 3) 30, .insert (fun _ => 5) 50, .insert (fun _ => 4) 40, .erase 0 3, .eraseNth 1, .insert (fun _ => 7) 70]

example : ((OTable.createN 24 bump mem0 Dense.LF.initial 2 : Mem × OTable 1 Nat Nat).2.run h3 24 bump
      (OTable.createN (k := 1) (K := Nat) (V := Nat) 24 bump mem0 Dense.LF.initial 2).1 coreOps).toOption.map (fun r => arrayOf r.2.1.core) =
    some ([some 50, some 70], 4) := by decide +kernel

example : ((Table.withBuckets Dense.LF.initial 2 : Table 1 Nat Nat).run h3
      (List.zipWith Op.plain [0, 0, 0, 0, 0, 0] coreOps)).toOption.map (fun r => arrayOf r.1) = some ([some 50, some 70], 4) := by decide +kernel

end Tpp.ODense

namespace Tpp.OSwiss

open Tpp.Swiss (Node Ev Table Inv Ends)
open Tpp.Ordered
open Tpp.ODense (mem0)

variable {K V : Type} [DecidableEq K] {c : Cfg K}

/-- C112: whatever a program does to an ordered sparse or stable container, and even after an exchange of linked nodes (C52), its elements are in
the slots in which an unordered container used in the same way has them, and the control bytes are the same.  With 8-byte blocks the unordered
container can run into `ctz(0)` where it makes an iterator (C32), the ordered one makes no such iterators. -/
theorem C112_sparse_same (m : Mem) {os : List (Op K V)} {r : Mem × OTable K V × List (Out K V)}
    (e : (OTable.create (V := V) c m).2.run c (OTable.create (V := V) c m).1 os = .ok r) :
    ∃ ks : List (List K), ks.length = os.length ∧ Ends c.isa ((Table.init : Table K V).run c.isa c.hash (plainRun ks os))
      (fun s => ({ s.1 with log := [] } : Table K V) = { r.2.1.core with log := [] }) := by
  obtain ⟨ks, h1, h2⟩ := run_plain (u := Table.init) ⟨Inv.init _ _, rfl⟩ e
  exact ⟨ks, h1, h2.mono fun _ h => h.2⟩

/-- C112 for containers constructed with a number of buckets. -/
theorem C112_sparse_sized (m : Mem) {n b : Nat} (hn : n + 1 = 2 ^ b) {w : Mem × OTable K V} (hw : OTable.createN c m n = .ok w) {os : List (Op K V)}
    {r : Mem × OTable K V × List (Out K V)} (e : w.2.run c w.1 os = .ok r) :
    ∃ u, Table.withCapacity c.isa n = .ok u ∧ ∃ ks : List (List K), ks.length = os.length ∧
      Ends c.isa (u.run c.isa c.hash (plainRun ks os)) (fun s => ({ s.1 with log := [] } : Table K V) = { r.2.1.core with log := [] }) := by
  unfold OTable.createN at hw
  obtain ⟨u, h1, hw⟩ := Dense.bind_eq_ok hw
  cases hw
  obtain ⟨t, g1, g2, _⟩ := Swiss.withCapacity_spec (K := K) (V := V) (isa := c.isa) (hash := c.hash) hn
  rw [h1] at g1
  cases g1
  obtain ⟨ks, h2, h3⟩ := run_plain (u := u) ⟨g2, rfl⟩ e
  exact ⟨u, h1, ks, h2, h3.mono fun _ h => h.2⟩

/-- An operation that neither names an element by an iterator nor erases in the order of the links. -/
def Op.noIter : Op K V → Bool
  | .eraseNth _ | .eraseRange _ _ | .eraseIf _ => false
  | _ => true

theorem plain_any {o : Op K V} (h : o.noIter = true) (p q : List K) : o.plain p = o.plain q := by
  cases o <;> first | rfl | cases h

theorem plainRun_any : ∀ {ks : List (List K)} {os : List (Op K V)}, ks.length = os.length → (∀ o ∈ os, o.noIter = true) →
    plainRun ks os = os.flatMap (Op.plain [])
  | [], [], _, _ => rfl
  | k :: ks, o :: os, hl, h => by
    show o.plain k ++ plainRun ks os = _
    rw [plainRun_any (by simpa using hl) (fun o ho => h o (List.mem_cons_of_mem _ ho)), plain_any (h o (List.mem_cons_self ..)) k [],
      List.flatMap_cons]

/-- C112: if the program erases by key only, then the unordered container performs the very same operations. -/
theorem C112_sparse_keys (m : Mem) {os : List (Op K V)} (ho : ∀ o ∈ os, o.noIter = true) {r : Mem × OTable K V × List (Out K V)}
    (e : (OTable.create (V := V) c m).2.run c (OTable.create (V := V) c m).1 os = .ok r) :
    Ends c.isa ((Table.init : Table K V).run c.isa c.hash (os.flatMap (Op.plain [])))
      (fun s => ({ s.1 with log := [] } : Table K V) = { r.2.1.core with log := [] }) := by
  obtain ⟨ks, h1, h2⟩ := C112_sparse_same m e
  rw [plainRun_any h1 ho] at h2
  exact h2

theorem reach_run {isa : Isa} {hash : K → Nat} : ∀ {os : List (Tpp.Op K V)} {t : Table K V} {r : Table K V × List (Tpp.Out K V)},
    Swiss.Reachable isa hash t → t.run isa hash os = .ok r → Swiss.Reachable isa hash r.1
  | [], t, r, h, e => by cases e; exact h
  | o :: os, t, r, h, e => by
    simp only [Table.run] at e
    obtain ⟨s, e1, e⟩ := Dense.bind_eq_ok e
    obtain ⟨s', e2, e⟩ := Dense.bind_eq_ok e
    have e3 := reach_run (h.step e1) e2
    cases e
    exact e3

/-- C112: with SSE2 blocks, whatever holds for the slots and control bytes of the unordered containers a program can obtain holds for those of
ordered ones. -/
theorem C112_sparse_reachable (m : Mem) (hi : c.isa = .sse2) {os : List (Op K V)} {r : Mem × OTable K V × List (Out K V)}
    (e : (OTable.create (V := V) c m).2.run c (OTable.create (V := V) c m).1 os = .ok r) :
    ∃ u : Table K V, Swiss.Reachable .sse2 c.hash u ∧ ({ u with log := [] } : Table K V) = { r.2.1.core with log := [] } := by
  obtain ⟨ks, _, h2⟩ := C112_sparse_same m e
  rw [hi] at h2
  rcases h2 with ⟨s, e1, h⟩ | ⟨hw, _⟩
  · exact ⟨s.1, reach_run (.init _) e1, h⟩
  · cases hw

/-- C112: for instance, what C109 says of the failing searches holds for ordered containers. -/
theorem C112_sparse_absent (hsz : 0 < c.sz) (hA : c.A.Sound c.sz) (m : Mem) {os : List (Op K V)} {r : Mem × OTable K V × List (Out K V)}
    (e : (OTable.create (V := V) c m).2.run c (OTable.create (V := V) c m).1 os = .ok r) (hs : r.2.1.core.size ≠ 0) {x : Nat → K} {p : Nat}
    (hx : ∀ g < 128, c.hash (x g) % 128 = g ∧ c.hash (x g) / 128 % (r.2.1.core.cap + 1) = p)
    (habs : ∀ g < 128, r.2.1.core.contains c.isa c.hash (x g) = .ok false) :
    ∃ (w : Nat → Nat) (b : Nat), b ≤ r.2.1.core.cap / c.isa.W + 1 ∧
      (∀ g < 128, ∃ tr, r.2.1.core.findNodeT c.isa (x g) (c.hash (x g)) = .ok (r.2.1.core.cap, tr, b) ∧ tr.length = w g) ∧
      8 * ∑ g ∈ Finset.range 128, w g < 128 * b := by
  have h := (run_index hsz hA os (Inv.init _ _) (create_sep c m) e).1
  have hno : ∀ g < 128, r.2.1.core.findNode c.isa (x g) (c.hash (x g)) = .ok r.2.1.core.cap := by
    intro g hg
    have e := habs g hg
    unfold Table.contains at e
    obtain ⟨i, h1, e⟩ := Dense.bind_eq_ok e
    rw [h1]
    simp only [Except.ok.injEq, bne_eq_false_iff_eq] at e
    rw [e]
  obtain ⟨tr, b, h1, h2, _⟩ := Swiss.sum_misses h hs hx hno
  refine ⟨fun g => (tr g).length, b, ?_, fun g hg => ⟨tr g, h1 g hg, rfl⟩, ?_⟩
  · obtain ⟨i, tr', b', e, _, hb, _⟩ := Swiss.findNodeT_spec h (x 0)
    rw [h1 0 (by omega)] at e
    cases e
    exact hb
  · revert h2
    cases c.isa <;> simp only [Swiss.slack, Isa.W] <;> intro h2 <;> omega

/-- The keys in the slots. -/
def slotKeys (t : Table Nat Nat) : List (Option Nat) := (List.range t.cap).map fun i => (t.node i).map Node.key

set_option maxRecDepth 100000 in
/-- A queue of 22 elements, in which linked nodes are exchanged (C52), with an erasure by iterator before. -/
example : ((OTable.create (V := Nat) c8 mem0).2.run c8 (OTable.create (V := Nat) c8 mem0).1 ([.insert 99 1, .eraseNth 0] ++ queue 22 41)).toOption.map
        (fun r => slotKeys r.2.1.core) =
      ((Table.init : Table Nat Nat).run .neon c8.hash (plainRun ([[], [99]] ++ List.replicate 60 []) ([.insert 99 1, .eraseNth 0] ++ queue 22 41))).toOption.map
        (fun r => slotKeys r.1) ∧
    ((OTable.create (V := Nat) c8 mem0).2.run c8 (OTable.create (V := Nat) c8 mem0).1 ([.insert 99 1, .eraseNth 0] ++ queue 22 41)).toOption.isSome = true := by
  decide +kernel

end Tpp.OSwiss
