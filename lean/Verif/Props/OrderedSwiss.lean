import Verif.Ordered.SwissExchange
import Verif.Ordered.SwissHint
import Verif.Ordered.SwissWorld
import Verif.Props.OrderedDense

/-!
# C52–C54, C56–C61: the ordered sparse and stable containers

`Reached c w s`: a program that only uses operations the code supports (`World.allowed`), and in which no two linked nodes were
exchanged while erased slots were reclaimed in place (`C52_swiss_reclaim_false` shows what happens then), has produced the world `w`,
i.e. any number of containers in one memory, and the containers ought to hold the sequences `s`.  The memory was in any state when the
program began; `c` fixes the block width, the hash function, the size of a node and any allocator that does not hand out storage in
use.

`t.nth m n`: the iterator `std::next(begin(), n)`.

Theorems about `Reached` containers are marked partial because the properties speak of all containers; what is missing is always the
containers in which linked nodes were exchanged, and what the theorem itself names.
-/

set_option linter.unusedSectionVars false

namespace Tpp.OSwiss

open Tpp.Swiss (Node Ev Table Inv NoTomb AllocP Copyable CopyFits)
open Tpp.Ordered
open Tpp.ODense (bump bump_sound mem0)

variable {K V : Type} [DecidableEq K] {c : Cfg K}

/-- The worlds a program can produce, with the sequences the containers ought to hold. -/
def Reached (c : Cfg K) (w : World K V) (s : Seqs K V) : Prop :=
  ∃ m os outs, World.Guarded c.stop ⟨m, fun _ => none⟩ (fun _ => none) os = true ∧
    World.run c.stop ⟨m, fun _ => none⟩ os = .ok (w, outs) ∧ s = (WSpec.run (fun _ => none) os).1

/-- The code, which does not stop, produces the same world. -/
theorem Reached.code {w : World K V} {s : Seqs K V} (h : Reached c w s) :
    ∃ m os outs, World.run c ⟨m, fun _ => none⟩ os = .ok (w, outs) ∧ s = (WSpec.run (fun _ => none) os).1 := by
  obtain ⟨m, os, outs, _, e, q⟩ := h
  exact ⟨m, os, outs, (wrun_le c os _).ok e, q⟩

theorem Holds.unstop {m : Mem} {t : OTable K V} {q : List (K × V)} (h : Holds c.stop m t q) : Holds c m t q := by
  obtain ⟨o, ⟨h1, h2⟩, e⟩ := h
  exact ⟨o, ⟨h1, h2⟩, e⟩

theorem Holds.restop {m : Mem} {t : OTable K V} {q : List (K × V)} (h : Holds c m t q) : Holds c.stop m t q := by
  obtain ⟨o, ⟨h1, h2⟩, e⟩ := h
  exact ⟨o, ⟨h1, h2⟩, e⟩

theorem WInv.unstop {w : World K V} {s : Seqs K V} (h : WInv c.stop w s) : WInv c w s :=
  ⟨h.none, fun i t ht => by
    obtain ⟨l, e, hl⟩ := h.holds i t ht
    exact ⟨l, e, hl.unstop⟩, h.apart⟩

theorem Reached.inv (hsz : 0 < c.sz) (hA : c.A.Sound c.sz) {w : World K V} {s : Seqs K V} (h : Reached c w s) : WInv c w s := by
  obtain ⟨m, os, outs, hg, e, rfl⟩ := h
  rcases wrun_ok (c := c.stop) hsz hA rfl os (winit m) hg with ⟨_, q⟩ | ⟨r, e', _, h'⟩
  · rw [q] at e; cases e
  · rw [e'] at e
    cases e
    exact h'.unstop

theorem Reached.holds (hsz : 0 < c.sz) (hA : c.A.Sound c.sz) {w : World K V} {s : Seqs K V} (h : Reached c w s) {i : Nat}
    {t : OTable K V} (ht : w.tab i = some t) {q : List (K × V)} (hq : s i = some q) : Holds c w.mem t q := by
  obtain ⟨q', e, hh⟩ := (h.inv hsz hA).holds i t ht
  rw [hq] at e
  cases e
  exact hh

/-- `for (auto &e : t)`. -/
def OTable.elements (sz : Int) (m : Mem) (t : OTable K V) : M (List (K × V)) := do
  let a ← t.first m
  walk m t.hd (t.elemAt sz) (t.core.size + 1) a

theorem Shows.elements (hsz : 0 < c.sz) {m : Mem} {t : OTable K V} {o : List Nat} (h : Shows c m t o) :
    t.elements c.sz m = .ok (seqOf t.core.node o) := by
  unfold OTable.elements
  rw [h.first_ok, bind_ok, h.iterate_ok hsz]

theorem Holds.elements (hsz : 0 < c.sz) {m : Mem} {t : OTable K V} {q : List (K × V)} (h : Holds c m t q) :
    t.elements c.sz m = .ok q := by
  obtain ⟨o, h, rfl⟩ := h
  exact h.shows.elements hsz

/-! ## Containers used to illustrate the theorems -/

/-- Multiples of 64: pairs of keys have the same home position. -/
def h64 : Nat → Nat := fun n => n * 64

/-- The code, with 16 byte blocks and with 8 byte blocks. -/
def c16 : Cfg Nat := ⟨.sse2, h64, 24, bump, false⟩
def c8 : Cfg Nat := ⟨.neon, h64, 24, bump, false⟩

/-- The world after a history that does not fault. -/
def after (c : Cfg Nat) (os : List (WOp Nat Nat)) : World Nat Nat :=
  match World.run c ⟨mem0, fun _ => none⟩ os with
  | .ok r => r.1
  | .error _ => ⟨mem0, fun _ => none⟩

/-- The history stays within what the code supports and exchanges no linked nodes. -/
def fine (c : Cfg Nat) (os : List (WOp Nat Nat)) : Bool :=
  World.Guarded c.stop ⟨mem0, fun _ => none⟩ (fun _ => none) os &&
    match World.run c.stop ⟨mem0, fun _ => none⟩ os with
    | .ok _ => true
    | .error _ => false

theorem after_reached {c : Cfg Nat} {os : List (WOp Nat Nat)} (h : fine c os = true) :
    Reached c (after c os) (WSpec.run (fun _ => none) os).1 := by
  unfold fine at h
  rw [Bool.and_eq_true] at h
  cases e : World.run c.stop ⟨mem0, fun _ => none⟩ os with
  | error f =>
    rw [e] at h
    cases h.2
  | ok r =>
    refine ⟨mem0, os, r.2, h.1, ?_, rfl⟩
    unfold after
    rw [e, (wrun_le c os _).ok e]

/-- Insert the keys `1, …, n` into container `id`. -/
def fill (id n : Nat) : List (WOp Nat Nat) :=
  .create id :: (List.range n).map fun i => .op id (.insert (i + 1) (10 * (i + 1)))

/-- The container with number `id`. -/
def World.get (w : World K V) (id : Nat) : OTable K V := (w.tab id).getD ⟨Table.init, 0, 0⟩

/-! ## C52 -/

namespace Spec

def run (l : List (K × V)) : List (Op K V) → List (K × V) × List (Out K V)
  | [] => (l, [])
  | o :: os => ((run (step l o).1 os).1, (step l o).2 :: (run (step l o).1 os).2)

end Spec

/-- A history on one container. -/
def OTable.run (c : Cfg K) (m : Mem) (t : OTable K V) : List (Op K V) → M (Mem × OTable K V × List (Out K V))
  | [] => .ok (m, t, [])
  | o :: os => do
    let r ← t.step c m o
    let r' ← r.2.1.run c r.1 os
    .ok (r'.1, r'.2.1, r.2.2 :: r'.2.2)

/-- How many insertions a history contains. -/
def insertions (ops : List (Op K V)) : Nat := (ops.map Op.inserts).sum

theorem orun_ok (hsz : 0 < c.sz) (hA : c.A.Sound c.sz) : ∀ (ops : List (Op K V)) {m : Mem} {t : OTable K V} {s : List (K × V)},
    Holds c m t s → ((NoTomb t.core ∧ ∀ o ∈ ops, o.erases = false) ∨ (Room t (insertions ops) ∧ ∀ o ∈ ops, o.rehashes = false)) →
    ∃ m' t', t.run c m ops = .ok (m', t', (Spec.run s ops).2) ∧ Holds c m' t' (Spec.run s ops).1
  | [], m, t, s, h, _ => ⟨m, t, rfl, h⟩
  | o :: os, m, t, s, h, hg => by
    have hi : insertions (o :: os) = o.inserts + insertions os := by simp [insertions]
    have hb : False ∨ NoTomb t.core ∨ Room t o.inserts := by
      right
      rcases hg with ⟨g, _⟩ | ⟨g, _⟩
      · exact Or.inl g
      · exact Or.inr (g.mono (by omega))
    obtain ⟨r, e, h1, h2, h3, h4⟩ := (step_ok (c := c.stop) hsz hA rfl h.restop o hb).get id
    have hg' : (NoTomb r.2.1.core ∧ ∀ o ∈ os, o.erases = false) ∨ (Room r.2.1 (insertions os) ∧ ∀ o ∈ os, o.rehashes = false) := by
      rcases hg with ⟨g, g'⟩ | ⟨g, g'⟩
      · exact Or.inl ⟨h3 (g' o (by simp)) g, fun x hx => g' x (by simp [hx])⟩
      · rw [hi] at g
        exact Or.inr ⟨h4 (g' o (by simp)) _ g, fun x hx => g' x (by simp [hx])⟩
    obtain ⟨m2, t2, e2, h5⟩ := orun_ok hsz hA os h2.holds.unstop hg'
    refine ⟨m2, t2, ?_, h5⟩
    simp only [OTable.run, Spec.run]
    rw [(OTable.step_le c m t o).ok e, bind_ok, e2, bind_ok, h1]

/-- C52 for programs with any number of containers that use supported operations: unless the code comes to exchange two linked nodes
(the instrumented program stops with `rawSwap`), all answers, among them the sequences seen by iterating forwards and backwards, are
those of the lists of elements in insertion order, and afterwards iterating over any container yields its list.  Missing: what the code
does after such an exchange (`C52_swiss_reclaim_false`). -/
theorem C52_swiss_insertion_order_partial (hsz : 0 < c.sz) (hA : c.A.Sound c.sz) (m : Mem) (os : List (WOp K V))
    (hg : World.Guarded c.stop ⟨m, fun _ => none⟩ (fun _ => none) os = true) :
    World.run c.stop ⟨m, fun _ => none⟩ os = .error .rawSwap ∨
    ∃ w, World.run c ⟨m, fun _ => none⟩ os = .ok (w, (WSpec.run (fun _ => none) os).2) ∧
      ∀ i q, (WSpec.run (fun _ => none) os).1 i = some q → ∃ t, w.tab i = some t ∧ t.elements c.sz w.mem = .ok q := by
  rcases wrun_ok (c := c.stop) hsz hA rfl os (winit m) hg with ⟨_, q⟩ | ⟨r, e, h1, h2⟩
  · exact Or.inl q
  · right
    refine ⟨r.1, ?_, fun i q hq => ?_⟩
    · rw [(wrun_le c os _).ok e, ← h1]
    · obtain ⟨t, ht, hl⟩ := h2.unstop.some_iff hq
      exact ⟨t, ht, hl.elements hsz⟩

/-- C52 without erasures: a container of any initial bucket count behaves as the list of elements in insertion order through any number
of growths, assignments, `clear`s, `reserve`s and `rehash`es.  Missing: erasures. -/
theorem C52_swiss_growing_partial (hsz : 0 < c.sz) (hA : c.A.Sound c.sz) (m : Mem) {n k : Nat} (hn : n + 1 = 2 ^ k)
    (ops : List (Op K V)) (hno : ∀ o ∈ ops, o.erases = false) :
    ∃ m0 t0, OTable.createN (V := V) c m n = .ok (m0, t0) ∧
    ∃ m' t', t0.run c m0 ops = .ok (m', t', (Spec.run [] ops).2) ∧ t'.elements c.sz m' = .ok (Spec.run [] ops).1 := by
  obtain ⟨m0, t0, e, h, hnt, _⟩ := createN_ok (V := V) hA m hn
  obtain ⟨m', t', e', h'⟩ := orun_ok hsz hA ops (s := []) ⟨[], h, rfl⟩ (Or.inl ⟨hnt, hno⟩)
  exact ⟨m0, t0, e, m', t', e', h'.elements hsz⟩

/-- C52 with erasures, after a reservation: a container that has been given room for `N` further elements behaves as the list of
elements in insertion order as long as no more than `N` elements are inserted and `rehash` is not called, whatever is erased.
(A container that is moved from is excluded: `reserve` may do nothing there, C12.)  Missing: insertions beyond the reserved room. -/
theorem C52_swiss_reserved_partial (hsz : 0 < c.sz) (hA : c.A.Sound c.sz) {w : World K V} {s : Seqs K V} (h : Reached c w s) {i : Nat}
    {t : OTable K V} (ht : w.tab i = some t) {q : List (K × V)} (hq : s i = some q) (hset : t.core.cap = 0 → t.core.numEmpty = 0)
    (ops : List (Op K V)) (hno : ∀ o ∈ ops, o.rehashes = false) :
    ∃ m0 t0, t.reserve c w.mem (q.length + insertions ops) = .ok (m0, t0) ∧ t0.elements c.sz m0 = .ok q ∧
    ∃ m' t', t0.run c m0 ops = .ok (m', t', (Spec.run q ops).2) ∧ t'.elements c.sz m' = .ok (Spec.run q ops).1 := by
  obtain ⟨o, hr, rfl⟩ := (h.holds hsz hA ht hq).restop
  obtain ⟨m0, t0, e, hb, _, h1, _⟩ := reserve_ok (c := c.stop) hsz hA rfl hr ((seqOf t.core.node o).length + insertions ops)
  have e' := (OTable.reserve_le c w.mem t _).ok e
  have hsize : t0.core.size = (seqOf t.core.node o).length := by
    obtain ⟨o', hr', e2⟩ := hb.holds
    rw [← e2, seqOf_length (fun i hi => ((hr'.link.occ i).mp hi).2), hr'.length]
  have hroom : Room t0 (insertions ops) := by
    refine ⟨by omega, ?_⟩
    rcases Nat.eq_zero_or_pos (insertions ops) with g | g
    · exact Or.inl g
    · right
      unfold OTable.reserve at e
      obtain ⟨x, ex, e⟩ := Dense.bind_eq_ok e
      obtain ⟨y, ey, e⟩ := Dense.bind_eq_ok e
      cases e
      obtain ⟨x', ex', _, _, _, _, hx, _⟩ := Swiss.reserve_spec (fresh_inv hr.core) ((seqOf t.core.node o).length + insertions ops)
      have ex2 : (fresh t.core).reserve c.isa ((seqOf t.core.node o).length + insertions ops) = .ok x := ex
      have ex3 : (fresh t.core).reserve c.isa ((seqOf t.core.node o).length + insertions ops) = .ok x' := ex'
      rw [ex2] at ex3
      cases ex3
      exact (hx hset).2 (by omega)
  obtain ⟨m', t', e2, h'⟩ := orun_ok hsz hA ops hb.holds.unstop (Or.inr ⟨hroom, hno⟩)
  exact ⟨m0, t0, e', hb.holds.unstop.elements hsz, m', t', e2, h'.elements hsz⟩

/-- The element at position `n`. -/
theorem Rep.at {m : Mem} {t : OTable K V} {o : List Nat} (h : Rep c m t o) {n : Nat} (hn : n < (seqOf t.core.node o).length) :
    ∃ o1 i o2 x, o = o1 ++ i :: o2 ∧ o1.length = n ∧ t.core.node i = some x ∧ (seqOf t.core.node o)[n] = (x.key, x.val) ∧
      seqOf t.core.node o1 = (seqOf t.core.node o).take n ∧ seqOf t.core.node o2 = (seqOf t.core.node o).drop (n + 1) := by
  have hsome : ∀ i ∈ o, (t.core.node i).isSome := fun i hi => ((h.link.occ i).mp hi).2
  have hlen : (seqOf t.core.node o).length = t.core.size := by rw [seqOf_length hsome, h.length]
  obtain ⟨o1, i, o2, rfl, hl, hi, h1, h2⟩ := split_at h (n := n) (by omega)
  obtain ⟨x, hx⟩ := h.link.get hi
  refine ⟨o1, i, o2, x, rfl, hl, hx, ?_, h1, h2⟩
  have hl1 : (seqOf t.core.node o1).length = n := by rw [seqOf_length (fun j hj => hsome j (by simp [hj])), hl]
  have : (seqOf t.core.node (o1 ++ i :: o2))[n]? = some (x.key, x.val) := by
    rw [seqOf_append, seqOf_cons hx, List.getElem?_append_right (by omega), hl1]
    simp
  rw [List.getElem?_eq_getElem hn] at this
  exact Option.some.inj this

/-- C52: a key that is present keeps its place when it is inserted again or assigned to. -/
theorem C52_swiss_position_kept_partial {w : World K V} {s : Seqs K V} (hsz : 0 < c.sz) (hA : c.A.Sound c.sz) (h : Reached c w s) {i : Nat}
    {t : OTable K V} (ht : w.tab i = some t) {q : List (K × V)} (hq : s i = some q) {n : Nat} (hn : n < q.length) (v : V) :
    (∃ m' t' a, t.insert c w.mem q[n].1 v = .ok (m', t', a, false) ∧ t'.elemAt c.sz a = .ok q[n] ∧ t'.elements c.sz m' = .ok q) ∧
    (∃ m' t' a, t.assign c w.mem q[n].1 v = .ok (m', t', a, false) ∧ t'.elemAt c.sz a = .ok (q[n].1, v) ∧
      t'.elements c.sz m' = .ok (q.set n (q[n].1, v))) := by
  obtain ⟨o, hr, rfl⟩ := (h.holds hsz hA ht hq).restop
  have hu := hr.uniq
  have hmem := List.getElem_mem hn
  have hkey : ∀ e' ∈ seqOf t.core.node o, e'.1 = (seqOf t.core.node o)[n].1 → e' = (seqOf t.core.node o)[n] := fun e' he' hk =>
    List.inj_on_of_nodup_map hu he' hmem hk
  have hf : Spec.find (seqOf t.core.node o) (seqOf t.core.node o)[n].1 = some (seqOf t.core.node o)[n] := find_some hu hmem
  constructor
  · obtain ⟨⟨m', t', a, b⟩, e, h1, h2, h3, _⟩ := (insert_gen (c := c.stop) (b := False) hsz hA rfl hr (k := (seqOf t.core.node o)[n].1)
      (fun g => by rw [hf] at g; cases g) v).get id
    unfold Spec.insert at h1 h2 h3
    rw [hf] at h1 h2 h3
    simp only at h1 h2 h3
    cases h2
    exact ⟨m', t', a, (OTable.insert_le c w.mem t _ v none).ok e, h1, h3.holds.unstop.elements hsz⟩
  · obtain ⟨⟨m', t', a, b⟩, e, h1, h2, h3, _⟩ := (assign_gen (c := c.stop) (b := False) hsz hA rfl hr (k := (seqOf t.core.node o)[n].1)
      (fun g => by rw [hf] at g; cases g) v).get id
    unfold Spec.assign at h1 h2 h3
    rw [hf] at h1 h2 h3
    simp only [Option.isSome_some, if_true] at h1 h2 h3
    cases h2
    refine ⟨m', t', a, (OTable.assign_le c w.mem t _ v none).ok e, h1, ?_⟩
    rw [h3.holds.unstop.elements hsz]
    congr 1
    refine List.ext_getElem? fun n' => ?_
    rw [List.getElem?_map, List.getElem?_set]
    by_cases hnn : n = n'
    · subst hnn
      rw [if_pos rfl, if_pos hn, List.getElem?_eq_getElem hn]
      simp
    · rw [if_neg hnn]
      cases hc : (seqOf t.core.node o)[n']? with
      | none => rfl
      | some e' =>
        simp only [Option.map_some]
        rw [if_neg]
        intro hk
        have h4 := hkey e' (List.mem_of_getElem? hc) hk
        refine hnn ?_
        have hnd : (seqOf t.core.node o).Nodup := List.Nodup.of_map _ hu
        exact (List.getElem?_inj hn hnd).mp (by rw [hc, List.getElem?_eq_getElem hn, h4])

/-- Insertions that make the array grow several times, erasures, an assignment, an insertion of a key erased before. -/
def demoOps : List (WOp Nat Nat) :=
  fill 0 9 ++ [.op 0 (.erase 2), .op 0 (.erase 7), .op 0 (.assign 4 44), .op 0 (.insert 2 22), .op 0 .iterate, .op 0 .reverse]

set_option maxRecDepth 100000 in
example : fine c16 demoOps = true ∧ fine c8 demoOps = true := by decide +kernel

set_option maxRecDepth 100000 in
example : ((World.run c16 ⟨mem0, fun _ => none⟩ demoOps).toOption.map fun r => r.2.drop 14) = some
    [.list [(1, 10), (3, 30), (4, 44), (5, 50), (6, 60), (8, 80), (9, 90), (2, 22)],
     .list [(2, 22), (9, 90), (8, 80), (6, 60), (5, 50), (4, 44), (3, 30), (1, 10)]] := by decide +kernel

/-- A reservation for 6 elements beyond the 9, then 6 insertions among any number of erasures. -/
example : ∃ m0 t0, ((after c16 demoOps).get 0).reserve c16 (after c16 demoOps).mem (8 + 6) = .ok (m0, t0) ∧
    (t0.run c16 m0 [.erase 1, .insert 11 1, .insert 12 2, .erase 11, .insert 11 3, .eraseNth 0, .insert 13 4, .insert 14 5, .insert 3 6,
      .iterate]).toOption.map (fun r => r.2.2.getLast?) =
    some (some (.list [(4, 44), (5, 50), (6, 60), (8, 80), (9, 90), (2, 22), (12, 2), (11, 3), (13, 4), (14, 5), (3, 6)])) := by
  refine ⟨_, _, rfl, ?_⟩
  set_option maxRecDepth 100000 in
  decide +kernel

/-- A queue: every insertion is followed, once there are `w` elements, by the erasure of the oldest one. -/
def slide (w n : Nat) : List (WOp Nat Nat) :=
  .create 0 :: ((List.range n).flatMap fun i => .op 0 (.insert i i) :: (if w ≤ i then [.op 0 (.erase (i - w))] else []))

/-- Whether the program comes to use a link that is not there. -/
def lost (c : Cfg Nat) (os : List (WOp Nat Nat)) : Bool :=
  match World.run c ⟨mem0, fun _ => none⟩ os with
  | .error .dangling => true
  | _ => false

set_option maxRecDepth 100000 in
/-- C52 is false: in a queue of 23 elements (16 byte blocks) or 11 elements (8 byte blocks) the in-place reclaiming of erased slots
exchanges two linked nodes; the links, which are relative, then lead out of the container. -/
theorem C52_swiss_reclaim_false : lost c16 (slide 23 34) = true ∧ lost c8 (slide 11 18) = true := by
  constructor <;> decide +kernel

set_option maxRecDepth 100000 in
/-- One insertion less, and all is well. -/
example : fine c16 (slide 23 33) = true ∧ fine c8 (slide 11 17) = true := by
  constructor <;> decide +kernel

theorem first_of_two {o : List Nat} {i j : Nat} (hi : i ∈ o) (hj : j ∈ o) (hij : i ≠ j) :
    (∃ o1 o2, o = o1 ++ i :: o2 ∧ j ∈ o2) ∨ (∃ o1 o2, o = o1 ++ j :: o2 ∧ i ∈ o2) := by
  obtain ⟨o1, o2, rfl⟩ := List.append_of_mem hi
  rcases List.mem_append.mp hj with h | h
  · obtain ⟨o3, o4, rfl⟩ := List.append_of_mem h
    exact Or.inr ⟨o3, o4 ++ i :: o2, by simp, by simp⟩
  · rcases List.mem_cons.mp h with h | h
    · exact absurd h (Ne.symm hij)
    · exact Or.inl ⟨o1, o2, rfl, h⟩

/-- C52 is false for every container whenever two linked nodes are exchanged (swiss_table.hpp 1438), which is meant to leave the sequence
as it is: iterating over the container does not yield its sequence any more.  If iteration ends at all, it comes to one of the two
elements where the other one belongs. -/
theorem C52_swiss_exchange_false (hsz : 0 < c.sz) (hA : c.A.Sound c.sz) {w : World K V} {s : Seqs K V} (h : Reached c w s) {n : Nat}
    {t : OTable K V} (ht : w.tab n = some t) {q : List (K × V)} (hq : s n = some q) {i j : Nat} (hij : i ≠ j) {x y : Node K V}
    (hi : t.core.readNode i = .ok x) (hj : t.core.readNode j = .ok y) :
    ∃ m' t', t.exchange c w.mem i j = .ok (m', t') ∧ t'.elements c.sz m' ≠ .ok q ∧
      ∀ l, t'.elements c.sz m' = .ok l → ∃ q1 q2 l', (q = q1 ++ (x.key, x.val) :: q2 ∧ l = q1 ++ (y.key, y.val) :: l') ∨
        (q = q1 ++ (y.key, y.val) :: q2 ∧ l = q1 ++ (x.key, x.val) :: l') := by
  obtain ⟨o, hr, rfl⟩ := h.holds hsz hA ht hq
  obtain ⟨hic, hin⟩ := Swiss.readNode_eq hi
  obtain ⟨hjc, hjn⟩ := Swiss.readNode_eq hj
  obtain ⟨m', e, hlive, hlink⟩ := exchange_ok hr hic hjc hin hjn
  refine ⟨m', _, e, ?_⟩
  have key : ∀ l, OTable.elements c.sz m' ({ t with core := { t.core with node := upd (upd t.core.node i (some y)) j (some x) } } : OTable K V)
      = .ok l → ∃ q1 q2 l', (seqOf t.core.node o = q1 ++ (x.key, x.val) :: q2 ∧ l = q1 ++ (y.key, y.val) :: l') ∨
        (seqOf t.core.node o = q1 ++ (y.key, y.val) :: q2 ∧ l = q1 ++ (x.key, x.val) :: l') := by
    intro l el
    rcases first_of_two (hr.link.mem hic hin) (hr.link.mem hjc hjn) hij with ⟨o1, o2, rfl, ho⟩ | ⟨o1, o2, rfl, ho⟩
    · obtain ⟨l', hl⟩ := exchange_walk (t' := { t with core := { t.core with node := upd (upd t.core.node i (some y)) j (some x) } })
        hsz hr ho hjn rfl rfl rfl (by simp [upd, hij]) (by intro k h1 h2; simp [upd, h1, h2]) hlive hlink el
      exact ⟨_, seqOf t.core.node o2, l', Or.inl ⟨by rw [seqOf_append, seqOf_cons hin], hl⟩⟩
    · obtain ⟨l', hl⟩ := exchange_walk (t' := { t with core := { t.core with node := upd (upd t.core.node i (some y)) j (some x) } })
        hsz hr ho hin rfl rfl rfl (by simp [upd]) (by intro k h1 h2; simp [upd, h1, h2]) hlive (fun a h1 h2 => hlink a h2 h1) el
      exact ⟨_, seqOf t.core.node o2, l', Or.inr ⟨by rw [seqOf_append, seqOf_cons hjn], hl⟩⟩
  refine ⟨fun el => ?_, key⟩
  have hne : (x.key, x.val) ≠ (y.key, y.val) := by
    intro he
    refine hij (hr.core.uniq i hic j hjc x y hin hjn ?_)
    exact congrArg Prod.fst he
  obtain ⟨q1, q2, l', ⟨h1, h2⟩ | ⟨h1, h2⟩⟩ := key _ el
  · rw [h1] at h2
    have := List.append_cancel_left h2
    injection this with h3
    exact hne h3
  · rw [h1] at h2
    have := List.append_cancel_left h2
    injection this with h3
    exact hne h3.symm

set_option maxRecDepth 100000 in
/-- Nine elements.  Exchanging the nodes of the second and of the fifth puts each into the place of the other; exchanging the nodes of the
first and of the last makes iteration leave the container. -/
example : fine c16 (fill 0 9) = true ∧
    ((((after c16 (fill 0 9)).get 0).exchange c16 (after c16 (fill 0 9)).mem 1 4).toOption.map fun r =>
      (r.2.elements 24 r.1).toOption.map fun l => l.map Prod.fst) = some (some [1, 5, 3, 4, 2, 6, 7, 8, 9]) ∧
    ((((after c16 (fill 0 9)).get 0).exchange c16 (after c16 (fill 0 9)).mem 0 8).toOption.map fun r =>
      (r.2.elements 24 r.1).toOption.map fun l => l.map Prod.fst) = some none := by decide +kernel

/-! ## C53 -/

/-- C53: at every position of every container `++` leads to the next position and `--` back; the positions carry the elements in order,
and the last one is `end()`. -/
theorem C53_swiss_increment_decrement_partial (hsz : 0 < c.sz) (hA : c.A.Sound c.sz) {w : World K V} {s : Seqs K V} (h : Reached c w s) {i : Nat}
    {t : OTable K V} (ht : w.tab i = some t) {q : List (K × V)} (hq : s i = some q) :
    (∀ n (hn : n < q.length), ∃ a b, t.nth w.mem n = .ok a ∧ t.nth w.mem (n + 1) = .ok b ∧ w.mem.nextOf a = .ok b ∧
      w.mem.prevOf b = .ok a ∧ a ≠ t.hd ∧ t.elemAt c.sz a = .ok q[n]) ∧ t.nth w.mem q.length = .ok t.hd := by
  obtain ⟨o, hr, rfl⟩ := h.holds hsz hA ht hq
  have hlen : (seqOf t.core.node o).length = t.core.size := by
    rw [seqOf_length (fun i hi => ((hr.link.occ i).mp hi).2), hr.length]
  refine ⟨?_, by rw [hlen]; exact nth_end hr⟩
  intro n hn
  obtain ⟨o1, p, o2, x, rfl, hl1, hx, hel, _⟩ := hr.at hn
  have h1 := nth_split hr
  have h2 : t.nth w.mem ((o1 ++ [p]).length) = _ := nth_split (by rw [List.append_assoc]; exact hr)
  rw [hl1] at h1
  rw [List.length_append, List.length_singleton, hl1] at h2
  have hring : Ring w.mem t.hd ((o1 ++ [p]).map (t.addr c.sz) ++ o2.map (t.addr c.sz)) := by
    rw [← List.map_append, List.append_assoc]
    exact hr.ring
  obtain ⟨q1, q2⟩ := hring.place
  have hlast : ((o1 ++ [p]).map (t.addr c.sz)).getLastD t.hd = t.addr c.sz p := by simp
  rw [hlast] at q1 q2
  refine ⟨_, _, h1, h2, ?_, ?_, ?_, ?_⟩
  · simp only [List.map_cons, List.headD_cons]
    rw [Mem.nextOf_ok (hr.addr_live (by simp)), q1]
  · rw [Mem.prevOf_ok (hring.live _ (Ring.right_mem _ _)), q2]
    rfl
  · exact hr.addr_ne (by simp)
  · simp only [List.map_cons, List.headD_cons]
    rw [hr.elem hsz (by simp) hx, hel]

/-- C53: iterating backwards from `end()` yields the reverse of the sequence. -/
theorem C53_swiss_reverse_partial (hsz : 0 < c.sz) (hA : c.A.Sound c.sz) {w : World K V} {s : Seqs K V} (h : Reached c w s) {i : Nat}
    {t : OTable K V} (ht : w.tab i = some t) {q : List (K × V)} (hq : s i = some q) :
    ∃ b, t.first w.mem = .ok b ∧ t.elements c.sz w.mem = .ok q ∧ rwalk w.mem b (t.elemAt c.sz) (t.core.size + 1) t.hd = .ok q.reverse := by
  obtain ⟨o, hr, rfl⟩ := h.holds hsz hA ht hq
  exact ⟨_, hr.shows.first_ok, hr.shows.elements hsz, hr.shows.reverse_ok hsz⟩

set_option maxRecDepth 100000 in
example : (do
    let w := after c16 demoOps
    let b ← (w.get 0).first w.mem
    rwalk w.mem b ((w.get 0).elemAt 24) 9 (w.get 0).hd : M (List (Nat × Nat))).toOption =
    some [(2, 22), (9, 90), (8, 80), (6, 60), (5, 50), (4, 44), (3, 30), (1, 10)] := by decide +kernel

/-! ## C54 -/

/-- C54: `erase(iterator)` of the element at position `n` removes exactly this element and returns the iterator to the next one (or
`end()`). -/
theorem C54_swiss_erase_iterator_partial (hsz : 0 < c.sz) (hA : c.A.Sound c.sz) {w : World K V} {s : Seqs K V} (h : Reached c w s) {i : Nat}
    {t : OTable K V} (ht : w.tab i = some t) {q : List (K × V)} (hq : s i = some q) {n : Nat} (hn : n < q.length) :
    ∃ a m' t' r, t.nth w.mem n = .ok a ∧ t.eraseIter c w.mem a = .ok (m', t', r) ∧ t'.elements c.sz m' = .ok (q.eraseIdx n) ∧
      t.nth w.mem (n + 1) = .ok r ∧ t'.nth m' n = .ok r := by
  obtain ⟨o, hr, rfl⟩ := h.holds hsz hA ht hq
  obtain ⟨o1, p, o2, x, rfl, hl1, hx, hel, hs1, hs2⟩ := hr.at hn
  have h1 := nth_split hr
  have h2 : t.nth w.mem ((o1 ++ [p]).length) = _ := nth_split (by rw [List.append_assoc]; exact hr)
  rw [hl1] at h1
  rw [List.length_append, List.length_singleton, hl1] at h2
  obtain ⟨m', t', e1, he⟩ := eraseIter_ok hsz hr
  refine ⟨_, m', t', _, h1, e1, ?_, h2, ?_⟩
  · rw [(he.becomes hr).holds.elements hsz, hs1, hs2, List.eraseIdx_eq_take_drop_succ]
  · have h3 := nth_split he.rep
    rw [hl1, he.addr, he.hd] at h3
    exact h3

/-- C54 for `erase(key)`. -/
theorem C54_swiss_erase_key_partial (hsz : 0 < c.sz) (hA : c.A.Sound c.sz) {w : World K V} {s : Seqs K V} (h : Reached c w s) {i : Nat}
    {t : OTable K V} (ht : w.tab i = some t) {q : List (K × V)} (hq : s i = some q) {n : Nat} (hn : n < q.length) :
    ∃ m' t' r, t.erase c w.mem q[n].1 = .ok (m', t', r) ∧ t'.elements c.sz m' = .ok (q.eraseIdx n) ∧
      t.nth w.mem (n + 1) = .ok r ∧ t'.nth m' n = .ok r := by
  obtain ⟨o, hr, rfl⟩ := h.holds hsz hA ht hq
  obtain ⟨o1, p, o2, x, rfl, hl1, hx, hel, hs1, hs2⟩ := hr.at hn
  have h2 : t.nth w.mem ((o1 ++ [p]).length) = _ := nth_split (by rw [List.append_assoc]; exact hr)
  rw [List.length_append, List.length_singleton, hl1] at h2
  obtain ⟨m', t', e1, he⟩ := doErase_ok hsz hr
  rw [hel]
  have hp : p < t.core.cap := hr.link.lt (by simp)
  have hf : t.core.findNode c.isa x.key (c.hash x.key) = .ok p := by
    rcases hr.cases x.key with ⟨i, y, _, hi, hy, hk, hf, _⟩ | ⟨hno, _⟩
    · rw [hf, hr.core.uniq i hi p hp y x hy hx hk]
    · exact absurd rfl (hno p hp x hx)
  refine ⟨m', t', _, ?_, ?_, h2, ?_⟩
  · unfold OTable.erase
    rw [hf, bind_ok, if_neg (Nat.ne_of_lt hp), e1]
  · rw [(he.becomes hr).holds.elements hsz, hs1, hs2, List.eraseIdx_eq_take_drop_succ]
  · have h3 := nth_split he.rep
    rw [hl1, he.addr, he.hd] at h3
    exact h3

/-- C54: erasing a key that is not there returns `end()` and changes nothing. -/
theorem C54_swiss_erase_absent_partial (hsz : 0 < c.sz) (hA : c.A.Sound c.sz) {w : World K V} {s : Seqs K V} (h : Reached c w s) {i : Nat}
    {t : OTable K V} (ht : w.tab i = some t) {q : List (K × V)} (hq : s i = some q) {k : K} (hk : ∀ e ∈ q, e.1 ≠ k) :
    t.erase c w.mem k = .ok (w.mem, t, t.hd) := by
  obtain ⟨o, hr, rfl⟩ := h.holds hsz hA ht hq
  unfold OTable.erase
  rcases hr.cases k with ⟨i, y, hio, hi, hy, hk', hf, _⟩ | ⟨_, hf, _⟩
  · exact absurd hk' (hk (y.key, y.val) (mem_seqOf.mpr ⟨i, hio, y, hy, rfl⟩))
  · rw [hf, bind_ok, if_pos rfl]

set_option maxRecDepth 100000 in
/-- The element 5, in the middle, and the last element. -/
example : (do
    let w := after c16 demoOps
    let a ← (w.get 0).nth w.mem 3
    let r ← (w.get 0).eraseIter c16 w.mem a
    let e ← r.2.1.elemAt 24 r.2.2
    let l ← r.2.1.elements 24 r.1
    let r' ← r.2.1.erase c16 r.1 2
    .ok (e, l, decide (r'.2.2 = r'.2.1.hd)) : M (_ × _ × Bool)).toOption =
    some ((6, 60), [(1, 10), (3, 30), (4, 44), (6, 60), (8, 80), (9, 90), (2, 22)], true) := by decide +kernel

/-! ## C56 -/

/-- C56: `erase_if` ends, removes exactly the elements that satisfy the predicate, keeps the order of the others and returns the number
of removed elements. -/
theorem C56_swiss_erase_if_partial (hsz : 0 < c.sz) (hA : c.A.Sound c.sz) {w : World K V} {s : Seqs K V} (h : Reached c w s) {i : Nat}
    {t : OTable K V} (ht : w.tab i = some t) {q : List (K × V)} (hq : s i = some q) (p : K × V → Bool) :
    ∃ b m' t', t.first w.mem = .ok b ∧ OTable.eraseIf c p (q.length + 1) w.mem t b 0 = .ok (m', t', q.countP p) ∧
      t'.elements c.sz m' = .ok (q.filter (fun e => !p e)) := by
  obtain ⟨o, hr, rfl⟩ := h.holds hsz hA ht hq
  have hlen : (seqOf t.core.node o).length = o.length := seqOf_length (fun i hi => ((hr.link.occ i).mp hi).2)
  obtain ⟨m', t', e, hb⟩ := eraseIf_ok hsz p ((seqOf t.core.node o).length + 1) (o1 := []) 0 hr (by omega)
  refine ⟨_, m', t', hr.shows.first_ok, ?_, hb.holds.elements hsz⟩
  rw [List.countP_eq_length_filter, ← Nat.zero_add (List.filter p _).length]
  exact e

set_option maxRecDepth 100000 in
example : (do
    let w := after c16 demoOps
    let b ← (w.get 0).first w.mem
    let r ← OTable.eraseIf c16 (fun e => e.1 % 3 = 0 || e.1 = 2) 9 w.mem (w.get 0) b 0
    let l ← r.2.1.elements 24 r.1
    .ok (r.2.2, l) : M (Nat × List (Nat × Nat))).toOption = some (4, [(1, 10), (4, 44), (5, 50), (8, 80)]) := by decide +kernel

/-! ## C57 -/

/-- C57 but for the result of empty ranges: exactly the elements from position `i` up to position `j` are removed; if there are any the
result is the iterator to the former position `j`, otherwise it is `end()`.  Missing: for empty ranges the result ought to be `last`
(`C57_swiss_empty_range_false`). -/
theorem C57_swiss_range_partial (hsz : 0 < c.sz) (hA : c.A.Sound c.sz) {w : World K V} {s : Seqs K V} (h : Reached c w s) {id : Nat}
    {t : OTable K V} (ht : w.tab id = some t) {q : List (K × V)} (hq : s id = some q) {i j : Nat} (hij : i ≤ j) (hj : j ≤ q.length) :
    ∃ a b m' t' r, t.nth w.mem i = .ok a ∧ t.nth w.mem j = .ok b ∧ OTable.eraseRange c a (q.length + 1) w.mem t b t.hd = .ok (m', t', r) ∧
      t'.elements c.sz m' = .ok (q.take i ++ q.drop j) ∧ (i < j → r = b ∧ t'.nth m' i = .ok r) ∧ (i = j → r = t'.hd) := by
  obtain ⟨o, hr, rfl⟩ := h.holds hsz hA ht hq
  have hlen : (seqOf t.core.node o).length = t.core.size := by
    rw [seqOf_length (fun i hi => ((hr.link.occ i).mp hi).2), hr.length]
  rw [hlen] at hj ⊢
  obtain ⟨a, b, m', t', r, h1, h2, h3, h4, h5, h6⟩ := eraseRange_nth hsz hr hij hj
  refine ⟨a, b, m', t', r, h1, h2, h3, h4.holds.elements hsz, h6, h5⟩

set_option maxRecDepth 100000 in
/-- C57 is false for empty ranges: `erase(it, it)` with `it` at the second element returns `end()`. -/
theorem C57_swiss_empty_range_false :
    Reached c16 (after c16 (fill 0 3)) (WSpec.run (fun _ => none) (fill 0 3)).1 ∧
    (do
      let w := after c16 (fill 0 3)
      let a ← (w.get 0).nth w.mem 1
      let r ← OTable.eraseRange c16 a 4 w.mem (w.get 0) a (w.get 0).hd
      .ok (decide (r.2.2 = a), decide (r.2.2 = r.2.1.hd)) : M (Bool × Bool)).toOption = some (false, true) :=
  ⟨after_reached (by decide +kernel), by decide +kernel⟩

set_option maxRecDepth 100000 in
example : (do
    let w := after c16 demoOps
    let a ← (w.get 0).nth w.mem 2
    let b ← (w.get 0).nth w.mem 5
    let r ← OTable.eraseRange c16 a 9 w.mem (w.get 0) b (w.get 0).hd
    let e ← r.2.1.elemAt 24 r.2.2
    let l ← r.2.1.elements 24 r.1
    .ok (e, l) : M ((Nat × Nat) × List (Nat × Nat))).toOption = some ((8, 80), [(1, 10), (3, 30), (8, 80), (9, 90), (2, 22)]) := by
  decide +kernel

/-! ## C58 -/

/-- C58 for two containers that are not empty: the sequences are exchanged.  Missing: empty containers (`C58_swiss_swap_false`). -/
theorem C58_swiss_swap_partial (hsz : 0 < c.sz) (hA : c.A.Sound c.sz) {w : World K V} {s : Seqs K V} (h : Reached c w s) {i j : Nat}
    (hij : i ≠ j) {t u : OTable K V} (ht : w.tab i = some t) (hu : w.tab j = some u) {q q' : List (K × V)} (hq : s i = some q)
    (hq' : s j = some q') (hne : q ≠ []) (hne' : q' ≠ []) :
    ∃ m' t' u', t.swap w.mem u = .ok (m', t', u') ∧ t'.elements c.sz m' = .ok q' ∧ u'.elements c.sz m' = .ok q := by
  have ha := (h.inv hsz hA).apart i j t u hij ht hu
  obtain ⟨o, hr, rfl⟩ := h.holds hsz hA ht hq
  obtain ⟨o', hr', rfl⟩ := h.holds hsz hA hu hq'
  obtain ⟨m', e, hm⟩ := swap_ok hr hr' ha (fun g => hne ((Shows.nonempty hr).mpr g)) (fun g => hne' ((Shows.nonempty hr').mpr g))
  exact ⟨m', _, _, e, hm.fst.elements hsz, hm.snd.elements hsz⟩

/-- The result of swapping containers 0 and 1 and iterating over both. -/
def swapped (c : Cfg Nat) (w : World Nat Nat) : M (List (Nat × Nat) × List (Nat × Nat)) := do
  let r ← (w.get 0).swap w.mem (w.get 1)
  let l ← r.2.1.elements c.sz r.1
  let l' ← r.2.2.elements c.sz r.1
  .ok (l, l')

set_option maxRecDepth 100000 in
/-- C58 is false if one of the containers is empty, or both: afterwards an iteration leaves the container. -/
theorem C58_swiss_swap_false : ∀ p ∈ [(0, 0), (0, 2), (2, 0)],
    Reached c16 (after c16 (fill 0 p.1 ++ fill 1 p.2)) (WSpec.run (fun _ => none) (fill 0 p.1 ++ fill 1 p.2)).1 ∧
    (swapped c16 (after c16 (fill 0 p.1 ++ fill 1 p.2))).toOption = none := by
  intro p hp
  simp only [List.mem_cons, List.not_mem_nil, or_false] at hp
  rcases hp with rfl | rfl | rfl
  · exact ⟨after_reached (by decide +kernel), by decide +kernel⟩
  · exact ⟨after_reached (by decide +kernel), by decide +kernel⟩
  · exact ⟨after_reached (by decide +kernel), by decide +kernel⟩

set_option maxRecDepth 100000 in
example : (swapped c16 (after c16 (fill 0 2 ++ fill 1 3))).toOption = some ([(1, 10), (2, 20), (3, 30)], [(1, 10), (2, 20)]) := by
  decide +kernel

/-! ## C59 -/

theorem Shows.foot {m : Mem} {t : OTable K V} {o : List Nat} (h : Shows c m t o) : ∀ n ≤ o.length,
    ∃ a, t.nth m n = .ok a ∧ a ∈ t.foot c.sz := by
  intro n hn
  refine ⟨((o.drop n).map (t.addr c.sz)).headD t.hd, ?_, ?_⟩
  · unfold OTable.nth
    rw [h.first_ok, bind_ok, advance_ok (l := []) h.ring (by rw [List.length_map]; exact hn), List.map_drop]
  · rcases List.mem_cons.mp (headD_mem ((o.drop n).map (t.addr c.sz)) t.hd) with g | g
    · rw [g]; exact List.mem_cons_self
    · refine h.link.foot _ (List.mem_cons_of_mem _ ?_)
      rw [List.map_drop] at g ⊢
      exact List.mem_of_mem_drop g

/-- C59: a copy holds the same sequence in storage of its own, even if the original has erased slots (such a copy may fail in other
ways, C16); the original is as before. -/
theorem C59_swiss_copy_partial (hsz : 0 < c.sz) (hA : c.A.Sound c.sz) {w : World K V} {s : Seqs K V} (h : Reached c w s) {i : Nat}
    {u : OTable K V} (hu : w.tab i = some u) {q : List (K × V)} (hq : s i = some q) :
    ∃ m' t, OTable.copyCtor c w.mem u = .ok (m', t) ∧ t.elements c.sz m' = .ok q ∧ u.elements c.sz m' = .ok q ∧
      (∀ x ∈ t.foot c.sz, x ∉ w.mem.live) ∧ ∀ n ≤ q.length, ∃ a, t.nth m' n = .ok a ∧ a ∈ t.foot c.sz := by
  obtain ⟨o, hr, rfl⟩ := h.holds hsz hA hu hq
  obtain ⟨m', t, e, h1, h2, _, _, f⟩ := copyCtor_ok hsz hA hr
  refine ⟨m', t, e, ?_, (hr.frame f (fun _ _ => by simp)).shows.elements hsz, ?_, ?_⟩
  · rw [h1.elements hsz, h2]
  · intro x hx
    rcases f.fresh x hx with g | g
    · cases g
    · exact g
  · rw [seqOf_length (fun i hi => ((hr.link.occ i).mp hi).2)]
    exact h1.foot

/-- C59: copy assignment, whatever the allocator does. -/
theorem C59_swiss_copy_assign_partial (hsz : 0 < c.sz) (hA : c.A.Sound c.sz) {w : World K V} {s : Seqs K V} (h : Reached c w s) {i j : Nat}
    (hij : i ≠ j) {t u : OTable K V} (ht : w.tab i = some t) (hu : w.tab j = some u) {q' q : List (K × V)} (hq' : s i = some q')
    (hq : s j = some q) (al : AllocP) :
    ∃ m' t', t.copyAssign c al w.mem u = .ok (m', t') ∧ t'.elements c.sz m' = .ok q ∧ u.elements c.sz m' = .ok q ∧
      (∀ x ∈ t'.foot c.sz, x ∉ u.foot c.sz) ∧ ∀ n ≤ q.length, ∃ a, t'.nth m' n = .ok a ∧ a ∈ t'.foot c.sz := by
  have ha := (h.inv hsz hA).apart i j t u hij ht hu
  obtain ⟨o, hr, rfl⟩ := h.holds hsz hA hu hq
  obtain ⟨o', hr', rfl⟩ := h.holds hsz hA ht hq'
  obtain ⟨m', t', e, h1, h2, _, _, f⟩ := copyAssign_ok hsz hA al hr' hr ha.symm
  refine ⟨m', t', e, ?_, (hr.frame f ha.symm).shows.elements hsz, ?_, ?_⟩
  · rw [h1.elements hsz, h2]
  · intro x hx q
    rcases f.fresh x hx with g | g
    · exact ha x g q
    · exact g (hr.link.foot_live x q)
  · rw [seqOf_length (fun i hi => ((hr.link.occ i).mp hi).2)]
    exact h1.foot

/-- C59: move construction transfers the sequence whether or not the allocators are equal; the source is empty. -/
theorem C59_swiss_move_partial (hsz : 0 < c.sz) (hA : c.A.Sound c.sz) {w : World K V} {s : Seqs K V} (h : Reached c w s) {i : Nat}
    {u : OTable K V} (hu : w.tab i = some u) {q : List (K × V)} (hq : s i = some q) (al : AllocP) :
    ∃ m' t u', OTable.moveCtor c al w.mem u = .ok (m', t, u') ∧ t.elements c.sz m' = .ok q ∧ u'.elements c.sz m' = .ok [] ∧
      (∀ x ∈ t.foot c.sz, x ∉ u'.foot c.sz) ∧ ∀ n ≤ q.length, ∃ a, t.nth m' n = .ok a ∧ a ∈ t.foot c.sz := by
  obtain ⟨o, hr, rfl⟩ := h.holds hsz hA hu hq
  obtain ⟨m', t, u', e, h1, h2, _, h3, _, _, ha, _⟩ := moveCtor_ok hsz hA al hr
  refine ⟨m', t, u', e, ?_, h3.shows.elements hsz, ha, ?_⟩
  · rw [h1.elements hsz, h2]
  · rw [seqOf_length (fun i hi => ((hr.link.occ i).mp hi).2)]
    exact h1.foot

/-- C59: move assignment, whatever the allocators do. -/
theorem C59_swiss_move_assign_partial (hsz : 0 < c.sz) (hA : c.A.Sound c.sz) {w : World K V} {s : Seqs K V} (h : Reached c w s) {i j : Nat}
    (hij : i ≠ j) {t u : OTable K V} (ht : w.tab i = some t) (hu : w.tab j = some u) {q' q : List (K × V)} (hq' : s i = some q')
    (hq : s j = some q) (al : AllocP) :
    ∃ m' t' u', t.moveAssign c al w.mem u = .ok (m', t', u') ∧ t'.elements c.sz m' = .ok q ∧ u'.elements c.sz m' = .ok [] ∧
      (∀ x ∈ t'.foot c.sz, x ∉ u'.foot c.sz) ∧ ∀ n ≤ q.length, ∃ a, t'.nth m' n = .ok a ∧ a ∈ t'.foot c.sz := by
  have ha := (h.inv hsz hA).apart i j t u hij ht hu
  obtain ⟨o, hr, rfl⟩ := h.holds hsz hA hu hq
  obtain ⟨o', hr', rfl⟩ := h.holds hsz hA ht hq'
  obtain ⟨m', t', u', e, hm, h2, _⟩ := moveAssign_ok hsz hA al hr' hr ha
  refine ⟨m', t', u', e, ?_, hm.snd.elements hsz, hm.apart, ?_⟩
  · rw [hm.fst.elements hsz, h2]
  · rw [seqOf_length (fun i hi => ((hr.link.occ i).mp hi).2)]
    exact hm.fst.foot

/-- Container 1 is a copy of container 0, which is then changed, moved to container 2 between unequal allocators, which is assigned to
container 1. -/
def copyOps : List (WOp Nat Nat) :=
  fill 0 4 ++ [.copyCtor 0 1, .op 0 (.insert 9 90), .moveCtor ⟨false, false, false⟩ 0 2, .op 1 (.insert 8 80), .op 0 .iterate, .op 1 .iterate,
    .op 2 .reverse, .moveAssign ⟨true, true, false⟩ 2 1, .op 1 .iterate, .op 2 .iterate]

set_option maxRecDepth 100000 in
example : fine c16 copyOps = true ∧ ((World.run c16 ⟨mem0, fun _ => none⟩ copyOps).toOption.map fun r => r.2.drop 9) = some
    [.list [], .list [(1, 10), (2, 20), (3, 30), (4, 40), (8, 80)], .list [(9, 90), (4, 40), (3, 30), (2, 20), (1, 10)], .unit,
     .list [(1, 10), (2, 20), (3, 30), (4, 40), (9, 90)], .list []] := by
  constructor <;> decide +kernel

/-! ## C60 -/

/-- What `merge` does, for all pairs of containers: the first element of the source is left alone, the others that are missing from the
destination are appended to it in the opposite order; the rest of the source keeps its order.  C60 asks for
`(d ++ Spec.missing d q, Spec.shared d q)`. -/
theorem C60_swiss_merge_actual_partial (hsz : 0 < c.sz) (hA : c.A.Sound c.sz) {w : World K V} {s : Seqs K V} (h : Reached c w s) {i j : Nat}
    (hij : i ≠ j) {t u : OTable K V} (ht : w.tab i = some t) (hu : w.tab j = some u) {d q : List (K × V)} (hd : s i = some d)
    (hq : s j = some q) :
    ∃ m' t' u', OTable.merge c w.mem t u = .ok (m', t', u') ∧
      t'.elements c.sz m' = .ok (d ++ (q.tail.filter fun e => ∀ x ∈ d, x.1 ≠ e.1).reverse) ∧
      u'.elements c.sz m' = .ok (q.take 1 ++ q.tail.filter fun e => ∃ x ∈ d, x.1 = e.1) := by
  have ha := (h.inv hsz hA).apart i j t u hij ht hu
  have hr := (h.holds hsz hA ht hd).restop
  have hr' := (h.holds hsz hA hu hq).restop
  obtain ⟨m', t', u', e, h1, h2, _⟩ := merge_ok (c := c.stop) hsz hA rfl hr hr' ha
  have g1 := h1.unstop.elements hsz
  have g2 := (Holds.unstop (c := c) h2).elements hsz
  refine ⟨m', t', u', (OTable.merge_le c w.mem t u).ok e, ?_, ?_⟩
  · rw [g1]
    unfold Spec.merged Spec.missing Spec.find
    simp only
    congr 4
    funext e
    rw [Bool.eq_iff_iff]
    simp
  · rw [g2]
    unfold Spec.merged Spec.shared Spec.find
    simp only
    congr 3
    funext e
    rw [Bool.eq_iff_iff]
    simp

/-- C60 where it holds: the first element of the source is in the destination, and at most one of the others is missing there. -/
theorem C60_swiss_merge_partial (hsz : 0 < c.sz) (hA : c.A.Sound c.sz) {w : World K V} {s : Seqs K V} (h : Reached c w s) {i j : Nat}
    (hij : i ≠ j) {t u : OTable K V} (ht : w.tab i = some t) (hu : w.tab j = some u) {d q : List (K × V)} (hd : s i = some d)
    (hq : s j = some q) (h1 : Spec.missing d (q.take 1) = []) (h2 : (Spec.missing d q).length ≤ 1) :
    ∃ m' t' u', OTable.merge c w.mem t u = .ok (m', t', u') ∧ t'.elements c.sz m' = .ok (d ++ Spec.missing d q) ∧
      u'.elements c.sz m' = .ok (Spec.shared d q) := by
  have ha := (h.inv hsz hA).apart i j t u hij ht hu
  have hr := (h.holds hsz hA ht hd).restop
  have hr' := (h.holds hsz hA hu hq).restop
  obtain ⟨m', t', u', e, g1, g2, _⟩ := merge_ok (c := c.stop) hsz hA rfl hr hr' ha
  have heq := merged_eq (d := d) (q := q) (by rw [h1]; rfl) h2
  rw [heq] at g1 g2
  exact ⟨m', t', u', (OTable.merge_le c w.mem t u).ok e, g1.unstop.elements hsz, (Holds.unstop (c := c) g2).elements hsz⟩

/-- Container 0 holds the keys 1 and 2, container 1 the keys in `ks`. -/
def mergeOps (ks : List Nat) : List (WOp Nat Nat) :=
  fill 0 2 ++ .create 1 :: ks.map fun k => .op 1 (.insert k k)

/-- Merging container 1 into container 0 and iterating over both. -/
def mergedLists (c : Cfg Nat) (w : World Nat Nat) : M (List (Nat × Nat) × List (Nat × Nat)) := do
  let r ← OTable.merge c w.mem (w.get 0) (w.get 1)
  let l ← r.2.1.elements c.sz r.1
  let l' ← r.2.2.elements c.sz r.1
  .ok (l, l')

set_option maxRecDepth 100000 in
/-- C60 is false: a single element is not transferred, and several ones arrive in the opposite order. -/
theorem C60_swiss_merge_false :
    (Reached c16 (after c16 (mergeOps [7])) (WSpec.run (fun _ => none) (mergeOps [7])).1 ∧
      (mergedLists c16 (after c16 (mergeOps [7]))).toOption = some ([(1, 10), (2, 20)], [(7, 7)])) ∧
    (Reached c16 (after c16 (mergeOps [2, 7, 1, 8])) (WSpec.run (fun _ => none) (mergeOps [2, 7, 1, 8])).1 ∧
      (mergedLists c16 (after c16 (mergeOps [2, 7, 1, 8]))).toOption = some ([(1, 10), (2, 20), (8, 8), (7, 7)], [(2, 2), (1, 1)])) :=
  ⟨⟨after_reached (by decide +kernel), by decide +kernel⟩, after_reached (by decide +kernel), by decide +kernel⟩

set_option maxRecDepth 100000 in
example : (mergedLists c16 (after c16 (mergeOps [2, 7, 1]))).toOption = some ([(1, 10), (2, 20), (7, 7)], [(2, 2), (1, 1)]) := by
  decide +kernel

/-! ## C61 -/

theorem find_new {q : List (K × V)} {k : K} (h : ∀ e ∈ q, e.1 ≠ k) : Spec.find q k = none := by
  unfold Spec.find
  rw [List.find?_eq_none]
  intro x hx
  simpa using h x hx

/-- What the code does with a hint that designates an element while there is room: the new element is put behind this element.  C61 asks
for the place before it. -/
theorem C61_swiss_behind_hint_partial (hsz : 0 < c.sz) (hA : c.A.Sound c.sz) {w : World K V} {s : Seqs K V} (h : Reached c w s) {i : Nat}
    {t : OTable K V} (ht : w.tab i = some t) {q : List (K × V)} (hq : s i = some q) {k : K} (v : V) (hnew : ∀ e ∈ q, e.1 ≠ k)
    {n : Nat} (hn : n < q.length) (hroom : 0 < t.core.numEmpty) :
    ∃ a m' t' r, t.nth w.mem n = .ok a ∧ t.insert c w.mem k v (some a) = .ok (m', t', r, true) ∧
      t'.elemAt c.sz r = .ok (k, v) ∧ t'.elements c.sz m' = .ok (q.take (n + 1) ++ (k, v) :: q.drop (n + 1)) := by
  obtain ⟨o, hr, rfl⟩ := h.holds hsz hA ht hq
  obtain ⟨o1, p, o2, x, rfl, hl1, hx, hel, hs1, hs2⟩ := hr.at hn
  have h1 := nth_split hr
  rw [hl1] at h1
  have hp : p < t.core.cap := hr.link.lt (by simp)
  have e0 : o1 ++ p :: o2 = (o1 ++ [p]) ++ o2 := by simp
  have hr' : Rep c w.mem t ((o1 ++ [p]) ++ o2) := by rw [← e0]; exact hr
  obtain ⟨m', t', a, e1, e2, e3⟩ := insertHint_room hsz hr' v (by rw [← e0]; exact find_new hnew) hroom (by omega)
  have hlast : ((o1 ++ [p]).map (t.addr c.sz)).getLastD t.hd = t.addr c.sz p := by simp
  rw [hlast] at e1
  refine ⟨_, m', t', a, h1, e1, e2, ?_⟩
  rw [e3.elements hsz, hs2, (take_seqOf hr (n + 1)).1.symm, List.take_append, hl1]
  rw [List.take_of_length_le (by omega), show n + 1 - n = 1 by omega]
  rfl

/-- What the code does with the hint `end()` while there is room or nothing was erased: the new element becomes the first one.  C61 asks
for the last place. -/
theorem C61_swiss_end_hint_partial (hsz : 0 < c.sz) (hA : c.A.Sound c.sz) {w : World K V} {s : Seqs K V} (h : Reached c w s) {i : Nat}
    {t : OTable K V} (ht : w.tab i = some t) {q : List (K × V)} (hq : s i = some q) {k : K} (v : V) (hnew : ∀ e ∈ q, e.1 ≠ k)
    (hb : NoTomb t.core ∨ 0 < t.core.numEmpty) :
    ∃ m' t' r, t.insert c w.mem k v (some t.hd) = .ok (m', t', r, true) ∧ t'.elemAt c.sz r = .ok (k, v) ∧
      t'.elements c.sz m' = .ok ((k, v) :: q) := by
  obtain ⟨o, hr, rfl⟩ := (h.holds hsz hA ht hq).restop
  obtain ⟨m', t', a, e1, e2, e3⟩ := insertHint_end (c := c.stop) hsz hA rfl hr v (find_new hnew) hb
  exact ⟨m', t', a, (OTable.insert_le c w.mem t k v _).ok e1, e2, e3.unstop.elements hsz⟩

/-- What the code does with a hint that designates an element if the table has to grow: it uses the freed storage.  C61 asks for
safety. -/
theorem C61_swiss_growth_dangling (hsz : 0 < c.sz) (hA : c.A.Sound c.sz) {w : World K V} {s : Seqs K V} (h : Reached c w s) {i : Nat}
    {t : OTable K V} (ht : w.tab i = some t) {q : List (K × V)} (hq : s i = some q) {k : K} (v : V) (hnew : ∀ e ∈ q, e.1 ≠ k)
    {n : Nat} (hn : n < q.length) (hfull : t.core.numEmpty = 0) (hnt : NoTomb t.core) :
    ∃ a, t.nth w.mem n = .ok a ∧ t.insert c w.mem k v (some a) = .error .dangling := by
  obtain ⟨o, hr, rfl⟩ := (h.holds hsz hA ht hq).restop
  obtain ⟨o1, p, o2, x, rfl, hl1, hx, hel, hs1, hs2⟩ := hr.at hn
  have h1 := nth_split hr
  rw [hl1] at h1
  have e := insertHint_grow (c := c.stop) hsz hA rfl hr v (find_new hnew) hfull hnt (i := p) (by simp)
  refine ⟨_, h1, ?_⟩
  rcases OTable.insert_le c w.mem t k v (some (t.addr c.sz p)) with g | g
  · rw [show t.addr c.stop.sz p = t.addr c.sz p from rfl, g] at e
    cases e
  · change t.insert c w.mem k v (some (t.addr c.sz p)) = _
    rw [← g]
    exact e

/-- Insert the key 9 with a hint and iterate. -/
def hinted (c : Cfg Nat) (w : World Nat Nat) (hint : Option Nat) : M (List (Nat × Nat)) := do
  let a ← (match hint with
    | some n => (w.get 0).nth w.mem n
    | none => .ok (w.get 0).hd : M Int)
  let r ← (w.get 0).insert c w.mem 9 90 (some a)
  r.2.1.elements c.sz r.1

set_option maxRecDepth 100000 in
/-- C61 is false: behind instead of before an element, in front instead of at the end, and with growth an access to freed storage. -/
theorem C61_swiss_hint_false :
    (hinted c16 (after c16 (fill 0 2)) (some 0)).toOption = some [(1, 10), (9, 90), (2, 20)] ∧
    (hinted c16 (after c16 (fill 0 2)) none).toOption = some [(9, 90), (1, 10), (2, 20)] ∧
    (match hinted c16 (after c16 (fill 0 3)) (some 0) with
      | .error .dangling => true
      | _ => false) = true ∧
    Reached c16 (after c16 (fill 0 2)) (WSpec.run (fun _ => none) (fill 0 2)).1 ∧
    Reached c16 (after c16 (fill 0 3)) (WSpec.run (fun _ => none) (fill 0 3)).1 :=
  ⟨by decide +kernel, by decide +kernel, by decide +kernel, after_reached (by decide +kernel), after_reached (by decide +kernel)⟩

end Tpp.OSwiss
