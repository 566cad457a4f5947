import Verif.Ordered.DenseMany
import Verif.Ordered.SwissMany
import Verif.Props.OrderedDense
import Verif.Props.OrderedSwiss

/-!
# C97 for ordered containers
-/

set_option linter.unusedSectionVars false

namespace Tpp.OSwiss

open Tpp.Swiss (Node Ev Table Inv NoTomb AllocP)
open Tpp.Ordered
open Tpp.ODense (bump bump_sound mem0)

variable {K V : Type} [DecidableEq K] {c : Cfg K}

/-- C97 for ordered sparse containers.  A program creates containers with whatever hash functions, works on them, copies, moves, swaps and
merges them, in any order.  Unless the code comes to exchange two linked nodes (the instrumented program stops with `rawSwap`, C52), every
answer is that of the sequences, and at the end every container yields its sequence and finds its elements with the hash function it then
has.  `c.hash` is the default-constructed hash function; `mv` is the state in which a move leaves a hash function: any. -/
theorem C97_ordered_swiss_partial (hsz : 0 < c.sz) (hA : c.A.Sound c.sz) (mv : (K → Nat) → K → Nat) (m : Mem) (H : Nat → K → Nat)
    (os : List (HOp K V)) (hg : HWorld.Guarded c.stop mv ⟨⟨m, fun _ => none⟩, H⟩ (fun _ => none) os = true) :
    HWorld.run c.stop mv ⟨⟨m, fun _ => none⟩, H⟩ os = .error .rawSwap ∨
    ∃ x, HWorld.run c mv ⟨⟨m, fun _ => none⟩, H⟩ os = .ok (x, (WSpec.run (fun _ => none) (os.map HOp.plain)).2) ∧
      ∀ i q, (WSpec.run (fun _ => none) (os.map HOp.plain)).1 i = some q → ∃ t, x.world.tab i = some t ∧
        t.elements c.sz x.world.mem = .ok q ∧
        ∀ k, ∃ m' t', t.step (c.with (x.hash i)) x.world.mem (.find k) = .ok (m', t', .elem (q.find? fun e => e.1 = k)) := by
  rcases hrun_ok (c := c.stop) hsz hA rfl mv os (hinit m H) hg with ⟨_, q⟩ | ⟨r, e, h1, h2⟩
  · exact Or.inl q
  · right
    refine ⟨r.1, ?_, fun i q hq => ?_⟩
    · rw [(hrun_le c mv os _).ok e, ← h1]
    · obtain ⟨t, ht, hl⟩ := h2.some_iff hq
      refine ⟨t, ht, ?_, fun k => ?_⟩
      · exact Holds.elements (c := c.stop.with (r.1.hash i)) hsz hl
      · obtain ⟨r', e', g1, _⟩ := (step_ok (c := (c.with (r.1.hash i)).stop) (b := False) hsz hA rfl hl (.find k)
          (Or.inr (Or.inr ⟨Nat.zero_le _, Or.inl rfl⟩))).get id
        refine ⟨r'.1, r'.2.1, ?_⟩
        rw [(OTable.step_le (c.with (r.1.hash i)) r.1.world.mem t (.find k)).ok e']
        change _ = Except.ok (r'.1, r'.2.1, (Spec.step q (.find k)).2)
        rw [← g1]

/-- Three containers with different hash functions. -/
def demoMany : List (HOp Nat Nat) :=
  [.on (.create 0), .make 1 (fun n => n * 128 + n % 5) 0, .make 2 (fun n => 1000 - n) 3,
    .on (.op 0 (.insert 3 10)), .on (.op 0 (.insert 2 20)), .on (.op 1 (.insert 3 30)), .on (.op 1 (.insert 4 40)), .on (.op 2 (.insert 7 70)),
    .on (.swap 0 1), .on (.merge 0 1), .on (.moveAssign .std 0 2), .on (.op 0 (.insert 9 90)), .on (.copyCtor 2 3),
    .on (.op 3 (.insert 5 50)), .on (.copyAssign .std 2 1), .on (.op 1 (.insert 6 60)), .on (.op 1 .iterate), .on (.op 2 .iterate),
    .on (.op 3 .reverse)]

/-- The containers after a program. -/
def afterMany (c : Cfg Nat) (mv : (Nat → Nat) → Nat → Nat) (os : List (HOp Nat Nat)) : HWorld Nat Nat :=
  match HWorld.run c mv ⟨⟨mem0, fun _ => none⟩, fun _ => c.hash⟩ os with
  | .ok r => r.1
  | .error _ => ⟨⟨mem0, fun _ => none⟩, fun _ => c.hash⟩

set_option maxRecDepth 100000 in
/-- `C97_ordered_swiss_partial`: the program respects the conditions and does not stop; a moved-from hash function is constant here. -/
example : HWorld.Guarded c16.stop (fun _ _ => 5) ⟨⟨mem0, fun _ => none⟩, fun _ => h64⟩ (fun _ => none) demoMany = true ∧
    (HWorld.run c16.stop (fun _ _ => 5) ⟨⟨mem0, fun _ => none⟩, fun _ => h64⟩ demoMany).toBool = true := by decide +kernel

set_option maxRecDepth 100000 in
/-- `C97_ordered_swiss_partial`: the answers, and the hash functions (of 7) that the containers have at the end. -/
example : ((HWorld.run c16 (fun _ _ => 5) ⟨⟨mem0, fun _ => none⟩, fun _ => h64⟩ demoMany).toOption.map fun r => r.2.drop 16) = some
      [.list [(3, 30), (4, 40), (2, 20), (6, 60)], .list [(3, 30), (4, 40), (2, 20)], .list [(5, 50), (2, 20), (4, 40), (3, 30)]] ∧
    (List.range 4).map (fun i => (afterMany c16 (fun _ _ => 5) demoMany).hash i 7) = [5, 898, 898, 898] := by
  decide +kernel

/-- C97, an assignment that throws, ordered: the header, whose links are relative, is assigned even before the hash function
(swiss_table.hpp 860-862).  If assigning the hash function or the comparator throws, `begin()` is where it would be if this container
were the other one.  If the other one is empty, no element is reached any more, though the size is the same and all elements are still
there; if this one is empty and the other one is not, `begin()` is not `end()`, in spite of the size. -/
theorem C97_ordered_swiss_throw_false (hsz : 0 < c.sz) (hA : c.A.Sound c.sz) {w : World K V} {s : Seqs K V} (h : Reached c w s) {i j : Nat}
    {t u : OTable K V} (ht : w.tab i = some t) (hu : w.tab j = some u) {q q' : List (K × V)} (hq : s i = some q) (hq' : s j = some q') :
    ∃ m' b, t.assignThrow w.mem u = .ok (m', t) ∧ u.first w.mem = .ok b ∧ t.first m' = .ok (t.hd + (b - u.hd)) ∧
      (q' = [] → t.elements c.sz m' = .ok []) ∧ (q' ≠ [] → t.first m' ≠ .ok t.hd) ∧ t.core.size = q.length := by
  obtain ⟨o, hr, rfl⟩ := h.holds hsz hA ht hq
  obtain ⟨o', hr', rfl⟩ := h.holds hsz hA hu hq'
  obtain ⟨m', e, e1, e2, _⟩ := copyHeader_ok (c := c) (m := w.mem) (u := u) (t := t) hr'.hd_live hr.hd_live
  have hfu : u.first w.mem = .ok (u.hd + (w.mem.link u.hd).next) := by
    unfold OTable.first Mem.nextOf
    rw [Mem.read_ok hr'.hd_live]
    rfl
  have hft : t.first m' = .ok (t.hd + (w.mem.link u.hd).next) := by
    unfold OTable.first Mem.nextOf
    rw [Mem.read_ok (by rw [e2]; exact hr.hd_live), bind_ok, e1]
  have hlen' : (seqOf u.core.node o').length = o'.length := seqOf_length fun i hi => ((hr'.link.occ i).mp hi).2
  refine ⟨m', _, by unfold OTable.assignThrow; rw [e]; rfl, hfu, ?_, ?_, ?_, ?_⟩
  · rw [hft]; congr 1; omega
  · intro g
    unfold OTable.elements
    have ho : o' = [] := List.length_eq_zero_iff.mp (by rw [← hlen', g]; rfl)
    rw [hft, bind_ok]
    have := first_ok hr'
    rw [hfu, ho] at this
    have h0 : u.hd + (w.mem.link u.hd).next = u.hd := Except.ok.inj this
    rw [show (w.mem.link u.hd).next = 0 by omega]
    simp [walk]
  · intro g g'
    rw [hft] at g'
    have g2 := Except.ok.inj g'
    have := first_ok hr'
    rw [hfu] at this
    have h0 : u.hd + (w.mem.link u.hd).next = (o'.map (u.addr c.sz)).headD u.hd := Except.ok.inj this
    cases ho : o' with
    | nil => exact g (by rw [ho]; rfl)
    | cons a l =>
      rw [ho] at h0 hr'
      refine hr'.link.hdr (mem_slots.mpr ⟨a, ((hr'.link.occ a).mp (by simp)).1, ?_⟩)
      change u.hd + (w.mem.link u.hd).next = u.addr c.sz a at h0
      unfold OTable.addr at h0
      omega
  · rw [seqOf_length (fun i hi => ((hr.link.occ i).mp hi).2), hr.length]

/-- `C97_ordered_swiss_throw_false`: a container of nine elements, assigned an empty one; and an empty one, assigned one of nine. -/
example : fine c16 (fill 0 9 ++ [.create 1]) = true ∧
    ((((after c16 (fill 0 9 ++ [.create 1])).get 0).assignThrow (after c16 (fill 0 9 ++ [.create 1])).mem
      ((after c16 (fill 0 9 ++ [.create 1])).get 1)).toOption.map fun r => ((r.2.elements 24 r.1).toOption, r.2.core.size)) =
        some (some [], 9) ∧
    ((((after c16 (fill 0 9 ++ [.create 1])).get 1).assignThrow (after c16 (fill 0 9 ++ [.create 1])).mem
      ((after c16 (fill 0 9 ++ [.create 1])).get 0)).toOption.map fun r => ((r.2.elements 24 r.1).toOption, r.2.core.size)) =
        some (none, 0) := by
  set_option maxRecDepth 100000 in
  decide +kernel

end Tpp.OSwiss

namespace Tpp.ODense

open Tpp.Dense (Elem LF Table Inv)
open Tpp.Ordered

variable {k : Nat} {K V : Type} [DecidableEq K] {sz : Int} {A : Alloc}

/-- C97 for ordered dense containers: every answer of the program is that of the sequences, and at the end every container yields its
sequence and finds its elements with the hash function it then has.  `dflt` is the default-constructed hash function. -/
theorem C97_ordered_dense_partial (hsz : 0 < sz) (hA : A.Sound sz) (dflt : K → Nat) (mv : (K → Nat) → K → Nat) (m : Mem)
    (H : Nat → K → Nat) (os : List (HOp k K V)) (hg : WSpec.Guarded (fun _ => none) (os.map HOp.plain) = true) :
    ∃ x, HWorld.run dflt sz A mv ⟨⟨m, fun _ => none⟩, H⟩ os = .ok (x, (WSpec.run (fun _ => none) (os.map HOp.plain)).2) ∧
      ∀ i q, (WSpec.run (fun _ => none) (os.map HOp.plain)).1 i = some q → ∃ t, x.world.tab i = some t ∧
        t.elements sz x.world.mem = .ok q ∧
        ∀ j y, ∃ m' t', t.step (x.hash i) sz A x.world.mem (.find j y) = .ok (m', t', .elem (q.find? fun e => e.1 j = y)) := by
  obtain ⟨x, e, h⟩ := hrun_ok (x := ⟨⟨m, fun _ => none⟩, H⟩) hsz hA dflt mv os (hinit m H) hg
  refine ⟨x, e, fun i q hq => ?_⟩
  obtain ⟨t, ht, hl⟩ := h.some_iff hq
  refine ⟨t, ht, hl.elements hsz, fun j y => ?_⟩
  obtain ⟨m', t', e', _⟩ := step_ok hsz hA hl (.find j y) (fun _ _ q => by cases q)
  exact ⟨m', t', e'⟩

/-- Three containers with different hash functions. -/
def demoMany : List (HOp 1 Nat Nat) :=
  [.on (.create 0 LF.initial), .make 1 (fun n => n / 2) LF.initial 4, .make 2 (fun n => 100 - n) LF.initial 0,
    .on (.op 0 (.insert (el 1 0).1 10)), .on (.op 0 (.insert (el 2 0).1 20)), .on (.op 0 (.insert (el 4 0).1 40)),
    .on (.op 1 (.insert (el 3 0).1 30)), .on (.swap 0 1), .on (.copyAssign true 1 2), .on (.op 2 (.erase 0 1)),
    .on (.moveAssign true 2 0), .on (.op 2 (.insert (el 9 0).1 90)), .on (.copyCtor 0 3), .on (.op 3 (.insert (el 1 0).1 11)),
    .on (.moveCtor 1 4)]

/-- `C97_ordered_dense_partial`: the program respects the conditions. -/
example : WSpec.Guarded (fun _ => none) (demoMany.map HOp.plain) = true := by decide +kernel

/-- The containers after a program. -/
def afterMany (mv : (Nat → Nat) → Nat → Nat) (os : List (HOp 1 Nat Nat)) : HWorld 1 Nat Nat :=
  match HWorld.run h3 24 bump mv ⟨⟨mem0, fun _ => none⟩, fun _ => h3⟩ os with
  | .ok r => r.1
  | .error _ => ⟨⟨mem0, fun _ => none⟩, fun _ => h3⟩

set_option maxRecDepth 100000 in
/-- `C97_ordered_dense_partial`: the elements at the end, and the hash functions (of 7): containers 0, 3 and 4 have that of the first one,
1 and 2, moved from, a constant. -/
example : (List.range 5).map (fun i => (((afterMany (fun _ _ => 5) demoMany).world.get i).elements 24
      (afterMany (fun _ _ => 5) demoMany).world.mem).toOption.map (List.map fun e => (e.1 0, e.2))) =
      [some [(2, 20), (4, 40)], some [], some [(9, 90)], some [(2, 20), (4, 40), (1, 11)], some [(1, 10), (2, 20), (4, 40)]] ∧
    (List.range 5).map (fun i => (afterMany (fun _ _ => 5) demoMany).hash i 7) = [1, 5, 5, 1, 1] := by
  decide +kernel

/-- C97, an assignment that throws, ordered: as `OSwiss.C97_ordered_swiss_throw_false` (dense_table.hpp 254-256). -/
theorem C97_ordered_dense_throw_false {hash : K → Nat} (hsz : 0 < sz) (hA : A.Sound sz) {w : World k K V} {s : Seqs k K V}
    (h : Reached hash sz A w s) {i j : Nat} {t u : OTable k K V} (ht : w.tab i = some t) (hu : w.tab j = some u) {q q' : List (Elem k K V)}
    (hq : s i = some q) (hq' : s j = some q') :
    ∃ m' b, t.assignThrow w.mem u = .ok (m', t) ∧ u.first w.mem = .ok b ∧ t.first m' = .ok (t.hd + (b - u.hd)) ∧
      (q' = [] → t.elements sz m' = .ok []) ∧ (q' ≠ [] → t.first m' ≠ .ok t.hd) ∧ t.core.size = q.length := by
  obtain ⟨l, o, hr, rfl⟩ := h.holds hsz hA ht hq
  obtain ⟨l', o', hr', rfl⟩ := h.holds hsz hA hu hq'
  obtain ⟨m', e, e1, e2, _⟩ := copyHeader_ok (sz := sz) (m := w.mem) (u := u) (t := t) hr'.hd_live hr.hd_live
  have hfu : u.first w.mem = .ok (u.hd + (w.mem.link u.hd).next) := by
    unfold OTable.first Mem.nextOf
    rw [Mem.read_ok hr'.hd_live]
    rfl
  have hft : t.first m' = .ok (t.hd + (w.mem.link u.hd).next) := by
    unfold OTable.first Mem.nextOf
    rw [Mem.read_ok (by rw [e2]; exact hr.hd_live), bind_ok, e1]
  have hlen' : (seq l' o').length = o'.length := seq_length hr'.perm
  refine ⟨m', _, by unfold OTable.assignThrow; rw [e]; rfl, hfu, ?_, ?_, ?_, ?_⟩
  · rw [hft]; congr 1; omega
  · intro g
    unfold OTable.elements
    have ho : o' = [] := List.length_eq_zero_iff.mp (by rw [← hlen', g]; rfl)
    rw [hft, bind_ok]
    have := first_ok hr'
    rw [hfu, ho] at this
    have h0 : u.hd + (w.mem.link u.hd).next = u.hd := Except.ok.inj this
    rw [show (w.mem.link u.hd).next = 0 by omega]
    simp [walk]
  · intro g g'
    rw [hft] at g'
    have g2 := Except.ok.inj g'
    have := first_ok hr'
    rw [hfu] at this
    have h0 : u.hd + (w.mem.link u.hd).next = (o'.map (u.addr sz)).headD u.hd := Except.ok.inj this
    cases ho : o' with
    | nil => exact g (by rw [ho]; rfl)
    | cons a l =>
      rw [ho] at h0 hr'
      have ha : a < u.core.cap := by
        have h1 := List.mem_range.mp (hr'.perm.mem_iff.mp (List.mem_cons_self (a := a)))
        have h2 := hr'.core.le_cap
        rw [hr'.core.size] at h2
        omega
      refine hr'.hdr (mem_slots.mpr ⟨a, ha, ?_⟩)
      change u.hd + (w.mem.link u.hd).next = u.addr sz a at h0
      unfold OTable.addr at h0
      omega
  · rw [seq_length hr.perm, hr.length, hr.core.size]

/-- `C97_ordered_dense_throw_false`: a container of nine elements, assigned an empty one; and an empty one, assigned one of nine. -/
example : WSpec.Guarded (fun _ => none) (fill 0 9 ++ [.create 1 LF.initial]) = true ∧
    ((((after (fill 0 9 ++ [.create 1 LF.initial])).get 0).assignThrow (after (fill 0 9 ++ [.create 1 LF.initial])).mem
      ((after (fill 0 9 ++ [.create 1 LF.initial])).get 1)).toOption.map fun r =>
        ((r.2.elements 24 r.1).toOption.map List.length, r.2.core.size)) = some (some 0, 9) ∧
    ((((after (fill 0 9 ++ [.create 1 LF.initial])).get 1).assignThrow (after (fill 0 9 ++ [.create 1 LF.initial])).mem
      ((after (fill 0 9 ++ [.create 1 LF.initial])).get 0)).toOption.map fun r =>
        ((r.2.elements 24 r.1).toOption.map List.length, r.2.core.size)) = some (none, 0) := by
  set_option maxRecDepth 100000 in
  decide +kernel

end Tpp.ODense
