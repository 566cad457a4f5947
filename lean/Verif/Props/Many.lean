import Verif.Dense.Many
import Verif.Props.Dense
import Verif.Props.SwissA

/-!
# C97: programs over several containers, each with its own hash function
-/

set_option linter.unusedSectionVars false

namespace Tpp.Swiss

variable {K V : Type} [DecidableEq K]

/-- C97 for sparse containers.  A program creates containers with whatever hash functions, and works on them, copies, moves, swaps and
merges them in any order.  Every answer is that of the maps, and at the end every container, searched with the hash function it then has,
behaves as its map.  `mv` is the state in which a move leaves a hash function: any. -/
theorem C97_swiss_partial (mv : (K → Nat) → K → Nat) (isa : Isa) (ops : List (MOp K V)) (ha : MAllowed mv isa [] ops) :
    Ends isa (manyRun mv isa [] ops) (fun r =>
      List.Forall₂ (fun c m => Behaves isa c.hash c.t m) r.1 (specManyRun [] ops).1 ∧
      List.Forall₂ AgreeO r.2 (specManyRun [] ops).2) := by
  refine (manyRun_spec ops (cs := []) (ms := []) .nil ha).mono ?_
  rintro r ⟨h1, h2⟩
  exact ⟨h1.imp fun _ _ h => h.1.behaves h.2, h2⟩

/-- Three containers with different hash functions, as program. -/
def demoMany : List (MOp Nat Nat) :=
  [.create h64, .create (fun n => n * 128 + n % 5), .create (fun n => 1000 - n),
    .one (.insert 1 10) 0, .one (.insert 2 20) 0, .one (.insert 3 30) 1, .one (.insert 1 11) 1, .one (.insert 7 70) 2,
    .swap 0 1, .merge 0 1, .moveAssign .std 2 0, .one (.insert 9 90) 0, .copyCtor 2, .mergeMove .std 3 1]

/-- `C97_swiss_partial`: the program respects the conditions. -/
example : MAllowed (fun _ _ => 5) .sse2 [] demoMany := by
  refine ⟨trivial, ?_⟩; rintro _ ⟨⟩
  refine ⟨trivial, ?_⟩; rintro _ ⟨⟩
  refine ⟨trivial, ?_⟩; rintro _ ⟨⟩
  refine ⟨trivial, ?_⟩; rintro _ ⟨⟩
  refine ⟨trivial, ?_⟩; rintro _ ⟨⟩
  refine ⟨trivial, ?_⟩; rintro _ ⟨⟩
  refine ⟨trivial, ?_⟩; rintro _ ⟨⟩
  refine ⟨trivial, ?_⟩; rintro _ ⟨⟩
  refine ⟨trivial, ?_⟩; rintro _ ⟨⟩
  refine ⟨trivial, ?_⟩; rintro _ ⟨⟩
  refine ⟨rfl, ?_⟩; rintro _ ⟨⟩
  refine ⟨trivial, ?_⟩; rintro _ ⟨⟩
  refine ⟨?_, ?_⟩
  · rintro c ⟨⟩
    refine Or.inr ?_
    unfold NoTomb
    decide +kernel
  rintro _ ⟨⟩
  refine ⟨rfl, ?_⟩; rintro _ ⟨⟩
  trivial

/-- `C97_swiss_partial`: after the program container 0 has what was inserted after its contents had been moved away, container 2 the merged elements, 3 a
copy of these.  The moved-from hash function is constant. -/
example : ∃ a b c d, manyRun (fun _ _ => 5) .sse2 [] demoMany = .ok ([a, b, c, d], (specManyRun [] demoMany).2) ∧
    a.t.iterate .sse2 = .ok [(9, 90)] ∧ a.t.lookup .sse2 a.hash 9 = .ok (some 90) ∧
    b.t.iterate .sse2 = .ok [(1, 10)] ∧ b.t.lookup .sse2 b.hash 1 = .ok (some 10) ∧ b.hash 7 = h64 7 ∧
    c.t.lookup .sse2 c.hash 1 = .ok (some 11) ∧ c.t.lookup .sse2 c.hash 2 = .ok (some 20) ∧ c.t.lookup .sse2 c.hash 7 = .ok none ∧
    c.hash 7 = 898 ∧ d.hash 7 = 898 ∧ d.t.lookup .sse2 d.hash 3 = .ok (some 30) :=
  ⟨_, _, _, _, rfl, rfl, rfl, rfl, rfl, rfl, rfl, rfl, rfl, rfl, rfl, rfl⟩

/-- C97, an assignment that throws: hash function and comparator are assigned before the elements (swiss_table.hpp 860-862).  If
assigning the comparator throws, the container keeps its elements and has the hash function of the other: no element is found whose
tag (lower 7 bits) differs, though iteration still finds all. -/
theorem C97_swiss_throw_false {isa : Isa} (hisa : isa ≠ .portable) {c d : Owned K V} (hc : Reachable isa c.hash c.t)
    {m : List (K × V)} (hm : Behaves isa c.hash c.t m) {x : K × V} (hx : x ∈ m) (hd : hashLo (d.hash x.1) ≠ hashLo (c.hash x.1)) :
    (c.copyAssignThrow d).t.lookup isa (c.copyAssignThrow d).hash x.1 = .ok none ∧
    Ends isa ((c.copyAssignThrow d).t.iterate isa) (fun l => x ∈ l) ∧
    (isa.W ≠ 8 → ¬ ∃ n, Behaves isa (c.copyAssignThrow d).hash (c.copyAssignThrow d).t n) := by
  have h1 : c.t.lookup isa d.hash x.1 = .ok none := stale_hash hisa hc.inv hd
  have hit : Ends isa (c.t.iterate isa) (fun l => l = c.t.contents) := iterate_spec hc.inv
  have hp := hm.contents_perm hc.inv
  refine ⟨h1, hit.mono fun l e => by rw [e]; exact hp.mem_iff.mpr hx, ?_⟩
  rintro hw ⟨n, hn⟩
  have h2 := hn.lookup x.1
  rw [show (c.copyAssignThrow d).t.lookup isa (c.copyAssignThrow d).hash x.1 = .ok none from h1] at h2
  have h3 : Ends isa (c.t.iterate isa) (fun l => l.Perm n) := hn.iterate
  rcases h3 with ⟨l, e1, e2⟩ | ⟨e, _⟩
  · rcases hit with ⟨l', e3, e4⟩ | ⟨e, _⟩
    · rw [e1] at e3
      cases e3
      have hxn : x ∈ n := e2.mem_iff.mp (by rw [e4]; exact hp.mem_iff.mpr hx)
      have := lookup_isNone_iff n x.1
      rw [← Except.ok.inj h2] at this
      have h4 : x.1 ∉ n.map Prod.fst := by simpa using this
      exact h4 (List.mem_map_of_mem hxn)
    · exact hw e
  · exact hw e

/-- `C97_swiss_throw_false`: the elements of `demo`, with a hash function whose tag is 1 for every key. -/
example : (∀ x ∈ demoMap, ((Owned.copyAssignThrow ⟨h64, demo⟩ ⟨fun n => n * 128 + 1, Table.init⟩).t.lookup .sse2
      (Owned.copyAssignThrow ⟨h64, demo⟩ ⟨fun n => n * 128 + 1, (Table.init : Table Nat Nat)⟩).hash x.1) = .ok none) ∧
    demo.lookup .sse2 h64 3 = .ok (some 33) := by
  refine ⟨?_, rfl⟩
  intro x hx
  refine (C97_swiss_throw_false (c := ⟨h64, demo⟩) (d := ⟨fun n => n * 128 + 1, Table.init⟩) (by decide) demo_reachable
    demo_behaves hx ?_).1
  have : ∀ x ∈ demoMap, hashLo (x.1 * 128 + 1) ≠ hashLo (h64 x.1) := by decide
  exact this x hx

end Tpp.Swiss

namespace Tpp.Dense

variable {k : Nat} {K V : Type} [DecidableEq K]

/-- C97 for dense containers: every answer of the program is that of the sequences, and at the end every container, searched with the
hash function it then has, behaves as its sequence. -/
theorem C97_dense_partial (mv : (K → Nat) → K → Nat) (ops : List (MOp k K V)) (ha : MAllowed mv [] ops) :
    ∃ cs, manyRun mv [] ops = .ok (cs, (specManyRun [] ops).2) ∧
      List.Forall₂ (fun c l => Behaves c.hash c.t l) cs (specManyRun [] ops).1 := by
  obtain ⟨cs, h1, h2⟩ := manyRun_ok ops (cs := []) (ms := []) .nil ha
  exact ⟨cs, h1, h2.imp fun _ _ h => Inv.behaves h⟩

/-- Three containers with different hash functions, as program. -/
def demoMany : List (MOp 1 Nat Nat) :=
  [.create h3 LF.initial, .create (fun n => n / 2) LF.initial, .create (fun n => 100 - n) LF.initial,
    .one (.insert (el 1 0).1 10) 0, .one (.insert (el 2 0).1 20) 0, .one (.insert (el 4 0).1 40) 0, .one (.insert (el 3 0).1 30) 1,
    .swap 0 1, .copyAssign true 2 1, .one (.erase 0 1) 2, .moveAssign true true 0 2, .one (.insert (el 9 0).1 90) 2, .copyCtor 0,
    .moveCtor 1]

/-- `C97_dense_partial`: the program respects the conditions. -/
example : MAllowed (fun _ _ => 5) [] demoMany := by
  refine ⟨trivial, ?_⟩; rintro _ ⟨⟩
  refine ⟨trivial, ?_⟩; rintro _ ⟨⟩
  refine ⟨trivial, ?_⟩; rintro _ ⟨⟩
  refine ⟨?_, ?_⟩
  · rintro c ⟨⟩ j x ⟨⟩
  rintro _ ⟨⟩
  refine ⟨?_, ?_⟩
  · rintro c ⟨⟩ j x ⟨⟩
  rintro _ ⟨⟩
  refine ⟨?_, ?_⟩
  · rintro c ⟨⟩ j x ⟨⟩
  rintro _ ⟨⟩
  refine ⟨?_, ?_⟩
  · rintro c ⟨⟩ j x ⟨⟩
  rintro _ ⟨⟩
  refine ⟨trivial, ?_⟩; rintro _ ⟨⟩
  refine ⟨?_, ?_⟩
  · exact fun _ _ _ => Or.inl rfl
  rintro _ ⟨⟩
  refine ⟨?_, ?_⟩
  · rintro c ⟨⟩ j x _; decide
  rintro _ ⟨⟩
  refine ⟨rfl, ?_⟩; rintro _ ⟨⟩
  refine ⟨?_, ?_⟩
  · rintro c ⟨⟩ j x ⟨⟩
  rintro _ ⟨⟩
  refine ⟨trivial, ?_⟩; rintro _ ⟨⟩
  refine ⟨trivial, ?_⟩; rintro _ ⟨⟩
  trivial

/-- `C97_dense_partial`: container 0 ends with what 1 had after the exchange, without the erased element, and 3 with a copy of it; both with the hash
function that 0 had in the beginning. -/
example : ∃ a b c d e, manyRun (fun _ _ => 5) [] demoMany = .ok ([a, b, c, d, e], (specManyRun [] demoMany).2) ∧
    a.t.iterate = .ok [el 4 40, el 2 20] ∧ a.t.lookup a.hash 0 4 = .ok (some (el 4 40)) ∧ a.hash 7 = 1 ∧
    b.t.iterate = .ok [] ∧ b.hash 7 = 5 ∧ c.t.iterate = .ok [el 9 90] ∧ c.t.lookup c.hash 0 9 = .ok (some (el 9 90)) ∧ c.hash 9 = 5 ∧
    d.t.lookup d.hash 0 2 = .ok (some (el 2 20)) ∧ d.hash 7 = 1 ∧ e.t.lookup e.hash 0 1 = .ok (some (el 1 10)) ∧ e.hash 7 = 1 :=
  ⟨_, _, _, _, _, rfl, rfl, rfl, rfl, rfl, rfl, rfl, rfl, rfl, rfl, rfl, rfl, rfl⟩

/-- C97, an assignment that throws: hash function and comparator are assigned before the elements (dense_table.hpp 254-256).  If
assigning the comparator throws, the container keeps its elements and has the hash function of the other: exactly the elements with the
same hash value under both are still certain to be found; no other is, though iteration finds all. -/
theorem C97_dense_throw_false {c d : Owned k K V} (hc : Reachable c.hash c.t) {l : List (Elem k K V)} (hl : c.t.iterate = .ok l)
    {e : Elem k K V} (he : e ∈ l) (j : Fin k) :
    (c.copyAssignThrow d).t.iterate = .ok l ∧
    (c.copyAssignThrow d).t.lookup (c.copyAssignThrow d).hash j (e.1 j) =
      .ok (if d.hash (e.1 j) = c.hash (e.1 j) then some e else none) ∧
    (d.hash (e.1 j) ≠ c.hash (e.1 j) → ¬ ∃ n, Behaves (c.copyAssignThrow d).hash (c.copyAssignThrow d).t n) := by
  have hi := hc.of_iterate hl
  have h1 : d.hash (e.1 j) ≠ c.hash (e.1 j) → c.t.lookup d.hash j (e.1 j) = .ok none := stale_hash hi j
  refine ⟨hl, ?_, ?_⟩
  · split
    · rename_i g
      have h2 : c.t.lookup c.hash j (e.1 j) = .ok (some e) := by
        rw [lookup_ok hi]
        congr 1
        have hu := hi.uniq j
        unfold elemOf
        clear hl hi h1
        induction l with
        | nil => cases he
        | cons a l ih =>
          rw [List.map_cons, List.nodup_cons] at hu
          rw [List.find?_cons]
          rcases List.mem_cons.mp he with rfl | he
          · simp
          · have : a.1 j ≠ e.1 j := fun g => hu.1 (by rw [g]; exact List.mem_map_of_mem (f := fun e => e.1 j) he)
            simp only [this, decide_false]
            exact ih he hu.2
      rw [← h2]
      show c.t.lookup d.hash j (e.1 j) = _
      unfold Table.lookup Table.findNode
      rw [g]
    · rename_i g; exact h1 g
  · rintro g ⟨n, hn⟩
    have h2 := hn.iterate
    rw [show (c.copyAssignThrow d).t.iterate = .ok l from hl] at h2
    cases h2
    have h3 := hn.lookup j (e.1 j)
    rw [show (c.copyAssignThrow d).t.lookup (c.copyAssignThrow d).hash j (e.1 j) = .ok none from h1 g] at h3
    have h4 := List.find?_eq_none.mp (Except.ok.inj h3).symm e he
    simp at h4

/-- `C97_dense_throw_false`: of the elements of `demo`, those with the same value under `n % 3` and `n % 4`. -/
example : demo.iterate = .ok [el 3 30, el 2 20, el 4 44, el 7 70] ∧
    (Owned.copyAssignThrow ⟨h3, demo⟩ ⟨fun n => n % 4, Table.init LF.initial⟩).t.lookup
      (Owned.copyAssignThrow ⟨h3, demo⟩ ⟨fun n => n % 4, (Table.init LF.initial : Table 1 Nat Nat)⟩).hash 0 7 = .ok none ∧
    demo.lookup (fun n => n % 4) 0 3 = .ok none ∧ demo.lookup (fun n => n % 4) 0 2 = .ok (some (el 2 20)) := ⟨rfl, rfl, rfl, rfl⟩

end Tpp.Dense
