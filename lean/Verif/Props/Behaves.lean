import Verif.Swiss.Grow

/-!
# What it means that a swiss table container behaves as a given map

Used to state the properties C01–C29: everything a user can observe of the container, now and after any later history
of operations, is what a mathematical map (a list of pairs with distinct keys, `Verif.Spec`) answers.
-/

set_option linter.unusedSectionVars false

namespace Tpp.Swiss

variable {K V : Type} [DecidableEq K]

/-- The container `t` is observably the map `m`: size, every lookup, iteration, and the answers to every history of
further operations. -/
structure Behaves (isa : Isa) (hash : K → Nat) (t : Table K V) (m : List (K × V)) : Prop where
  uniq : (m.map Prod.fst).Nodup
  size : t.size = m.length
  lookup : ∀ k, t.lookup isa hash k = .ok (Spec.lookup m k)
  contains : ∀ k, t.contains isa hash k = .ok (Spec.lookup m k).isSome
  iterate : Ends isa (t.iterate isa) (fun l => l.Perm m)
  run : ∀ ops, Ends isa (t.run isa hash ops) (fun r => List.Forall₂ Out.Agree r.2 (Spec.run m ops).2)

theorem Inv.behaves {isa : Isa} {hash : K → Nat} {t : Table K V} (h : Inv isa hash t) {m : List (K × V)}
    (hm : t.contents.Perm m) : Behaves isa hash t m where
  uniq := (h.contents_uniq).perm hm
  size := by rw [← hm.length_eq, h.contents_length]
  lookup k := by rw [lookup_spec h, Spec.lookup_perm hm h.contents_uniq]
  contains k := by rw [contains_spec h, Spec.lookup_perm hm h.contents_uniq]
  iterate := (iterate_spec h).mono (by rintro l rfl; exact hm)
  run ops := (run_spec ops h hm).mono (fun r hr => hr.2.2)

/-- The map a well-formed container behaves as is determined. -/
theorem Behaves.contents_perm {isa : Isa} {hash : K → Nat} {t : Table K V} (h : Inv isa hash t) {m : List (K × V)}
    (hb : Behaves isa hash t m) : t.contents.Perm m := by
  refine Spec.perm_of_lookup h.contents_uniq hb.uniq ?_
  intro k
  have := hb.lookup k
  rw [lookup_spec h] at this
  exact Except.ok.inj this

/-- Every container reachable by a program behaves as some map. -/
theorem Reachable.behaves {isa : Isa} {hash : K → Nat} {t : Table K V} (h : Reachable isa hash t) :
    ∃ m, Behaves isa hash t m := ⟨_, h.inv.behaves (List.Perm.refl _)⟩

/-! ## Containers used to illustrate the theorems -/

/-- A hash function with collisions: the tag is 0 or 64, neighbouring keys share their start position. -/
def h64 : Nat → Nat := fun n => n * 64

/-- Insertions that grow the table, an erasure, an overwrite. -/
def demoOps : List (Op Nat Nat) :=
  [.insert 1 10, .insert 2 20, .insert 3 30, .insert 4 40, .erase 2, .insert 5 50, .assign 3 33]

/-- The container after `demoOps`. -/
def demo : Table Nat Nat := after .sse2 h64 demoOps

theorem demo_reachable : Reachable .sse2 h64 demo := after_reachable _ _ _

theorem demo_iterate : demo.iterate .sse2 = .ok [(1, 10), (3, 33), (4, 40), (5, 50)] := by decide

/-- A map `demo` behaves as. -/
def demoMap : List (Nat × Nat) := [(5, 50), (1, 10), (4, 40), (3, 33)]

theorem demo_behaves : Behaves .sse2 h64 demo demoMap := by
  refine demo_reachable.inv.behaves ?_
  have := iterate_spec demo_reachable.inv
  rcases this with ⟨l, h1, h2⟩ | ⟨h1, _⟩
  · rw [demo_iterate] at h1
    cases h1
    rw [← h2]
    decide
  · cases h1

end Tpp.Swiss
