import Verif.Dense.Hist
import Verif.Swiss.Many

/-!
# Programs over several dense containers, each with its own hash function

As `Verif.Swiss.Many`.
-/

set_option linter.unusedSectionVars false

namespace Tpp.Dense

open Tpp.Swiss (pick2 forall₂_set forall₂_get forall₂_pick2 forall₂_append)

variable {k : Nat} {K V : Type} [DecidableEq K]

/-- A container and its hash function (dense_table.hpp 71, 457). -/
structure Owned (k : Nat) (K V : Type) where
  hash : K → Nat
  t : Table k K V

namespace Owned

/-- A member function that concerns one container uses the container's own hash function (dense_table.hpp 489). -/
def step (c : Owned k K V) (op : Op k K V) : M (Owned k K V × Out k K V) := do
  let (t, o) ← c.t.step c.hash op
  .ok ({ c with t := t }, o)

/-- Copy constructor (dense_table.hpp 230-233). -/
def copyCtor (c : Owned k K V) : M (Owned k K V) := do
  let t ← c.t.copyCtor
  .ok ⟨c.hash, t⟩

/-- Move constructor (dense_table.hpp 239-243); `mv`: what the move leaves of the hash function. -/
def moveCtor (mv : (K → Nat) → K → Nat) (c : Owned k K V) : M (Owned k K V × Owned k K V) := do
  let (t, u) ← c.t.moveCtor true
  .ok (⟨c.hash, t⟩, ⟨mv c.hash, u⟩)

/-- Copy assignment (dense_table.hpp 250-275). -/
def copyAssign (prop : Bool) (c d : Owned k K V) : M (Owned k K V) := do
  let t ← c.t.copyAssign prop d.t
  .ok ⟨d.hash, t⟩

/-- Move assignment (dense_table.hpp 276-302). -/
def moveAssign (mv : (K → Nat) → K → Nat) (prop eq : Bool) (c d : Owned k K V) : M (Owned k K V × Owned k K V) := do
  let (t, u) ← c.t.moveAssign prop eq d.t
  .ok (⟨d.hash, t⟩, ⟨mv d.hash, u⟩)

/-- `swap` (dense_table.hpp 460-478). -/
def swap (c d : Owned k K V) : Owned k K V × Owned k K V :=
  let r := c.t.swap d.t
  (⟨d.hash, r.1⟩, ⟨c.hash, r.2⟩)

/-- Copy assignment that ends with an exception from the assignment of the comparator (dense_table.hpp 254-256): the hash function
has been replaced, the elements have not. -/
def copyAssignThrow (c d : Owned k K V) : Owned k K V := ⟨d.hash, c.t⟩

end Owned

/-- What a program does next. -/
inductive MOp (k : Nat) (K V : Type)
  | create (hash : K → Nat) (lf : LF)
  | one (op : Op k K V) (i : Nat)
  | copyCtor (i : Nat)
  | moveCtor (i : Nat)
  | copyAssign (prop : Bool) (i j : Nat)
  | moveAssign (prop eq : Bool) (i j : Nat)
  | swap (i j : Nat)

/-- One step of a program. -/
def manyStep (mv : (K → Nat) → K → Nat) (cs : List (Owned k K V)) : MOp k K V → M (List (Owned k K V) × Option (Out k K V))
  | .create hash lf => .ok (cs ++ [⟨hash, Table.init lf⟩], none)
  | .one op i => match cs[i]? with
    | none => .ok (cs, none)
    | some c => do
      let (c, o) ← c.step op
      .ok (cs.set i c, some o)
  | .copyCtor i => match cs[i]? with
    | none => .ok (cs, none)
    | some c => do
      let d ← c.copyCtor
      .ok (cs ++ [d], none)
  | .moveCtor i => match cs[i]? with
    | none => .ok (cs, none)
    | some c => do
      let (d, c) ← c.moveCtor mv
      .ok (cs.set i c ++ [d], none)
  | .copyAssign prop i j => match pick2 cs i j with
    | none => .ok (cs, none)
    | some (c, d) => do
      let c ← c.copyAssign prop d
      .ok (cs.set i c, none)
  | .moveAssign prop eq i j => match pick2 cs i j with
    | none => .ok (cs, none)
    | some (c, d) => do
      let (c, d) ← c.moveAssign mv prop eq d
      .ok ((cs.set i c).set j d, none)
  | .swap i j => match pick2 cs i j with
    | none => .ok (cs, none)
    | some (c, d) =>
      let r := c.swap d
      .ok ((cs.set i r.1).set j r.2, none)

/-- A program: the containers at the end and the answers. -/
def manyRun (mv : (K → Nat) → K → Nat) : List (Owned k K V) → List (MOp k K V) → M (List (Owned k K V) × List (Option (Out k K V)))
  | cs, [] => .ok (cs, [])
  | cs, op :: ops => do
    let (cs, o) ← manyStep mv cs op
    let (cs, os) ← manyRun mv cs ops
    .ok (cs, o :: os)

/-! ## The same program over sequences -/

/-- One step: assignment replaces, moving empties. -/
def specMany (ms : List (List (Elem k K V))) : MOp k K V → List (List (Elem k K V)) × Option (Out k K V)
  | .create _ _ => (ms ++ [[]], none)
  | .one op i => match ms[i]? with
    | none => (ms, none)
    | some m => (ms.set i (Spec.step m op).1, some (Spec.step m op).2)
  | .copyCtor i => match ms[i]? with
    | none => (ms, none)
    | some m => (ms ++ [m], none)
  | .moveCtor i => match ms[i]? with
    | none => (ms, none)
    | some m => (ms.set i [] ++ [m], none)
  | .copyAssign _ i j => match pick2 ms i j with
    | none => (ms, none)
    | some (_, n) => (ms.set i n, none)
  | .moveAssign _ _ i j => match pick2 ms i j with
    | none => (ms, none)
    | some (_, n) => ((ms.set i n).set j [], none)
  | .swap i j => match pick2 ms i j with
    | none => (ms, none)
    | some (m, n) => ((ms.set i n).set j m, none)

/-- A program. -/
def specManyRun : List (List (Elem k K V)) → List (MOp k K V) → List (List (Elem k K V)) × List (Option (Out k K V))
  | ms, [] => (ms, [])
  | ms, op :: ops =>
    let r := specMany ms op
    let q := specManyRun r.1 ops
    (q.1, r.2 :: q.2)

/-- What a program must respect: `erase(key)` only with buckets (C41), no assignment of an empty container to another one with an
allocator that does not propagate (C45), moves with a propagating allocator (C46). -/
def MOp.Allowed (cs : List (Owned k K V)) : MOp k K V → Prop
  | .one op i => ∀ c, cs[i]? = some c → ∀ j x, op = .erase j x → 0 < c.t.bc
  | .copyAssign prop i j => ∀ c d, pick2 cs i j = some (c, d) → prop = true ∨ d.t.size ≠ 0 ∨ c.t.size = 0
  | .moveAssign prop _ _ _ => prop = true
  | _ => True

/-- All steps of the program respect this. -/
def MAllowed (mv : (K → Nat) → K → Nat) : List (Owned k K V) → List (MOp k K V) → Prop
  | _, [] => True
  | cs, op :: ops => op.Allowed cs ∧ ∀ r, manyStep mv cs op = .ok r → MAllowed mv r.1 ops

/-- Container and sequence agree. -/
def Owned.Is (c : Owned k K V) (l : List (Elem k K V)) : Prop := Inv c.hash c.t l

/-- One step. -/
theorem manyStep_ok {mv : (K → Nat) → K → Nat} {cs : List (Owned k K V)} {ms : List (List (Elem k K V))}
    (h : List.Forall₂ Owned.Is cs ms) (op : MOp k K V) (ha : op.Allowed cs) :
    ∃ cs', manyStep mv cs op = .ok (cs', (specMany ms op).2) ∧ List.Forall₂ Owned.Is cs' (specMany ms op).1 := by
  cases op with
  | create hash lf => exact ⟨_, rfl, forall₂_append h (.cons (init_inv hash lf) .nil)⟩
  | one op i =>
    simp only [manyStep, specMany]
    rcases forall₂_get h i with ⟨h1, h2⟩ | ⟨c, m, h1, h2, h3⟩
    · rw [h1, h2]; exact ⟨cs, rfl, h⟩
    · rw [h1, h2]
      obtain ⟨t, e1, e2, _⟩ := step_ok (show Inv c.hash c.t m from h3) op (ha c h1)
      simp only [Owned.step, e1, bind_ok]
      exact ⟨_, rfl, forall₂_set (R := Owned.Is) (a := ⟨c.hash, t⟩) e2 h i⟩
  | copyCtor i =>
    simp only [manyStep, specMany]
    rcases forall₂_get h i with ⟨h1, h2⟩ | ⟨c, m, h1, h2, h3⟩
    · rw [h1, h2]; exact ⟨cs, rfl, h⟩
    · rw [h1, h2]
      obtain ⟨t, e1, e2, _⟩ := copyCtor_ok (show Inv c.hash c.t m from h3)
      simp only [Owned.copyCtor, e1, bind_ok]
      exact ⟨_, rfl, forall₂_append h (.cons e2 .nil)⟩
  | moveCtor i =>
    simp only [manyStep, specMany]
    rcases forall₂_get h i with ⟨h1, h2⟩ | ⟨c, m, h1, h2, h3⟩
    · rw [h1, h2]; exact ⟨cs, rfl, h⟩
    · rw [h1, h2]
      obtain ⟨t, u, e1, e2, _, e3, _⟩ := moveCtor_ok (hash₁ := mv c.hash) (show Inv c.hash c.t m from h3)
      simp only [Owned.moveCtor, e1, bind_ok]
      exact ⟨_, rfl, forall₂_append (forall₂_set (R := Owned.Is) (a := ⟨mv c.hash, u⟩) e3 h i) (.cons e2 .nil)⟩
  | copyAssign prop i j =>
    simp only [manyStep, specMany]
    rcases forall₂_pick2 h i j with ⟨h1, h2⟩ | ⟨c, d, m, n, h1, h2, h3, h4⟩
    · rw [h1, h2]; exact ⟨cs, rfl, h⟩
    · rw [h1, h2]
      have h3 : Inv c.hash c.t m := h3
      have h4 : Inv d.hash d.t n := h4
      have hg : prop = true ∨ n ≠ [] ∨ m = [] := by
        refine (ha c d h1).imp_right (Or.imp ?_ ?_)
        · rw [h4.size]; intro g e; exact g (by rw [e]; rfl)
        · rw [h3.size]; exact List.length_eq_zero_iff.mp
      obtain ⟨t, e1, e2, _⟩ := copyAssign_ok h3 h4 hg
      simp only [Owned.copyAssign, e1, bind_ok]
      exact ⟨_, rfl, forall₂_set (R := Owned.Is) (a := ⟨d.hash, t⟩) e2 h i⟩
  | moveAssign prop eq i j =>
    simp only [manyStep, specMany]
    rcases forall₂_pick2 h i j with ⟨h1, h2⟩ | ⟨c, d, m, n, h1, h2, h3, h4⟩
    · rw [h1, h2]; exact ⟨cs, rfl, h⟩
    · rw [h1, h2]
      cases (show prop = true from ha)
      obtain ⟨t, u, e1, e2, _, e3, _⟩ := moveAssign_ok (hash₁ := mv d.hash) (eq := eq) (show Inv c.hash c.t m from h3)
        (show Inv d.hash d.t n from h4)
      simp only [Owned.moveAssign, e1, bind_ok]
      exact ⟨_, rfl, forall₂_set (R := Owned.Is) (a := ⟨mv d.hash, u⟩) e3
        (forall₂_set (R := Owned.Is) (a := ⟨d.hash, t⟩) e2 h i) j⟩
  | swap i j =>
    simp only [manyStep, specMany]
    rcases forall₂_pick2 h i j with ⟨h1, h2⟩ | ⟨c, d, m, n, h1, h2, h3, h4⟩
    · rw [h1, h2]; exact ⟨cs, rfl, h⟩
    · rw [h1, h2]
      obtain ⟨e1, e2, _⟩ := swap_ok (show Inv c.hash c.t m from h3) (show Inv d.hash d.t n from h4)
      exact ⟨_, rfl, forall₂_set (R := Owned.Is) (a := (c.swap d).2) e2
        (forall₂_set (R := Owned.Is) (a := (c.swap d).1) e1 h i) j⟩

theorem manyRun_ok {mv : (K → Nat) → K → Nat} (ops : List (MOp k K V)) : ∀ {cs : List (Owned k K V)}
    {ms : List (List (Elem k K V))}, List.Forall₂ Owned.Is cs ms → MAllowed mv cs ops →
    ∃ cs', manyRun mv cs ops = .ok (cs', (specManyRun ms ops).2) ∧ List.Forall₂ Owned.Is cs' (specManyRun ms ops).1 := by
  induction ops with
  | nil => intro cs ms h _; exact ⟨cs, rfl, h⟩
  | cons op ops ih =>
    intro cs ms h ha
    unfold manyRun
    obtain ⟨cs', e1, e2⟩ := manyStep_ok (mv := mv) h op ha.1
    obtain ⟨cs'', g1, g2⟩ := ih e2 (ha.2 _ e1)
    simp only [e1, bind_ok, g1]
    exact ⟨cs'', rfl, g2⟩

/-! ## A hash function that does not belong to the elements -/

/-- A search with a hash value other than the stored one does not find the element. -/
theorem stale_hash {hash hash' : K → Nat} {t : Table k K V} {l : List (Elem k K V)} (h : Inv hash t l) (j : Fin k) {x : K}
    (hx : hash' x ≠ hash x) : t.lookup hash' j x = .ok none := by
  unfold Table.lookup Table.findNode
  by_cases hb : t.bc = 0
  · unfold Table.getChain
    rw [if_pos hb]
    rfl
  · rw [getChain_pos (by omega)]
    have hb : 0 < t.bc := by omega
    obtain ⟨c, h1, h2, h3⟩ := h.chained j (hash' x % t.bc) (Nat.mod_lt _ hb)
    have hlt : ∀ i ∈ c, i < l.length := fun i hi => ((h3 i).mp hi).1
    rcases findLoop_ok (x := x) (h := hash' x) h1 (show t.Valid (.head _) from Nat.mod_lt _ hb)
      (fun i hi => h.toArr.valid (hlt i hi)) (Chained.length_le h.toArr h2 hlt) with ⟨_, i, _, _, _, ⟨n, g2, g3, g4⟩, _⟩ | ⟨_, g2⟩
    · refine absurd ?_ hx
      rw [← g3, h.hashed i n g2 j, g4]
    · simp only [g2, bind_ok]

end Tpp.Dense
