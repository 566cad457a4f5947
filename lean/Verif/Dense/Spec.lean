import Verif.Basic

/-!
# Specification of the dense containers

A dense container is a sequence of elements; an element has `k` key components and a mapped value.  Nothing here refers
to the model of the code.
-/

set_option linter.unusedSectionVars false

namespace Tpp.Dense

/-- The last element takes the place of the removed one. -/
def swapRemove {α : Type} (l : List α) (pos : Nat) : List α :=
  match l.getLast? with
  | none => []
  | some e => (l.set pos e).dropLast

/-- Remove the positions `first, …, first + n - 1`, the last one first. -/
def removeRange {α : Type} (l : List α) (first : Nat) : Nat → List α
  | 0 => l
  | n + 1 => removeRange (swapRemove l (first + n)) first n

/-- What a value of `m_max_load_factor` (dense_table.hpp 912) determines. -/
structure LF where
  /-- `static_cast<size_type>(static_cast<float>(n) / m_max_load_factor)` (lines 362, 449) -/
  div : Nat → Nat
  /-- `load_factor() >= m_max_load_factor` (line 779) for a size and a bucket count -/
  full : Nat → Nat → Bool

/-- Key components and mapped value. -/
abbrev Elem (k : Nat) (K V : Type) := (Fin k → K) × V

/-- The operations of a history. -/
inductive Op (k : Nat) (K V : Type)
  | insert (key : Fin k → K) (v : V)
  | emplace (key : Fin k → K) (v : V)
  /-- `insert_or_assign`, which exists for one key component only -/
  | assign (hk : k = 1) (x : K) (v : V)
  /-- `erase<j>(key)` -/
  | erase (j : Fin k) (x : K)
  /-- `erase(iterator)`; the iterator is given by its position, positions past the end are not erased -/
  | eraseAt (pos : Nat)
  /-- `erase(first, first + n)`; ignored if that is not a range of the container -/
  | eraseRange (first n : Nat)
  /-- range insertion; the flag tells random access iterators -/
  | insertRange (ra : Bool) (xs : List (Elem k K V))
  /-- `assign(first, last)`: the contents are replaced -/
  | assignRange (ra : Bool) (xs : List (Elem k K V))
  | clear
  | reserve (n : Nat)
  | rehash (n : Nat)
  | setLoad (lf : LF)
  | find (j : Fin k) (x : K)
  | contains (j : Fin k) (x : K)
  | size
  | iterate

/-- What the user sees of an operation. -/
inductive Out (k : Nat) (K V : Type)
  | unit
  | bool (b : Bool)
  | nat (n : Nat)
  /-- position of the returned iterator -/
  | pos (n : Nat)
  /-- position of the returned iterator, and the flag -/
  | ins (n : Nat) (b : Bool)
  | elem (e : Option (Elem k K V))
  | list (l : List (Elem k K V))

namespace Spec

variable {k : Nat} {K V : Type} [DecidableEq K]

/-- The elements that share a component with `key`. -/
def Conflicts (key : Fin k → K) (e : Elem k K V) : Prop := ∃ j, e.1 j = key j

/-- Position of the element whose component `j` is `x`. -/
def index (l : List (Elem k K V)) (j : Fin k) (x : K) : Option Nat := l.findIdx? (fun e => e.1 j = x)

/-- Position of the element that has a component of `key`; the first such component counts. -/
def clash (l : List (Elem k K V)) (key : Fin k → K) : Option Nat := (List.finRange k).findSome? fun j => index l j (key j)

/-- Append the element unless it shares a component with another one. -/
def insert (l : List (Elem k K V)) (key : Fin k → K) (v : V) : List (Elem k K V) × Nat × Bool :=
  match clash l key with
  | some i => (l, i, false)
  | none => (l ++ [(key, v)], l.length, true)

/-- One step of the specification: a sequence with append and swap-remove. -/
def step (l : List (Elem k K V)) : Op k K V → List (Elem k K V) × Out k K V
  | .insert key v => ((insert l key v).1, .ins (insert l key v).2.1 (insert l key v).2.2)
  | .emplace key v => ((insert l key v).1, .ins (insert l key v).2.1 (insert l key v).2.2)
  | .assign hk x v =>
    match index l ⟨0, by omega⟩ x with
    | some i => (l.set i (fun _ => x, v), .ins i false)
    | none => (l ++ [(fun _ => x, v)], .ins l.length true)
  | .erase j x =>
    match index l j x with
    | some i => (swapRemove l i, .pos i)
    | none => (l, .pos l.length)
  | .eraseAt pos => if pos < l.length then (swapRemove l pos, .pos pos) else (l, .unit)
  | .eraseRange first n =>
    if first + n ≤ l.length then (removeRange l first n, .pos (if n = 0 then l.length else first)) else (l, .unit)
  | .insertRange _ xs => (xs.foldl (fun l x => (insert l x.1 x.2).1) l, .unit)
  | .assignRange _ xs => (xs.foldl (fun l x => (insert l x.1 x.2).1) [], .unit)
  | .clear => ([], .unit)
  | .reserve _ => (l, .unit)
  | .rehash _ => (l, .unit)
  | .setLoad _ => (l, .unit)
  | .find j x => (l, .elem (l.find? (fun e => e.1 j = x)))
  | .contains j x => (l, .bool (l.any (fun e => e.1 j = x)))
  | .size => (l, .nat l.length)
  | .iterate => (l, .list l)

/-- A history. -/
def run (l : List (Elem k K V)) : List (Op k K V) → List (Elem k K V) × List (Out k K V)
  | [] => (l, [])
  | o :: os => ((run (step l o).1 os).1, (step l o).2 :: (run (step l o).1 os).2)

/-- The histories that call `erase(key)` only once the container has buckets: after an insertion or a `rehash` to at least one
bucket.  The flag tells whether there are buckets at the beginning. -/
def Guarded : Bool → List (Op k K V) → Bool
  | _, [] => true
  | b, .erase _ _ :: os => b && Guarded b os
  | _, .insert _ _ :: os => Guarded true os
  | _, .emplace _ _ :: os => Guarded true os
  | _, .assign _ _ _ :: os => Guarded true os
  | b, .insertRange _ xs :: os => Guarded (b || !xs.isEmpty) os
  | b, .assignRange _ xs :: os => Guarded (b || !xs.isEmpty) os
  | b, .rehash n :: os => Guarded (b || n ≠ 0) os
  | b, _ :: os => Guarded b os

end Spec
end Tpp.Dense
