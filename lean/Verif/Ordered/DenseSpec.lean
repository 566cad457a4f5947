import Verif.Dense.Spec

/-!
# Specification of the ordered dense containers

A container is the list of its elements in insertion order.  Nothing here refers to the model of the code.
-/

set_option linter.unusedSectionVars false

namespace Tpp.ODense

open Tpp.Dense (Elem LF)

/-- The operations on one container. -/
inductive Op (k : Nat) (K V : Type)
  | insert (key : Fin k → K) (v : V)
  | emplace (key : Fin k → K) (v : V)
  /-- `insert_or_assign`, which exists for one key component only -/
  | assign (hk : k = 1) (x : K) (v : V)
  /-- `erase<j>(key)` -/
  | erase (j : Fin k) (x : K)
  /-- `erase(std::next(begin(), n))`; ignored if there are not so many elements -/
  | eraseNth (n : Nat)
  /-- range insertion; the flag tells random access iterators -/
  | insertRange (ra : Bool) (xs : List (Elem k K V))
  /-- `assign(first, last)`: the contents are replaced -/
  | assignRange (ra : Bool) (xs : List (Elem k K V))
  | clear
  | reserve (n : Nat)
  | rehash (n : Nat)
  | setLoad (lf : LF)
  | find (j : Fin k) (x : K)
  | contains (j : Fin k) (x : K)
  | size
  | front
  | back
  | iterate
  | reverse

/-- What the user sees of an operation. -/
inductive Out (k : Nat) (K V : Type)
  | unit
  | bool (b : Bool)
  | nat (n : Nat)
  /-- the element designated by the returned iterator, and the flag -/
  | ins (e : Elem k K V) (b : Bool)
  | elem (e : Option (Elem k K V))
  | list (l : List (Elem k K V))

namespace Spec

variable {k : Nat} {K V : Type} [DecidableEq K]

/-- The element that has a component of `key`; the first such component counts. -/
def hit (l : List (Elem k K V)) (key : Fin k → K) : Option (Elem k K V) :=
  (List.finRange k).findSome? fun j => l.find? fun e => e.1 j = key j

/-- Append the element unless it shares a component with another one. -/
def insert (l : List (Elem k K V)) (key : Fin k → K) (v : V) : List (Elem k K V) × Elem k K V × Bool :=
  match hit l key with
  | some e => (l, e, false)
  | none => (l ++ [(key, v)], (key, v), true)

/-- Append the element, or set the mapped value of the element that has the key, in its place. -/
def assign (l : List (Elem k K V)) (j : Fin k) (x : K) (v : V) : List (Elem k K V) × Elem k K V × Bool :=
  if l.any (fun e => e.1 j = x) then (l.map (fun e => if e.1 j = x then (e.1, v) else e), (fun _ => x, v), false)
  else (l ++ [(fun _ => x, v)], (fun _ => x, v), true)

/-- One operation: the new sequence and the answer. -/
def step (l : List (Elem k K V)) : Op k K V → List (Elem k K V) × Out k K V
  | .insert key v => ((insert l key v).1, .ins (insert l key v).2.1 (insert l key v).2.2)
  | .emplace key v => ((insert l key v).1, .ins (insert l key v).2.1 (insert l key v).2.2)
  | .assign hk x v =>
    ((assign l ⟨0, by omega⟩ x v).1, .ins (assign l ⟨0, by omega⟩ x v).2.1 (assign l ⟨0, by omega⟩ x v).2.2)
  | .erase j x => (l.filter (fun e => e.1 j ≠ x), .bool (l.any (fun e => e.1 j = x)))
  | .eraseNth n => (l.eraseIdx n, .bool (n < l.length))
  | .insertRange _ xs => (xs.foldl (fun l x => (insert l x.1 x.2).1) l, .unit)
  | .assignRange _ xs => (xs.foldl (fun l x => (insert l x.1 x.2).1) [], .unit)
  | .clear => ([], .unit)
  | .reserve _ => (l, .unit)
  | .rehash _ => (l, .unit)
  | .setLoad _ => (l, .unit)
  | .find j x => (l, .elem (l.find? (fun e => e.1 j = x)))
  | .contains j x => (l, .bool (l.any (fun e => e.1 j = x)))
  | .size => (l, .nat l.length)
  | .front => (l, .elem l.head?)
  | .back => (l, .elem l.getLast?)
  | .iterate => (l, .list l)
  | .reverse => (l, .list l.reverse)

end Spec
end Tpp.ODense
