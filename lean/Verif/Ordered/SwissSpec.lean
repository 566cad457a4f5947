/-!
# Specification of the ordered sparse and stable containers

A container is the list of its elements in insertion order.  Nothing here refers to the model of the code.
-/

set_option linter.unusedSectionVars false

namespace Tpp.OSwiss

/-- The operations on one container. -/
inductive Op (K V : Type)
  /-- `insert`, `emplace`, `try_emplace`, `insert(node)` -/
  | insert (k : K) (v : V)
  /-- `insert_or_assign` -/
  | assign (k : K) (v : V)
  /-- `operator[]`; the value is the default constructed one -/
  | index (k : K) (dflt : V)
  /-- `erase(key)` -/
  | erase (k : K)
  /-- `erase(std::next(begin(), n))`; ignored if there are not so many elements -/
  | eraseNth (n : Nat)
  /-- `erase(std::next(begin(), i), std::next(begin(), j))`; ignored if this is not a range -/
  | eraseRange (i j : Nat)
  /-- `erase_if` -/
  | eraseIf (p : K × V → Bool)
  /-- `extract(key)` -/
  | extract (k : K)
  /-- range insertion; the flag tells random access iterators -/
  | insertRange (ra : Bool) (xs : List (K × V))
  /-- `assign(first, last)`: the contents are replaced -/
  | assignRange (ra : Bool) (xs : List (K × V))
  | clear
  | reserve (n : Nat)
  /-- `rehash(n + 1)` -/
  | rehash (n : Nat)
  | find (k : K)
  | contains (k : K)
  | size
  | front
  | back
  | iterate
  | reverse

/-- What the user sees of an operation. -/
inductive Out (K V : Type)
  | unit
  | bool (b : Bool)
  | nat (n : Nat)
  /-- the element designated by the returned iterator, and the flag -/
  | ins (e : K × V) (b : Bool)
  /-- the element, or the element designated by the returned iterator (none if it is `end()`) -/
  | elem (e : Option (K × V))
  | list (l : List (K × V))
  deriving DecidableEq, Repr

namespace Spec

variable {K V : Type} [DecidableEq K]

/-- No two elements have the same key. -/
def Uniq (l : List (K × V)) : Prop := (l.map Prod.fst).Nodup

/-- The element with the key. -/
def find (l : List (K × V)) (k : K) : Option (K × V) := l.find? fun e => e.1 = k

/-- Append the element unless the key is present. -/
def insert (l : List (K × V)) (k : K) (v : V) : List (K × V) × (K × V) × Bool :=
  match find l k with
  | some e => (l, e, false)
  | none => (l ++ [(k, v)], (k, v), true)

/-- Append the element, or set the mapped value of the element that has the key, in its place. -/
def assign (l : List (K × V)) (k : K) (v : V) : List (K × V) × (K × V) × Bool :=
  if (find l k).isSome then (l.map (fun e => if e.1 = k then (k, v) else e), (k, v), false)
  else (l ++ [(k, v)], (k, v), true)

/-- Remove the element with the key. -/
def erase (l : List (K × V)) (k : K) : List (K × V) := l.filter fun e => e.1 ≠ k

/-- The element behind the one with the key. -/
def next (l : List (K × V)) (k : K) : Option (K × V) := ((l.dropWhile fun e => e.1 ≠ k).drop 1).head?

/-- One operation: the new sequence and the answer. -/
def step (l : List (K × V)) : Op K V → List (K × V) × Out K V
  | .insert k v => ((insert l k v).1, .ins (insert l k v).2.1 (insert l k v).2.2)
  | .assign k v => ((assign l k v).1, .ins (assign l k v).2.1 (assign l k v).2.2)
  | .index k dflt => ((insert l k dflt).1, .elem (some (insert l k dflt).2.1))
  | .erase k => (erase l k, .elem (next l k))
  | .eraseNth n => (l.eraseIdx n, .elem (if n < l.length then l[n + 1]? else none))
  | .eraseRange i j => (if i ≤ j ∧ j ≤ l.length then l.take i ++ l.drop j else l, .unit)
  | .eraseIf p => (l.filter (fun e => !p e), .nat (l.filter p).length)
  | .extract k => (erase l k, .elem (find l k))
  | .insertRange _ xs => (xs.foldl (fun l x => (insert l x.1 x.2).1) l, .unit)
  | .assignRange _ xs => (xs.foldl (fun l x => (insert l x.1 x.2).1) [], .unit)
  | .clear => ([], .unit)
  | .reserve _ => (l, .unit)
  | .rehash _ => (l, .unit)
  | .find k => (l, .elem (find l k))
  | .contains k => (l, .bool (find l k).isSome)
  | .size => (l, .nat l.length)
  | .front => (l, .elem l.head?)
  | .back => (l, .elem l.getLast?)
  | .iterate => (l, .list l)
  | .reverse => (l, .list l.reverse)

end Spec
end Tpp.OSwiss
