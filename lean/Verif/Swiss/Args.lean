import Verif.Swiss.Multi
import Verif.Dense.Access

/-!
# The arguments of the caller

What insertions leave in the caller's variables: which arguments are copied, which are moved from, and when.  A value of the caller
is a pair (key, mapped value); `MovedFrom` says what a move leaves behind.  Sparse and stable containers run the same code
(swiss_table.hpp); dense containers follow.
-/

set_option linter.unusedSectionVars false

namespace Tpp

/-- What a move leaves behind in keys and mapped values (an empty string, for instance). -/
structure MovedFrom (K V : Type) where
  key : K → K
  val : V → V

/-- A pair of which key and mapped value have been moved from (`construct` with an rvalue, table_common.hpp
224-228). -/
def MovedFrom.pair {K V : Type} (mv : MovedFrom K V) (x : K × V) : K × V := (mv.key x.1, mv.val x.2)

end Tpp

namespace Tpp.Swiss

variable {K V : Type} [DecidableEq K]

namespace Table

/-- `insert(const insert_type &)` and `insert(insert_type &&)` (swiss_table.hpp 940-941, 1339-1347): the key is looked up by
reference; the second one (`rv`) moves from the value where the element is constructed (1292-1293), that is, only if the key is
absent.  The last result is the caller's variable afterwards. -/
def insertArg (isa : Isa) (hash : K → Nat) (mv : MovedFrom K V) (t : Table K V) (rv : Bool) (x : K × V) :
    M (Table K V × (Nat × Bool) × (K × V)) := do
  let h := hash x.1
  let pos ← t.findNode isa x.1 h
  if pos = t.cap then
    let (t, p) ← t.emplaceNode isa ⟨x.1, x.2, h⟩
    .ok (t, (p, true), if rv then mv.pair x else x)
  else .ok (t, (pos, false), x)

/-- `try_emplace(key, value)` (swiss_table.hpp 1043-1052, 1330-1338; sparse_map.hpp 357-417): whatever overload is chosen, the key
arrives as the named reference `key`, and `forward_as_tuple(key)` copies it.  A mapped value passed as a temporary or with
`std::move` (`rv`) is moved from where the element is constructed. -/
def tryEmplaceArg (isa : Isa) (hash : K → Nat) (mv : MovedFrom K V) (t : Table K V) (rv : Bool) (x : K × V) :
    M (Table K V × (Nat × Bool) × (K × V)) := do
  let h := hash x.1
  let pos ← t.findNode isa x.1 h
  if pos = t.cap then
    let (t, p) ← t.emplaceNode isa ⟨x.1, x.2, h⟩
    .ok (t, (p, true), (x.1, if rv then mv.val x.2 else x.2))
  else .ok (t, (pos, false), x)

/-- `insert_or_assign(key, value)` and `emplace_or_replace(key, value)` (swiss_table.hpp 988-991, 1031-1040, 1348-1359): the key is
copied, the value moved from (`rv`) in both branches. -/
def assignArg (isa : Isa) (hash : K → Nat) (mv : MovedFrom K V) (t : Table K V) (rv : Bool) (x : K × V) :
    M (Table K V × (Nat × Bool) × (K × V)) := do
  let h := hash x.1
  let pos ← t.findNode isa x.1 h
  if pos = t.cap then
    let (t, p) ← t.emplaceNode isa ⟨x.1, x.2, h⟩
    .ok (t, (p, true), (x.1, if rv then mv.val x.2 else x.2))
  else
    let n ← t.readNode pos
    .ok ({ t with node := upd t.node pos (some { n with val := x.2 }) }, (pos, false), (x.1, if rv then mv.val x.2 else x.2))

/-- `emplace(key, value)` (swiss_table.hpp 1025-1028, 1318-1329): the temporary node is constructed from the arguments before
anything is looked up, and destroyed at the end. -/
def emplaceArg (isa : Isa) (hash : K → Nat) (mv : MovedFrom K V) (t : Table K V) (rv : Bool) (x : K × V) :
    M (Table K V × (Nat × Bool) × (K × V)) := do
  let after := if rv then mv.pair x else x
  let (t, p, new) ← t.insert isa hash x.1 x.2
  .ok (t, (p, new), after)

/-- `m[x]` with a variable as key (sparse_map.hpp 515-521, stable_map.hpp 562-568): the overload for `key_type &` forwards the
variable as if it were a temporary, but `try_emplace` copies it. The result is the mapped value. -/
def indexArg (isa : Isa) (hash : K → Nat) (mv : MovedFrom K V) (dflt : V) (t : Table K V) (x : K) : M (Table K V × V × K) := do
  let (t, r, x') ← t.tryEmplaceArg isa hash mv true (x, dflt)
  let it ← t.toIter isa r.1
  let n ← t.readNode it
  .ok (t, n.val, x'.1)

end Table

/-- A call with one of the caller's variables. -/
inductive ArgOp
  | insert (rv : Bool) (i : Nat)
  | tryEmplace (rv : Bool) (i : Nat)
  | emplace (rv : Bool) (i : Nat)
  deriving DecidableEq

/-- One call of a program over a container and variables (swiss_table.hpp 940-1052). -/
def argStep (isa : Isa) (hash : K → Nat) (mv : MovedFrom K V) (s : Table K V × (Nat → K × V)) : ArgOp → M (Table K V × (Nat → K × V))
  | .insert rv i => do
    let (t, _, x) ← s.1.insertArg isa hash mv rv (s.2 i)
    .ok (t, upd s.2 i x)
  | .tryEmplace rv i => do
    let (t, _, x) ← s.1.tryEmplaceArg isa hash mv rv (s.2 i)
    .ok (t, upd s.2 i x)
  | .emplace rv i => do
    let (t, _, x) ← s.1.emplaceArg isa hash mv rv (s.2 i)
    .ok (t, upd s.2 i x)

/-- A program of such calls (swiss_table.hpp 940-1052). -/
def argRun (isa : Isa) (hash : K → Nat) (mv : MovedFrom K V) : Table K V × (Nat → K × V) → List ArgOp → M (Table K V × (Nat → K × V))
  | s, [] => .ok s
  | s, o :: os => do
    let s ← argStep isa hash mv s o
    argRun isa hash mv s os

end Tpp.Swiss

namespace Tpp.Dense

variable {k : Nat} {K V : Type} [DecidableEq K]

namespace Table

/-- What a move leaves behind in all components of a key and in the mapped value (table_common.hpp 224-228). -/
def movedElem (mv : MovedFrom K V) (x : Elem k K V) : Elem k K V := (fun j => mv.key (x.1 j), mv.val x.2)

/-- Dense `insert(const insert_type &)` and `insert(insert_type &&)` (dense_table.hpp 372-373, 675-697): the keys are looked up by
reference, the value is moved from (`rv`) only where the element is constructed (551-557, 694). -/
def insertArg (hash : K → Nat) (mv : MovedFrom K V) (t : Table k K V) (rv : Bool) (x : Elem k K V) :
    M (Table k K V × (Nat × Bool) × Elem k K V) := do
  let t ← t.maybeResize
  let t ← t.maybeRehash
  let found ← t.locate hash x.1
  match found.findSome? (fun y => y.2.1) with
  | some i => .ok (t, (i, false), x)
  | none =>
    let (t, pos) ← t.pushNode x.1 x.2
    let t ← t.commitNode pos (found.map fun y => (y.1, y.2.2)) (fun j => hash (x.1 j))
    .ok (t, (pos, true), if rv then movedElem mv x else x)

/-- Dense `emplace` (dense_table.hpp 620-644): the arguments are moved from (`rv`) when the element is appended, before anything is
looked up. -/
def emplaceArg (hash : K → Nat) (mv : MovedFrom K V) (t : Table k K V) (rv : Bool) (x : Elem k K V) :
    M (Table k K V × (Nat × Bool) × Elem k K V) := do
  let after := if rv then movedElem mv x else x
  let (t, i, new) ← t.emplace hash x.1 x.2
  .ok (t, (i, new), after)

end Table

end Tpp.Dense
