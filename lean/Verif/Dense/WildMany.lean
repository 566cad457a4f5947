import Verif.Dense.Wild
import Verif.Dense.Copy

/-!
# Hash functions and comparisons that answer arbitrarily (several dense tables, copies, moves and `swap`)

As in `Verif.Dense.Wild`.  Copies, moves and `swap` call neither function: the hashes are stored in the nodes.
-/

set_option linter.unusedSectionVars false

namespace Tpp.Dense

variable {k : Nat} {K V : Type}

/-- Operations on several containers with `std::allocator` (dense_table.hpp 230-477). -/
inductive ManyWild (k : Nat) (K V : Type)
  | op (i : Nat) (o : WildOp k K V)
  | copy (i j : Nat)
  | copyAssign (i j : Nat)
  | move (i j : Nat)
  | swap (i j : Nat)

/-- One operation (dense_table.hpp 230-477); `copy i j` gives the number `i` to a copy of container `j`.  Assigning a container to itself does nothing
(dense_table.hpp 252, 278). -/
def wildStep (g : Nat) (w : Nat → GTable k K V) : ManyWild k K V → M ((Nat → GTable k K V) × Out k K V)
  | .op i o => do
    let r ← (w i).stepWild g o
    .ok (upd w i r.1, r.2)
  | .copy i j => do
    let t ← (w j).copyCtor
    .ok (upd w i t, .unit)
  | .copyAssign i j =>
    if i = j then .ok (w, .unit)
    else do
      let t ← (w i).copyAssign false (w j)
      .ok (upd w i t, .unit)
  | .move i j =>
    if i = j then .ok (w, .unit)
    else do
      let r ← (w i).moveAssign true true (w j)
      .ok (upd (upd w i r.1) j r.2, .unit)
  | .swap i j =>
    let r := (w i).swap (w j)
    .ok (upd (upd w i r.1) j r.2, .unit)

/-- A program with several containers (dense_table.hpp 230-477); the serial numbers start at `g`. -/
def wildRun (g : Nat) (w : Nat → GTable k K V) : List (ManyWild k K V) → M ((Nat → GTable k K V) × List (Out k K V))
  | [] => .ok (w, [])
  | o :: os => do
    let r ← wildStep g w o
    let s ← wildRun (g + 1) r.1 os
    .ok (s.1, r.2 :: s.2)

end Tpp.Dense
