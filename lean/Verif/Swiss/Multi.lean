import Verif.Swiss.Model

/-!
# Swiss table operations that involve two tables, several steps or exceptions

Copy, move, swap, merge, node extraction, range construction, `erase_if`, map accessors, destructor and the throw
points of insertion.  Models `/repo/tpp/detail/swiss_table.hpp` and the container wrappers.
-/

namespace Tpp.Swiss

variable {K V : Type} [DecidableEq K]

/-- What matters of an allocator: `propagate_on_container_copy_assignment`,
`propagate_on_container_move_assignment`, and whether the two allocators involved compare equal. -/
structure AllocP where
  copyProp : Bool
  moveProp : Bool
  equal : Bool
  deriving DecidableEq, Repr

/-- `std::allocator`. -/
def AllocP.std : AllocP := ⟨false, true, true⟩

namespace Table

/-- Buffer assignment (swiss_table.hpp 476-507, 644-665): if the allocator propagates the buffers are freed,
otherwise nothing happens. -/
def bufAssign (prop : Bool) (t : Table K V) : M (Table K V) :=
  if prop then t.dropBuffer else .ok t

/-- `reallocate` (swiss_table.hpp 558-571, 689-697): only grows.  The control bytes of the new buffer are
indeterminate (modelled as sentinels; the callers fill them next). -/
def reallocate (isa : Isa) (t : Table K V) (n : Nat) : M (Table K V) := do
  if t.cap < n then
    let t ← t.dropBuffer
    .ok { t with cap := n, len := n + isa.W, ctl := fun _ => .sentinel }
  else .ok t

/-- One iteration of the loop of `copy_data` (swiss_table.hpp 1468-1473). -/
def copyOne (isa : Isa) (other t : Table K V) (i : Nat) : M (Table K V) := do
  let c ← other.readCtl i
  if c.isOccupied then
    let n ← other.readNode i
    let t ← t.construct i n
    t.setMetadata isa i c
  else .ok t

/-- `copy_data` (swiss_table.hpp 1448-1485), without links. -/
def copyData (isa : Isa) (t other : Table K V) : M (Table K V) := do
  if t.size ≠ 0 then .error .assertFail
  else if other.size = 0 then
    .ok { t with numEmpty := if t.cap ≠ 0 then maxSize isa t.cap else 0 }
  else
    let t ← t.reallocate isa other.cap
    let t ← t.fill isa
    let t ← (List.range other.cap).foldlM (copyOne isa other) t
    if other.size ≤ maxSize isa t.cap then
      .ok { t with size := other.size, numEmpty := maxSize isa t.cap - other.size }
    else .error .underflow

/-- Copy construction (swiss_table.hpp 848). -/
def copyCtor (isa : Isa) (other : Table K V) : M (Table K V) := copyData isa init other

/-- Copy assignment of distinct objects (swiss_table.hpp 856-869). -/
def copyAssign (isa : Isa) (al : AllocP) (t other : Table K V) : M (Table K V) := do
  let t ← t.eraseNodes
  let t ← t.bufAssign al.copyProp
  t.copyData isa other

/-- One iteration of the loop of `move_data` (swiss_table.hpp 1505-1511): relocates the element. -/
def moveOne (isa : Isa) (p : Table K V × Table K V) (i : Nat) : M (Table K V × Table K V) := do
  let c ← p.2.readCtl i
  if c.isOccupied then
    let n ← p.2.readNode i
    let t ← p.1.construct i n
    let other ← p.2.destroy i
    let t ← t.setMetadata isa i c
    .ok (t, other)
  else .ok p

/-- `move_data` (swiss_table.hpp 1486-1521), without links. -/
def moveData (isa : Isa) (t other : Table K V) : M (Table K V × Table K V) := do
  if t.size ≠ 0 then .error .assertFail
  else if other.size = 0 then
    .ok ({ t with size := 0, numEmpty := if t.cap ≠ 0 then maxSize isa t.cap else 0 }, other)
  else
    let t ← t.reallocate isa other.cap
    let t ← t.fill isa
    let (t, other) ← (List.range other.cap).foldlM (moveOne isa) (t, other)
    if other.size ≤ maxSize isa t.cap then
      let t := { t with size := other.size, numEmpty := maxSize isa t.cap - other.size }
      let other ← Table.fill isa { other with size := 0, numEmpty := maxSize isa other.cap }
      .ok (t, other)
    else .error .underflow

/-- `swap_buffers` (swiss_table.hpp 1531-1536, 585-594, 708-715): sizes, budgets and buffers change places. -/
def swapBuffers (a b : Table K V) : Table K V × Table K V :=
  ({ a with cap := b.cap, len := b.len, ctl := b.ctl, node := b.node, size := b.size, numEmpty := b.numEmpty, log := b.log },
   { b with cap := a.cap, len := a.len, ctl := a.ctl, node := a.node, size := a.size, numEmpty := a.numEmpty, log := a.log })

/-- `move_from` (swiss_table.hpp 1537-1543). -/
def moveFrom (isa : Isa) (al : AllocP) (t other : Table K V) : M (Table K V × Table K V) :=
  if al.equal then .ok (t.swapBuffers other) else t.moveData isa other

/-- Move construction (swiss_table.hpp 851-854): the new table and the moved-from one. -/
def moveCtor (isa : Isa) (al : AllocP) (other : Table K V) : M (Table K V × Table K V) :=
  moveFrom isa al init other

/-- Move assignment of distinct objects (swiss_table.hpp 870-883): target and moved-from table. -/
def moveAssign (isa : Isa) (al : AllocP) (t other : Table K V) : M (Table K V × Table K V) := do
  let t ← t.eraseNodes
  let t ← t.bufAssign al.moveProp
  moveFrom isa { al with equal := al.equal || al.moveProp } t other

/-- Destructor (swiss_table.hpp 885-889). -/
def dtor (t : Table K V) : M (Table K V) := do
  let t ← if t.size ≠ 0 then t.eraseNodes else .ok t
  t.dropBuffer

/-- `do_extract` (swiss_table.hpp 1369-1374) and taking over the node (table_common.hpp 307-502): the slot is
released and the element handed out. -/
def extractAt (isa : Isa) (t : Table K V) (pos : Nat) : M (Table K V × Node K V) := do
  let t ← t.eraseNode isa pos
  let _ ← t.toIter isa pos
  let n ← t.readNode pos
  let t ← t.destroy pos
  .ok (t, n)

/-- `extract(key)` (swiss_table.hpp 1077-1084). -/
def extract (isa : Isa) (hash : K → Nat) (t : Table K V) (k : K) : M (Table K V × Option (K × V)) := do
  let pos ← t.findNode isa k (hash k)
  if pos ≠ t.cap then
    let (t, n) ← t.extractAt isa pos
    .ok (t, some (n.key, n.val))
  else .ok (t, none)

/-- `insert(node_type&&)` (swiss_table.hpp 962-970) of a non-empty handle: slot, whether it was inserted, and what
is left in the returned handle. -/
def insertNode (isa : Isa) (hash : K → Nat) (t : Table K V) (x : K × V) :
    M (Table K V × Nat × Bool × Option (K × V)) := do
  let h := hash x.1
  let pos ← t.findNode isa x.1 h
  if pos = t.cap then
    let (t, p) ← t.emplaceNode isa ⟨x.1, x.2, h⟩
    .ok (t, p, true, none)
  else .ok (t, pos, false, some x)

/-- The loop of the unordered `merge` (swiss_table.hpp 1104-1111) over the positions of `src`. -/
def mergeLoop (isa : Isa) (hash : K → Nat) : (fuel : Nat) → (dst src : Table K V) → (pos last : Nat) →
    M (Table K V × Table K V)
  | 0, _, _, _, _ => .error .diverge
  | fuel + 1, dst, src, pos, last =>
    if pos = last then .ok (dst, src)
    else do
      let n ← src.readNode pos
      let h := hash n.key
      let p ← dst.findNode isa n.key h
      let (dst, src) ←
        if p = dst.cap then do
          let (src, n) ← src.extractAt isa pos
          let (dst, _) ← dst.emplaceNode isa ⟨n.key, n.val, h⟩
          Except.ok (dst, src)
        else Except.ok (dst, src)
      let pos ← src.nextOccupied isa (src.cap + 1) (pos + 1)
      mergeLoop isa hash fuel dst src pos last

/-- `dst.merge(src)` for unordered tables (swiss_table.hpp 1096-1113); `hash` is the hash function of `dst`. -/
def merge (isa : Isa) (hash : K → Nat) (dst src : Table K V) : M (Table K V × Table K V) := do
  let dst ← dst.reserve isa (dst.size + src.size)
  let pos ← src.begin_ isa
  let last ← src.end_ isa
  mergeLoop isa hash (src.cap + 1) dst src pos last

/-- Range insertion (swiss_table.hpp 981-987); `ra`: the iterators are random access, so space is reserved. -/
def insertRange (isa : Isa) (hash : K → Nat) (ra : Bool) (t : Table K V) (xs : List (K × V)) : M (Table K V) := do
  let t ← if ra then t.reserve isa (t.size + xs.length) else .ok t
  xs.foldlM (fun (t : Table K V) x => do
    let (t, _, _) ← t.insert isa hash x.1 x.2
    .ok t) t

/-- Range / initializer-list construction (swiss_table.hpp 845-846, utility.hpp 200-207); `n` is the bucket count
argument (default 0). -/
def rangeCtor (isa : Isa) (hash : K → Nat) (ra : Bool) (xs : List (K × V)) (n : Nat) : M (Table K V) := do
  let t ← withCapacity isa (if ra then max xs.length n else n)
  t.insertRange isa hash ra xs

/-- The loop of `erase_if` (sparse_set.hpp 289-303 and the three other unordered swiss containers).  `last` is the
cached `cend()`; the result counts the removed elements and lists the predicate calls. -/
def eraseIfLoop (isa : Isa) (pred : K × V → Bool) : (fuel : Nat) → (t : Table K V) → (pos last count : Nat) →
    (calls : List (K × V)) → M (Table K V × Nat × List (K × V))
  | 0, _, _, _, _, _ => .error .diverge
  | fuel + 1, t, pos, last, count, calls =>
    if pos = last then .ok (t, count, calls.reverse)
    else do
      let n ← t.readNode pos
      if pred (n.key, n.val) then
        let (t, pos) ← t.eraseIter isa pos
        eraseIfLoop isa pred fuel t pos last (count + 1) ((n.key, n.val) :: calls)
      else
        let pos ← t.nextOccupied isa (t.cap + 1) (pos + 1)
        eraseIfLoop isa pred fuel t pos last count ((n.key, n.val) :: calls)

/-- `erase_if` (sparse_set.hpp 289-303). -/
def eraseIf (isa : Isa) (pred : K × V → Bool) (t : Table K V) : M (Table K V × Nat × List (K × V)) := do
  let first ← t.begin_ isa
  let last ← t.end_ isa
  eraseIfLoop isa pred (t.cap + 1) t first last 0 []

/-- Result of `at`: a reference's value or the exception `std::out_of_range`. -/
inductive AtResult (V : Type)
  | value (v : V)
  | outOfRange
  deriving DecidableEq, Repr

/-- `at` (sparse_map.hpp 501, 558-564): `find`, compare with `end()`, dereference. -/
def at_ (isa : Isa) (hash : K → Nat) (t : Table K V) (k : K) : M (AtResult V) := do
  let pos ← t.findNode isa k (hash k)
  let it ← t.toIter isa pos
  let e ← t.end_ isa
  if it = e then .ok .outOfRange
  else do
    let n ← t.readNode it
    .ok (.value n.val)

/-- `operator[]` (sparse_map.hpp 515): `try_emplace(key)` with a default value, then the mapped value. -/
def index (isa : Isa) (hash : K → Nat) (dflt : V) (t : Table K V) (k : K) : M (Table K V × V) := do
  let (t, p, _) ← t.insert isa hash k dflt
  let it ← t.toIter isa p
  let n ← t.readNode it
  .ok (t, n.val)

/-- An insertion during which the constructor of the element throws (swiss_table.hpp 1330-1347, 1264-1291): the
state left behind, and whether the exception was thrown (it is not if the key is present, nothing being
constructed). -/
def insertThrow (isa : Isa) (hash : K → Nat) (t : Table K V) (k : K) : M (Table K V × Bool) := do
  let h := hash k
  let pos ← t.findNode isa k h
  if pos = t.cap then
    let (t, _) ← t.prepare isa h
    .ok (t, true)
  else .ok (t, false)

end Table
end Tpp.Swiss
