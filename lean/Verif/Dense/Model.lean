import Mathlib.Data.List.FinRange
import Verif.Basic
import Verif.Dense.Spec

/-!
# Model of `dense_table` (/repo/tpp/detail/dense_table.hpp)

A table with `k` key components (`key_size`): one array of nodes (`m_dense`), one array of buckets (`m_sparse`), each
bucket and each node holding one chain index per component.  `npos` is `none`.

Simplifications:
* the two arrays are total functions; indices are checked against `cap` and `bc`;
* `m_sparse` is null exactly if `bc = 0` (the two change together in lines 221, 261, 291, 894-896 and utility.hpp 232-248);
* moving the nodes to another array (`resize_data`) does not change their indices;
* what the code computes in `float` from `m_max_load_factor` is a record of arbitrary functions (`LF`), so that every
  value and every rounding is covered.
-/

set_option linter.unusedSectionVars false

namespace Tpp.Dense

/-- `bucket_node` (dense_table.hpp 28-61, table_common.hpp 210-306): key components, mapped value, stored hashes, chain
indices. -/
structure Node (k : Nat) (K V : Type) where
  key : Fin k → K
  val : V
  hash : Fin k → Nat
  next : Fin k → Option Nat

/-- The data members (dense_table.hpp 904-912). -/
structure Table (k : Nat) (K V : Type) where
  size : Nat
  cap : Nat
  bc : Nat
  node : Nat → Option (Node k K V)
  head : Nat → Fin k → Option Nat
  lf : LF

/-- A `size_type *` into a chain: a bucket or the chain index of a node (dense_table.hpp 522-533). -/
inductive Ref
  | head (b : Nat)
  | next (i : Nat)
  deriving DecidableEq

namespace Table

variable {k : Nat} {K V : Type} [DecidableEq K]

/-- `dense_table()` (dense_table.hpp 214); `lf` belongs to `initial_load_factor` (line 94). -/
def init (lf : LF) : Table k K V :=
  { size := 0, cap := 0, bc := 0, node := fun _ => none, head := fun _ _ => none, lf := lf }

/-- `dense_table(bucket_count, ...)` (dense_table.hpp 217-225). -/
def withBuckets (lf : LF) (n : Nat) : Table k K V :=
  { size := 0, cap := n, bc := n, node := fun _ => none, head := fun _ _ => none, lf := lf }

/-- `m_dense[i]`, read. -/
def readNode (t : Table k K V) (i : Nat) : M (Node k K V) :=
  if i < t.cap then
    match t.node i with
    | some n => .ok n
    | none => .error .deadRead
  else .error .oobNode

/-- `*ref`, read. -/
def readRef (t : Table k K V) (j : Fin k) : Ref → M (Option Nat)
  | .head b => if b < t.bc then .ok (t.head b j) else .error .oobMeta
  | .next i => do
    let n ← t.readNode i
    .ok (n.next j)

/-- `*ref = v`. -/
def writeRef (t : Table k K V) (j : Fin k) (r : Ref) (v : Option Nat) : M (Table k K V) :=
  match r with
  | .head b =>
    if b < t.bc then .ok { t with head := upd t.head b (fun j' => if j' = j then v else t.head b j') }
    else .error .oobMeta
  | .next i => do
    let n ← t.readNode i
    .ok { t with node := upd t.node i (some { n with next := fun j' => if j' = j then v else n.next j' }) }

/-- `get_chain` (dense_table.hpp 522-527): null if there are no buckets. -/
def getChain (t : Table k K V) (h : Nat) : Option Ref := if t.bc = 0 then none else some (.head (h % t.bc))

/-- Dereferencing the result of `get_chain`. -/
def deref (r : Option Ref) : M Ref :=
  match r with
  | some r => .ok r
  | none => .error .nullDeref

/-- `find_chain_ptr` (dense_table.hpp 528-533). -/
def findChainPtr (t : Table k K V) (j : Fin k) (pos : Nat) : Nat → Ref → M Ref
  | 0, _ => .error .diverge
  | fuel + 1, r => do
    match ← t.readRef j r with
    | none => .ok r
    | some i => if i = pos then .ok r else t.findChainPtr j pos fuel (.next i)

/-- The loop of `find_node` (dense_table.hpp 538-545): the node found, and the chain reference that points to it (or
the end of the chain). -/
def findLoop (t : Table k K V) (j : Fin k) (x : K) (h : Nat) : Nat → Ref → M (Option Nat × Ref)
  | 0, _ => .error .diverge
  | fuel + 1, r => do
    match ← t.readRef j r with
    | none => .ok (none, r)
    | some i =>
      let n ← t.readNode i
      if n.hash j = h ∧ x = n.key j then .ok (some i, r) else t.findLoop j x h fuel (.next i)

/-- `find_node` (dense_table.hpp 534-547). -/
def findNode (hash : K → Nat) (t : Table k K V) (j : Fin k) (x : K) : M (Option Nat × Option Ref) :=
  match t.getChain (hash x) with
  | none => .ok (none, none)
  | some r => do
    let (n, r) ← t.findLoop j x (hash x) (t.cap + 1) r
    .ok (n, some r)

/-- `push_node` (dense_table.hpp 549-556): the stored hashes are uninitialised until `commit_node` sets them. -/
def pushNode (t : Table k K V) (key : Fin k → K) (v : V) : M (Table k K V × Nat) :=
  let pos := t.size
  if pos < t.cap then
    match t.node pos with
    | some _ => .error .liveOverwrite
    | none =>
      .ok ({ t with size := t.size + 1, node := upd t.node pos (some ⟨key, v, fun _ => 0, fun _ => none⟩) }, pos)
  else .error .oobNode

/-- `pop_node` (dense_table.hpp 557-561). -/
def popNode (t : Table k K V) : M (Table k K V) :=
  if t.size = 0 then .error .underflow
  else
    match t.node (t.size - 1) with
    | none => .error .deadDestroy
    | some _ => .ok { t with size := t.size - 1, node := upd t.node (t.size - 1) none }

/-- `insert_node` (dense_table.hpp 563-569): push to the front of the chain. -/
def insertNode (t : Table k K V) (i : Nat) (j : Fin k) : M (Table k K V) := do
  let n ← t.readNode i
  let r ← deref (t.getChain (n.hash j))
  let v ← t.readRef j r
  let t ← t.writeRef j (.next i) v
  t.writeRef j r (some i)

/-- `move_chain` (dense_table.hpp 570-576). -/
def moveChain (t : Table k K V) (src dst : Nat) (j : Fin k) : M (Table k K V) := do
  let n ← t.readNode src
  let r ← deref (t.getChain (n.hash j))
  let r ← t.findChainPtr j src (t.cap + 1) r
  match ← t.readRef j r with
  | none => .error .assertFail
  | some _ => t.writeRef j r (some dst)

/-- `node->template hash<j>() = h` (dense_table.hpp 585), for all components. -/
def setHashes (t : Table k K V) (pos : Nat) (hs : Fin k → Nat) : M (Table k K V) := do
  let n ← t.readNode pos
  .ok { t with node := upd t.node pos (some { n with hash := hs }) }

/-- `commit_node` (dense_table.hpp 578-587) without the order link. -/
def commitNode (t : Table k K V) (pos : Nat) (slice : List (Fin k × Option Ref)) (hs : Fin k → Nat) :
    M (Table k K V) := do
  let t ← slice.foldlM (fun t jr => do
    let r ← deref jr.2
    t.writeRef jr.1 r (some pos)) t
  t.setHashes pos hs

/-- Moving the last node into the hole at `pos` (dense_table.hpp 611-615, 47-51, table_common.hpp 240-245). -/
def fillHole (t : Table k K V) (pos : Nat) (js : List (Fin k)) : M (Table k K V) := do
  let t ← js.foldlM (fun t j => t.moveChain (t.size - 1) pos j) t
  let last ← t.readNode (t.size - 1)
  let _ ← t.readNode pos
  .ok { t with node := upd t.node pos (some last) }

/-- `erase_node` (dense_table.hpp 594-618) without the order links. -/
def eraseNode (t : Table k K V) (pos : Nat) (slice : List (Fin k × Ref)) : M (Table k K V) := do
  let t ← slice.foldlM (fun t jr => do
    let n ← t.readNode pos
    t.writeRef jr.1 jr.2 (n.next jr.1)) t
  if t.size = 0 then .error .underflow
  else
    let t ← (if pos ≠ t.size - 1 then t.fillHole pos (slice.map (·.1)) else .ok t : M (Table k K V))
    t.popNode

/-- `do_rehash` (dense_table.hpp 764-773): `realloc_buffer` (utility.hpp 232-248) only grows. -/
def doRehash (t : Table k K V) (newCap : Nat) : M (Table k K V) :=
  let t : Table k K V := { t with bc := if t.bc < newCap then newCap else t.bc, head := fun _ _ => none }
  (List.range t.size).foldlM (fun t i => (List.finRange k).foldlM (fun t j => t.insertNode i j) t) t

/-- `rehash` (dense_table.hpp 442-451). -/
def rehash (t : Table k K V) (n : Nat) : M (Table k K V) :=
  if n = 0 ∧ t.size = 0 then .ok t
  else
    let newCap := max (t.lf.div t.size) n
    if n = 0 ∨ newCap ≠ t.bc then t.doRehash newCap else .ok t

/-- `maybe_rehash` (dense_table.hpp 775-781). -/
def maybeRehash (t : Table k K V) : M (Table k K V) :=
  if t.bc = 0 then t.rehash 8
  else if t.lf.full t.size t.bc then t.rehash (t.bc * 2)
  else .ok t

/-- `resize_data` (dense_table.hpp 783-801): every node is moved to a new array of `c` nodes. -/
def resizeData (t : Table k K V) (c : Nat) : M (Table k K V) :=
  if c < t.size then .error .oobNode
  else do
    let _ ← (List.range t.size).mapM (fun i => t.readNode i)
    .ok { t with cap := c, node := fun i => if i < t.size then t.node i else none }

/-- `maybe_resize` (dense_table.hpp 802-821). -/
def maybeResize (t : Table k K V) : M (Table k K V) :=
  if t.cap = t.size then t.resizeData (if t.cap = 0 then 1 else t.cap * 2) else .ok t

/-- `find_node` for all components (dense_table.hpp 628, 655, 683). -/
def locate (hash : K → Nat) (t : Table k K V) (key : Fin k → K) : M (List (Fin k × Option Nat × Option Ref)) :=
  (List.finRange k).mapM fun j => do
    let (n, r) ← t.findNode hash j (key j)
    .ok (j, n, r)

/-- `do_insert` (dense_table.hpp 674-697); also `do_try_emplace` (646-671).  Returns the index of the designated element
and whether it was inserted. -/
def insert (hash : K → Nat) (t : Table k K V) (key : Fin k → K) (v : V) : M (Table k K V × Nat × Bool) := do
  let t ← t.maybeResize
  let t ← t.maybeRehash
  let found ← t.locate hash key
  match found.findSome? (fun x => x.2.1) with
  | some i => .ok (t, i, false)
  | none =>
    let (t, pos) ← t.pushNode key v
    let t ← t.commitNode pos (found.map fun x => (x.1, x.2.2)) (fun j => hash (key j))
    .ok (t, pos, true)

/-- `do_emplace` (dense_table.hpp 620-644): the element is built in place first and removed on a conflict. -/
def emplace (hash : K → Nat) (t : Table k K V) (key : Fin k → K) (v : V) : M (Table k K V × Nat × Bool) := do
  let t ← t.maybeResize
  let t ← t.maybeRehash
  let (t, pos) ← t.pushNode key v
  let found ← t.locate hash key
  match found.findSome? (fun x => x.2.1) with
  | some i =>
    let t ← t.popNode
    .ok (t, i, false)
  | none =>
    let t ← t.commitNode pos (found.map fun x => (x.1, x.2.2)) (fun j => hash (key j))
    .ok (t, pos, true)

/-- `do_insert_or_assign` (dense_table.hpp 699-723), for one key component. -/
def insertOrAssign (hash : K → Nat) (t : Table 1 K V) (x : K) (v : V) : M (Table 1 K V × Nat × Bool) := do
  let t ← t.maybeResize
  let t ← t.maybeRehash
  let (i, r) ← t.findNode hash 0 x
  match i with
  | none =>
    let (t, pos) ← t.pushNode (fun _ => x) v
    let t ← t.commitNode pos [(0, r)] (fun _ => hash x)
    .ok (t, pos, true)
  | some i =>
    let n ← t.readNode i
    .ok ({ t with node := upd t.node i (some { n with val := v }) }, i, false)

/-- The chain references to `pos` for a list of components. -/
def slices (t : Table k K V) (n : Node k K V) (pos : Nat) (js : List (Fin k)) : M (List (Fin k × Ref)) :=
  js.mapM fun j => do
    let r ← deref (t.getChain (n.hash j))
    let r ← t.findChainPtr j pos (t.cap + 1) r
    .ok (j, r)

/-- `erase(const_iterator)` and `do_erase(pos, node)` (dense_table.hpp 430-434, 725-734): returns the index of the returned
iterator. -/
def eraseAt (t : Table k K V) (pos : Nat) : M (Table k K V × Nat) :=
  if pos = t.size then .ok (t, pos)
  else do
    let n ← t.readNode pos
    let slice ← t.slices n pos (List.finRange k)
    let t ← t.eraseNode pos slice
    .ok (t, pos)

/-- `do_erase(key)` (dense_table.hpp 740-762): returns the index of the returned iterator, and whether an element was
erased (which the user sees by comparing the sizes). -/
def erase (hash : K → Nat) (t : Table k K V) (j : Fin k) (x : K) : M (Table k K V × Nat × Bool) := do
  let r ← deref (t.getChain (hash x))
  let (i, r) ← t.findLoop j x (hash x) (t.cap + 1) r
  match i with
  | none => .ok (t, t.size, false)
  | some pos =>
    let n ← t.readNode pos
    let rest ← t.slices n pos ((List.finRange k).filter (· ≠ j))
    let t ← t.eraseNode pos ((j, r) :: rest)
    .ok (t, pos, true)

/-- `erase(first, last)` (dense_table.hpp 435-440): erases backwards. -/
def eraseRange (t : Table k K V) (first last : Nat) : M (Table k K V × Nat) :=
  ((List.range' first (last - first)).reverse).foldlM (fun tr i => tr.1.eraseAt i) (t, t.size)

/-- `m_dense[i].destroy(alloc)` (dense_table.hpp 901, table_common.hpp 259). -/
def destroyNode (t : Table k K V) (i : Nat) : M (Table k K V) :=
  match t.node i with
  | some _ => .ok { t with node := upd t.node i none }
  | none => .error .deadDestroy

/-- `clear_data` (dense_table.hpp 898-902). -/
def clearData (t : Table k K V) : M (Table k K V) := do
  let t' ← (List.range t.size).foldlM (fun t i => t.destroyNode i) t
  .ok { t' with size := 0 }

/-- `clear` (dense_table.hpp 349-357). -/
def clear (t : Table k K V) : M (Table k K V) := ({ t with head := fun _ _ => none } : Table k K V).clearData

/-- `reserve` (dense_table.hpp 358-362). -/
def reserve (t : Table k K V) (n : Nat) : M (Table k K V) := do
  let t ← (if n > t.cap then t.resizeData n else .ok t : M (Table k K V))
  t.rehash (t.lf.div n)

/-- `insert(first, last)` (dense_table.hpp 388-394); `ra`: the iterators are random access iterators. -/
def insertRange (hash : K → Nat) (t : Table k K V) (ra : Bool) (xs : List (Elem k K V)) : M (Table k K V) := do
  let t ← (if ra then t.reserve (t.size + xs.length) else .ok t : M (Table k K V))
  xs.foldlM (fun t x => do
    let r ← t.insert hash x.1 x.2
    .ok r.1) t

/-- `dense_table(first, last, bucket_count, ...)` (dense_table.hpp 227-228, utility.hpp 200-207): `distance_or_n` is at
least the length of a range of random access iterators. -/
def ofRange (hash : K → Nat) (lf : LF) (ra : Bool) (n : Nat) (xs : List (Elem k K V)) : M (Table k K V) :=
  (withBuckets lf (if ra then max xs.length n else n)).insertRange hash ra xs

/-- `assign(first, last)` (dense_table.hpp 311-316). -/
def assignRange (hash : K → Nat) (t : Table k K V) (ra : Bool) (xs : List (Elem k K V)) : M (Table k K V) := do
  let t ← t.clear
  t.insertRange hash ra xs

/-- `max_load_factor(f)` (dense_table.hpp 454). -/
def setLoad (t : Table k K V) (lf : LF) : Table k K V := { t with lf := lf }

/-- `begin()` to `end()` (dense_table.hpp 318-321, 490-515). -/
def iterate (t : Table k K V) : M (List ((Fin k → K) × V)) :=
  (List.range t.size).mapM fun i => do
    let n ← t.readNode i
    .ok (n.key, n.val)

/-- `find` (dense_table.hpp 367-370) and dereference: the element designated by the iterator unless it is `end()`. -/
def lookup (hash : K → Nat) (t : Table k K V) (j : Fin k) (x : K) : M (Option ((Fin k → K) × V)) := do
  let (i, _) ← t.findNode hash j x
  match i with
  | none => .ok none
  | some i =>
    let n ← t.readNode i
    .ok (some (n.key, n.val))

/-- `contains` (dense_table.hpp 364-365). -/
def contains (hash : K → Nat) (t : Table k K V) (j : Fin k) (x : K) : M Bool := do
  let (i, _) ← t.findNode hash j x
  .ok i.isSome

/-! ## Copies, moves and swaps

All containers share one hash function and one key comparison (`hash_base` and `cmp_base` are copied, moved and swapped
along with the buffers). -/

/-- One turn of the loop of `copy_data` (dense_table.hpp 843-849, 39-43): copy the node, `next` included, and link it. -/
def copyNode (other t : Table k K V) (i : Nat) : M (Table k K V) := do
  let n ← other.readNode i
  if i < t.cap then
    match t.node i with
    | some _ => .error .liveOverwrite
    | none =>
      let t : Table k K V := { t with size := i + 1, node := upd t.node i (some n) }
      (List.finRange k).foldlM (fun t j => t.insertNode i j) t
  else .error .oobNode

/-- `copy_data` (dense_table.hpp 823-859, utility.hpp 232-248) without the order links. -/
def copyData (t other : Table k K V) : M (Table k K V) :=
  if t.size ≠ 0 then .error .assertFail
  else if other.size = 0 then .ok { t with size := 0 }
  else
    let t : Table k K V :=
      { t with
        bc := if t.bc < other.bc then other.bc else t.bc
        head := fun _ _ => none
        cap := if t.cap < other.size then other.size else t.cap
        node := if t.cap < other.size then fun _ => none else t.node }
    (List.range other.size).foldlM (fun t i => copyNode other t i) t

/-- `move_data` (dense_table.hpp 860-885): as `copy_data`, but the nodes of `other` are destroyed and its size is reset.
Its buckets are left alone. -/
def moveData (t other : Table k K V) : M (Table k K V × Table k K V) :=
  if other.size = 0 then do
    let t ← t.copyData other
    .ok (t, other)
  else do
    let t ← t.copyData other
    .ok (t, { other with size := 0, node := fun i => if i < other.size then none else other.node i })

/-- `swap_buffers` (dense_table.hpp 889-897). -/
def swapBuffers (t other : Table k K V) : Table k K V × Table k K V :=
  ({ other with lf := t.lf }, { t with lf := other.lf })

/-- Deallocation of both buffers (dense_table.hpp 259-268, 289-298). -/
def dropBuffers (t : Table k K V) : Table k K V := { t with bc := 0, head := fun _ _ => none, cap := 0, node := fun _ => none }

/-- `dense_table(const dense_table &)` (dense_table.hpp 230-237). -/
def copyCtor (other : Table k K V) : M (Table k K V) := (init other.lf).copyData other

/-- `operator=(const dense_table &)` (dense_table.hpp 250-275) for distinct objects; `prop` is
`propagate_on_container_copy_assignment`. -/
def copyAssign (prop : Bool) (t other : Table k K V) : M (Table k K V) := do
  let t ← ({ t with lf := other.lf } : Table k K V).clearData
  let t : Table k K V := if prop then t.dropBuffers else t
  t.copyData other

/-- `move_from` (dense_table.hpp 904-910); `eq`: the allocators are equal. -/
def moveFrom (eq : Bool) (t other : Table k K V) : M (Table k K V × Table k K V) :=
  if eq then .ok (t.swapBuffers other) else t.moveData other

/-- `dense_table(dense_table &&)` and `dense_table(dense_table &&, const allocator_type &)` (dense_table.hpp 239-248);
returns the new table and what is left of `other`. -/
def moveCtor (eq : Bool) (other : Table k K V) : M (Table k K V × Table k K V) := (init other.lf).moveFrom eq other

/-- `operator=(dense_table &&)` (dense_table.hpp 276-302) for distinct objects; `prop` is
`propagate_on_container_move_assignment`. -/
def moveAssign (prop eq : Bool) (t other : Table k K V) : M (Table k K V × Table k K V) := do
  let t ← ({ t with lf := other.lf } : Table k K V).clearData
  let t : Table k K V := if prop then t.dropBuffers else t
  t.moveFrom (prop || eq) other

/-- `swap` (dense_table.hpp 460-477) with equal allocators. -/
def swap (t other : Table k K V) : Table k K V × Table k K V :=
  let r := t.swapBuffers other
  ({ r.1 with lf := r.2.lf }, { r.2 with lf := r.1.lf })

/-! ## Histories -/

/-- `insert_or_assign` in a history. -/
def assignStep (hash : K → Nat) : {k : Nat} → k = 1 → Table k K V → K → V → M (Table k K V × Nat × Bool)
  | _, rfl, t, x, v => t.insertOrAssign hash x v

/-- One operation of a history: the functions above and what the user sees of their results. -/
def step (hash : K → Nat) (t : Table k K V) : Op k K V → M (Table k K V × Out k K V)
  | .insert key v => do
    let r ← t.insert hash key v
    .ok (r.1, .ins r.2.1 r.2.2)
  | .emplace key v => do
    let r ← t.emplace hash key v
    .ok (r.1, .ins r.2.1 r.2.2)
  | .assign hk x v => do
    let r ← assignStep hash hk t x v
    .ok (r.1, .ins r.2.1 r.2.2)
  | .erase j x => do
    let r ← t.erase hash j x
    .ok (r.1, .pos r.2.1)
  | .eraseAt pos =>
    if pos < t.size then do
      let r ← t.eraseAt pos
      .ok (r.1, .pos r.2)
    else .ok (t, .unit)
  | .eraseRange first n =>
    if first + n ≤ t.size then do
      let r ← t.eraseRange first (first + n)
      .ok (r.1, .pos r.2)
    else .ok (t, .unit)
  | .insertRange ra xs => do
    let t ← t.insertRange hash ra xs
    .ok (t, .unit)
  | .assignRange ra xs => do
    let t ← t.assignRange hash ra xs
    .ok (t, .unit)
  | .clear => do
    let t ← t.clear
    .ok (t, .unit)
  | .reserve n => do
    let t ← t.reserve n
    .ok (t, .unit)
  | .rehash n => do
    let t ← t.rehash n
    .ok (t, .unit)
  | .setLoad lf => .ok (t.setLoad lf, .unit)
  | .find j x => do
    let e ← t.lookup hash j x
    .ok (t, .elem e)
  | .contains j x => do
    let b ← t.contains hash j x
    .ok (t, .bool b)
  | .size => .ok (t, .nat t.size)
  | .iterate => do
    let l ← t.iterate
    .ok (t, .list l)

/-- A history. -/
def run (hash : K → Nat) (t : Table k K V) : List (Op k K V) → M (Table k K V × List (Out k K V))
  | [] => .ok (t, [])
  | o :: os => do
    let r ← t.step hash o
    let s ← r.1.run hash os
    .ok (s.1, r.2 :: s.2)

end Table
end Tpp.Dense
