import Verif.Dense.Model
import Verif.Ordered.DenseSpec
import Verif.Ordered.Ring

/-!
# Model of the ordered dense containers (/repo/tpp/detail/dense_table.hpp with `link_type = ordered_link`)

The container is the unordered table (`Verif/Dense/Model.lean`), the address of its header link, and the address of its node
array.  The links are in `Mem`.  An operation is the operation of the unordered table together with its effect on the links; the
two touch different data, so that the order in which they are done does not matter.

Simplifications:
* `sz` is `sizeof(bucket_node)`, any positive number; the link is the first base class of a node, so that both have one address;
* null pointers are the address 0, which is only used for arrays of 0 nodes;
* `hint.link += off_bytes / sizeof(bucket_link)` (dense_table.hpp 813) adds the distance of the two arrays, i.e. the distance is
  taken to be a multiple of the size of a link (`Verif/Ordered/HintWords.lean` has the arithmetic as it is written).
-/

set_option linter.unusedSectionVars false

namespace Tpp.ODense

open Tpp.Dense (Elem LF Table)
open Tpp.Ordered

/-- An ordered `dense_table` (dense_table.hpp 904-912 and `link_base`): the unordered part, the address of the header link, and
`m_dense`. -/
structure OTable (k : Nat) (K V : Type) where
  core : Table k K V
  hd : Int
  base : Int

namespace OTable

variable {k : Nat} {K V : Type} [DecidableEq K]

/-- Address of `m_dense[i]`. -/
def addr (sz : Int) (t : OTable k K V) (i : Nat) : Int := t.base + sz * (i : Int)

/-- The storage a container owns: its header and its array. -/
def foot (sz : Int) (t : OTable k K V) : List Int := t.hd :: slots sz t.base t.core.cap

/-- `&(*to_underlying(where)) - m_dense` (dense_table.hpp 432), if the address is a node of the array. -/
def slotOf (sz : Int) (t : OTable k K V) (a : Int) : Option Nat := (List.range t.core.cap).find? fun i => t.addr sz i = a

/-- Dereferencing an iterator (table_common.hpp 562-563). -/
def elemAt (sz : Int) (t : OTable k K V) (a : Int) : M (Elem k K V) :=
  match t.slotOf sz a with
  | none => .error .dangling
  | some i => do
    let n ← t.core.readNode i
    .ok (n.key, n.val)

/-- `dense_table()` (dense_table.hpp 214): the header is a new object, its link is empty (table_common.hpp 118, 178-180). -/
def create (sz : Int) (A : Alloc) (m : Mem) (lf : LF) : Mem × OTable k K V :=
  let r := m.alloc sz A 1
  ({ r.1 with link := fun x => if x = r.2 then ⟨0, 0⟩ else r.1.link x }, { core := Table.init lf, hd := r.2, base := 0 })

/-- `dense_table(bucket_count, ...)` (dense_table.hpp 217-225). -/
def createN (sz : Int) (A : Alloc) (m : Mem) (lf : LF) (n : Nat) : Mem × OTable k K V :=
  let r := (create (k := k) (K := K) (V := V) sz A m lf)
  if n = 0 then r
  else
    let s := r.1.alloc sz A n
    (s.1, { r.2 with core := Table.withBuckets lf n, base := s.2 })

/-- The links in `resize_data` (dense_table.hpp 783-801, 53-58, table_common.hpp 234-239): the nodes move to a new array of `c`
nodes, the old array is freed. -/
def growLinks (sz : Int) (A : Alloc) (m : Mem) (t : OTable k K V) (c : Nat) : M (Mem × Int) := do
  let r := m.alloc sz A c
  let m ← moveLinks sz t.base r.2 r.1 t.core.size
  let m ← m.free sz t.base t.core.cap
  .ok (m, r.2)

/-- The links in `maybe_resize` (dense_table.hpp 802-821). -/
def maybeGrow (sz : Int) (A : Alloc) (m : Mem) (t : OTable k K V) : M (Mem × Int) :=
  if t.core.cap = t.core.size then growLinks sz A m t (if t.core.cap = 0 then 1 else t.core.cap * 2) else .ok (m, t.base)

/-- The link in `commit_node` (dense_table.hpp 582, 496-502): behind the hint, or behind the last element without a hint. -/
def linkNew (m : Mem) (hd a : Int) : Option Int → M Mem
  | some h => m.linkAfter a h
  | none => do
    let p ← m.prevOf hd
    m.linkAfter a p

/-- An insertion: `op` is what it does to the unordered table.  `maybe_resize` moves the hint along (dense_table.hpp 810-814).
Returns the designated node and whether it was inserted. -/
def insertWith (sz : Int) (A : Alloc) (m : Mem) (t : OTable k K V) (op : Table k K V → M (Table k K V × Nat × Bool))
    (hint : Option Int) : M (Mem × OTable k K V × Int × Bool) := do
  let g ← maybeGrow sz A m t
  let r ← op t.core
  let a := g.2 + sz * (r.2.1 : Int)
  let m ← (if r.2.2 then linkNew g.1 t.hd a (hint.map (· + (g.2 - t.base))) else .ok g.1 : M Mem)
  .ok (m, { t with core := r.1, base := g.2 }, a, r.2.2)

/-- `insert` and `try_emplace` (dense_table.hpp 372-381, 646-697). -/
def insert (hash : K → Nat) (sz : Int) (A : Alloc) (m : Mem) (t : OTable k K V) (key : Fin k → K) (v : V)
    (hint : Option Int := none) : M (Mem × OTable k K V × Int × Bool) :=
  insertWith sz A m t (fun c => c.insert hash key v) hint

/-- `emplace` (dense_table.hpp 401-404, 620-644). -/
def emplace (hash : K → Nat) (sz : Int) (A : Alloc) (m : Mem) (t : OTable k K V) (key : Fin k → K) (v : V)
    (hint : Option Int := none) : M (Mem × OTable k K V × Int × Bool) :=
  insertWith sz A m t (fun c => c.emplace hash key v) hint

/-- `insert_or_assign` (dense_table.hpp 396-399, 699-723). -/
def assign (hash : K → Nat) (sz : Int) (A : Alloc) (m : Mem) (t : OTable k K V) (hk : k = 1) (x : K) (v : V)
    (hint : Option Int := none) : M (Mem × OTable k K V × Int × Bool) :=
  insertWith sz A m t (fun c => Table.assignStep hash hk c x v) hint

/-- The links in `erase_node` (dense_table.hpp 600-617, 47-51, table_common.hpp 240-245): the successor is read, the node is
unlinked, and the last node of the array takes its place.  Returns the successor as read. -/
def eraseLinks (sz : Int) (m : Mem) (t : OTable k K V) (pos : Nat) : M (Mem × Int) := do
  let next ← m.nextOf (t.addr sz pos)
  let m ← m.unlink (t.addr sz pos)
  let m ← (if pos ≠ t.core.size - 1 then m.relinkFrom (t.addr sz pos) (t.addr sz (t.core.size - 1)) else .ok m : M Mem)
  .ok (m, next)

/-- `erase(const_iterator)` (dense_table.hpp 430-434, 725-738).  Returns the address in the returned iterator. -/
def eraseIter (sz : Int) (m : Mem) (t : OTable k K V) (a : Int) : M (Mem × OTable k K V × Int) :=
  match t.slotOf sz a with
  | none => .error .dangling
  | some pos =>
    if pos < t.core.size then do
      let r ← t.eraseLinks sz m pos
      let c ← t.core.eraseAt pos
      .ok (r.1, { t with core := c.1 }, r.2)
    else .error .deadRead

/-- `erase(key)` (dense_table.hpp 428-429, 740-762).  Returns the address in the returned iterator and whether an element was
erased. -/
def erase (hash : K → Nat) (sz : Int) (m : Mem) (t : OTable k K V) (j : Fin k) (x : K) : M (Mem × OTable k K V × Int × Bool) := do
  let c ← t.core.erase hash j x
  if c.2.2 then do
    let r ← t.eraseLinks sz m c.2.1
    .ok (r.1, { t with core := c.1 }, r.2, true)
  else .ok (m, { t with core := c.1 }, t.hd, false)

/-- `erase(first, last)` (dense_table.hpp 435-440). -/
def eraseRange (sz : Int) (first : Int) : Nat → Mem → OTable k K V → Int → Int → M (Mem × OTable k K V × Int)
  | 0, _, _, _, _ => .error .diverge
  | fuel + 1, m, t, last, result =>
    if last = first then .ok (m, t, result)
    else do
      let p ← m.prevOf last
      let r ← t.eraseIter sz m p
      eraseRange sz first fuel r.1 r.2.1 p r.2.2

/-- The loop of `erase_if` (dense_set.hpp 700-714, dense_map.hpp likewise): returns the number of erased elements. -/
def eraseIf (sz : Int) (p : Elem k K V → Bool) : Nat → Mem → OTable k K V → Int → Nat → M (Mem × OTable k K V × Nat)
  | 0, _, _, _, _ => .error .diverge
  | fuel + 1, m, t, a, n =>
    if a = t.hd then .ok (m, t, n)
    else do
      let e ← t.elemAt sz a
      if p e then do
        let r ← t.eraseIter sz m a
        eraseIf sz p fuel r.1 r.2.1 r.2.2 (n + 1)
      else do
        let b ← m.nextOf a
        eraseIf sz p fuel m t b n

/-- `clear` (dense_table.hpp 349-357). -/
def clear (m : Mem) (t : OTable k K V) : M (Mem × OTable k K V) := do
  let m ← m.reset t.hd
  let c ← t.core.clear
  .ok (m, { t with core := c })

/-- `reserve` (dense_table.hpp 358-362). -/
def reserve (sz : Int) (A : Alloc) (m : Mem) (t : OTable k K V) (n : Nat) : M (Mem × OTable k K V) := do
  let g ← (if n > t.core.cap then t.growLinks sz A m n else .ok (m, t.base) : M (Mem × Int))
  let c ← t.core.reserve n
  .ok (g.1, { t with core := c, base := g.2 })

/-- `insert(first, last)` (dense_table.hpp 388-394). -/
def insertRange (hash : K → Nat) (sz : Int) (A : Alloc) (m : Mem) (t : OTable k K V) (ra : Bool) (xs : List (Elem k K V)) :
    M (Mem × OTable k K V) := do
  let s ← (if ra then t.reserve sz A m (t.core.size + xs.length) else .ok (m, t) : M (Mem × OTable k K V))
  xs.foldlM (fun s x => do
    let r ← s.2.insert hash sz A s.1 x.1 x.2
    .ok (r.1, r.2.1)) s

/-- `begin()` (dense_table.hpp 318, 490-496). -/
def first (m : Mem) (t : OTable k K V) : M Int := m.nextOf t.hd

/-- One operation on a container. -/
def step (hash : K → Nat) (sz : Int) (A : Alloc) (m : Mem) (t : OTable k K V) : Op k K V → M (Mem × OTable k K V × Out k K V)
  | .insert key v => do
    let r ← t.insert hash sz A m key v
    let e ← r.2.1.elemAt sz r.2.2.1
    .ok (r.1, r.2.1, .ins e r.2.2.2)
  | .emplace key v => do
    let r ← t.emplace hash sz A m key v
    let e ← r.2.1.elemAt sz r.2.2.1
    .ok (r.1, r.2.1, .ins e r.2.2.2)
  | .assign hk x v => do
    let r ← t.assign hash sz A m hk x v
    let e ← r.2.1.elemAt sz r.2.2.1
    .ok (r.1, r.2.1, .ins e r.2.2.2)
  | .erase j x => do
    let r ← t.erase hash sz m j x
    .ok (r.1, r.2.1, .bool r.2.2.2)
  | .eraseNth n =>
    if n < t.core.size then do
      let b ← t.first m
      let a ← advance m n b
      let r ← t.eraseIter sz m a
      .ok (r.1, r.2.1, .bool true)
    else .ok (m, t, .bool false)
  | .insertRange ra xs => do
    let r ← t.insertRange hash sz A m ra xs
    .ok (r.1, r.2, .unit)
  | .assignRange ra xs => do
    let s ← t.clear m
    let r ← s.2.insertRange hash sz A s.1 ra xs
    .ok (r.1, r.2, .unit)
  | .clear => do
    let r ← t.clear m
    .ok (r.1, r.2, .unit)
  | .reserve n => do
    let r ← t.reserve sz A m n
    .ok (r.1, r.2, .unit)
  | .rehash n => do
    let c ← t.core.rehash n
    .ok (m, { t with core := c }, .unit)
  | .setLoad lf => .ok (m, { t with core := t.core.setLoad lf }, .unit)
  | .find j x => do
    let e ← t.core.lookup hash j x
    .ok (m, t, .elem e)
  | .contains j x => do
    let b ← t.core.contains hash j x
    .ok (m, t, .bool b)
  | .size => .ok (m, t, .nat t.core.size)
  | .front =>
    if t.core.size = 0 then .ok (m, t, .elem none)
    else do
      let a ← t.first m
      let e ← t.elemAt sz a
      .ok (m, t, .elem (some e))
  | .back =>
    if t.core.size = 0 then .ok (m, t, .elem none)
    else do
      let a ← m.prevOf t.hd
      let e ← t.elemAt sz a
      .ok (m, t, .elem (some e))
  | .iterate => do
    let a ← t.first m
    let l ← walk m t.hd (t.elemAt sz) (t.core.size + 1) a
    .ok (m, t, .list l)
  | .reverse => do
    let a ← t.first m
    let l ← rwalk m a (t.elemAt sz) (t.core.size + 1) t.hd
    .ok (m, t, .list l)

/-! ## Copies, moves and swaps -/

/-- Copying the links of the nodes `0, …, n - 1` (dense_table.hpp 843-849, 39-43, table_common.hpp 228-233, 120). -/
def copyLinks (sz : Int) (src dst : Int) (m : Mem) (n : Nat) : M Mem :=
  (List.range n).foldlM (fun (m : Mem) (i : Nat) => m.copyFrom (dst + sz * (i : Int)) (src + sz * (i : Int))) m

/-- `realloc_buffer` for the node array (utility.hpp 232-248, dense_table.hpp 838, 875): frees first. -/
def reallocArray (sz : Int) (A : Alloc) (m : Mem) (base : Int) (cap n : Nat) : M (Mem × Int) :=
  if cap < n then do
    let m ← m.free sz base cap
    let r := m.alloc sz A n
    .ok (r.1, r.2)
  else .ok (m, base)

/-- The links in `copy_data` (dense_table.hpp 823-859): the nodes' offsets are copied, then the ends are linked to the header. -/
def copyDataLinks (sz : Int) (A : Alloc) (m : Mem) (t other : OTable k K V) : M (Mem × Int) :=
  if other.core.size = 0 then .ok (m, t.base)
  else do
    let g ← reallocArray sz A m t.base t.core.cap other.core.size
    let m ← copyLinks sz other.base g.2 g.1 other.core.size
    let f ← m.nextOf other.hd
    let b ← m.prevOf other.hd
    match other.slotOf sz f, other.slotOf sz b with
    | some i, some j => do
      let m ← m.link2 t.hd (g.2 + sz * (i : Int)) (g.2 + sz * (j : Int))
      .ok (m, g.2)
    | _, _ => .error .dangling

/-- `dense_table(const dense_table &)` (dense_table.hpp 230-237): `link_base(other)` copies the offsets of the header. -/
def copyCtor (sz : Int) (A : Alloc) (m : Mem) (other : OTable k K V) : M (Mem × OTable k K V) := do
  let r : Mem × OTable k K V := create sz A m other.core.lf
  let m ← r.1.copyFrom r.2.hd other.hd
  let g ← copyDataLinks sz A m r.2 other
  let c ← other.core.copyCtor
  .ok (g.1, { r.2 with core := c, base := g.2 })

/-- The container after `clear_data` and, if the allocator is propagated, after the buffers were freed (dense_table.hpp 259-268,
289-298). -/
def dropArray (sz : Int) (prop : Bool) (m : Mem) (t : OTable k K V) : M (Mem × OTable k K V) :=
  if prop then do
    let m ← m.free sz t.base t.core.cap
    .ok (m, { t with core := { t.core with cap := 0 }, base := 0 })
  else .ok (m, t)

/-- `operator=(const dense_table &)` (dense_table.hpp 250-275) for distinct objects. -/
def copyAssign (sz : Int) (A : Alloc) (prop : Bool) (m : Mem) (t other : OTable k K V) : M (Mem × OTable k K V) := do
  let m ← m.copyFrom t.hd other.hd
  let d ← t.dropArray sz prop m
  let g ← copyDataLinks sz A d.1 d.2 other
  let c ← t.core.copyAssign prop other.core
  .ok (g.1, { t with core := c, base := g.2 })

/-- `dense_table(dense_table &&)` with equal allocators (dense_table.hpp 239-248, 889-910). -/
def moveCtor (sz : Int) (A : Alloc) (m : Mem) (other : OTable k K V) : M (Mem × OTable k K V × OTable k K V) := do
  let r : Mem × OTable k K V := create sz A m other.core.lf
  let m ← r.1.relinkFrom r.2.hd other.hd
  let c ← other.core.moveCtor true
  .ok (m, { r.2 with core := c.1, base := other.base }, { other with core := c.2, base := r.2.base })

/-- `operator=(dense_table &&)` (dense_table.hpp 276-302, 889-910) for distinct objects and equal or propagated allocators. -/
def moveAssign (sz : Int) (prop : Bool) (m : Mem) (t other : OTable k K V) : M (Mem × OTable k K V × OTable k K V) := do
  let m ← m.relinkFrom t.hd other.hd
  let d ← t.dropArray sz prop m
  let c ← t.core.moveAssign prop true other.core
  .ok (d.1, { t with core := c.1, base := other.base }, { other with core := c.2, base := d.2.base })

/-- The links in `move_data` (dense_table.hpp 860-885, 53-58, table_common.hpp 234-239): the nodes are relocated one by one into the
array of the target; the array of the source stays allocated. -/
def moveDataLinks (sz : Int) (A : Alloc) (m : Mem) (t other : OTable k K V) : M (Mem × Int) :=
  if other.core.size = 0 then .ok (m, t.base)
  else do
    let g ← reallocArray sz A m t.base t.core.cap other.core.size
    let m ← moveLinks sz other.base g.2 g.1 other.core.size
    .ok (m, g.2)

/-- `dense_table(dense_table &&, const allocator_type &)` with an allocator unequal to that of the source (dense_table.hpp 244-248,
905-910): the header is relinked first, then the elements are moved. -/
def moveCtorUnequal (sz : Int) (A : Alloc) (m : Mem) (other : OTable k K V) : M (Mem × OTable k K V × OTable k K V) := do
  let r : Mem × OTable k K V := create sz A m other.core.lf
  let m ← r.1.relinkFrom r.2.hd other.hd
  let g ← moveDataLinks sz A m r.2 other
  let c ← other.core.moveCtor false
  .ok (g.1, { r.2 with core := c.1, base := g.2 }, { other with core := c.2 })

/-- `operator=(dense_table &&)` (dense_table.hpp 276-302, 905-910) for distinct objects with unequal allocators that are not
propagated. -/
def moveAssignUnequal (sz : Int) (A : Alloc) (m : Mem) (t other : OTable k K V) : M (Mem × OTable k K V × OTable k K V) := do
  let m ← m.relinkFrom t.hd other.hd
  let g ← moveDataLinks sz A m t other
  let c ← t.core.moveAssign false false other.core
  .ok (g.1, { t with core := c.1, base := g.2 }, { other with core := c.2 })

/-- `swap` (dense_table.hpp 460-477, table_common.hpp 43-47, 168-174). -/
def swap (m : Mem) (t other : OTable k K V) : M (Mem × OTable k K V × OTable k K V) := do
  let m ← m.swapHeaders t.hd other.hd
  let c := t.core.swap other.core
  .ok (m, { t with core := c.1, base := other.base }, { other with core := c.2, base := t.base })

/-- `~dense_table()` (dense_table.hpp 304-309): the array and the object itself go away. -/
def destroy (sz : Int) (m : Mem) (t : OTable k K V) : M Mem := do
  let _ ← t.core.clearData
  let m ← m.free sz t.base t.core.cap
  m.free sz t.hd 1

end OTable
end Tpp.ODense
