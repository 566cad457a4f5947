import Verif.Swiss.Multi
import Verif.Ordered.SwissSpec
import Verif.Ordered.Ring

/-!
# Model of the ordered sparse and stable containers (/repo/tpp/detail/swiss_table.hpp with `link_type = ordered_link`)

The container is the unordered table (`Verif/Swiss/Model.lean`), the address of its header link, and the address of its node
array.  The links are in `Mem`.  An operation is the operation of the unordered table together with its effect on the links; the
two touch different data, so that the order in which they are done does not matter.  Where the unordered table relocates nodes it
records this in its log, and `replay` performs what the relocations do to the links.

Simplifications:
* `sz` is the size of a node, any positive number; the link is the first base class of a node, so that both have one address;
* null pointers are the address 0, which is only used for arrays of 0 nodes;
* iterators are addresses of links (table_common.hpp 517-581), `end()` is the header; unlike in the unordered table no iterator is
  made by scanning control bytes (swiss_table.hpp 1175-1202).

`strict = false` is the code.  With `strict = true` an operation stops with the fault `rawSwap` where the code would exchange the
links of two nodes (swiss_table.hpp 1438); this variant only serves to say when that happens.
-/

set_option linter.unusedSectionVars false

namespace Tpp.OSwiss

open Tpp.Swiss (Node Ev Table AllocP)
open Tpp.Ordered

/-- What is fixed: the width of a block, the hash function, the size of a node, the allocator. -/
structure Cfg (K : Type) where
  isa : Isa
  hash : K → Nat
  sz : Int
  A : Alloc
  strict : Bool

/-- An ordered `swiss_table` (swiss_table.hpp 1545-1547 and `link_base`): the unordered part, the address of the header link, and
the address of the nodes. -/
structure OTable (K V : Type) where
  core : Table K V
  hd : Int
  base : Int

/-- The table with an empty log. -/
def fresh {K V : Type} (t : Table K V) : Table K V := { t with log := [] }

/-- What one relocation does to the links: `relocate` (swiss_table.hpp 1388, 1431; table_common.hpp 260-275, 234-239) moves the
link, `swap` of two nodes (swiss_table.hpp 1438; table_common.hpp 292-298) exchanges the offsets. -/
def replayEv (sz : Int) (strict : Bool) (old new : Int) (m : Mem) : Ev → M Mem
  | .grow _ => .ok m
  | .rel i j => m.relinkFrom (new + sz * (j : Int)) (old + sz * (i : Int))
  | .mv i j => m.relinkFrom (new + sz * (j : Int)) (new + sz * (i : Int))
  | .swp i j => if strict then .error .rawSwap else m.rawSwap (new + sz * (i : Int)) (new + sz * (j : Int))

namespace OTable

variable {K V : Type} [DecidableEq K]

/-- Address of the node `i`. -/
def addr (sz : Int) (t : OTable K V) (i : Nat) : Int := t.base + sz * (i : Int)

/-- The storage a container owns: its header and its array. -/
def foot (sz : Int) (t : OTable K V) : List Int := t.hd :: slots sz t.base t.core.cap

/-- `&(*to_underlying(where)) - m_buffer.nodes()` (swiss_table.hpp 1064), if the address is a node of the array. -/
def slotOf (sz : Int) (t : OTable K V) (a : Int) : Option Nat := (List.range t.core.cap).find? fun i => t.addr sz i = a

/-- The iterator made from a slot number (swiss_table.hpp 1175-1187): `end()` if there is no such slot. -/
def iterAt (sz : Int) (t : OTable K V) (i : Nat) : Int := if i < t.core.cap then t.addr sz i else t.hd

/-- Dereferencing an iterator (table_common.hpp 562-563). -/
def elemAt (sz : Int) (t : OTable K V) (a : Int) : M (K × V) :=
  match t.slotOf sz a with
  | none => .error .dangling
  | some i => do
    let n ← t.core.readNode i
    .ok (n.key, n.val)

/-- The element an iterator designates, if it is not `end()`. -/
def deref (sz : Int) (t : OTable K V) (a : Int) : M (Option (K × V)) :=
  if a = t.hd then .ok none
  else do
    let e ← t.elemAt sz a
    .ok (some e)

/-- `swiss_table()` (swiss_table.hpp 836): the header is a new object, its link is empty (table_common.hpp 118, 178-180). -/
def create (c : Cfg K) (m : Mem) : Mem × OTable K V :=
  let r := m.alloc c.sz c.A 1
  ({ r.1 with link := fun x => if x = r.2 then ⟨0, 0⟩ else r.1.link x }, { core := Table.init, hd := r.2, base := 0 })

/-- `swiss_table(n, ...)` (swiss_table.hpp 839-843). -/
def createN (c : Cfg K) (m : Mem) (n : Nat) : M (Mem × OTable K V) := do
  let r : Mem × OTable K V := create c m
  let s := r.1.alloc c.sz c.A n
  let t ← Table.withCapacity c.isa n
  .ok (s.1, { r.2 with core := t, base := s.2 })

/-- The links during the relocations `es` of one operation of the unordered table (swiss_table.hpp 523-550, 1376-1446): a rehash
into a new buffer of `n` nodes frees the old one at the end. -/
def replay (c : Cfg K) (m : Mem) (t : OTable K V) (es : List Ev) : M (Mem × Int) :=
  match es with
  | .grow n :: es => do
    let r := m.alloc c.sz c.A n
    let m ← es.foldlM (replayEv c.sz c.strict t.base r.2) r.1
    let m ← m.free c.sz t.base t.core.cap
    .ok (m, r.2)
  | es => do
    let m ← es.foldlM (replayEv c.sz c.strict t.base t.base) m
    .ok (m, t.base)

/-- `insert_link` (swiss_table.hpp 1256-1263): behind the hint, or behind the last element without a hint. -/
def insertLink (m : Mem) (hd a : Int) : Option Int → M Mem
  | some h => m.linkAfter a h
  | none => do
    let p ← m.prevOf hd
    m.linkAfter a p

/-- An insertion: `op` is what it does to the unordered table.  The hint is not adjusted when the nodes move (swiss_table.hpp
1264-1300).  Returns the designated node and whether it was inserted. -/
def insertWith (c : Cfg K) (m : Mem) (t : OTable K V) (op : Table K V → M (Table K V × Nat × Bool)) (hint : Option Int) :
    M (Mem × OTable K V × Int × Bool) := do
  let r ← op (fresh t.core)
  let g ← t.replay c m r.1.log.reverse
  let a := g.2 + c.sz * (r.2.1 : Int)
  let m ← (if r.2.2 then insertLink g.1 t.hd a hint else .ok g.1 : M Mem)
  .ok (m, { t with core := r.1, base := g.2 }, a, r.2.2)

/-- `insert`, `emplace`, `try_emplace`, `insert_node` (swiss_table.hpp 935-987, 1011-1050, 1318-1347).  The temporary node of
`emplace` is not linked, so that moving it gives the new node an empty link (table_common.hpp 234-239, 139-152). -/
def insert (c : Cfg K) (m : Mem) (t : OTable K V) (k : K) (v : V) (hint : Option Int := none) : M (Mem × OTable K V × Int × Bool) :=
  insertWith c m t (fun x => x.insert c.isa c.hash k v) hint

/-- `insert_or_assign` (swiss_table.hpp 989-993, 1348-1359). -/
def assign (c : Cfg K) (m : Mem) (t : OTable K V) (k : K) (v : V) (hint : Option Int := none) : M (Mem × OTable K V × Int × Bool) :=
  insertWith c m t (fun x => x.insertOrAssign c.isa c.hash k v) hint

/-- The links in `erase_node` (swiss_table.hpp 1306-1312): the successor is read, then the node is unlinked. -/
def eraseLinks (sz : Int) (m : Mem) (t : OTable K V) (pos : Nat) : M (Mem × Int) := do
  let next ← m.nextOf (t.addr sz pos)
  let m ← m.unlink (t.addr sz pos)
  .ok (m, next)

/-- The unordered part of `erase_node` and `do_erase` (swiss_table.hpp 1301-1316, 1361-1368). -/
def eraseCore (c : Cfg K) (t : Table K V) (pos : Nat) : M (Table K V) := do
  let t ← t.eraseNode c.isa pos
  t.destroy pos

/-- `do_erase` (swiss_table.hpp 1361-1368).  Returns the address in the returned iterator. -/
def doErase (c : Cfg K) (m : Mem) (t : OTable K V) (pos : Nat) : M (Mem × OTable K V × Int) := do
  let r ← t.eraseLinks c.sz m pos
  let x ← eraseCore c (fresh t.core) pos
  .ok (r.1, { t with core := x }, r.2)

/-- `erase(const_iterator)` (swiss_table.hpp 1060-1069). -/
def eraseIter (c : Cfg K) (m : Mem) (t : OTable K V) (a : Int) : M (Mem × OTable K V × Int) :=
  if a = t.hd then .ok (m, t, t.hd)
  else
    match t.slotOf c.sz a with
    | none => .error .dangling
    | some pos => t.doErase c m pos

/-- `erase(key)` (swiss_table.hpp 1052-1059). -/
def erase (c : Cfg K) (m : Mem) (t : OTable K V) (k : K) : M (Mem × OTable K V × Int) := do
  let pos ← t.core.findNode c.isa k (c.hash k)
  if pos = t.core.cap then .ok (m, t, t.hd) else t.doErase c m pos

/-- `erase(first, last)` (swiss_table.hpp 1070-1075): `--last` before each erasure. -/
def eraseRange (c : Cfg K) (first : Int) : Nat → Mem → OTable K V → Int → Int → M (Mem × OTable K V × Int)
  | 0, _, _, _, _ => .error .diverge
  | fuel + 1, m, t, last, result =>
    if last = first then .ok (m, t, result)
    else do
      let p ← m.prevOf last
      let r ← t.eraseIter c m p
      eraseRange c first fuel r.1 r.2.1 p r.2.2

/-- The loop of `erase_if` (sparse_set.hpp 606-620, stable_set.hpp 676-690 and the maps): returns the number of erased elements. -/
def eraseIf (c : Cfg K) (p : K × V → Bool) : Nat → Mem → OTable K V → Int → Nat → M (Mem × OTable K V × Nat)
  | 0, _, _, _, _ => .error .diverge
  | fuel + 1, m, t, a, n =>
    if a = t.hd then .ok (m, t, n)
    else do
      let e ← t.elemAt c.sz a
      if p e then do
        let r ← t.eraseIter c m a
        eraseIf c p fuel r.1 r.2.1 r.2.2 (n + 1)
      else do
        let b ← m.nextOf a
        eraseIf c p fuel m t b n

/-- The unordered part of `do_extract` (swiss_table.hpp 1369-1374) and the taking over of the element (table_common.hpp 307-502). -/
def extractCore (c : Cfg K) (t : Table K V) (pos : Nat) : M (Table K V × Node K V) := do
  let t ← t.eraseNode c.isa pos
  let n ← t.readNode pos
  let t ← t.destroy pos
  .ok (t, n)

/-- `do_extract` (swiss_table.hpp 1369-1374): the node is unlinked and its element handed out. -/
def extractAt (c : Cfg K) (m : Mem) (t : OTable K V) (pos : Nat) : M (Mem × OTable K V × Node K V) := do
  let r ← t.eraseLinks c.sz m pos
  let x ← extractCore c (fresh t.core) pos
  .ok (r.1, { t with core := x.1 }, x.2)

/-- `extract(key)` (swiss_table.hpp 1077-1084). -/
def extract (c : Cfg K) (m : Mem) (t : OTable K V) (k : K) : M (Mem × OTable K V × Option (K × V)) := do
  let pos ← t.core.findNode c.isa k (c.hash k)
  if pos = t.core.cap then .ok (m, t, none)
  else do
    let r ← t.extractAt c m pos
    .ok (r.1, r.2.1, some (r.2.2.key, r.2.2.val))

/-- `extract(const_iterator)` (swiss_table.hpp 1085-1094). -/
def extractIter (c : Cfg K) (m : Mem) (t : OTable K V) (a : Int) : M (Mem × OTable K V × Option (K × V)) :=
  if a = t.hd then .ok (m, t, none)
  else
    match t.slotOf c.sz a with
    | none => .error .dangling
    | some pos => do
      let r ← t.extractAt c m pos
      .ok (r.1, r.2.1, some (r.2.2.key, r.2.2.val))

/-- `clear` (swiss_table.hpp 916-929). -/
def clear (c : Cfg K) (m : Mem) (t : OTable K V) : M (Mem × OTable K V) := do
  let m ← (if t.core.size ≠ 0 then m.reset t.hd else .ok m : M Mem)
  let x ← t.core.clear c.isa
  .ok (m, { t with core := x })

/-- `reserve` (swiss_table.hpp 930). -/
def reserve (c : Cfg K) (m : Mem) (t : OTable K V) (n : Nat) : M (Mem × OTable K V) := do
  let x ← (fresh t.core).reserve c.isa n
  let g ← t.replay c m x.log.reverse
  .ok (g.1, { t with core := x, base := g.2 })

/-- `rehash` (swiss_table.hpp 1124-1131). -/
def rehash (c : Cfg K) (m : Mem) (t : OTable K V) (n : Nat) : M (Mem × OTable K V) := do
  let x ← (fresh t.core).rehash c.isa n
  let g ← t.replay c m x.log.reverse
  .ok (g.1, { t with core := x, base := g.2 })

/-- `insert(first, last)` (swiss_table.hpp 981-987). -/
def insertRange (c : Cfg K) (m : Mem) (t : OTable K V) (ra : Bool) (xs : List (K × V)) : M (Mem × OTable K V) := do
  let s ← (if ra then t.reserve c m (t.core.size + xs.length) else .ok (m, t) : M (Mem × OTable K V))
  xs.foldlM (fun (s : Mem × OTable K V) (x : K × V) => do
    let r ← s.2.insert c s.1 x.1 x.2
    .ok (r.1, r.2.1)) s

/-- `begin()` (swiss_table.hpp 898, 1157-1163). -/
def first (m : Mem) (t : OTable K V) : M Int := m.nextOf t.hd

/-- `std::next(begin(), n)`. -/
def nth (m : Mem) (t : OTable K V) (n : Nat) : M Int := do
  let b ← t.first m
  advance m n b

/-- One operation on a container. -/
def step (c : Cfg K) (m : Mem) (t : OTable K V) : Op K V → M (Mem × OTable K V × Out K V)
  | .insert k v => do
    let r ← t.insert c m k v
    let e ← r.2.1.elemAt c.sz r.2.2.1
    .ok (r.1, r.2.1, .ins e r.2.2.2)
  | .assign k v => do
    let r ← t.assign c m k v
    let e ← r.2.1.elemAt c.sz r.2.2.1
    .ok (r.1, r.2.1, .ins e r.2.2.2)
  | .index k d => do
    let r ← t.insert c m k d
    let e ← r.2.1.elemAt c.sz r.2.2.1
    .ok (r.1, r.2.1, .elem (some e))
  | .erase k => do
    let r ← t.erase c m k
    let e ← r.2.1.deref c.sz r.2.2
    .ok (r.1, r.2.1, .elem e)
  | .eraseNth n =>
    if n < t.core.size then do
      let a ← t.nth m n
      let r ← t.eraseIter c m a
      let e ← r.2.1.deref c.sz r.2.2
      .ok (r.1, r.2.1, .elem e)
    else .ok (m, t, .elem none)
  | .eraseRange i j =>
    if i ≤ j ∧ j ≤ t.core.size then do
      let a ← t.nth m i
      let b ← t.nth m j
      let r ← t.eraseRange c a (t.core.size + 1) m b t.hd
      .ok (r.1, r.2.1, .unit)
    else .ok (m, t, .unit)
  | .eraseIf p => do
    let a ← t.first m
    let r ← eraseIf c p (t.core.size + 1) m t a 0
    .ok (r.1, r.2.1, .nat r.2.2)
  | .extract k => do
    let r ← t.extract c m k
    .ok (r.1, r.2.1, .elem r.2.2)
  | .insertRange ra xs => do
    let r ← t.insertRange c m ra xs
    .ok (r.1, r.2, .unit)
  | .assignRange ra xs => do
    let s ← t.clear c m
    let r ← s.2.insertRange c s.1 ra xs
    .ok (r.1, r.2, .unit)
  | .clear => do
    let r ← t.clear c m
    .ok (r.1, r.2, .unit)
  | .reserve n => do
    let r ← t.reserve c m n
    .ok (r.1, r.2, .unit)
  | .rehash n => do
    let r ← t.rehash c m (n + 1)
    .ok (r.1, r.2, .unit)
  | .find k => do
    let pos ← t.core.findNode c.isa k (c.hash k)
    let e ← t.deref c.sz (t.iterAt c.sz pos)
    .ok (m, t, .elem e)
  | .contains k => do
    let b ← t.core.contains c.isa c.hash k
    .ok (m, t, .bool b)
  | .size => .ok (m, t, .nat t.core.size)
  | .front =>
    if t.core.size = 0 then .ok (m, t, .elem none)
    else do
      let a ← t.first m
      let e ← t.elemAt c.sz a
      .ok (m, t, .elem (some e))
  | .back =>
    if t.core.size = 0 then .ok (m, t, .elem none)
    else do
      let a ← m.prevOf t.hd
      let e ← t.elemAt c.sz a
      .ok (m, t, .elem (some e))
  | .iterate => do
    let a ← t.first m
    let l ← walk m t.hd (t.elemAt c.sz) (t.core.size + 1) a
    .ok (m, t, .list l)
  | .reverse => do
    let a ← t.first m
    let l ← rwalk m a (t.elemAt c.sz) (t.core.size + 1) t.hd
    .ok (m, t, .list l)

/-! ## Copies, moves, swaps and merges -/

/-- The slots of the occupied nodes. -/
def occupied (t : Table K V) : List Nat := (List.range t.cap).filter fun i => (t.ctl i).isOccupied

/-- `reallocate` (swiss_table.hpp 558-571, 700-708) for the node array: frees first. -/
def reallocArray (c : Cfg K) (m : Mem) (base : Int) (cap n : Nat) : M (Mem × Int) :=
  if cap < n then do
    let m ← m.free c.sz base cap
    let r := m.alloc c.sz c.A n
    .ok (r.1, r.2)
  else .ok (m, base)

/-- The links in `copy_data` (swiss_table.hpp 1448-1485; table_common.hpp 228-233, 120): the nodes' offsets are copied, then the
ends are linked to the header. -/
def copyDataLinks (c : Cfg K) (m : Mem) (t other : OTable K V) : M (Mem × Int) :=
  if other.core.size = 0 then .ok (m, t.base)
  else do
    let g ← reallocArray c m t.base t.core.cap other.core.cap
    let m ← (occupied other.core).foldlM (fun (m : Mem) (i : Nat) =>
      m.copyFrom (g.2 + c.sz * (i : Int)) (other.base + c.sz * (i : Int))) g.1
    let f ← m.nextOf other.hd
    let b ← m.prevOf other.hd
    match other.slotOf c.sz f, other.slotOf c.sz b with
    | some i, some j => do
      let m ← m.link2 t.hd (g.2 + c.sz * (i : Int)) (g.2 + c.sz * (j : Int))
      .ok (m, g.2)
    | _, _ => .error .dangling

/-- `swiss_table(const swiss_table &)` (swiss_table.hpp 848-849): the header starts empty. -/
def copyCtor (c : Cfg K) (m : Mem) (other : OTable K V) : M (Mem × OTable K V) := do
  let r : Mem × OTable K V := create c m
  let g ← copyDataLinks c r.1 r.2 other
  let x ← other.core.copyCtor c.isa
  .ok (g.1, { r.2 with core := x, base := g.2 })

/-- The container after the buffers were freed because the allocator is propagated (swiss_table.hpp 476-507, 644-665). -/
def dropArray (c : Cfg K) (prop : Bool) (m : Mem) (t : OTable K V) : M (Mem × OTable K V) :=
  if prop then do
    let m ← m.free c.sz t.base t.core.cap
    .ok (m, { t with core := { t.core with cap := 0 }, base := 0 })
  else .ok (m, t)

/-- `operator=(const swiss_table &)` (swiss_table.hpp 856-869) for distinct objects: the offsets of the header are copied first. -/
def copyAssign (c : Cfg K) (al : AllocP) (m : Mem) (t other : OTable K V) : M (Mem × OTable K V) := do
  let m ← m.copyFrom t.hd other.hd
  let d ← t.dropArray c al.copyProp m
  let g ← copyDataLinks c d.1 d.2 other
  let x ← t.core.copyAssign c.isa al other.core
  .ok (g.1, { t with core := x, base := g.2 })

/-- The links in `move_data` (swiss_table.hpp 1486-1521). -/
def moveDataLinks (c : Cfg K) (m : Mem) (t other : OTable K V) : M (Mem × Int) :=
  if other.core.size = 0 then .ok (m, t.base)
  else do
    let g ← reallocArray c m t.base t.core.cap other.core.cap
    let m ← (occupied other.core).foldlM (fun (m : Mem) (i : Nat) =>
      m.relinkFrom (g.2 + c.sz * (i : Int)) (other.base + c.sz * (i : Int))) g.1
    .ok (m, g.2)

/-- `move_from` (swiss_table.hpp 1537-1543): the memory and the two arrays. -/
def moveFromLinks (c : Cfg K) (equal : Bool) (m : Mem) (t other : OTable K V) : M (Mem × Int × Int) :=
  if equal then .ok (m, other.base, t.base)
  else do
    let g ← moveDataLinks c m t other
    .ok (g.1, g.2, other.base)

/-- `swiss_table(swiss_table &&)` (swiss_table.hpp 851-854). -/
def moveCtor (c : Cfg K) (al : AllocP) (m : Mem) (other : OTable K V) : M (Mem × OTable K V × OTable K V) := do
  let r : Mem × OTable K V := create c m
  let m ← r.1.relinkFrom r.2.hd other.hd
  let g ← moveFromLinks c al.equal m r.2 other
  let x ← Table.moveCtor c.isa al other.core
  .ok (g.1, { r.2 with core := x.1, base := g.2.1 }, { other with core := x.2, base := g.2.2 })

/-- `operator=(swiss_table &&)` (swiss_table.hpp 870-883) for distinct objects. -/
def moveAssign (c : Cfg K) (al : AllocP) (m : Mem) (t other : OTable K V) : M (Mem × OTable K V × OTable K V) := do
  let m ← m.relinkFrom t.hd other.hd
  let d ← t.dropArray c al.moveProp m
  let g ← moveFromLinks c (al.equal || al.moveProp) d.1 d.2 other
  let x ← t.core.moveAssign c.isa al other.core
  .ok (g.1, { t with core := x.1, base := g.2.1 }, { other with core := x.2, base := g.2.2 })

/-- `swap` (swiss_table.hpp 1140-1146, table_common.hpp 43-47, 168-174). -/
def swap (m : Mem) (t other : OTable K V) : M (Mem × OTable K V × OTable K V) := do
  let m ← m.swapHeaders t.hd other.hd
  let x := t.core.swapBuffers other.core
  .ok (m, { t with core := x.1, base := other.base }, { other with core := x.2, base := t.base })

/-- `transfer` in `merge` (swiss_table.hpp 1103-1108). -/
def transfer (c : Cfg K) (m : Mem) (dst src : OTable K V) (a : Int) : M (Mem × OTable K V × OTable K V) := do
  let e ← src.elemAt c.sz a
  let p ← dst.core.findNode c.isa e.1 (c.hash e.1)
  if p = dst.core.cap then do
    let x ← src.extractIter c m a
    match x.2.2 with
    | none => .ok (x.1, dst, x.2.1)
    | some y => do
      let r ← dst.insertWith c x.1 (fun t => do
        let z ← t.emplaceNode c.isa ⟨y.1, y.2, c.hash e.1⟩
        .ok (z.1, z.2, true)) none
      .ok (r.1, r.2.1, x.2.1)
  else .ok (m, dst, src)

/-- The loop of the ordered `merge` (swiss_table.hpp 1112): `--pos != last`. -/
def mergeLoop (c : Cfg K) (last : Int) : Nat → Mem → OTable K V → OTable K V → Int → M (Mem × OTable K V × OTable K V)
  | 0, _, _, _, _ => .error .diverge
  | fuel + 1, m, dst, src, pos => do
    let p ← m.prevOf pos
    if p = last then .ok (m, dst, src)
    else do
      let r ← transfer c m dst src p
      mergeLoop c last fuel r.1 r.2.1 r.2.2 p

/-- `dst.merge(src)` of distinct containers (swiss_table.hpp 1096-1113). -/
def merge (c : Cfg K) (m : Mem) (dst src : OTable K V) : M (Mem × OTable K V × OTable K V) := do
  let d ← dst.reserve c m (dst.core.size + src.core.size)
  let last ← src.first d.1
  mergeLoop c last (src.core.size + 1) d.1 d.2 src src.hd

/-- `transfer` in `merge` (swiss_table.hpp 1103-1108) if `other` is the container itself. -/
def transferSelf (c : Cfg K) (m : Mem) (t : OTable K V) (a : Int) : M (Mem × OTable K V) := do
  let e ← t.elemAt c.sz a
  let p ← t.core.findNode c.isa e.1 (c.hash e.1)
  if p = t.core.cap then do
    let x ← t.extractIter c m a
    match x.2.2 with
    | none => .ok (x.1, x.2.1)
    | some y => do
      let r ← x.2.1.insertWith c x.1 (fun t => do
        let z ← t.emplaceNode c.isa ⟨y.1, y.2, c.hash e.1⟩
        .ok (z.1, z.2, true)) none
      .ok (r.1, r.2.1)
  else .ok (m, t)

/-- The loop of the ordered `merge` (swiss_table.hpp 1112) if `other` is the container itself. -/
def mergeSelfLoop (c : Cfg K) (last : Int) : Nat → Mem → OTable K V → Int → M (Mem × OTable K V)
  | 0, _, _, _ => .error .diverge
  | fuel + 1, m, t, pos => do
    let p ← m.prevOf pos
    if p = last then .ok (m, t)
    else do
      let r ← transferSelf c m t p
      mergeSelfLoop c last fuel r.1 r.2 p

/-- `t.merge(t)` (swiss_table.hpp 1096-1113): `reserve` comes before `begin` and `end`. -/
def mergeSelf (c : Cfg K) (m : Mem) (t : OTable K V) : M (Mem × OTable K V) := do
  let d ← t.reserve c m (t.core.size + t.core.size)
  let last ← d.2.first d.1
  mergeSelfLoop c last (d.2.core.size + 1) d.1 d.2 d.2.hd

/-- `~swiss_table()` (swiss_table.hpp 885-889): the array and the object itself go away. -/
def destroy (c : Cfg K) (m : Mem) (t : OTable K V) : M Mem := do
  let _ ← t.core.dtor
  let m ← m.free c.sz t.base t.core.cap
  m.free c.sz t.hd 1

end OTable
end Tpp.OSwiss
