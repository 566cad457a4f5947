import Verif.Swiss.Alias
import Verif.Swiss.Move

/-!
# Stable containers: the memory blocks of the elements

Every element of a `stable_*` container lives in a block of its own, obtained from the allocator of the container and to be given
back to an equal allocator exactly once (table_common.hpp 307-502 `stable_node`).  A block can be owned by a container or by a
node handle.  The model keeps the live blocks and every operation allocates and frees as the code does; freeing a block that is
not live, or with an allocator that did not allocate it, is the fault `badFree`.

Simplified: the memory of the buckets is in Buffer.lean; all containers have the same hash function; allocations do not fail here
(the constructors that throw are separate operations); the blocks of `erase_if` and of a merge between equal allocators are
handled after, not during, the loop (nothing is allocated in the loop).
-/

set_option linter.unusedSectionVars false

namespace Tpp.Swiss

variable {K W : Type} [DecidableEq K]

/-- The live blocks, each with the allocator it came from, and the number of allocations so far. -/
structure Blocks where
  live : List (Nat × Nat)
  clock : Nat

/-- How addresses are chosen: from the number of the allocation and the addresses in use. -/
abbrev Pick := Nat → List Nat → Nat

/-- No address in use is handed out again. -/
def Pick.Fresh (pick : Pick) : Prop := ∀ n l, pick n l ∉ l

namespace Blocks

/-- No blocks. -/
def empty : Blocks := ⟨[], 0⟩

/-- `std::allocator_traits::allocate(alloc, 1)` (table_common.hpp 443). -/
def alloc (pick : Pick) (b : Blocks) (al : Nat) : Blocks × Nat :=
  let a := pick b.clock (b.live.map Prod.fst)
  (⟨(a, al) :: b.live, b.clock + 1⟩, a)

/-- `std::allocator_traits::deallocate(alloc, ptr, 1)` (table_common.hpp 379, 465). -/
def free (b : Blocks) (al a : Nat) : M Blocks :=
  if (a, al) ∈ b.live then .ok { b with live := b.live.erase (a, al) } else .error .badFree

/-- Freeing several blocks of one allocator. -/
def freeAll (al : Nat) : Blocks → List Nat → M Blocks
  | b, [] => .ok b
  | b, a :: l => do
    let b ← b.free al a
    freeAll al b l

end Blocks

/-- A stable container: its allocator and its table; the payload of a key is the address of the block and the mapped value. -/
structure SC (K W : Type) where
  al : Nat
  t : Table K (Nat × W)

/-- A node handle (table_common.hpp 322-387 `extracted_type`): its allocator, and the element it owns, if any. -/
structure Handle (K W : Type) where
  al : Nat
  cell : Option (K × Nat × W)

/-- What a program has in its hands. -/
inductive Res (K W : Type)
  | cont (c : SC K W)
  | node (h : Handle K W)

/-- The addresses of the elements. -/
def Table.addrs (t : Table K (Nat × W)) : List Nat := t.contents.map fun x => x.2.1

/-- Giving the copies blocks of their own: `construct(alloc, const stable_node&)` (table_common.hpp 410-415) of slot `i`. -/
def readdressOne (pick : Pick) (al : Nat) (p : Blocks × Table K (Nat × W)) (i : Nat) : Blocks × Table K (Nat × W) :=
  match p.2.node i with
  | none => p
  | some n =>
    let r := p.1.alloc pick al
    (r.1, { p.2 with node := upd p.2.node i (some { n with val := (r.2, n.val.2) }) })

/-- All slots, in the order of the loop of `copy_data` (swiss_table.hpp 1468-1473). -/
def readdress (pick : Pick) (al : Nat) (b : Blocks) (t : Table K (Nat × W)) : Blocks × Table K (Nat × W) :=
  (List.range t.cap).foldl (readdressOne pick al) (b, t)

/-- `construct(alloc, extracted_type&&)` (table_common.hpp 417-427) with allocator `al`: the address of the element, and the
handle afterwards.  With unequal allocators the element is constructed in a new block and the old one freed, but the handle keeps
its pointer. -/
def Handle.take (pick : Pick) (b : Blocks) (al : Nat) (h : Handle K W) : M (Blocks × Nat × Handle K W) :=
  match h.cell with
  | none => .error .nullDeref
  | some x =>
    if al = h.al then .ok (b, x.2.1, { h with cell := none })
    else do
      let r := b.alloc pick al
      let b ← r.1.free h.al x.2.1
      .ok (b, r.2, h)

/-- Destructor of a handle (table_common.hpp 349, 376-383). -/
def Handle.drop (b : Blocks) (h : Handle K W) : M Blocks :=
  match h.cell with
  | none => .ok b
  | some x => b.free h.al x.2.1

/-- Move construction of a handle (table_common.hpp 331). -/
def Handle.move (h : Handle K W) : Handle K W × Handle K W := (h, { h with cell := none })

/-- A default-constructed handle (table_common.hpp 328): no element, and a default-constructed allocator, which has number 0. -/
def Handle.init : Handle K W := ⟨0, none⟩

/-- Move assignment of a handle (table_common.hpp 334-347); `prop`: the allocator is moved along.  At the end the allocators are
asserted to be equal (341, 373-376). -/
def Handle.assign (prop : Bool) (b : Blocks) (h g : Handle K W) : M (Blocks × Handle K W × Handle K W) := do
  let b ← h.drop b
  let al := if prop then g.al else h.al
  if al = g.al then .ok (b, { al := al, cell := g.cell }, { g with cell := none }) else .error .assertFail

/-- `swap` of handles (table_common.hpp 360-368).  The assertion that the allocators are equal (366) comes after the allocators have
been exchanged, and is there also if they propagate. -/
def Handle.swap (prop : Bool) (h g : Handle K W) : M (Handle K W × Handle K W) :=
  let x : Nat := if prop then g.al else h.al
  let y : Nat := if prop then h.al else g.al
  if x = y then .ok ({ al := x, cell := g.cell }, { al := y, cell := h.cell }) else .error .assertFail

namespace SC

/-- `try_emplace`, `insert(value)` (swiss_table.hpp 1330-1347, 1264-1300; table_common.hpp 440-445). -/
def insert (isa : Isa) (hash : K → Nat) (pick : Pick) (b : Blocks) (c : SC K W) (k : K) (w : W) : M (Blocks × SC K W) := do
  let h := hash k
  let pos ← c.t.findNode isa k h
  if pos = c.t.cap then
    let r := b.alloc pick c.al
    let (t, _) ← c.t.emplaceNode isa ⟨k, (r.2, w), h⟩
    .ok (r.1, { c with t := t })
  else .ok (b, c)

/-- `emplace` (swiss_table.hpp 1318-1329): the element is constructed in a temporary node first; it is moved into the table, or
destroyed if the key is present. -/
def emplace (isa : Isa) (hash : K → Nat) (pick : Pick) (b : Blocks) (c : SC K W) (k : K) (w : W) : M (Blocks × SC K W) := do
  let r := b.alloc pick c.al
  let h := hash k
  let pos ← c.t.findNode isa k h
  if pos = c.t.cap then
    let (t, _) ← c.t.emplaceNode isa ⟨k, (r.2, w), h⟩
    .ok (r.1, { c with t := t })
  else
    let b ← r.1.free c.al r.2
    .ok (b, c)

/-- `insert_or_assign` (swiss_table.hpp 1348-1359, table_common.hpp 447-459): a present mapped value is replaced in its block. -/
def assign (isa : Isa) (hash : K → Nat) (pick : Pick) (b : Blocks) (c : SC K W) (k : K) (w : W) : M (Blocks × SC K W) := do
  let h := hash k
  let pos ← c.t.findNode isa k h
  if pos = c.t.cap then
    let r := b.alloc pick c.al
    let (t, _) ← c.t.emplaceNode isa ⟨k, (r.2, w), h⟩
    .ok (r.1, { c with t := t })
  else
    let n ← c.t.readNode pos
    .ok (b, { c with t := { c.t with node := upd c.t.node pos (some { n with val := (n.val.1, w) }) } })

/-- `erase(key)` (swiss_table.hpp 1052-1060, 1360-1368; table_common.hpp 460-468). -/
def erase (isa : Isa) (hash : K → Nat) (b : Blocks) (c : SC K W) (k : K) : M (Blocks × SC K W) := do
  let pos ← c.t.findNode isa k (hash k)
  if pos = c.t.cap then .ok (b, c)
  else
    let n ← c.t.readNode pos
    let (t, _) ← c.t.doErase isa pos
    let b ← b.free c.al n.val.1
    .ok (b, { c with t := t })

/-- `erase_if` (stable_set.hpp and stable_map.hpp, end of file). -/
def eraseIf (isa : Isa) (b : Blocks) (c : SC K W) (p : K × Nat × W → Bool) : M (Blocks × SC K W) := do
  let (t, _, calls) ← c.t.eraseIf isa p
  let b ← b.freeAll c.al ((calls.filter p).map fun x => x.2.1)
  .ok (b, { c with t := t })

/-- `clear` (swiss_table.hpp 916-923). -/
def clear (isa : Isa) (b : Blocks) (c : SC K W) : M (Blocks × SC K W) := do
  let b ← b.freeAll c.al c.t.addrs
  let t ← c.t.clear isa
  .ok (b, { c with t := t })

/-- `reserve` and `rehash` (swiss_table.hpp 924-960, 1376-1446): relocating a node hands over its pointer (table_common.hpp
428-437). -/
def reserve (isa : Isa) (c : SC K W) (n : Nat) : M (SC K W) := do
  let t ← c.t.reserve isa n
  .ok { c with t := t }

/-- See `reserve`; with a bucket count. -/
def rehash (isa : Isa) (c : SC K W) (n : Nat) : M (SC K W) := do
  let t ← c.t.rehash isa (n + 1)
  .ok { c with t := t }

/-- `extract(key)` (swiss_table.hpp 1076-1094, 1369-1374; table_common.hpp 332).  If there is no such element, the handle is a
default-constructed one (1083), with a default-constructed allocator. -/
def extract (isa : Isa) (hash : K → Nat) (c : SC K W) (k : K) : M (SC K W × Handle K W) := do
  let (t, x) ← c.t.extract isa hash k
  .ok ({ c with t := t }, if x.isSome then ⟨c.al, x⟩ else .init)

/-- `insert(node_type&&)` (swiss_table.hpp 962-970): container and handle afterwards. -/
def insertNode (isa : Isa) (hash : K → Nat) (pick : Pick) (b : Blocks) (c : SC K W) (h : Handle K W) :
    M (Blocks × SC K W × Handle K W) :=
  match h.cell with
  | none => .error .nullDeref
  | some x => do
    let pos ← c.t.findNode isa x.1 (hash x.1)
    if pos = c.t.cap then
      let (b, a, h) ← h.take pick b c.al
      let (t, _) ← c.t.emplaceNode isa ⟨x.1, (a, x.2.2), hash x.1⟩
      .ok (b, { c with t := t }, h)
    else .ok (b, c, h)

/-- `insert_or_assign(node_type&&)` (swiss_table.hpp 993-1023): the element of a present key is destroyed first. -/
def assignNode (isa : Isa) (hash : K → Nat) (pick : Pick) (b : Blocks) (c : SC K W) (h : Handle K W) :
    M (Blocks × SC K W × Handle K W) :=
  match h.cell with
  | none => .error .nullDeref
  | some x => do
    let pos ← c.t.findNode isa x.1 (hash x.1)
    if pos = c.t.cap then
      let (b, a, h) ← h.take pick b c.al
      let (t, _) ← c.t.emplaceNode isa ⟨x.1, (a, x.2.2), hash x.1⟩
      .ok (b, { c with t := t }, h)
    else
      let n ← c.t.readNode pos
      let b ← b.free c.al n.val.1
      let (b, a, h) ← h.take pick b c.al
      .ok (b, { c with t := { c.t with node := upd c.t.node pos (some { n with key := x.1, val := (a, x.2.2) }) } }, h)

/-- Destructor (swiss_table.hpp 885-889, 1522-1530). -/
def dtor (b : Blocks) (c : SC K W) : M Blocks := do
  let b ← b.freeAll c.al c.t.addrs
  let _ ← c.t.dtor
  .ok b

/-- Copy construction with allocator `al` (swiss_table.hpp 848-849). -/
def copyCtor (isa : Isa) (pick : Pick) (b : Blocks) (c : SC K W) (al : Nat) : M (Blocks × SC K W) := do
  let t ← Table.copyCtor isa c.t
  let r := readdress pick al b t
  .ok (r.1, ⟨al, r.2⟩)

/-- Copy assignment of distinct objects (swiss_table.hpp 856-869); `prop`: the allocator is copied. -/
def copyAssign (isa : Isa) (pick : Pick) (prop : Bool) (b : Blocks) (c d : SC K W) : M (Blocks × SC K W) := do
  let b ← b.freeAll c.al c.t.addrs
  let t ← c.t.copyAssign isa ⟨prop, prop, decide (c.al = d.al)⟩ d.t
  let al := if prop then d.al else c.al
  let r := readdress pick al b t
  .ok (r.1, ⟨al, r.2⟩)

/-- Move construction with allocator `al` (swiss_table.hpp 851-854): the nodes hand over their pointers, whether or not the
allocators are equal (table_common.hpp 428-437). -/
def moveCtor (isa : Isa) (c : SC K W) (al : Nat) : M (SC K W × SC K W) := do
  let (t, u) ← c.t.moveCtor isa ⟨false, false, decide (al = c.al)⟩
  .ok (⟨al, t⟩, { c with t := u })

/-- Move assignment of distinct objects (swiss_table.hpp 870-883); `prop`: the allocator is moved. -/
def moveAssign (isa : Isa) (prop : Bool) (b : Blocks) (c d : SC K W) : M (Blocks × SC K W × SC K W) := do
  let b ← b.freeAll c.al c.t.addrs
  let (t, u) ← c.t.moveAssign isa ⟨false, prop, decide (c.al = d.al)⟩ d.t
  .ok (b, ⟨if prop then d.al else c.al, t⟩, { d with t := u })

/-- `swap` (swiss_table.hpp 1140-1146, 1531-1536, 584-592): the allocators are never exchanged, not even if they propagate. -/
def swap (c d : SC K W) : SC K W × SC K W :=
  let r := c.t.swapBuffers d.t
  (⟨c.al, r.1⟩, ⟨d.al, r.2⟩)

/-- The loop of `merge` (swiss_table.hpp 1104-1111): an element whose key is missing is extracted into a temporary handle, taken
over, and the handle destroyed. -/
def mergeLoop (isa : Isa) (hash : K → Nat) (pick : Pick) : (fuel : Nat) → (b : Blocks) → (c d : SC K W) → (pos last : Nat) →
    M (Blocks × SC K W × SC K W)
  | 0, _, _, _, _, _ => .error .diverge
  | fuel + 1, b, c, d, pos, last =>
    if pos = last then .ok (b, c, d)
    else do
      let n ← d.t.readNode pos
      let h := hash n.key
      let p ← c.t.findNode isa n.key h
      let (b, c, d) ←
        if p = c.t.cap then do
          let (u, n) ← d.t.extractAt isa pos
          let (b, a, g) ← Handle.take pick b c.al ⟨d.al, some (n.key, n.val)⟩
          let (t, _) ← c.t.emplaceNode isa ⟨n.key, (a, n.val.2), h⟩
          let b ← g.drop b
          Except.ok (b, { c with t := t }, { d with t := u })
        else Except.ok (b, c, d)
      let pos ← d.t.nextOccupied isa (d.t.cap + 1) (pos + 1)
      mergeLoop isa hash pick fuel b c d pos last

/-- `merge` (swiss_table.hpp 1096-1122). -/
def merge (isa : Isa) (hash : K → Nat) (pick : Pick) (b : Blocks) (c d : SC K W) : M (Blocks × SC K W × SC K W) := do
  let t ← c.t.reserve isa (c.t.size + d.t.size)
  let pos ← d.t.begin_ isa
  let last ← d.t.end_ isa
  mergeLoop isa hash pick (d.t.cap + 1) b { c with t := t } d pos last

/-- `try_emplace` of a missing key whose element's constructor throws (table_common.hpp 440-445: the block has been
allocated). -/
def insertThrow (isa : Isa) (hash : K → Nat) (pick : Pick) (b : Blocks) (c : SC K W) (k : K) : M (Blocks × SC K W) := do
  let (t, thrown) ← c.t.insertThrow isa hash k
  if thrown then .ok ((b.alloc pick c.al).1, { c with t := t }) else .ok (b, c)

/-- `emplace` when the growth of the table throws, or the hash function or the comparison (swiss_table.hpp 1318-1329): the
temporary node has no destructor. -/
def emplaceThrow (pick : Pick) (b : Blocks) (c : SC K W) : Blocks × SC K W := ((b.alloc pick c.al).1, c)

end SC

/-- Operations on one container or handle. -/
inductive Op1 (K W : Type)
  | insert (k : K) (w : W)
  | emplace (k : K) (w : W)
  | assign (k : K) (w : W)
  | erase (k : K)
  | eraseIf (p : K × Nat × W → Bool)
  | clear
  | reserve (n : Nat)
  | rehash (n : Nat)
  | extract (k : K)
  | copyCtor (al : Nat)
  | moveCtor (al : Nat)
  | destroy

/-- Operations on two. -/
inductive Op2
  | insertNode
  | assignNode
  | copyAssign (prop : Bool)
  | moveAssign (prop : Bool)
  | swap (prop : Bool)
  | merge

/-- One operation on one container or handle: what replaces it. -/
def Res.step1 (isa : Isa) (hash : K → Nat) (pick : Pick) (b : Blocks) : Op1 K W → Res K W → M (Blocks × List (Res K W))
  | .insert k w, .cont c => do let (b, c) ← c.insert isa hash pick b k w; .ok (b, [.cont c])
  | .emplace k w, .cont c => do let (b, c) ← c.emplace isa hash pick b k w; .ok (b, [.cont c])
  | .assign k w, .cont c => do let (b, c) ← c.assign isa hash pick b k w; .ok (b, [.cont c])
  | .erase k, .cont c => do let (b, c) ← c.erase isa hash b k; .ok (b, [.cont c])
  | .eraseIf p, .cont c => do let (b, c) ← c.eraseIf isa b p; .ok (b, [.cont c])
  | .clear, .cont c => do let (b, c) ← c.clear isa b; .ok (b, [.cont c])
  | .reserve n, .cont c => do let c ← c.reserve isa n; .ok (b, [.cont c])
  | .rehash n, .cont c => do let c ← c.rehash isa n; .ok (b, [.cont c])
  | .extract k, .cont c => do let (c, h) ← c.extract isa hash k; .ok (b, [.cont c, .node h])
  | .copyCtor al, .cont c => do let (b, d) ← c.copyCtor isa pick b al; .ok (b, [.cont c, .cont d])
  | .moveCtor al, .cont c => do let (d, c) ← c.moveCtor isa al; .ok (b, [.cont c, .cont d])
  | .destroy, .cont c => do let b ← c.dtor b; .ok (b, [])
  | .moveCtor _, .node h => let r := h.move; .ok (b, [.node r.2, .node r.1])
  | .destroy, .node h => do let b ← h.drop b; .ok (b, [])
  | _, r => .ok (b, [r])

/-- One operation on two containers or handles. -/
def Res.step2 (isa : Isa) (hash : K → Nat) (pick : Pick) (b : Blocks) : Op2 → Res K W → Res K W → M (Blocks × List (Res K W))
  | .insertNode, .cont c, .node h => do let (b, c, h) ← c.insertNode isa hash pick b h; .ok (b, [.cont c, .node h])
  | .assignNode, .cont c, .node h => do let (b, c, h) ← c.assignNode isa hash pick b h; .ok (b, [.cont c, .node h])
  | .copyAssign prop, .cont c, .cont d => do let (b, c) ← c.copyAssign isa pick prop b d; .ok (b, [.cont c, .cont d])
  | .moveAssign prop, .cont c, .cont d => do let (b, c, d) ← c.moveAssign isa prop b d; .ok (b, [.cont c, .cont d])
  | .swap _, .cont c, .cont d => let r := c.swap d; .ok (b, [.cont r.1, .cont r.2])
  | .merge, .cont c, .cont d => do let (b, c, d) ← c.merge isa hash pick b d; .ok (b, [.cont c, .cont d])
  | .moveAssign prop, .node h, .node g => do let (b, h, g) ← h.assign prop b g; .ok (b, [.node h, .node g])
  | .swap prop, .node h, .node g => do let (h, g) ← h.swap prop g; .ok (b, [.node h, .node g])
  | _, r, s => .ok (b, [r, s])

/-- A program's operations: the positions say which of the things in its hands take part; the results come first afterwards. -/
inductive WOp (K W : Type)
  | create (al : Nat)
  | handle
  | one (op : Op1 K W) (i : Nat)
  | two (op : Op2) (i j : Nat)

/-- The state of a program. -/
structure World (K W : Type) where
  b : Blocks
  rs : List (Res K W)

/-- One operation. -/
def World.step (isa : Isa) (hash : K → Nat) (pick : Pick) (w : World K W) : WOp K W → M (World K W)
  | .create al => .ok { w with rs := .cont ⟨al, Table.init⟩ :: w.rs }
  | .handle => .ok { w with rs := .node .init :: w.rs }
  | .one op i =>
    match w.rs[i]? with
    | none => .ok w
    | some r => do
      let (b, rs) ← r.step1 isa hash pick w.b op
      .ok ⟨b, rs ++ w.rs.eraseIdx i⟩
  | .two op i j =>
    match w.rs[i]?, (w.rs.eraseIdx i)[j]? with
    | some r, some s => do
      let (b, rs) ← r.step2 isa hash pick w.b op s
      .ok ⟨b, rs ++ (w.rs.eraseIdx i).eraseIdx j⟩
    | _, _ => .ok w

/-- A program. -/
def World.run (isa : Isa) (hash : K → Nat) (pick : Pick) (w : World K W) : List (WOp K W) → M (World K W)
  | [] => .ok w
  | op :: ops => do
    let w ← w.step isa hash pick op
    World.run isa hash pick w ops

/-- The end of a program: everything is destroyed. -/
def World.finish (isa : Isa) (hash : K → Nat) (pick : Pick) (b : Blocks) : List (Res K W) → M Blocks
  | [] => .ok b
  | r :: rs => do
    let (b, _) ← r.step1 isa hash pick b .destroy
    World.finish isa hash pick b rs

/-- A program starts with nothing. -/
def World.start : World K W := ⟨Blocks.empty, []⟩

end Tpp.Swiss
