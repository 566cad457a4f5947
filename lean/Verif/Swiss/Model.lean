import Verif.Basic
import Verif.Capacity

/-!
# Model of the swiss table (sparse_set, sparse_map, stable_set, stable_map)

Models `/repo/tpp/detail/swiss_table.hpp`.  The hash function is a parameter `hash : K → Nat`
(any function at all); key comparison is equality.

`V` is the payload stored with the key: `Unit` for sets, the mapped value for maps, and a pair
(heap address, mapped value) for the stable containers, whose nodes hold a pointer to the element.
-/

namespace Tpp.Swiss

variable {K V : Type} [DecidableEq K]

/-- A control byte (swiss_table.hpp 38-46): `empty` = 0x80, `deleted` = 0xFE, `sentinel` = 0xFF,
`full t` = the 7-bit tag `t` of an occupied slot. (`Verif.Bits` gives the encoding.) -/
inductive Ctl
  | empty
  | deleted
  | sentinel
  | full (tag : Nat)
  deriving DecidableEq, Repr

/-- `is_occupied` (swiss_table.hpp 45). -/
def Ctl.isOccupied : Ctl → Bool
  | .full _ => true
  | _ => false

/-- `is_available` (swiss_table.hpp 46). -/
def Ctl.isAvailable : Ctl → Bool
  | .empty => true
  | .deleted => true
  | _ => false

def Ctl.isEmpty : Ctl → Bool
  | .empty => true
  | _ => false

def Ctl.isDeleted : Ctl → Bool
  | .deleted => true
  | _ => false

/-- A node: element and stored hash (table_common.hpp 210-306 `packed_node`, 307-502 `stable_node`;
the link part is modelled in `Verif.Link`). -/
structure Node (K V : Type) where
  key : K
  val : V
  hash : Nat
  deriving DecidableEq, Repr

/-- Ghost record of the node-level moves a function performs, newest first.  It has no influence on the table;
the ordered containers replay it on the link offsets. -/
inductive Ev
  /-- new buffer of the given bucket count installed (swiss_table.hpp 523-550 / 681-693) -/
  | grow (cap : Nat)
  /-- node at slot `src` of the old buffer relocated to slot `dst` of the new one (1388) -/
  | rel (src dst : Nat)
  /-- node relocated inside the buffer (1431) -/
  | mv (src dst : Nat)
  /-- two nodes of the buffer swapped (1438) -/
  | swp (a b : Nat)
  deriving DecidableEq, Repr

/-- State of a `swiss_table` and its buffer (swiss_table.hpp 454-742, 1545-1547).
`len` is the number of allocated control bytes: 0 if there is no buffer, else `cap + W`.
`node i = none` means that slot `i` holds raw or destroyed storage. -/
structure Table (K V : Type) where
  cap : Nat
  len : Nat
  ctl : Nat → Ctl
  node : Nat → Option (Node K V)
  size : Nat
  numEmpty : Nat
  log : List Ev

/-- Default construction (swiss_table.hpp 836, 470, 602-611): no buffer. -/
def Table.init : Table K V :=
  { cap := 0, len := 0, ctl := fun _ => .empty, node := fun _ => none, size := 0, numEmpty := 0, log := [] }

/-- `fill_empty(meta, n)` (swiss_table.hpp 464-468): all bytes empty, sentinel at index `n`. -/
def fillEmpty (n : Nat) : Nat → Ctl := fun i => if i = n then .sentinel else .empty

/-- Construction with a bucket count (swiss_table.hpp 839-843, 512-516). -/
def Table.withCapacity (isa : Isa) (n : Nat) : M (Table K V) :=
  if (n + 1) &&& n = 0 then
    .ok { cap := n, len := n + isa.W, ctl := fillEmpty n, node := fun _ => none, size := 0,
          numEmpty := maxSize isa n, log := [] }
  else .error .assertFail

namespace Table

/-- `metadata[i]`. -/
def readCtl (t : Table K V) (i : Nat) : M Ctl :=
  if i < t.len then .ok (t.ctl i) else .error .oobMeta

/-- `metadata[i] = v`. -/
def writeCtl (t : Table K V) (i : Nat) (v : Ctl) : M (Table K V) :=
  if i < t.len then .ok { t with ctl := upd t.ctl i v } else .error .oobMeta

/-- Reading the element at `nodes[i]`. -/
def readNode (t : Table K V) (i : Nat) : M (Node K V) :=
  if i < t.cap then
    match t.node i with
    | some n => .ok n
    | none => .error .deadRead
  else .error .oobNode

/-- Constructing an element at `nodes[i]`. -/
def construct (t : Table K V) (i : Nat) (n : Node K V) : M (Table K V) :=
  if i < t.cap then
    match t.node i with
    | some _ => .error .liveOverwrite
    | none => .ok { t with node := upd t.node i (some n) }
  else .error .oobNode

/-- Destroying the element at `nodes[i]`. -/
def destroy (t : Table K V) (i : Nat) : M (Table K V) :=
  if i < t.cap then
    match t.node i with
    | some _ => .ok { t with node := upd t.node i none }
    | none => .error .deadDestroy
  else .error .oobNode

/-- Loading the block at `metadata + pos` (swiss_table.hpp 201-205): all `W` bytes must be allocated. -/
def loadBlock (isa : Isa) (t : Table K V) (pos : Nat) : M Unit :=
  if pos + isa.W ≤ t.len then .ok () else .error .oobMeta

/-- Indices, in increasing order, of the bytes of the block at `pos` that satisfy `p`.  This is what
`match_empty`, `match_available` with the `lsb_index`/`++` iteration of `basic_index_mask`
enumerate (swiss_table.hpp 48-82, 242-257, 304-320; proved in `Verif.Bits`). -/
def matches_ (isa : Isa) (t : Table K V) (pos : Nat) (p : Ctl → Bool) : List Nat :=
  (List.range isa.W).filter fun i => p (t.ctl (pos + i))

/-- Does the portable `match_eq` (swiss_table.hpp 313-320) report byte `i` of the block?  `(x - lsb) & ~x & msb`
reports the bytes equal to the tag, and also a byte that differs from the tag only in bit 0 if the byte before it
is reported (the borrow of the subtraction). -/
def portableHit (ctl : Nat → Ctl) (pos tag : Nat) : Nat → Bool
  | 0 => ctl pos == .full tag
  | i + 1 => ctl (pos + (i + 1)) == .full tag ||
      (ctl (pos + (i + 1)) == .full (tag ^^^ 1) && portableHit ctl pos tag i)

/-- `match_eq(tag)` (swiss_table.hpp 254-257 SSE2, 282-287 NEON, 313-320 portable) as the list of enumerated
indices (proved in `Verif.Bits`). -/
def matchEq (isa : Isa) (t : Table K V) (pos tag : Nat) : List Nat :=
  match isa with
  | .portable => (List.range isa.W).filter fun i => portableHit t.ctl pos tag i
  | _ => t.matches_ isa pos (· == .full tag)

/-- `set_metadata` (swiss_table.hpp 1248-1254): writes the byte and its clone at
`((pos - (W-1)) & cap) + ((W-1) & cap)`.  The C++ subtraction wraps modulo 2^64; since `cap + 1` divides 2^64
the masked value is that of any other multiple of `cap + 1` added, here `(W-1)*(cap+1)`. -/
def setMetadata (isa : Isa) (t : Table K V) (pos : Nat) (v : Ctl) : M (Table K V) := do
  let tail := isa.W - 1
  let mirror := ((pos + tail * (t.cap + 1) - tail) &&& t.cap) + (tail &&& t.cap)
  let t ← t.writeCtl mirror v
  t.writeCtl pos v

/-- The inner loop of `find_node` (swiss_table.hpp 1221-1226): test the matched slots in order. -/
def scan (t : Table K V) (k : K) (pos : Nat) : List Nat → M (Option Nat)
  | [] => .ok none
  | i :: is => do
    let off := (pos + i) &&& t.cap
    let n ← t.readNode off
    if n.key = k then .ok (some off) else scan t k pos is

/-- The probe loop of `find_node` (swiss_table.hpp 1217-1231).  `idx`, `pos` are the probe's fields (775-793);
`assert_probe` (1204-1207) is checked before advancing.  The C++ loop has no bound; `fuel` only makes the
definition structural, running out of it is the fault `diverge`. -/
def findLoop (isa : Isa) (t : Table K V) (k : K) (tag : Nat) : (fuel pos idx : Nat) → M Nat
  | 0, _, _ => .error .diverge
  | fuel + 1, pos, idx => do
    t.loadBlock isa pos
    match ← t.scan k pos (t.matchEq isa pos tag) with
    | some off => .ok off
    | none =>
      if t.matches_ isa pos (·.isEmpty) ≠ [] then .ok t.cap
      else if idx < t.cap then
        findLoop isa t k tag fuel ((pos + (idx + isa.W)) &&& t.cap) (idx + isa.W)
      else .error .assertFail

/-- `find_node` (swiss_table.hpp 1209-1234): slot of the key, or `cap`. -/
def findNode (isa : Isa) (t : Table K V) (k : K) (h : Nat) : M Nat :=
  if t.size ≠ 0 then t.findLoop isa k (hashLo h) (t.cap + 1) (hashHi h &&& t.cap) 0
  else .ok t.cap

/-- The loop of `find_available` (swiss_table.hpp 1239-1245). -/
def availLoop (isa : Isa) (t : Table K V) : (fuel pos idx : Nat) → M Nat
  | 0, _, _ => .error .diverge
  | fuel + 1, pos, idx => do
    t.loadBlock isa pos
    match t.matches_ isa pos (·.isAvailable) with
    | i :: _ => .ok ((pos + i) &&& t.cap)
    | [] =>
      if idx < t.cap then
        availLoop isa t fuel ((pos + (idx + isa.W)) &&& t.cap) (idx + isa.W)
      else .error .assertFail

/-- `find_available` (swiss_table.hpp 1235-1246). -/
def findAvailable (isa : Isa) (t : Table K V) (h : Nat) : M Nat :=
  t.availLoop isa (t.cap + 1) (hashHi h &&& t.cap) 0

/-- Freeing the buffers (swiss_table.hpp 573-580, 698-703): no element may be alive in them. -/
def dropBuffer (t : Table K V) : M (Table K V) :=
  if (List.range t.cap).all (fun i => (t.node i).isNone) then
    .ok { t with cap := 0, len := 0, ctl := fun _ => .empty, node := fun _ => none }
  else .error .leak

/-- One iteration of the relocation loop of `do_rehash` (swiss_table.hpp 1382-1390) on the old and the new buffer; `relocate`
(table_common.hpp 240-245, 259) constructs the element at its new place and destroys the old one. -/
def relocOne (isa : Isa) (p : Table K V × Table K V) (i : Nat) : M (Table K V × Table K V) := do
  let c ← p.1.readCtl i
  if c.isOccupied then
    let n ← p.1.readNode i
    let target ← p.2.findAvailable isa n.hash
    let dst ← p.2.construct target n
    let src ← p.1.destroy i
    let dst ← dst.setMetadata isa target (.full (hashLo n.hash))
    .ok (src, { dst with log := .rel i target :: dst.log })
  else .ok p

/-- `do_rehash` (swiss_table.hpp 1376-1393) with `swiss_table_buffer::resize` (523-550, 681-693): allocate a new
buffer, relocate every occupied node, drop the old buffer, recompute the empty budget. -/
def doRehash (isa : Isa) (t : Table K V) (n : Nat) : M (Table K V) := do
  let t0 : Table K V :=
    { cap := n, len := n + isa.W, ctl := fillEmpty n, node := fun _ => none,
      size := t.size, numEmpty := t.numEmpty, log := .grow n :: t.log }
  let (src, t1) ← (List.range t.cap).foldlM (relocOne isa) (t, t0)
  let _ ← src.dropBuffer
  if t.size ≤ maxSize isa n then .ok { t1 with numEmpty := maxSize isa n - t.size }
  else .error .underflow

/-- `reset_occupied` on one byte (swiss_table.hpp 215-216): available and sentinel become empty,
occupied becomes deleted. -/
def resetByte (c : Ctl) : Ctl := if c.isOccupied then .deleted else .empty

/-- One iteration of the block reset loop (swiss_table.hpp 1400-1405). -/
def resetBlock (isa : Isa) (t : Table K V) (i : Nat) : M (Table K V) :=
  if i + isa.W ≤ t.len then
    .ok { t with ctl := fun j => if i ≤ j ∧ j < i + isa.W then resetByte (t.ctl j) else t.ctl j }
  else .error .oobMeta

/-- `((pos - (h1 & cap)) & cap) / sizeof(meta_block)` (swiss_table.hpp 1420); the wrapping subtraction is
written with one multiple of `cap + 1` added. -/
def blockIdx (isa : Isa) (cap start pos : Nat) : Nat :=
  ((pos + (cap + 1) - (start &&& cap)) &&& cap) / isa.W

/-- The body of the second loop of `rehash_deleted` from the label `process_node` (swiss_table.hpp 1415-1441).
`fuel` bounds the `goto` cycle; running out is the fault `diverge`. -/
def processNode (isa : Isa) : (fuel : Nat) → (t : Table K V) → (i : Nat) → M (Table K V)
  | 0, _, _ => .error .diverge
  | fuel + 1, t, i => do
    let n ← t.readNode i
    let target ← t.findAvailable isa n.hash
    if blockIdx isa t.cap (hashHi n.hash) target = blockIdx isa t.cap (hashHi n.hash) i then
      t.setMetadata isa i (.full (hashLo n.hash))
    else
      let c ← t.readCtl target
      if c = .empty then
        let t ← t.construct target n
        let t ← t.destroy i
        let t ← t.setMetadata isa i .empty
        let t ← t.setMetadata isa target (.full (hashLo n.hash))
        .ok { t with log := .mv i target :: t.log }
      else
        let m ← t.readNode target
        let t := { t with node := upd (upd t.node i (some m)) target (some n), log := .swp i target :: t.log }
        let t ← t.setMetadata isa target (.full (hashLo n.hash))
        processNode isa fuel t i

/-- One iteration of the second loop of `rehash_deleted` (swiss_table.hpp 1410-1442). -/
def processSlot (isa : Isa) (t : Table K V) (i : Nat) : M (Table K V) := do
  let c ← t.readCtl i
  if c = .deleted then processNode isa (t.cap + 1) t i else .ok t

/-- The `memcpy` of the first `W-1` control bytes to the tail and the restored sentinel
(swiss_table.hpp 1406-1407). -/
def cloneTail (isa : Isa) (t : Table K V) : M (Table K V) := do
  if t.cap + isa.W ≤ t.len then
    let ctl := t.ctl
    let cap := t.cap
    .ok { t with ctl := fun j =>
      if j = cap then .sentinel
      else if cap < j ∧ j < cap + isa.W then ctl (j - (cap + 1)) else ctl j }
  else .error .oobMeta

/-- `rehash_deleted` (swiss_table.hpp 1394-1446): reclaim erased slots in place. -/
def rehashDeleted (isa : Isa) (t : Table K V) : M (Table K V) := do
  let t ← (List.range ((t.cap + isa.W - 1) / isa.W)).foldlM (fun t b => t.resetBlock isa (b * isa.W)) t
  let t ← t.cloneTail isa
  let t ← (List.range t.cap).foldlM (processSlot isa) t
  if t.size ≤ maxSize isa t.cap then .ok { t with numEmpty := maxSize isa t.cap - t.size }
  else .error .underflow

/-- The position-finding part of `emplace_node` (swiss_table.hpp 1267-1287). -/
def prepare (isa : Isa) (t : Table K V) (h : Nat) : M (Table K V × Nat) := do
  if t.cap = 0 then
    let t ← t.doRehash isa 1
    let target ← t.findAvailable isa h
    .ok (t, target)
  else
    let target ← t.findAvailable isa h
    let c ← t.readCtl target
    if t.numEmpty = 0 ∧ c ≠ .deleted then
      let t ← if t.cap > isa.W ∧ t.size * 32 ≤ t.cap * 25 then t.rehashDeleted isa
              else t.doRehash isa ((t.cap + 1) * 2 - 1)
      let target ← t.findAvailable isa h
      .ok (t, target)
    else .ok (t, target)

/-- The construction part of `emplace_node` (swiss_table.hpp 1289-1299); returns the slot. -/
def commit (isa : Isa) (t : Table K V) (target : Nat) (n : Node K V) : M (Table K V × Nat) := do
  let t ← t.construct target n
  let c ← t.readCtl target
  let dec := if c = .empty then 1 else 0
  if dec ≤ t.numEmpty then
    let t := { t with numEmpty := t.numEmpty - dec }
    let t ← t.setMetadata isa target (.full (hashLo n.hash))
    .ok ({ t with size := t.size + 1 }, target)
  else .error .underflow

/-- `emplace_node` (swiss_table.hpp 1264-1300) without link handling. -/
def emplaceNode (isa : Isa) (t : Table K V) (n : Node K V) : M (Table K V × Nat) := do
  let (t, target) ← t.prepare isa n.hash
  t.commit isa target n

/-- `do_insert` / `do_try_emplace` (swiss_table.hpp 1330-1347; `do_emplace` 1318-1329 builds a temporary and
calls `do_insert`): slot of the element and whether it was inserted. -/
def insert (isa : Isa) (hash : K → Nat) (t : Table K V) (k : K) (v : V) : M (Table K V × Nat × Bool) := do
  let h := hash k
  let pos ← t.findNode isa k h
  if pos = t.cap then
    let (t, p) ← t.emplaceNode isa ⟨k, v, h⟩
    .ok (t, p, true)
  else .ok (t, pos, false)

/-- `do_insert_or_assign` (swiss_table.hpp 1348-1359) with `replace` (table_common.hpp 246-258): the mapped value
of an existing element is overwritten in place. `f` computes the new payload from the old one (for stable nodes
the address part stays). -/
def insertOrAssignWith (isa : Isa) (hash : K → Nat) (t : Table K V) (k : K) (v : V) (f : V → V) :
    M (Table K V × Nat × Bool) := do
  let h := hash k
  let pos ← t.findNode isa k h
  if pos = t.cap then
    let (t, p) ← t.emplaceNode isa ⟨k, v, h⟩
    .ok (t, p, true)
  else
    let n ← t.readNode pos
    .ok ({ t with node := upd t.node pos (some { n with val := f n.val }) }, pos, false)

/-- `insert_or_assign` (swiss_table.hpp 989-990). -/
def insertOrAssign (isa : Isa) (hash : K → Nat) (t : Table K V) (k : K) (v : V) : M (Table K V × Nat × Bool) :=
  t.insertOrAssignWith isa hash k v (fun _ => v)

/-- `meta_block::count_available` (swiss_table.hpp 259-262 SSE2; 289-292 NEON, 322-331 portable): number of
leading available bytes of the block.  The 8-byte variants compute `ctz(0)` if all bytes are available. -/
def countAvailable (isa : Isa) (t : Table K V) (pos : Nat) : M Nat := do
  t.loadBlock isa pos
  match (List.range isa.W).find? (fun i => !(t.ctl (pos + i)).isAvailable) with
  | some i => .ok i
  | none =>
    match isa with
    | .sse2 => .ok isa.W
    | _ => .error .ctzZero

/-- `swiss_node_iterator::next_occupied` (swiss_table.hpp 429-437); an iterator is represented by its slot. -/
def nextOccupied (isa : Isa) (t : Table K V) : (fuel pos : Nat) → M Nat
  | 0, _ => .error .diverge
  | fuel + 1, pos => do
    let c ← t.readCtl pos
    if c.isAvailable then
      let off ← t.countAvailable isa pos
      nextOccupied isa t fuel (pos + off)
    else .ok pos

/-- The unordered `to_iter` (swiss_table.hpp 1175-1202, 399): skips to the next occupied slot unless there is no
buffer. -/
def toIter (isa : Isa) (t : Table K V) (pos : Nat) : M Nat :=
  if t.len = 0 then .ok pos else t.nextOccupied isa (t.cap + 1) pos

/-- `begin()` (swiss_table.hpp 898, 1157-1163). -/
def begin_ (isa : Isa) (t : Table K V) : M Nat := t.toIter isa 0

/-- `end()` (swiss_table.hpp 900, 1164-1170). -/
def end_ (isa : Isa) (t : Table K V) : M Nat := t.toIter isa t.cap

/-- Dereference the iterator at `pos`, collect the element, increment (swiss_table.hpp 412-421) until `last`. -/
def walk (isa : Isa) (t : Table K V) : (fuel pos last : Nat) → M (List (K × V))
  | 0, _, _ => .error .diverge
  | fuel + 1, pos, last =>
    if pos = last then .ok []
    else do
      let n ← t.readNode pos
      let pos ← t.nextOccupied isa (t.cap + 1) (pos + 1)
      let rest ← walk isa t fuel pos last
      .ok ((n.key, n.val) :: rest)

/-- A full iteration `for (x : c)`, starting at iterator `pos`. -/
def iterateFrom (isa : Isa) (t : Table K V) (pos : Nat) : M (List (K × V)) := do
  let last ← t.end_ isa
  t.walk isa (t.cap + 1) pos last

/-- A full iteration `for (x : c)`. -/
def iterate (isa : Isa) (t : Table K V) : M (List (K × V)) := do
  let first ← t.begin_ isa
  t.iterateFrom isa first

/-- `erase_node` (swiss_table.hpp 1301-1316), unordered: returns the table; the iterator is made by the caller. -/
def eraseNode (isa : Isa) (t : Table K V) (pos : Nat) : M (Table K V) := do
  if pos < t.cap then
    let c ← t.readCtl pos
    if c.isOccupied then
      let t ← t.setMetadata isa pos .deleted
      if 1 ≤ t.size then .ok { t with size := t.size - 1 } else .error .underflow
    else .error .assertFail
  else .error .assertFail

/-- `do_erase` (swiss_table.hpp 1361-1368): unlink the slot, make the iterator, destroy the element. -/
def doErase (isa : Isa) (t : Table K V) (pos : Nat) : M (Table K V × Nat) := do
  let t ← t.eraseNode isa pos
  let it ← t.toIter isa pos
  let t ← t.destroy pos
  .ok (t, it)

/-- `erase(key)` (swiss_table.hpp 1052-1059). -/
def erase (isa : Isa) (hash : K → Nat) (t : Table K V) (k : K) : M (Table K V × Nat) := do
  let pos ← t.findNode isa k (hash k)
  if pos ≠ t.cap then t.doErase isa pos
  else do
    let e ← t.end_ isa
    .ok (t, e)

/-- `erase(const_iterator)` (swiss_table.hpp 1060-1069). -/
def eraseIter (isa : Isa) (t : Table K V) (it : Nat) : M (Table K V × Nat) := do
  let e ← t.end_ isa
  if it ≠ e then t.doErase isa it else .ok (t, e)

/-- `erase_nodes` (swiss_table.hpp 1522-1530): destroys all elements and sets the size to 0; the control bytes are
left as they are. -/
def eraseNodes (t : Table K V) : M (Table K V) := do
  let t ← (List.range t.cap).foldlM
    (fun (t : Table K V) i => do
      let c ← t.readCtl i
      if c.isOccupied then t.destroy i else .ok t) t
  .ok { t with size := 0 }

/-- `m_buffer.fill_empty()` (swiss_table.hpp 521, 464-468). -/
def fill (isa : Isa) (t : Table K V) : M (Table K V) :=
  if t.cap + isa.W ≤ t.len then .ok { t with ctl := fillEmpty t.cap } else .error .oobMeta

/-- `clear` (swiss_table.hpp 916-929). -/
def clear (isa : Isa) (t : Table K V) : M (Table K V) := do
  if t.size ≠ 0 then
    let t ← t.eraseNodes
    let t ← t.fill isa
    .ok { t with size := 0, numEmpty := maxSize isa t.cap }
  else .ok t

/-- `reserve` (swiss_table.hpp 930). -/
def reserve (isa : Isa) (t : Table K V) (n : Nat) : M (Table K V) :=
  if n > t.size + t.numEmpty then t.doRehash isa (alignCapacity (minCapacity isa n)) else .ok t

/-- `rehash` (swiss_table.hpp 1124-1131). -/
def rehash (isa : Isa) (t : Table K V) (n : Nat) : M (Table K V) :=
  if n = 0 ∧ t.size = 0 then .ok t
  else
    let newCap := alignCapacity (n ||| minCapacity isa n)
    if n = 0 ∨ newCap > t.cap then t.doRehash isa newCap else .ok t

/-- `contains` (swiss_table.hpp 932-933). -/
def contains (isa : Isa) (hash : K → Nat) (t : Table K V) (k : K) : M Bool := do
  let pos ← t.findNode isa k (hash k)
  .ok (pos != t.cap)

/-- `find` and dereference (swiss_table.hpp 935-938): the value designated by the returned iterator, if it is not
`end()`. -/
def lookup (isa : Isa) (hash : K → Nat) (t : Table K V) (k : K) : M (Option V) := do
  let pos ← t.findNode isa k (hash k)
  if pos = t.cap then .ok none
  else do
    let n ← t.readNode pos
    .ok (some n.val)

end Table
end Tpp.Swiss
