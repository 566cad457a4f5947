import Verif.Swiss.Buffer
import Verif.Capacity
import Verif.Dense.Heap

/-!
# The buffers of several sparse containers

`Verif.Swiss.Buffer` models the allocations of one buffer.  Here any number of containers, with any allocators, are constructed,
used, assigned, swapped and destroyed, in both layouts (`/repo/tpp/detail/swiss_table.hpp` 454-742).  Of a container only the
buffer and the number of elements are kept: nothing else decides what is allocated.  What its operations on elements do to
the buffer is `do_rehash` (with any capacity that `align_capacity` returns) and changes of the number of elements; a program
here may do both at any time, so that the programs of the code are among those modelled.
-/

namespace Tpp.Swiss.Mem

open Tpp.Dense (Post)

/-- Which allocator type a block was obtained with (swiss_table.hpp 455-463, 614-618). -/
inductive Kind
  | bytes
  | nodes
  deriving DecidableEq, Repr

/-- A block: the allocator (allocators are equal if their numbers are), the type of its units, and their number. -/
structure Blk where
  al : Nat
  kind : Kind
  n : Nat
  deriving DecidableEq, Repr

/-- The allocators' view of memory: the live blocks and the next fresh address. -/
structure Heap where
  live : Nat → Option Blk
  next : Nat

/-- `allocate(al, n)`. -/
def Heap.alloc (h : Heap) (x : Blk) : Heap × Nat := ({ live := upd h.live h.next (some x), next := h.next + 1 }, h.next)

/-- `deallocate(al, p, n)`: the block must be live and come from an equal allocator with the same size.  The allocator
requirements do not allow a null pointer; `nullOk` says that the allocator at hand accepts one nevertheless. -/
def Heap.free (nullOk : Bool) (h : Heap) (p : Option Nat) (x : Blk) : M Heap :=
  match p with
  | none => if nullOk then .ok h else .error .badFree
  | some a => if h.live a = some x then .ok { h with live := upd h.live a none } else .error .badFree

/-- The layout: combined or separate buffers (swiss_table.hpp 454, 614; the last template argument), the size of a block of
control bytes, and of a node in bytes. -/
structure Lay where
  comb : Bool
  W : Nat
  s : Nat

/-- A buffer: its allocator (both are made from one `allocator_type`, swiss_table.hpp 510-516, 668-674), `capacity`, `m_metadata` and
`m_nodes` (602, 610-611); in the combined layout `md` is `m_data` (742) and `nd` is not used. -/
structure Buf where
  al : Nat
  cap : Nat
  md : Option Nat
  nd : Option Nat
  deriving DecidableEq, Repr

/-- `swiss_table_buffer(const Alloc &)` (swiss_table.hpp 510, 668). -/
def Buf.init (al : Nat) : Buf := ⟨al, 0, none, none⟩

/-- What `m_metadata` or `m_data` was allocated as (swiss_table.hpp 531, 554, 567; 625-629, 682, 697, 705). -/
def Lay.mblk (L : Lay) (al n : Nat) : Blk :=
  if L.comb then ⟨al, .nodes, Buf.bufferSize L.W L.s n⟩ else ⟨al, .bytes, n + L.W⟩

/-- `allocate` (swiss_table.hpp 552-557, 695-699). -/
def Buf.allocate (L : Lay) (h : Heap) (b : Buf) (n : Nat) : Heap × Buf :=
  let r := h.alloc (L.mblk b.al n)
  if L.comb then (r.1, { b with cap := n, md := some r.2 })
  else
    let q := r.1.alloc ⟨b.al, .nodes, n⟩
    (q.1, { b with cap := n, md := some r.2, nd := some q.2 })

/-- The two calls of `deallocate` with the sizes of allocation (swiss_table.hpp 547-548, 564-565, 574-575), or the one of the
combined layout (691, 704, 711). -/
def Buf.release (L : Lay) (nullOk : Bool) (h : Heap) (b : Buf) : M Heap := do
  let h ← h.free nullOk b.md (L.mblk b.al b.cap)
  if L.comb then .ok h else h.free nullOk b.nd ⟨b.al, .nodes, b.cap⟩

/-- `resize` (swiss_table.hpp 523-550, 679-693).  The separate layout tests the new capacity (543). -/
def Buf.resize (L : Lay) (nullOk : Bool) (h : Heap) (b : Buf) (n : Nat) : M (Heap × Buf) := do
  let r := b.allocate L h n
  let h ← (if L.comb ∨ n ≠ 0 then b.release L nullOk r.1 else .ok r.1 : M Heap)
  .ok (h, r.2)

/-- `reallocate` (swiss_table.hpp 558-571, 700-708). -/
def Buf.reallocate (L : Lay) (nullOk : Bool) (h : Heap) (b : Buf) (n : Nat) : M (Heap × Buf) :=
  if b.cap < n then do
    let h ← (if b.cap ≠ 0 then b.release L nullOk h else .ok h : M Heap)
    .ok (b.allocate L h n)
  else .ok (h, b)

/-- `deallocate` (swiss_table.hpp 572-579, 709-714). -/
def Buf.deallocate (L : Lay) (nullOk : Bool) (h : Heap) (b : Buf) : M (Heap × Buf) := do
  let h ← b.release L nullOk h
  .ok (h, ⟨b.al, 0, none, none⟩)

/-- Copy and move assignment of buffers (swiss_table.hpp 476-507, 644-665); `prop` is the trait `propagate_on_container_*` that
is looked at.  The combined layout deallocates `capacity` units. -/
def Buf.assign (L : Lay) (nullOk prop : Bool) (h : Heap) (b : Buf) (al : Nat) : M (Heap × Buf) :=
  if prop then
    if L.comb then do
      let h ← h.free nullOk b.md ⟨b.al, .nodes, b.cap⟩
      .ok (h, ⟨al, 0, none, none⟩)
    else do
      let h ← h.free nullOk b.md ⟨b.al, .bytes, b.cap + L.W⟩
      let h ← h.free nullOk b.nd ⟨b.al, .nodes, b.cap⟩
      .ok (h, ⟨al, 0, none, none⟩)
  else .ok (h, b)

/-- `swap_data` (swiss_table.hpp 584-592, 719-726). -/
def Buf.swapData (a b : Buf) : M (Buf × Buf) :=
  if a.al = b.al then .ok (⟨a.al, b.cap, b.md, b.nd⟩, ⟨b.al, a.cap, a.md, a.nd⟩) else .error .assertFail

/-- A container: `m_buffer` and `m_size`. -/
structure Cont where
  buf : Buf
  size : Nat
  deriving DecidableEq, Repr

/-- `copy_data` (swiss_table.hpp 1448-1483); `move_data` (1484-1521) allocates in the same way. -/
def Cont.copyData (L : Lay) (nullOk : Bool) (h : Heap) (c o : Cont) : M (Heap × Cont) :=
  if c.size ≠ 0 then .error .assertFail
  else if o.size = 0 then .ok (h, c)
  else do
    let r ← c.buf.reallocate L nullOk h o.buf.cap
    .ok (r.1, ⟨r.2, o.size⟩)

/-- `move_from` (swiss_table.hpp 1531-1544): `swap_buffers` if the allocators are equal, `move_data` otherwise. -/
def Cont.moveFrom (L : Lay) (nullOk : Bool) (h : Heap) (c o : Cont) : M (Heap × Cont × Cont) :=
  if c.buf.al = o.buf.al then do
    let r ← c.buf.swapData o.buf
    .ok (h, ⟨r.1, o.size⟩, ⟨r.2, c.size⟩)
  else do
    let r ← c.copyData L nullOk h o
    .ok (r.1, r.2, { o with size := 0 })

/-- What matters of the allocator type: the three `propagate_on_container_*` traits, and whether `deallocate` accepts a null
pointer. -/
structure ACfg where
  copyProp : Bool
  moveProp : Bool
  swapProp : Bool
  nullOk : Bool

/-- The memory and the containers (by name). -/
structure World where
  h : Heap
  box : Nat → Option Cont

/-- Nothing allocated, no containers. -/
def World.init : World := ⟨⟨fun _ => none, 0⟩, fun _ => none⟩

/-- The statements of a program. -/
inductive Op
  /-- `swiss_table(alloc)` -/
  | make (s al : Nat)
  /-- `swiss_table(n, hash, cmp, alloc)`, also called by the constructors from a range -/
  | makeN (s al n : Nat)
  /-- `swiss_table(other)` and `swiss_table(other, alloc)` -/
  | copyMake (s src al : Nat)
  /-- `swiss_table(std::move(other))` and `swiss_table(std::move(other), alloc)` -/
  | moveMake (s src : Nat) (al : Option Nat)
  | copyAssign (dst src : Nat)
  | moveAssign (dst src : Nat)
  | swap (a b : Nat)
  /-- part of any operation that makes room -/
  | rehash (s n : Nat)
  /-- part of any operation that inserts or erases: the number of elements becomes `n` -/
  | resized (s n : Nat)
  | destroy (s : Nat)

namespace World

/-- Replaces a container and the memory. -/
def put (w : World) (s : Nat) (h : Heap) (c : Cont) : World := ⟨h, upd w.box s (some c)⟩

/-- A statement (swiss_table.hpp 836-887, 1140-1146, 1376-1393).  Statements that construct a container under a name in use, or use
a container that does not exist, have no effect. -/
def step (cfg : ACfg) (L : Lay) (w : World) : Op → M World
  | .make s al =>
    match w.box s with
    | some _ => .ok w
    | none => .ok (w.put s w.h ⟨.init al, 0⟩)
  | .makeN s al n =>
    match w.box s with
    | some _ => .ok w
    | none =>
      let r := (Buf.init al).allocate L w.h n
      if (n + 1) &&& n = 0 then .ok (w.put s r.1 ⟨r.2, 0⟩) else .error .assertFail
  | .copyMake s src al =>
    match w.box s, w.box src with
    | none, some o => do
      let r ← Cont.copyData L cfg.nullOk w.h ⟨.init al, 0⟩ o
      .ok (w.put s r.1 r.2)
    | _, _ => .ok w
  | .moveMake s src al =>
    match w.box s, w.box src with
    | none, some o => do
      let r ← Cont.moveFrom L cfg.nullOk w.h ⟨.init (al.getD o.buf.al), 0⟩ o
      .ok ⟨r.1, upd (upd w.box s (some r.2.1)) src (some r.2.2)⟩
    | _, _ => .ok w
  | .copyAssign dst src =>
    match w.box dst, w.box src with
    | some c, some o =>
      if dst = src then .ok w
      else do
        let r ← c.buf.assign L cfg.nullOk cfg.copyProp w.h o.buf.al
        let q ← Cont.copyData L cfg.nullOk r.1 ⟨r.2, 0⟩ o
        .ok (w.put dst q.1 q.2)
    | _, _ => .ok w
  | .moveAssign dst src =>
    match w.box dst, w.box src with
    | some c, some o =>
      if dst = src then .ok w
      else do
        let r ← c.buf.assign L cfg.nullOk cfg.moveProp w.h o.buf.al
        let q ← Cont.moveFrom L cfg.nullOk r.1 ⟨r.2, 0⟩ o
        .ok ⟨q.1, upd (upd w.box dst (some q.2.1)) src (some q.2.2)⟩
    | _, _ => .ok w
  | .swap a b =>
    match w.box a, w.box b with
    | some x, some y =>
      if a = b then .ok w
      else do
        let r ← x.buf.swapData y.buf
        .ok ⟨w.h, upd (upd w.box a (some ⟨r.1, y.size⟩)) b (some ⟨r.2, x.size⟩)⟩
    | _, _ => .ok w
  | .rehash s n =>
    match w.box s with
    | none => .ok w
    | some c => do
      let r ← c.buf.resize L cfg.nullOk w.h (alignCapacity n)
      .ok (w.put s r.1 ⟨r.2, c.size⟩)
  | .resized s n =>
    match w.box s with
    | none => .ok w
    | some c => .ok (w.put s w.h ⟨c.buf, n⟩)
  | .destroy s =>
    match w.box s with
    | none => .ok w
    | some c => do
      let r ← c.buf.deallocate L cfg.nullOk w.h
      .ok ⟨r.1, upd w.box s none⟩

/-- Whether a statement passes a null pointer to `deallocate`. -/
def nullFree (cfg : ACfg) (w : World) : Op → Bool
  | .copyAssign dst src =>
    match w.box dst, w.box src with
    | some c, some _ => decide (dst ≠ src) && cfg.copyProp && c.buf.md.isNone
    | _, _ => false
  | .moveAssign dst src =>
    match w.box dst, w.box src with
    | some c, some _ => decide (dst ≠ src) && cfg.moveProp && c.buf.md.isNone
    | _, _ => false
  | .rehash s _ | .destroy s =>
    match w.box s with
    | some c => c.buf.md.isNone
    | none => false
  | _ => false

/-- Whether a statement assigns to a combined buffer that is not empty with a propagating allocator. -/
def wrongSize (cfg : ACfg) (L : Lay) (w : World) : Op → Bool
  | .copyAssign dst src =>
    match w.box dst, w.box src with
    | some c, some _ => decide (dst ≠ src) && cfg.copyProp && L.comb && c.buf.md.isSome
    | _, _ => false
  | .moveAssign dst src =>
    match w.box dst, w.box src with
    | some c, some _ => decide (dst ≠ src) && cfg.moveProp && L.comb && c.buf.md.isSome
    | _, _ => false
  | _ => false

/-- Whether a statement copies or moves elements into a buffer of capacity 0 that does exist (made with bucket count 0 and kept by the
assignment). -/
def forgets (cfg : ACfg) (w : World) : Op → Bool
  | .copyAssign dst src =>
    match w.box dst, w.box src with
    | some c, some o => decide (dst ≠ src) && !cfg.copyProp && decide (o.size ≠ 0 ∧ 0 < o.buf.cap ∧ c.buf.cap = 0) && c.buf.md.isSome
    | _, _ => false
  | .moveAssign dst src =>
    match w.box dst, w.box src with
    | some c, some o => decide (dst ≠ src) && !cfg.moveProp && decide (c.buf.al ≠ o.buf.al) &&
        decide (o.size ≠ 0 ∧ 0 < o.buf.cap ∧ c.buf.cap = 0) && c.buf.md.isSome
    | _, _ => false
  | _ => false

/-- The statement does none of the three. -/
def Fine (cfg : ACfg) (L : Lay) (w : World) (o : Op) : Prop :=
  (cfg.nullOk = true ∨ w.nullFree cfg o = false) ∧ w.wrongSize cfg L o = false ∧ w.forgets cfg o = false

/-- The states of programs all of whose statements are fine. -/
inductive Reached (cfg : ACfg) (L : Lay) : World → Prop
  | init : Reached cfg L World.init
  | step {w w' : World} {o : Op} : Reached cfg L w → w.Fine cfg L o → w.step cfg L o = .ok w' → Reached cfg L w'

end World

/-! ## Ownership -/

/-- Addresses not yet handed out are not live. -/
def Heap.Fresh (h : Heap) : Prop := ∀ a, h.next ≤ a → h.live a = none

/-- The block of the buffer at an address. -/
def Buf.blk (L : Lay) (b : Buf) (i : Nat) : Option Blk :=
  if b.md = some i then some (L.mblk b.al b.cap) else if b.nd = some i then some ⟨b.al, .nodes, b.cap⟩ else none

/-- Which pointers are null. -/
structure Buf.Shape (L : Lay) (b : Buf) : Prop where
  comb : L.comb = true → b.nd = none
  split : L.comb = false → (b.md = none ↔ b.nd = none)
  ne : ∀ {i}, b.md = some i → b.nd ≠ some i
  cap : b.md = none → b.cap = 0

/-- The blocks `f` are live. -/
structure Own (h : Heap) (f : Nat → Option Blk) : Prop where
  fresh : h.Fresh
  live : ∀ {i x}, f i = some x → h.live i = some x

/-- What an operation on one container does to memory: it exchanges its blocks `f` for blocks `g` which are the old ones or
fresh. -/
structure Step (h : Heap) (f : Nat → Option Blk) (h' : Heap) (g : Nat → Option Blk) : Prop where
  own : Own h' g
  frame : ∀ i, f i = none → g i = none → h'.live i = h.live i
  gone : ∀ i, f i ≠ none → g i = none → h'.live i = none
  new : ∀ i, g i ≠ none → f i ≠ none ∨ h.live i = none

theorem Step.refl {h : Heap} {f : Nat → Option Blk} (ho : Own h f) : Step h f h f :=
  ⟨ho, fun _ _ _ => rfl, fun _ h1 h2 => absurd h2 h1, fun _ h1 => .inl h1⟩

theorem Step.trans {h1 h2 h3 : Heap} {f g k : Nat → Option Blk} (a : Step h1 f h2 g) (b : Step h2 g h3 k) : Step h1 f h3 k := by
  refine ⟨b.own, fun i x1 x3 => ?_, fun i x1 x3 => ?_, fun i x3 => ?_⟩
  · by_cases x2 : g i = none
    · rw [b.frame i x2 x3, a.frame i x1 x2]
    · rw [b.gone i x2 x3]
      rcases a.new i x2 with e | e
      · exact absurd x1 e
      · exact e.symm
  · by_cases x2 : g i = none
    · rw [b.frame i x2 x3]
      exact a.gone i x1 x2
    · exact b.gone i x2 x3
  · by_cases x1 : f i = none
    · right
      rcases b.new i x3 with e | e
      · exact (a.new i e).resolve_left (fun hh => hh x1)
      · by_cases x2 : g i = none
        · rw [← a.frame i x1 x2]
          exact e
        · exact (a.new i x2).resolve_left (fun hh => hh x1)
    · exact .inl x1

/-- The old blocks are freed. -/
theorem Step.drop {h h' : Heap} {f : Nat → Option Blk} (ho : Own h f) (hn : h'.next = h.next)
    (hl : ∀ i, h'.live i = if f i = none then h.live i else none) : Step h f h' (fun _ => none) := by
  refine ⟨⟨fun a ha => ?_, fun hh => (by cases hh)⟩, fun i h1 _ => by rw [hl, if_pos h1], fun i h1 _ => by rw [hl, if_neg h1],
    fun i h1 => absurd rfl h1⟩
  rw [hl]
  split
  · exact ho.fresh a (by omega)
  · rfl

/-- New blocks are allocated. -/
theorem Step.fresh {h h' : Heap} {g : Nat → Option Blk} (hf : h.Fresh) (hg : ∀ i, g i ≠ none → h.next ≤ i ∧ i < h'.next)
    (hn : h.next ≤ h'.next) (hl : ∀ i, h'.live i = if g i = none then h.live i else g i) :
    Step h (fun _ => none) h' g := by
  refine ⟨⟨fun a ha => ?_, fun {i x} hx => ?_⟩, fun i _ h2 => by rw [hl, if_pos h2], fun i h1 => absurd rfl h1,
    fun i h1 => .inr (hf i (hg i h1).1)⟩
  · rw [hl]
    split
    · exact hf a (by omega)
    · rename_i hh
      have := (hg a hh).2
      omega
  · rw [hl, if_neg, hx]
    rw [hx]
    exact fun hh => (by cases hh)

theorem blk_empty {L : Lay} {b : Buf} (h1 : b.md = none) (h2 : b.nd = none) : b.blk L = fun _ => none := by
  funext i
  unfold Buf.blk
  rw [h1, h2]
  rfl

theorem blk_md {L : Lay} {b : Buf} {i : Nat} (h : b.md = some i) : b.blk L i = some (L.mblk b.al b.cap) := by
  unfold Buf.blk
  rw [if_pos h]

theorem blk_nd {L : Lay} {b : Buf} (hs : b.Shape L) {i : Nat} (h : b.nd = some i) : b.blk L i = some ⟨b.al, .nodes, b.cap⟩ := by
  unfold Buf.blk
  rw [if_neg (fun hh => hs.ne hh h), if_pos h]

theorem blk_none {L : Lay} {b : Buf} {i : Nat} : b.blk L i = none ↔ b.md ≠ some i ∧ b.nd ≠ some i := by
  unfold Buf.blk
  by_cases h1 : b.md = some i
  · simp [h1]
  · by_cases h2 : b.nd = some i
    · simp [h1, h2]
    · simp [h1, h2]

theorem init_shape (L : Lay) (al : Nat) : (Buf.init al).Shape L :=
  ⟨fun _ => rfl, fun _ => ⟨fun _ => rfl, fun _ => rfl⟩, fun hh => (by cases hh), fun _ => rfl⟩

theorem null_shape (L : Lay) (al : Nat) : (⟨al, 0, none, none⟩ : Buf).Shape L := init_shape L al

theorem free_ok {nullOk : Bool} {h : Heap} {p : Option Nat} {x : Blk} (hn : nullOk = true ∨ p ≠ none)
    (hp : ∀ a, p = some a → h.live a = some x) :
    h.free nullOk p x = .ok { live := fun a => if p = some a then none else h.live a, next := h.next } := by
  cases p with
  | none =>
    rcases hn with rfl | hn
    · simp [Heap.free]
    · exact absurd rfl hn
  | some a =>
    simp only [Heap.free, if_pos (hp a rfl)]
    congr 2
    funext i
    rw [upd_apply]
    by_cases hi : i = a
    · rw [if_pos hi, if_pos (by rw [hi])]
    · rw [if_neg hi, if_neg (fun hh => hi (by cases hh; rfl))]

theorem free_error {nullOk : Bool} {h : Heap} {a : Nat} {x y : Blk} (hl : h.live a = some y) (hne : y ≠ x) :
    h.free nullOk (some a) x = .error .badFree := by
  simp only [Heap.free]
  rw [if_neg]
  rw [hl]
  intro hh
  cases hh
  exact hne rfl

/-! ## The functions of buffers -/

theorem release_ok {L : Lay} {nullOk : Bool} {h : Heap} {b : Buf} (hs : b.Shape L) (ho : Own h (b.blk L))
    (hn : nullOk = true ∨ b.md ≠ none) :
    b.release L nullOk h = .ok { live := fun i => if b.blk L i = none then h.live i else none, next := h.next } := by
  unfold Buf.release
  rw [free_ok hn (fun a ha => ho.live (blk_md ha)), bind_ok]
  cases hc : L.comb with
  | true =>
    simp only [if_true]
    congr 2
    funext i
    by_cases h1 : b.md = some i
    · rw [if_pos h1, if_neg (fun hh => (blk_none.1 hh).1 h1)]
    · rw [if_neg h1, if_pos (blk_none.2 ⟨h1, by rw [hs.comb hc]; exact fun hh => (by cases hh)⟩)]
  | false =>
    simp only [Bool.false_eq_true, if_false]
    rw [free_ok (hn.imp id (fun hh h' => hh ((hs.split hc).2 h')))]
    · congr 2
      funext i
      simp only
      by_cases h1 : b.md = some i
      · rw [if_pos h1, if_neg (hs.ne h1), if_neg (fun hh => (blk_none.1 hh).1 h1)]
      · rw [if_neg h1]
        by_cases h2 : b.nd = some i
        · rw [if_pos h2, if_neg (fun hh => (blk_none.1 hh).2 h2)]
        · rw [if_neg h2, if_pos (blk_none.2 ⟨h1, h2⟩)]
    · intro a ha
      simp only
      rw [if_neg (fun hh => hs.ne hh ha)]
      exact ho.live (blk_nd hs ha)

theorem allocate_next (L : Lay) (h : Heap) (b : Buf) (n : Nat) : h.next ≤ (b.allocate L h n).1.next := by
  simp only [Buf.allocate]
  split <;> simp only [Heap.alloc] <;> omega

theorem allocate_al (L : Lay) (h : Heap) (b : Buf) (n : Nat) : (b.allocate L h n).2.al = b.al ∧ (b.allocate L h n).2.cap = n := by
  simp only [Buf.allocate]
  split <;> exact ⟨rfl, rfl⟩

theorem allocate_shape {L : Lay} (h : Heap) {b : Buf} (hs : b.Shape L) (n : Nat) : (b.allocate L h n).2.Shape L := by
  cases hc : L.comb with
  | true =>
    simp only [Buf.allocate, hc, if_true]
    exact ⟨fun _ => hs.comb hc, fun hh => absurd hh (by rw [hc]; decide), fun {i} _ hh => (by rw [hs.comb hc] at hh; cases hh),
      fun hh => (by cases hh)⟩
  | false =>
    simp only [Buf.allocate, hc, Bool.false_eq_true, if_false, Heap.alloc]
    refine ⟨fun hh => absurd hh (by rw [hc]; decide), fun _ => ⟨fun hh => (by cases hh), fun hh => (by cases hh)⟩, fun {i} h1 h2 => ?_,
      fun hh => (by cases hh)⟩
    cases h1
    injection h2 with h2
    omega

theorem allocate_step {L : Lay} {h : Heap} (hf : h.Fresh) {b : Buf} (hs : b.Shape L) (n : Nat) :
    Step h (fun _ => none) (b.allocate L h n).1 ((b.allocate L h n).2.blk L) := by
  refine Step.fresh hf (fun i hi => ?_) (allocate_next L h b n) (fun i => ?_)
  · cases hc : L.comb with
    | true =>
      simp only [Buf.allocate, hc, if_true, Buf.blk, hs.comb hc, Heap.alloc] at hi ⊢
      split at hi
      · rename_i hh
        cases hh
        omega
      · exact absurd rfl hi
    | false =>
      simp only [Buf.allocate, hc, Bool.false_eq_true, if_false, Buf.blk, Heap.alloc] at hi ⊢
      split at hi
      · rename_i hh
        cases hh
        omega
      · split at hi
        · rename_i hh
          cases hh
          omega
        · exact absurd rfl hi
  · cases hc : L.comb with
    | true =>
      simp only [Buf.allocate, hc, if_true, Heap.alloc, upd_apply]
      by_cases hi : i = h.next
      · subst hi
        rw [if_pos rfl, blk_md rfl]
        simp
      · rw [if_neg hi, if_pos]
        exact blk_none.2 ⟨fun hh => hi (by cases hh; rfl), by simp [hs.comb hc]⟩
    | false =>
      simp only [Buf.allocate, hc, Bool.false_eq_true, if_false, Heap.alloc, upd_apply]
      by_cases hi : i = h.next
      · subst hi
        rw [if_neg (by omega), if_pos rfl, blk_md rfl]
        simp
      · rw [if_neg hi]
        by_cases hi' : i = h.next + 1
        · subst hi'
          simp [Buf.blk]
        · rw [if_neg hi', if_pos]
          exact blk_none.2 ⟨fun hh => hi (by cases hh; rfl), fun hh => hi' (by cases hh; rfl)⟩

/-- The old blocks are freed after new ones have been allocated. -/
theorem Step.replace {h h1 h2 : Heap} {f g : Nat → Option Blk} (ho : Own h f) (ha : Step h (fun _ => none) h1 g)
    (hn : h2.next = h1.next) (hl : ∀ i, h2.live i = if f i = none then h1.live i else none) : Step h f h2 g := by
  have hd : ∀ i, f i ≠ none → g i = none := by
    intro i hi
    by_contra hg
    obtain ⟨x, hx⟩ := Option.ne_none_iff_exists'.1 hi
    have := ho.live hx
    rcases ha.new i hg with e | e
    · exact e rfl
    · rw [this] at e
      cases e
  refine ⟨⟨fun a hh => ?_, fun {i x} hx => ?_⟩, fun i e1 e2 => ?_, fun i e1 e2 => ?_, fun i e => ?_⟩
  · rw [hl]
    split
    · exact ha.own.fresh a (by omega)
    · rfl
  · rw [hl, if_pos]
    · exact ha.own.live hx
    · by_contra hh
      rw [hd i hh] at hx
      cases hx
  · rw [hl, if_pos e1]
    exact ha.frame i rfl e2
  · rw [hl, if_neg e1]
  · rcases ha.new i e with e' | e'
    · exact absurd rfl e'
    · exact .inr e'

theorem resize_ok {L : Lay} {nullOk : Bool} {h : Heap} {b : Buf} (hs : b.Shape L) (ho : Own h (b.blk L))
    (hn : nullOk = true ∨ b.md ≠ none) {n : Nat} (h0 : n ≠ 0) :
    ∃ r, b.resize L nullOk h n = .ok r ∧ r.2.Shape L ∧ r.2.al = b.al ∧ Step h (b.blk L) r.1 (r.2.blk L) := by
  have ha := allocate_step ho.fresh hs n
  have ho' : Own (b.allocate L h n).1 (b.blk L) := by
    refine ⟨ha.own.fresh, fun {i x} hx => ?_⟩
    rw [ha.frame i rfl, ho.live hx]
    by_contra hh
    rcases ha.new i hh with e | e
    · exact e rfl
    · rw [ho.live hx] at e
      cases e
  refine ⟨(⟨fun i => if b.blk L i = none then (b.allocate L h n).1.live i else none, (b.allocate L h n).1.next⟩, (b.allocate L h n).2), ?_, allocate_shape h hs n, (allocate_al L h b n).1,
    Step.replace ho ha rfl (fun i => rfl)⟩
  unfold Buf.resize
  simp only
  rw [if_pos (.inr h0), release_ok hs ho' hn]
  rfl

theorem reallocate_ok {L : Lay} {nullOk : Bool} {h : Heap} {b : Buf} (hs : b.Shape L) (ho : Own h (b.blk L)) {n : Nat}
    (hg : b.cap = 0 → 0 < n → b.md = none) :
    ∃ r, b.reallocate L nullOk h n = .ok r ∧ r.2.Shape L ∧ r.2.al = b.al ∧ Step h (b.blk L) r.1 (r.2.blk L) := by
  unfold Buf.reallocate
  by_cases hc : b.cap < n
  · rw [if_pos hc]
    by_cases h0 : b.cap ≠ 0
    · have hmd : b.md ≠ none := fun hh => h0 (hs.cap hh)
      rw [if_pos h0, release_ok hs ho (.inr hmd)]
      have hd : Step h (b.blk L) { live := fun i => if b.blk L i = none then h.live i else none, next := h.next } (fun _ => none) :=
        Step.drop ho rfl (fun i => rfl)
      exact ⟨_, rfl, allocate_shape _ hs n, (allocate_al L _ b n).1, hd.trans (allocate_step hd.own.fresh hs n)⟩
    · rw [if_neg h0]
      have h0 : b.cap = 0 := by omega
      have hmd := hg h0 (by omega)
      have hnd : b.nd = none := by
        cases hb : L.comb with
        | true => exact hs.comb hb
        | false => exact (hs.split hb).1 hmd
      have e := blk_empty (L := L) hmd hnd
      refine ⟨_, rfl, allocate_shape _ hs n, (allocate_al L _ b n).1, ?_⟩
      rw [e]
      exact allocate_step ho.fresh hs n
  · rw [if_neg hc]
    exact ⟨_, rfl, hs, rfl, Step.refl ho⟩

theorem deallocate_ok {L : Lay} {nullOk : Bool} {h : Heap} {b : Buf} (hs : b.Shape L) (ho : Own h (b.blk L))
    (hn : nullOk = true ∨ b.md ≠ none) :
    ∃ r, b.deallocate L nullOk h = .ok r ∧ Step h (b.blk L) r.1 (fun _ => none) := by
  unfold Buf.deallocate
  rw [release_ok hs ho hn]
  exact ⟨_, rfl, Step.drop ho rfl (fun i => rfl)⟩

theorem assign_ok {L : Lay} {nullOk prop : Bool} {h : Heap} {b : Buf} (hs : b.Shape L) (ho : Own h (b.blk L)) (al : Nat)
    (hn : prop = false ∨ nullOk = true ∨ b.md ≠ none) (hw : prop = false ∨ L.comb = false ∨ b.md = none) :
    ∃ r, b.assign L nullOk prop h al = .ok r ∧ r.2.Shape L ∧ r.2.al = (if prop then al else b.al) ∧
      (prop = false → r.2 = b) ∧ (prop = true → r.2 = ⟨al, 0, none, none⟩) ∧ Step h (b.blk L) r.1 (r.2.blk L) := by
  unfold Buf.assign
  cases prop with
  | false => exact ⟨_, rfl, hs, rfl, fun _ => rfl, fun hh => (by cases hh), Step.refl ho⟩
  | true =>
    have hn := hn.resolve_left (fun hh => (by cases hh))
    have hw := hw.resolve_left (fun hh => (by cases hh))
    simp only [if_true]
    have e0 := blk_empty (L := L) (b := ⟨al, 0, none, none⟩) rfl rfl
    cases hc : L.comb with
    | true =>
      simp only [if_true]
      have hmd := hw.resolve_left (by rw [hc]; decide)
      have hb := blk_empty (L := L) hmd (hs.comb hc)
      rw [free_ok hn (fun a ha => by rw [hmd] at ha; cases ha), bind_ok]
      refine ⟨_, rfl, null_shape L al, rfl, fun hh => (by cases hh), fun _ => rfl, ?_⟩
      rw [e0]
      refine Step.drop ho (by rfl) (fun i => ?_)
      rw [hb]
      simp [hmd]
    | false =>
      have hr := release_ok hs ho hn
      unfold Buf.release at hr
      simp only [hc, Bool.false_eq_true, if_false, Lay.mblk] at hr ⊢
      refine ⟨({ live := fun i => if b.blk L i = none then h.live i else none, next := h.next }, ⟨al, 0, none, none⟩), ?_,
        null_shape L al, rfl, fun hh => (by cases hh), fun _ => rfl, ?_⟩
      · cases e1 : h.free nullOk b.md ⟨b.al, .bytes, b.cap + L.W⟩ with
        | error _ =>
          rw [e1] at hr
          cases hr
        | ok h1 =>
          rw [e1, bind_ok] at hr
          rw [bind_ok, hr, bind_ok]
      · rw [e0]
        exact Step.drop ho (by rfl) (fun i => by rfl)

end Tpp.Swiss.Mem
