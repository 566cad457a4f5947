import Verif.Basic

/-!
# Allocation of the swiss table buffers

Models `/repo/tpp/detail/swiss_table.hpp` 454-742 at the level of allocations: which blocks are obtained from and
returned to the allocator, with which sizes, and what happens if an allocation throws.  The contents of the buffers are
modelled in `Verif.Swiss.Model`.
-/

namespace Tpp.Swiss.Buf

/-- What a block was allocated as: control bytes (`MetaAlloc`) or nodes (`NodeAlloc`), and the number of units. -/
inductive Block
  | bytes (n : Nat)
  | nodes (n : Nat)
  deriving DecidableEq, Repr

/-- The allocator's view of memory: the live blocks and the next fresh address. -/
structure Heap where
  live : Nat → Option Block
  next : Nat

/-- Addresses not yet handed out are not live. -/
def Heap.Fresh (h : Heap) : Prop := ∀ a, h.next ≤ a → h.live a = none

/-- `allocate`, when it does not throw. -/
def Heap.alloc (h : Heap) (b : Block) : Heap × Nat := ({ live := upd h.live h.next (some b), next := h.next + 1 }, h.next)

/-- `deallocate(p, n)`: `p` must be live and of that size.  A null pointer is accepted, as `std::allocator` with the
usual `operator delete` accepts it (strictly, the allocator requirements do not allow it; the code passes null pointers
at 547-548, 691 when there was no buffer before, and at 480-505, 648-660, 574-577, 709). -/
def Heap.free (h : Heap) (p : Option Nat) (b : Block) : M Heap :=
  match p with
  | none => .ok h
  | some a => if h.live a = some b then .ok { h with live := upd h.live a none } else .error .badFree

/-! ## Separate buffers (swiss_table.hpp 454-612) -/

/-- `capacity`, `m_metadata`, `m_nodes` (swiss_table.hpp 602, 610-611). -/
structure Split where
  cap : Nat
  md : Option Nat
  nd : Option Nat

def Split.init : Split := ⟨0, none, none⟩

/-- Outcome of an operation that may throw `bad_alloc`. -/
structure Res (B : Type) where
  heap : Heap
  buf : B
  threw : Bool

/-- `resize` (swiss_table.hpp 523-550); `okM`, `okN` say whether the two allocations succeed.  The relocation callback
runs between the swap and the deallocation and does not allocate.  After the swap `n` is the old capacity; the test
`capacity != 0` therefore looks at the *new* capacity. -/
def Split.resize (W : Nat) (okM okN : Bool) (h : Heap) (b : Split) (n : Nat) : M (Res Split) :=
  if okM then
    let (h1, m) := h.alloc (.bytes (n + W))
    if okN then do
      let (h2, d) := h1.alloc (.nodes n)
      if n ≠ 0 then
        let h3 ← h2.free b.md (.bytes (b.cap + W))
        let h4 ← h3.free b.nd (.nodes b.cap)
        .ok ⟨h4, ⟨n, some m, some d⟩, false⟩
      else .ok ⟨h2, ⟨n, some m, some d⟩, false⟩
    else do
      let h2 ← h1.free (some m) (.bytes (n + W))
      .ok ⟨h2, b, true⟩
  else .ok ⟨h, b, true⟩

/-- `allocate` (swiss_table.hpp 552-557), used by the constructors on an empty buffer. -/
def Split.allocate (W : Nat) (okM okN : Bool) (h : Heap) (b : Split) (n : Nat) : M (Res Split) :=
  if okM then
    let (h1, m) := h.alloc (.bytes (n + W))
    if okN then
      let (h2, d) := h1.alloc (.nodes n)
      .ok ⟨h2, ⟨n, some m, some d⟩, false⟩
    else .ok ⟨h1, { b with md := some m }, true⟩
  else .ok ⟨h, b, true⟩

/-- `reallocate` (swiss_table.hpp 558-571). -/
def Split.reallocate (W : Nat) (okM okN : Bool) (h : Heap) (b : Split) (n : Nat) : M (Res Split) := do
  if b.cap < n then
    let h ← if b.cap ≠ 0 then do
        let h ← h.free b.md (.bytes (b.cap + W))
        h.free b.nd (.nodes b.cap)
      else .ok h
    if okM then
      let (h1, m) := h.alloc (.bytes (n + W))
      if okN then
        let (h2, d) := h1.alloc (.nodes n)
        .ok ⟨h2, ⟨n, some m, some d⟩, false⟩
      else .ok ⟨h1, { b with md := some m }, true⟩
    else .ok ⟨h, b, true⟩
  else .ok ⟨h, b, false⟩

/-- `deallocate` (swiss_table.hpp 572-579). -/
def Split.deallocate (W : Nat) (h : Heap) (b : Split) : M (Heap × Split) := do
  let h ← h.free b.md (.bytes (b.cap + W))
  let h ← h.free b.nd (.nodes b.cap)
  .ok (h, ⟨0, none, none⟩)

/-- Copy or move assignment of the buffer with propagating allocators (swiss_table.hpp 476-507). -/
def Split.assign (W : Nat) (h : Heap) (b : Split) : M (Heap × Split) := do
  let h ← h.free b.md (.bytes (b.cap + W))
  let h ← h.free b.nd (.nodes b.cap)
  .ok (h, ⟨0, none, none⟩)

/-! ## Combined buffer (swiss_table.hpp 613-742) -/

/-- `capacity` and `m_data` (swiss_table.hpp 735, 742). -/
structure Comb where
  cap : Nat
  data : Option Nat

def Comb.init : Comb := ⟨0, none⟩

/-- `nodes_start` (swiss_table.hpp 619-624), in units of nodes; `s = sizeof(Node)`. -/
def nodesStart (W s n : Nat) : Nat := (n + W) / s + (if (n + W) % s ≠ 0 then 1 else 0)

/-- `buffer_size` (swiss_table.hpp 625-629), in units of nodes. -/
def bufferSize (W s n : Nat) : Nat := nodesStart W s n + n

/-- `resize` (swiss_table.hpp 679-693). -/
def Comb.resize (W s : Nat) (okA : Bool) (h : Heap) (b : Comb) (n : Nat) : M (Res Comb) :=
  if okA then do
    let (h1, d) := h.alloc (.nodes (bufferSize W s n))
    let h2 ← h1.free b.data (.nodes (bufferSize W s b.cap))
    .ok ⟨h2, ⟨n, some d⟩, false⟩
  else .ok ⟨h, b, true⟩

/-- `allocate` (swiss_table.hpp 695-699). -/
def Comb.allocate (W s : Nat) (okA : Bool) (h : Heap) (b : Comb) (n : Nat) : M (Res Comb) :=
  if okA then
    let (h1, d) := h.alloc (.nodes (bufferSize W s n))
    .ok ⟨h1, ⟨n, some d⟩, false⟩
  else .ok ⟨h, b, true⟩

/-- `reallocate` (swiss_table.hpp 700-708). -/
def Comb.reallocate (W s : Nat) (okA : Bool) (h : Heap) (b : Comb) (n : Nat) : M (Res Comb) := do
  if b.cap < n then
    let h ← if b.cap ≠ 0 then h.free b.data (.nodes (bufferSize W s b.cap)) else .ok h
    if okA then
      let (h1, d) := h.alloc (.nodes (bufferSize W s n))
      .ok ⟨h1, ⟨n, some d⟩, false⟩
    else .ok ⟨h, b, true⟩
  else .ok ⟨h, b, false⟩

/-- `deallocate` (swiss_table.hpp 709-714). -/
def Comb.deallocate (W s : Nat) (h : Heap) (b : Comb) : M (Heap × Comb) := do
  let h ← h.free b.data (.nodes (bufferSize W s b.cap))
  .ok (h, ⟨0, none⟩)

/-- Copy or move assignment of the buffer with a propagating allocator (swiss_table.hpp 644-665): deallocates
`capacity` units. -/
def Comb.assign (h : Heap) (b : Comb) : M (Heap × Comb) := do
  let h ← h.free b.data (.nodes b.cap)
  .ok (h, ⟨0, none⟩)

/-! ## Ownership -/

/-- The buffer owns exactly its blocks, with the sizes its capacity implies. -/
structure Split.Owns (W : Nat) (h : Heap) (b : Split) : Prop where
  fresh : h.Fresh
  md_live : ∀ a, b.md = some a → h.live a = some (.bytes (b.cap + W))
  nd_live : ∀ a, b.nd = some a → h.live a = some (.nodes b.cap)
  both : b.md = none ↔ b.nd = none
  empty : b.md = none → b.cap = 0

/-- Everything live except the blocks of the buffer. -/
def Split.others (h : Heap) (b : Split) : Nat → Option Block :=
  fun a => if b.md = some a ∨ b.nd = some a then none else h.live a

structure Comb.Owns (W s : Nat) (h : Heap) (b : Comb) : Prop where
  fresh : h.Fresh
  live : ∀ a, b.data = some a → h.live a = some (.nodes (bufferSize W s b.cap))
  empty : b.data = none → b.cap = 0

def Comb.others (h : Heap) (b : Comb) : Nat → Option Block :=
  fun a => if b.data = some a then none else h.live a

theorem Fresh.alloc {h : Heap} (hf : h.Fresh) (b : Block) : (h.alloc b).1.Fresh := by
  intro a ha
  simp only [Heap.alloc] at ha ⊢
  rw [upd_ne _ _ (by omega)]
  exact hf a (by omega)

theorem free_ok {h : Heap} {p : Option Nat} {b : Block} (hp : ∀ a, p = some a → h.live a = some b) :
    h.free p b = .ok { live := fun a => if p = some a then none else h.live a, next := h.next } := by
  cases p with
  | none => simp [Heap.free]
  | some a =>
    unfold Heap.free
    simp only
    rw [if_pos (hp a rfl)]
    congr 1
    have : upd h.live a none = fun x => if some a = some x then none else h.live x := by
      funext x
      rw [upd_apply]
      by_cases e : x = a
      · subst e; simp
      · rw [if_neg e, if_neg]
        intro e'; cases e'; exact e rfl
    rw [this]

theorem Heap.Fresh.ne {h : Heap} (hf : h.Fresh) {a : Nat} {b : Block} (ha : h.live a = some b) : a < h.next := by
  rcases Nat.lt_or_ge a h.next with hc | hc
  · exact hc
  · rw [hf a hc] at ha
    cases ha

end Tpp.Swiss.Buf
