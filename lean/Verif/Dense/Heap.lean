import Verif.Dense.Hist

/-!
# The two arrays of dense containers

`Verif.Dense.Model` treats the arrays `m_dense` and `m_sparse` as functions.  Here every array is a block of memory that is
obtained from an allocator and has to be returned to an equal allocator with the same number of elements.  The functions
below are those of `/repo/tpp/detail/dense_table.hpp` that allocate or deallocate, and those that call them; what they do to the
elements is taken from `Verif.Dense.Model`.
-/

set_option linter.unusedSectionVars false

namespace Tpp.Dense

variable {k : Nat} {K V : Type} [DecidableEq K]

/-- Which allocator a block comes from: `dense_allocator` or `sparse_allocator` (dense_table.hpp 100-104). -/
inductive Arr2
  | dense
  | sparse
  deriving DecidableEq

/-- A block: the allocator (allocators are equal if their numbers are), the type of its elements, and their number. -/
structure Blk where
  al : Nat
  arr : Arr2
  n : Nat
  deriving DecidableEq

/-- The allocators' view of memory: the live blocks and the next fresh address. -/
structure Heap where
  live : Nat → Option Blk
  next : Nat

/-- `allocate(al, n)`. -/
def Heap.alloc (h : Heap) (x : Blk) : Heap × Nat := ({ live := upd h.live h.next (some x), next := h.next + 1 }, h.next)

/-- `deallocate(al, p, n)`: the block must be live and come from an equal allocator with the same size.  The allocator
requirements do not allow a null pointer; `nullOk` says that the allocator at hand accepts one nevertheless. -/
def Heap.free (nullOk : Bool) (h : Heap) (p : Option Nat) (x : Blk) : M Heap :=
  match p with
  | none => if nullOk then .ok h else .error .badFree
  | some a => if h.live a = some x then .ok { h with live := upd h.live a none } else .error .badFree

/-- `if (p) deallocate(al, p, n)` (dense_table.hpp 307-308, 794; utility.hpp 237). -/
def Heap.freeIf (h : Heap) (p : Option Nat) (x : Blk) : M Heap :=
  match p with
  | none => .ok h
  | some a => h.free false (some a) x

/-- `realloc_buffer` (utility.hpp 232-248): returns the pointer; the size becomes `max size n`. -/
def Heap.realloc (h : Heap) (p : Option Nat) (x : Blk) (n : Nat) : M (Heap × Option Nat) :=
  if x.n < n then do
    let h ← h.freeIf p x
    let r := h.alloc { x with n := n }
    .ok (r.1, some r.2)
  else .ok (h, p)

/-- A container: what `Verif.Dense.Model` knows of it, its allocator, `m_dense`, `m_sparse` (dense_table.hpp 915-920).  Both
allocators are made from one `allocator_type` (dense_table.hpp 216-217). -/
structure Box (k : Nat) (K V : Type) where
  t : Table k K V
  al : Nat
  pd : Option Nat
  ps : Option Nat

/-- A container and the memory. -/
structure HB (k : Nat) (K V : Type) where
  h : Heap
  b : Box k K V

namespace Box

/-- What `m_dense` has to be. -/
def dblk (b : Box k K V) : Blk := ⟨b.al, .dense, b.t.cap⟩

/-- What `m_sparse` has to be. -/
def sblk (b : Box k K V) : Blk := ⟨b.al, .sparse, b.t.bc⟩

/-- The block of the container at an address. -/
def blk (b : Box k K V) (i : Nat) : Option Blk :=
  if b.pd = some i then some b.dblk else if b.ps = some i then some b.sblk else none

/-- `dense_table(const allocator_type &)` (dense_table.hpp 216). -/
def init (lf : LF) (al : Nat) : Box k K V := ⟨Table.init lf, al, none, none⟩

end Box

namespace HB

/-- Functions that neither allocate nor deallocate. -/
def lift (s : HB k K V) (x : M (Table k K V)) : M (HB k K V) := do
  let t ← x
  .ok { s with b := { s.b with t := t } }

/-- The same with a further result. -/
def lift2 {α : Type} (s : HB k K V) (x : M (Table k K V × α)) : M (HB k K V × α) := do
  let r ← x
  .ok ({ s with b := { s.b with t := r.1 } }, r.2)

/-- `dense_table(bucket_count, ...)` (dense_table.hpp 217-225). -/
def withBuckets (h : Heap) (lf : LF) (al n : Nat) : HB k K V :=
  if n = 0 then ⟨h, ⟨Table.withBuckets lf 0, al, none, none⟩⟩
  else
    let r := h.alloc ⟨al, .dense, n⟩
    let q := r.1.alloc ⟨al, .sparse, n⟩
    ⟨q.1, ⟨Table.withBuckets lf n, al, some r.2, some q.2⟩⟩

/-- The same constructor if the second allocation throws: no destructor runs (the constructor does not delegate), so this is the
memory that remains. -/
def withBucketsThrow (h : Heap) (al n : Nat) : Heap := (h.alloc ⟨al, .dense, n⟩).1

/-- The copy constructors (dense_table.hpp 230-237, 823-859) if the second allocation throws. -/
def copyCtorThrow (h : Heap) (al : Nat) (o : Table k K V) : M Heap := do
  let r ← h.realloc none ⟨al, .sparse, 0⟩ o.bc
  .ok r.1

/-- `resize_data` (dense_table.hpp 783-801). -/
def resizeData (s : HB k K V) (c : Nat) : M (HB k K V) := do
  let r := s.h.alloc ⟨s.b.al, .dense, c⟩
  let t ← s.b.t.resizeData c
  let h ← r.1.freeIf s.b.pd s.b.dblk
  .ok ⟨h, { s.b with t := t, pd := some r.2 }⟩

/-- `maybe_resize` (dense_table.hpp 802-821). -/
def maybeResize (s : HB k K V) : M (HB k K V) :=
  if s.b.t.cap = s.b.t.size then s.resizeData (if s.b.t.cap = 0 then 1 else s.b.t.cap * 2) else .ok s

/-- `do_rehash` (dense_table.hpp 764-773). -/
def doRehash (s : HB k K V) (newCap : Nat) : M (HB k K V) := do
  let r ← s.h.realloc s.b.ps s.b.sblk newCap
  let t ← s.b.t.doRehash newCap
  .ok ⟨r.1, { s.b with t := t, ps := r.2 }⟩

/-- `rehash` (dense_table.hpp 442-451). -/
def rehash (s : HB k K V) (n : Nat) : M (HB k K V) :=
  if n = 0 ∧ s.b.t.size = 0 then .ok s
  else
    let newCap := max (s.b.t.lf.div s.b.t.size) n
    if n = 0 ∨ newCap ≠ s.b.t.bc then s.doRehash newCap else .ok s

/-- `maybe_rehash` (dense_table.hpp 775-781). -/
def maybeRehash (s : HB k K V) : M (HB k K V) :=
  if s.b.t.bc = 0 then s.rehash 8
  else if s.b.t.lf.full s.b.t.size s.b.t.bc then s.rehash (s.b.t.bc * 2)
  else .ok s

/-- `reserve` (dense_table.hpp 358-362). -/
def reserve (s : HB k K V) (n : Nat) : M (HB k K V) := do
  let s ← (if n > s.b.t.cap then s.resizeData n else .ok s : M (HB k K V))
  s.rehash (s.b.t.lf.div n)

/-- `do_insert`, `do_try_emplace` (dense_table.hpp 646-697). -/
def insert (hash : K → Nat) (s : HB k K V) (key : Fin k → K) (v : V) : M (HB k K V × Nat × Bool) := do
  let s ← s.maybeResize
  let s ← s.maybeRehash
  s.lift2 (do
    let found ← s.b.t.locate hash key
    match found.findSome? (fun x => x.2.1) with
    | some i => .ok (s.b.t, i, false)
    | none =>
      let (t, pos) ← s.b.t.pushNode key v
      let t ← t.commitNode pos (found.map fun x => (x.1, x.2.2)) (fun j => hash (key j))
      .ok (t, pos, true))

/-- `do_emplace` (dense_table.hpp 620-644). -/
def emplace (hash : K → Nat) (s : HB k K V) (key : Fin k → K) (v : V) : M (HB k K V × Nat × Bool) := do
  let s ← s.maybeResize
  let s ← s.maybeRehash
  s.lift2 (do
    let (t, pos) ← s.b.t.pushNode key v
    let found ← t.locate hash key
    match found.findSome? (fun x => x.2.1) with
    | some i =>
      let t ← t.popNode
      .ok (t, i, false)
    | none =>
      let t ← t.commitNode pos (found.map fun x => (x.1, x.2.2)) (fun j => hash (key j))
      .ok (t, pos, true))

/-- `do_insert_or_assign` (dense_table.hpp 699-723). -/
def insertOrAssign (hash : K → Nat) (s : HB 1 K V) (x : K) (v : V) : M (HB 1 K V × Nat × Bool) := do
  let s ← s.maybeResize
  let s ← s.maybeRehash
  s.lift2 (do
    let (i, r) ← s.b.t.findNode hash 0 x
    match i with
    | none =>
      let (t, pos) ← s.b.t.pushNode (fun _ => x) v
      let t ← t.commitNode pos [(0, r)] (fun _ => hash x)
      .ok (t, pos, true)
    | some i =>
      let n ← s.b.t.readNode i
      .ok ({ s.b.t with node := upd s.b.t.node i (some { n with val := v }) }, i, false))

/-- `insert_or_assign` in a history. -/
def assignStep (hash : K → Nat) : {k : Nat} → k = 1 → HB k K V → K → V → M (HB k K V × Nat × Bool)
  | _, rfl, s, x, v => s.insertOrAssign hash x v

/-- `insert(first, last)` (dense_table.hpp 388-394). -/
def insertRange (hash : K → Nat) (s : HB k K V) (ra : Bool) (xs : List (Elem k K V)) : M (HB k K V) := do
  let s ← (if ra then s.reserve (s.b.t.size + xs.length) else .ok s : M (HB k K V))
  xs.foldlM (fun s x => do
    let r ← s.insert hash x.1 x.2
    .ok r.1) s

/-- `dense_table(first, last, bucket_count, ...)` (dense_table.hpp 227-228). -/
def ofRange (hash : K → Nat) (h : Heap) (lf : LF) (al : Nat) (ra : Bool) (n : Nat) (xs : List (Elem k K V)) : M (HB k K V) :=
  (withBuckets h lf al (if ra then max xs.length n else n)).insertRange hash ra xs

/-- `assign(first, last)` (dense_table.hpp 311-316). -/
def assignRange (hash : K → Nat) (s : HB k K V) (ra : Bool) (xs : List (Elem k K V)) : M (HB k K V) := do
  let s ← s.lift s.b.t.clear
  s.insertRange hash ra xs

/-- One operation of a history (see `Table.step`). -/
def step (hash : K → Nat) (s : HB k K V) : Op k K V → M (HB k K V × Out k K V)
  | .insert key v => do
    let r ← s.insert hash key v
    .ok (r.1, .ins r.2.1 r.2.2)
  | .emplace key v => do
    let r ← s.emplace hash key v
    .ok (r.1, .ins r.2.1 r.2.2)
  | .assign hk x v => do
    let r ← assignStep hash hk s x v
    .ok (r.1, .ins r.2.1 r.2.2)
  | .insertRange ra xs => do
    let s ← s.insertRange hash ra xs
    .ok (s, .unit)
  | .assignRange ra xs => do
    let s ← s.assignRange hash ra xs
    .ok (s, .unit)
  | .reserve n => do
    let s ← s.reserve n
    .ok (s, .unit)
  | .rehash n => do
    let s ← s.rehash n
    .ok (s, .unit)
  | o => s.lift2 (s.b.t.step hash o)

/-- `copy_data` (dense_table.hpp 823-859). -/
def copyData (s : HB k K V) (o : Table k K V) : M (HB k K V) :=
  if s.b.t.size ≠ 0 ∨ o.size = 0 then s.lift (s.b.t.copyData o)
  else do
    let r ← s.h.realloc s.b.ps s.b.sblk o.bc
    let q ← r.1.realloc s.b.pd s.b.dblk o.size
    let t ← s.b.t.copyData o
    .ok ⟨q.1, { s.b with t := t, ps := r.2, pd := q.2 }⟩

/-- `move_data` (dense_table.hpp 860-885): the arrays of the source stay with it. -/
def moveData (s : HB k K V) (o : Box k K V) : M (HB k K V × Box k K V) :=
  if s.b.t.size ≠ 0 ∨ o.t.size = 0 then do
    let r ← s.b.t.moveData o.t
    .ok (⟨s.h, { s.b with t := r.1 }⟩, { o with t := r.2 })
  else do
    let r ← s.h.realloc s.b.ps s.b.sblk o.t.bc
    let q ← r.1.realloc s.b.pd s.b.dblk o.t.size
    let u ← s.b.t.moveData o.t
    .ok (⟨q.1, { s.b with t := u.1, ps := r.2, pd := q.2 }⟩, { o with t := u.2 })

/-- `swap_buffers` (dense_table.hpp 889-897). -/
def swapBuffers (a b : Box k K V) : Box k K V × Box k K V :=
  let r := a.t.swapBuffers b.t
  ({ a with t := r.1, pd := b.pd, ps := b.ps }, { b with t := r.2, pd := a.pd, ps := a.ps })

/-- `move_from` (dense_table.hpp 904-910). -/
def moveFrom (s : HB k K V) (o : Box k K V) : M (HB k K V × Box k K V) :=
  if s.b.al = o.al then
    let r := swapBuffers s.b o
    .ok (⟨s.h, r.1⟩, r.2)
  else s.moveData o

/-- Deallocation of both arrays and the new allocator in `operator=` (dense_table.hpp 261-270, 287-296). -/
def propagate (nullOk : Bool) (s : HB k K V) (al : Nat) : M (HB k K V) := do
  let h ← s.h.free nullOk s.b.ps s.b.sblk
  let h ← h.free nullOk s.b.pd s.b.dblk
  .ok ⟨h, ⟨s.b.t.dropBuffers, al, none, none⟩⟩

/-- `operator=(const dense_table &)` (dense_table.hpp 250-275) for distinct objects. -/
def copyAssign (nullOk prop : Bool) (s : HB k K V) (o : Box k K V) : M (HB k K V) := do
  let s ← s.lift ({ s.b.t with lf := o.t.lf } : Table k K V).clearData
  let s ← (if prop then s.propagate nullOk o.al else .ok s : M (HB k K V))
  s.copyData o.t

/-- `operator=(dense_table &&)` (dense_table.hpp 276-302) for distinct objects. -/
def moveAssign (nullOk prop : Bool) (s : HB k K V) (o : Box k K V) : M (HB k K V × Box k K V) := do
  let s ← s.lift ({ s.b.t with lf := o.t.lf } : Table k K V).clearData
  let s ← (if prop then s.propagate nullOk o.al else .ok s : M (HB k K V))
  s.moveFrom o

/-- `swap` (dense_table.hpp 460-477); `prop` is `propagate_on_container_swap`.  The assertions (471-472) come after the exchange
of the allocators. -/
def swap (prop : Bool) (a b : Box k K V) : M (Box k K V × Box k K V) :=
  let al := if prop then (b.al, a.al) else (a.al, b.al)
  if al.1 ≠ al.2 then .error .assertFail
  else
    let r := a.t.swap b.t
    .ok (⟨r.1, al.1, b.pd, b.ps⟩, ⟨r.2, al.2, a.pd, a.ps⟩)

/-- The destructor (dense_table.hpp 304-309). -/
def destroy (s : HB k K V) : M Heap := do
  let _ ← s.b.t.clearData
  let h ← s.h.freeIf s.b.pd s.b.dblk
  h.freeIf s.b.ps s.b.sblk

end HB

/-! ## Functions that leave the arrays alone -/

/-- Success implies `P`; failure is not a wrong deallocation. -/
def Post {α : Type} (P : α → Prop) (x : M α) : Prop :=
  match x with
  | .ok a => P a
  | .error e => e ≠ .badFree

theorem Post.ok {α : Type} {P : α → Prop} {a : α} (h : P a) : Post P (.ok a : M α) := h

theorem Post.bind {α β : Type} {P : α → Prop} {Q : β → Prop} {x : M α} {f : α → M β} (hx : Post P x)
    (hf : ∀ a, P a → Post Q (f a)) : Post Q (x >>= f) := by
  cases x with
  | error e => exact hx
  | ok a => exact hf a hx

theorem Post.mono {α : Type} {P Q : α → Prop} {x : M α} (hx : Post P x) (h : ∀ a, P a → Q a) : Post Q x := by
  cases x with
  | error e => exact hx
  | ok a => exact h a hx

theorem Post.foldlM {α β : Type} {P : α → Prop} {f : α → β → M α} (hf : ∀ a b, P a → Post P (f a b)) :
    ∀ (l : List β) {a : α}, P a → Post P (l.foldlM f a)
  | [], _, ha => ha
  | b :: l, a, ha => by
    rw [List.foldlM_cons]
    exact (hf a b ha).bind fun a' ha' => Post.foldlM hf l ha'

theorem Post.mapM {α β : Type} {f : α → M β} (hf : ∀ a, Post (fun _ => True) (f a)) :
    ∀ (l : List α), Post (fun _ => True) (l.mapM f)
  | [] => trivial
  | a :: l => by
    rw [List.mapM_cons]
    exact (hf a).bind fun _ _ => (Post.mapM hf l).bind fun _ _ => trivial

/-- The same array sizes. -/
def Same (t t' : Table k K V) : Prop := t'.cap = t.cap ∧ t'.bc = t.bc

theorem Same.refl (t : Table k K V) : Same t t := ⟨rfl, rfl⟩

theorem Same.trans {t t' t'' : Table k K V} (h : Same t t') (h' : Same t' t'') : Same t t'' :=
  ⟨h'.1.trans h.1, h'.2.trans h.2⟩

namespace Table

theorem readNode_post (t : Table k K V) (i : Nat) : Post (fun _ => True) (t.readNode i) := by
  unfold readNode
  split
  · split <;> simp [Post]
  · simp [Post]

theorem readRef_post (t : Table k K V) (j : Fin k) (r : Ref) : Post (fun _ => True) (t.readRef j r) := by
  cases r with
  | head b =>
    simp only [readRef]
    split <;> simp [Post]
  | next i =>
    simp only [readRef]
    exact (readNode_post t i).bind fun _ _ => trivial

theorem writeRef_post (t : Table k K V) (j : Fin k) (r : Ref) (v : Option Nat) : Post (Same t) (t.writeRef j r v) := by
  cases r with
  | head b =>
    simp only [writeRef]
    split <;> simp [Post, Same]
  | next i =>
    simp only [writeRef]
    exact (readNode_post t i).bind fun _ _ => ⟨rfl, rfl⟩

theorem deref_post (r : Option Ref) : Post (fun _ => True) (deref r) := by
  cases r <;> simp [deref, Post]

theorem findChainPtr_post (t : Table k K V) (j : Fin k) (pos : Nat) : ∀ (f : Nat) (r : Ref),
    Post (fun _ => True) (t.findChainPtr j pos f r)
  | 0, _ => by simp [findChainPtr, Post]
  | f + 1, r => by
    simp only [findChainPtr]
    refine (readRef_post t j r).bind fun v _ => ?_
    split
    · simp [Post]
    · split
      · simp [Post]
      · exact findChainPtr_post t j pos f _

theorem findLoop_post (t : Table k K V) (j : Fin k) (x : K) (h : Nat) : ∀ (f : Nat) (r : Ref),
    Post (fun _ => True) (t.findLoop j x h f r)
  | 0, _ => by simp [findLoop, Post]
  | f + 1, r => by
    simp only [findLoop]
    refine (readRef_post t j r).bind fun v _ => ?_
    split
    · simp [Post]
    · refine (readNode_post t _).bind fun n _ => ?_
      split
      · simp [Post]
      · exact findLoop_post t j x h f _

theorem findNode_post (hash : K → Nat) (t : Table k K V) (j : Fin k) (x : K) : Post (fun _ => True) (t.findNode hash j x) := by
  unfold findNode
  split
  · simp [Post]
  · exact (findLoop_post t j x _ _ _).bind fun _ _ => trivial

theorem locate_post (hash : K → Nat) (t : Table k K V) (key : Fin k → K) : Post (fun _ => True) (t.locate hash key) :=
  Post.mapM (fun j => by exact (findNode_post hash t j (key j)).bind fun _ _ => trivial) _

theorem pushNode_post (t : Table k K V) (key : Fin k → K) (v : V) : Post (fun r => Same t r.1) (t.pushNode key v) := by
  unfold pushNode
  simp only
  split
  · split
    · simp [Post]
    · exact ⟨rfl, rfl⟩
  · simp [Post]

theorem popNode_post (t : Table k K V) : Post (Same t) t.popNode := by
  unfold popNode
  split
  · simp [Post]
  · split
    · simp [Post]
    · exact ⟨rfl, rfl⟩

theorem insertNode_post (t : Table k K V) (i : Nat) (j : Fin k) : Post (Same t) (t.insertNode i j) := by
  unfold insertNode
  refine (readNode_post t i).bind fun n _ => (deref_post _).bind fun r _ => (readRef_post t j r).bind fun v _ =>
    (writeRef_post t j _ v).bind fun t1 h1 => ?_
  exact (writeRef_post t1 j r _).mono fun _ h => h1.trans h

theorem moveChain_post (t : Table k K V) (src dst : Nat) (j : Fin k) : Post (Same t) (t.moveChain src dst j) := by
  unfold moveChain
  refine (readNode_post t _).bind fun n _ => (deref_post _).bind fun r _ => (findChainPtr_post t j src _ r).bind fun r' _ =>
    (readRef_post t j r').bind fun v _ => ?_
  cases v with
  | none => simp [Post]
  | some _ => exact writeRef_post t j r' _

theorem setHashes_post (t : Table k K V) (pos : Nat) (hs : Fin k → Nat) : Post (Same t) (t.setHashes pos hs) :=
  (readNode_post t pos).bind fun _ _ => ⟨rfl, rfl⟩

theorem commitNode_post (t : Table k K V) (pos : Nat) (slice : List (Fin k × Option Ref)) (hs : Fin k → Nat) :
    Post (Same t) (t.commitNode pos slice hs) := by
  unfold commitNode
  refine (Post.foldlM (P := Same t) (fun t' jr h => ?_) slice (Same.refl t)).bind fun t1 h1 =>
    (setHashes_post t1 pos hs).mono fun _ h => h1.trans h
  exact (deref_post _).bind fun r _ => (writeRef_post t' _ r _).mono fun _ h' => h.trans h'

theorem fillHole_post (t : Table k K V) (pos : Nat) (js : List (Fin k)) : Post (Same t) (t.fillHole pos js) := by
  unfold fillHole
  refine (Post.foldlM (P := Same t) (fun t' j h => ?_) js (Same.refl t)).bind fun t1 h1 =>
    (readNode_post t1 _).bind fun _ _ => (readNode_post t1 _).bind fun _ _ => h1
  exact (moveChain_post t' _ _ _).mono fun _ h' => h.trans h'

theorem eraseNode_post (t : Table k K V) (pos : Nat) (slice : List (Fin k × Ref)) : Post (Same t) (t.eraseNode pos slice) := by
  unfold eraseNode
  refine (Post.foldlM (P := Same t) (fun t' jr h => ?_) slice (Same.refl t)).bind fun t1 h1 => ?_
  · exact (readNode_post t' _).bind fun n _ => (writeRef_post t' _ _ _).mono fun _ h' => h.trans h'
  · split
    · simp [Post]
    · refine Post.bind (P := Same t1) ?_ fun t2 h2 => (popNode_post t2).mono fun _ h3 => (h1.trans h2).trans h3
      split
      · exact fillHole_post t1 _ _
      · exact Same.refl t1

theorem slices_post (t : Table k K V) (n : Node k K V) (pos : Nat) (js : List (Fin k)) :
    Post (fun _ => True) (t.slices n pos js) :=
  Post.mapM (fun _ => by exact (deref_post _).bind fun r _ => (findChainPtr_post t _ pos _ r).bind fun _ _ => trivial) _

theorem eraseAt_post (t : Table k K V) (pos : Nat) : Post (fun r => Same t r.1) (t.eraseAt pos) := by
  unfold eraseAt
  split
  · exact Same.refl t
  · exact (readNode_post t pos).bind fun n _ => (slices_post t n pos _).bind fun sl _ =>
      (eraseNode_post t pos sl).bind fun t1 h1 => h1

theorem erase_post (hash : K → Nat) (t : Table k K V) (j : Fin k) (x : K) : Post (fun r => Same t r.1) (t.erase hash j x) := by
  unfold erase
  refine (deref_post _).bind fun r _ => (findLoop_post t j x _ _ r).bind fun ir _ => ?_
  obtain ⟨i, r'⟩ := ir
  cases i with
  | none => exact Same.refl t
  | some pos =>
    exact (readNode_post t pos).bind fun n _ => (slices_post t n pos _).bind fun sl _ =>
      (eraseNode_post t pos _).bind fun t1 h1 => h1

theorem eraseRange_post (t : Table k K V) (first last : Nat) : Post (fun r => Same t r.1) (t.eraseRange first last) :=
  Post.foldlM (P := fun r : Table k K V × Nat => Same t r.1)
    (fun tr i h => (eraseAt_post tr.1 i).mono fun _ h' => h.trans h') _ (Same.refl t)

theorem clearData_post (t : Table k K V) : Post (Same t) t.clearData := by
  unfold clearData
  refine (Post.foldlM (P := Same t) (fun t' i h => ?_) _ (Same.refl t)).bind fun t1 h1 => h1
  unfold destroyNode
  split
  · exact h
  · simp [Post]

theorem iterate_post (t : Table k K V) : Post (fun _ => True) t.iterate :=
  Post.mapM (fun i => by exact (readNode_post t i).bind fun _ _ => trivial) _

theorem lookup_post (hash : K → Nat) (t : Table k K V) (j : Fin k) (x : K) : Post (fun _ => True) (t.lookup hash j x) := by
  unfold lookup
  refine (findNode_post hash t j x).bind fun ir _ => ?_
  obtain ⟨i, r⟩ := ir
  cases i with
  | none => trivial
  | some i => exact (readNode_post t i).bind fun _ _ => trivial

theorem contains_post (hash : K → Nat) (t : Table k K V) (j : Fin k) (x : K) : Post (fun _ => True) (t.contains hash j x) :=
  (findNode_post hash t j x).bind fun _ _ => trivial

/-- The sizes of the arrays after `resize_data`. -/
theorem resizeData_post (t : Table k K V) (c : Nat) : Post (fun t' => t'.cap = c ∧ t'.bc = t.bc) (t.resizeData c) := by
  unfold resizeData
  split
  · simp [Post]
  · exact (Post.mapM (fun i => readNode_post t i) _).bind fun _ _ => ⟨rfl, rfl⟩

/-- The sizes of the arrays after `do_rehash`. -/
theorem doRehash_post (t : Table k K V) (n : Nat) : Post (fun t' => t'.cap = t.cap ∧ t'.bc = max t.bc n) (t.doRehash n) := by
  unfold doRehash
  simp only
  refine Post.foldlM (P := fun t' : Table k K V => t'.cap = t.cap ∧ t'.bc = max t.bc n) (fun t' i h => ?_) _ ⟨rfl, ?_⟩
  · exact (Post.foldlM (P := Same t') (fun t'' j h' => (insertNode_post t'' i j).mono fun _ h2 => h'.trans h2) _
      (Same.refl t')).mono fun _ h' => ⟨h'.1.trans h.1, h'.2.trans h.2⟩
  · simp only
    split <;> omega

/-- The sizes of the arrays after `copy_data`. -/
theorem copyData_post (t o : Table k K V) :
    Post (fun t' => if o.size = 0 then Same t t' else t'.cap = max t.cap o.size ∧ t'.bc = max t.bc o.bc) (t.copyData o) := by
  unfold copyData
  by_cases hs : t.size ≠ 0
  · rw [if_pos hs]
    simp [Post]
  · rw [if_neg hs]
    by_cases ho : o.size = 0
    · rw [if_pos ho]
      simp only [if_pos ho]
      exact ⟨rfl, rfl⟩
    · rw [if_neg ho]
      simp only [if_neg ho]
      refine Post.foldlM (P := fun t' : Table k K V => t'.cap = max t.cap o.size ∧ t'.bc = max t.bc o.bc) (fun t' i h => ?_) _
        ⟨?_, ?_⟩
      · unfold copyNode
        refine (readNode_post o i).bind fun n _ => ?_
        split
        · split
          · simp [Post]
          · exact Post.foldlM (P := fun t'' : Table k K V => t''.cap = max t.cap o.size ∧ t''.bc = max t.bc o.bc)
              (fun t'' j h' => (insertNode_post t'' i j).mono fun _ h2 => ⟨h2.1.trans h'.1, h2.2.trans h'.2⟩) _ h
        · simp [Post]
      · simp only
        split <;> omega
      · simp only
        split <;> omega

end Table

/-! ## Agreement with `Verif.Dense.Model` -/

/-- Both fail alike, but not with a wrong deallocation, or both succeed with related results. -/
def Sim {α β : Type} (R : α → β → Prop) (x : M α) (y : M β) : Prop :=
  match x, y with
  | .ok a, .ok b => R a b
  | .error e, .error e' => e = e' ∧ e ≠ .badFree
  | _, _ => False

theorem Sim.bind {α β α' β' : Type} {R : α → β → Prop} {S : α' → β' → Prop} {x : M α} {y : M β} {f : α → M α'} {g : β → M β'}
    (h : Sim R x y) (hf : ∀ a b, R a b → Sim S (f a) (g b)) : Sim S (x >>= f) (y >>= g) := by
  cases x <;> cases y
  · exact h
  · exact h.elim
  · exact h.elim
  · exact hf _ _ h

theorem Sim.mono {α β : Type} {R S : α → β → Prop} {x : M α} {y : M β} (h : Sim R x y) (hs : ∀ a b, R a b → S a b) :
    Sim S x y := by
  cases x <;> cases y
  · exact h
  · exact h.elim
  · exact h.elim
  · exact hs _ _ h

theorem Sim.foldlM {α β γ : Type} {R : α → β → Prop} {f : α → γ → M α} {g : β → γ → M β}
    (hf : ∀ a b c, R a b → Sim R (f a c) (g b c)) : ∀ (l : List γ) {a : α} {b : β}, R a b → Sim R (l.foldlM f a) (l.foldlM g b)
  | [], _, _, h => h
  | c :: l, a, b, h => by
    rw [List.foldlM_cons, List.foldlM_cons]
    exact (hf a b c h).bind fun a' b' h' => Sim.foldlM hf l h'

/-! ## Ownership -/

/-- Addresses not yet handed out are not live. -/
def Heap.Fresh (h : Heap) : Prop := ∀ a, h.next ≤ a → h.live a = none

/-- The arrays of a container are live blocks of the right size from its allocator; there is an array iff its size is not 0. -/
structure Own (s : HB k K V) : Prop where
  fresh : s.h.Fresh
  dense : ∀ a, s.b.pd = some a → s.h.live a = some s.b.dblk
  sparse : ∀ a, s.b.ps = some a → s.h.live a = some s.b.sblk
  dnull : s.b.pd = none ↔ s.b.t.cap = 0
  snull : s.b.ps = none ↔ s.b.t.bc = 0

/-- What an operation on one container does to memory: it exchanges blocks of the container for fresh ones. -/
structure Step (s s' : HB k K V) : Prop where
  own : Own s'
  frame : ∀ i, s.b.blk i = none → s'.b.blk i = none → s'.h.live i = s.h.live i
  gone : ∀ i, s.b.blk i ≠ none → s'.b.blk i = none → s'.h.live i = none
  new : ∀ i, s'.b.blk i ≠ none → s.b.blk i ≠ none ∨ s.h.live i = none

theorem Own.blk {s : HB k K V} (h : Own s) {i : Nat} {x : Blk} (hx : s.b.blk i = some x) : s.h.live i = some x := by
  unfold Box.blk at hx
  split at hx
  · rename_i hp
    cases hx
    exact h.dense i hp
  · split at hx
    · rename_i hp
      cases hx
      exact h.sparse i hp
    · cases hx

theorem Own.ne {s : HB k K V} (h : Own s) {a b : Nat} (ha : s.b.pd = some a) (hb : s.b.ps = some b) : a ≠ b := by
  rintro rfl
  have h1 := h.dense a ha
  rw [h.sparse a hb] at h1
  injection h1 with h1
  have := congrArg Blk.arr h1
  cases this

theorem Step.refl {s : HB k K V} (h : Own s) : Step s s :=
  ⟨h, fun _ _ _ => rfl, fun _ h1 h2 => absurd h2 h1, fun _ h1 => .inl h1⟩

theorem Step.trans {a b c : HB k K V} (h : Step a b) (h' : Step b c) : Step a c := by
  refine ⟨h'.own, fun i h1 h3 => ?_, fun i h1 h3 => ?_, fun i h3 => ?_⟩
  · by_cases h2 : b.b.blk i = none
    · rw [h'.frame i h2 h3, h.frame i h1 h2]
    · rw [h'.gone i h2 h3]
      rcases h.new i h2 with e | e
      · exact absurd h1 e
      · exact e.symm
  · by_cases h2 : b.b.blk i = none
    · rw [h'.frame i h2 h3]
      exact h.gone i h1 h2
    · exact h'.gone i h2 h3
  · by_cases h1 : a.b.blk i = none
    · right
      rcases h'.new i h3 with e | e
      · exact (h.new i e).resolve_left (fun hh => hh h1)
      · by_cases h2 : b.b.blk i = none
        · rw [← h.frame i h1 h2]
          exact e
        · exact (h.new i h2).resolve_left (fun hh => hh h1)
    · exact .inl h1

/-- Replacing the elements but not the arrays. -/
theorem Step.same {s : HB k K V} (h : Own s) {t : Table k K V} (ht : Same s.b.t t) :
    Step s { s with b := { s.b with t := t } } := by
  have hd : ({ s.b with t := t } : Box k K V).dblk = s.b.dblk := by simp only [Box.dblk, ht.1]
  have hs : ({ s.b with t := t } : Box k K V).sblk = s.b.sblk := by simp only [Box.sblk, ht.2]
  have hb : ∀ i, ({ s.b with t := t } : Box k K V).blk i = s.b.blk i := by
    intro i
    unfold Box.blk
    rw [hd, hs]
  refine ⟨⟨h.fresh, fun a ha => ?_, fun a ha => ?_, ?_, ?_⟩, fun _ _ _ => rfl, fun i h1 h2 => ?_, fun i h1 => .inl ?_⟩
  · simp only [hd]
    exact h.dense a ha
  · simp only [hs]
    exact h.sparse a ha
  · simp only [ht.1]
    exact h.dnull
  · simp only [ht.2]
    exact h.snull
  · exact absurd ((hb i).symm.trans h2) h1
  · rw [← hb i]
    exact h1

/-- The relation that the operations keep: the model without memory agrees, and memory is accounted for. -/
def Rel (s s' : HB k K V) (t : Table k K V) : Prop := s'.b.t = t ∧ Step s s'

theorem lift_sim {s : HB k K V} (h : Own s) {x : M (Table k K V)} (hx : Post (Same s.b.t) x) :
    Sim (Rel s) (s.lift x) x := by
  cases x with
  | error e => exact ⟨rfl, hx⟩
  | ok t => exact ⟨rfl, Step.same h hx⟩

theorem lift2_sim {α : Type} {s : HB k K V} (h : Own s) {x : M (Table k K V × α)} (hx : Post (fun r => Same s.b.t r.1) x) :
    Sim (fun a b => Rel s a.1 b.1 ∧ a.2 = b.2) (s.lift2 x) x := by
  cases x with
  | error e => exact ⟨rfl, hx⟩
  | ok t => exact ⟨⟨rfl, Step.same h hx⟩, rfl⟩

theorem freeIf_ok {h : Heap} {p : Option Nat} {x : Blk} (hp : ∀ a, p = some a → h.live a = some x) :
    h.freeIf p x = .ok { live := fun a => if p = some a then none else h.live a, next := h.next } := by
  cases p with
  | none => simp [Heap.freeIf]
  | some a =>
    simp only [Heap.freeIf, Heap.free, if_pos (hp a rfl)]
    congr 2
    funext i
    rw [upd_apply]
    by_cases hi : i = a
    · rw [if_pos hi, if_pos (by rw [hi])]
    · rw [if_neg hi, if_neg (fun hh => hi (by cases hh; rfl))]

/-- `m_dense` is exchanged for a fresh array of `c` nodes. -/
theorem Step.setDense {s : HB k K V} (h : Own s) {c : Nat} (hc : c ≠ 0) {t : Table k K V} (h1 : t.cap = c) (h2 : t.bc = s.b.t.bc)
    {m : Heap} (hl : ∀ i, m.live i = if i = s.h.next then some ⟨s.b.al, .dense, c⟩ else
      if s.b.pd = some i then none else s.h.live i) (hn : m.next = s.h.next + 1) :
    Step s ⟨m, { s.b with t := t, pd := some s.h.next }⟩ := by
  have hfr : s.h.live s.h.next = none := h.fresh _ (Nat.le_refl _)
  have hps : ∀ a, s.b.ps = some a → a ≠ s.h.next := by
    rintro a ha rfl
    rw [h.sparse _ ha] at hfr
    cases hfr
  have hpd : ∀ a, s.b.pd = some a → a ≠ s.h.next := by
    rintro a ha rfl
    rw [h.dense _ ha] at hfr
    cases hfr
  refine ⟨⟨fun a ha => ?_, fun a ha => ?_, fun a ha => ?_, ?_, ?_⟩, fun i h3 h4 => ?_, fun i h3 h4 => ?_, fun i h3 => ?_⟩
  · simp only [hn] at ha
    rw [hl, if_neg (by omega)]
    split
    · rfl
    · exact h.fresh a (by omega)
  · cases ha
    simp only [hl, if_pos, Box.dblk, h1]
  · simp only at ha
    have hne := hps a ha
    simp only [hl]
    rw [if_neg hne, if_neg (fun hh => h.ne hh ha rfl), h.sparse a ha]
    simp only [Box.sblk, h2]
  · simp only [h1]
    exact ⟨fun hh => (by cases hh), fun hh => absurd hh hc⟩
  · simp only [h2]
    exact h.snull
  · simp only [Box.blk] at h3 h4
    simp only [hl]
    rw [if_neg, if_neg]
    · intro hh
      rw [if_pos hh] at h3
      cases h3
    · intro hh
      rw [if_pos (by rw [hh])] at h4
      cases h4
  · simp only [Box.blk] at h3 h4
    simp only [hl]
    have hi : i ≠ s.h.next := by
      rintro rfl
      rw [if_pos rfl] at h4
      cases h4
    rw [if_neg (fun hh => hi (by cases hh; rfl))] at h4
    have hs : s.b.ps ≠ some i := by
      intro hh
      rw [if_pos hh] at h4
      cases h4
    rw [if_neg hs] at h3
    have hd : s.b.pd = some i := by
      by_contra hh
      rw [if_neg hh] at h3
      exact h3 rfl
    rw [if_neg hi, if_pos hd]
  · simp only [Box.blk] at h3 ⊢
    by_cases hi : i = s.h.next
    · right
      rw [hi]
      exact hfr
    · left
      rw [if_neg (fun hh => hi (by cases hh; rfl))] at h3
      by_cases hs : s.b.ps = some i
      · rw [if_pos hs]
        split <;> exact fun hh => (by cases hh)
      · rw [if_neg hs] at h3
        exact absurd rfl h3

/-- `m_sparse` is exchanged for a fresh array of `c` buckets. -/
theorem Step.setSparse {s : HB k K V} (h : Own s) {c : Nat} (hc : c ≠ 0) {t : Table k K V} (h1 : t.bc = c)
    (h2 : t.cap = s.b.t.cap) {m : Heap} (hl : ∀ i, m.live i = if i = s.h.next then some ⟨s.b.al, .sparse, c⟩ else
      if s.b.ps = some i then none else s.h.live i) (hn : m.next = s.h.next + 1) :
    Step s ⟨m, { s.b with t := t, ps := some s.h.next }⟩ := by
  have hfr : s.h.live s.h.next = none := h.fresh _ (Nat.le_refl _)
  have hpd : ∀ a, s.b.pd = some a → a ≠ s.h.next := by
    rintro a ha rfl
    rw [h.dense _ ha] at hfr
    cases hfr
  refine ⟨⟨fun a ha => ?_, fun a ha => ?_, fun a ha => ?_, ?_, ?_⟩, fun i h3 h4 => ?_, fun i h3 h4 => ?_, fun i h3 => ?_⟩
  · simp only [hn] at ha
    rw [hl, if_neg (by omega)]
    split
    · rfl
    · exact h.fresh a (by omega)
  · simp only at ha
    have hne := hpd a ha
    simp only [hl]
    rw [if_neg hne, if_neg (fun hh => h.ne ha hh rfl), h.dense a ha]
    simp only [Box.dblk, h2]
  · cases ha
    simp only [hl, if_pos, Box.sblk, h1]
  · simp only [h2]
    exact h.dnull
  · simp only [h1]
    exact ⟨fun hh => (by cases hh), fun hh => absurd hh hc⟩
  · simp only [Box.blk] at h3 h4
    simp only [hl]
    have hd : s.b.pd ≠ some i := by
      intro hh
      rw [if_pos hh] at h3
      cases h3
    rw [if_neg hd] at h3 h4
    rw [if_neg, if_neg]
    · intro hh
      rw [if_pos hh] at h3
      cases h3
    · intro hh
      rw [if_pos (by rw [hh])] at h4
      cases h4
  · simp only [Box.blk] at h3 h4
    simp only [hl]
    have hd : s.b.pd ≠ some i := by
      intro hh
      rw [if_pos hh] at h4
      cases h4
    rw [if_neg hd] at h3 h4
    have hi : i ≠ s.h.next := by
      rintro rfl
      rw [if_pos rfl] at h4
      cases h4
    have hs : s.b.ps = some i := by
      by_contra hh
      rw [if_neg hh] at h3
      exact h3 rfl
    rw [if_neg hi, if_pos hs]
  · simp only [Box.blk] at h3 ⊢
    by_cases hi : i = s.h.next
    · right
      rw [hi]
      exact hfr
    · left
      by_cases hd : s.b.pd = some i
      · rw [if_pos hd]
        exact fun hh => (by cases hh)
      · rw [if_neg hd, if_neg (fun hh => hi (by cases hh; rfl))] at h3
        exact absurd rfl h3

theorem resizeData_sim {s : HB k K V} (h : Own s) {c : Nat} (hc : c ≠ 0) : Sim (Rel s) (s.resizeData c) (s.b.t.resizeData c) := by
  have hp := s.b.t.resizeData_post c
  unfold HB.resizeData
  cases e : s.b.t.resizeData c with
  | error e' =>
    rw [e] at hp
    exact ⟨rfl, hp⟩
  | ok t =>
    rw [e] at hp
    have hf : (s.h.alloc ⟨s.b.al, .dense, c⟩).1.freeIf s.b.pd s.b.dblk = _ := freeIf_ok (fun a ha => by
      simp only [Heap.alloc]
      rw [upd_apply, if_neg, h.dense a ha]
      rintro rfl
      have := h.dense _ ha
      rw [h.fresh _ (Nat.le_refl _)] at this
      cases this)
    simp only [bind_ok, hf]
    refine ⟨rfl, Step.setDense h hc hp.1 hp.2 (fun i => ?_) rfl⟩
    simp only [Heap.alloc, upd_apply]
    by_cases hi : i = s.h.next
    · rw [if_pos hi, if_pos hi, if_neg]
      intro hh
      have := h.dense _ hh
      rw [hi, h.fresh _ (Nat.le_refl _)] at this
      cases this
    · rw [if_neg hi, if_neg hi]

/-- `realloc_buffer` of the buckets. -/
theorem reallocSparse_ok {s : HB k K V} (h : Own s) (n : Nat) : ∃ m p, s.h.realloc s.b.ps s.b.sblk n = .ok (m, p) ∧
    ∀ t : Table k K V, t.cap = s.b.t.cap → t.bc = max s.b.t.bc n → Step s ⟨m, { s.b with t := t, ps := p }⟩ := by
  unfold Heap.realloc
  by_cases hn : s.b.sblk.n < n
  · have hn' : s.b.t.bc < n := hn
    rw [if_pos hn, freeIf_ok h.sparse]
    refine ⟨_, _, rfl, fun t h1 h2 => Step.setSparse h (c := n) (by omega) (by omega) h1 (fun i => ?_) rfl⟩
    simp only [Heap.alloc, upd_apply, Box.sblk]
  · have hn' : ¬ s.b.t.bc < n := hn
    rw [if_neg hn]
    exact ⟨_, _, rfl, fun t h1 h2 => Step.same h ⟨h1, by omega⟩⟩

/-- `realloc_buffer` of the nodes. -/
theorem reallocDense_ok {s : HB k K V} (h : Own s) (n : Nat) : ∃ m p, s.h.realloc s.b.pd s.b.dblk n = .ok (m, p) ∧
    ∀ t : Table k K V, t.cap = max s.b.t.cap n → t.bc = s.b.t.bc → Step s ⟨m, { s.b with t := t, pd := p }⟩ := by
  unfold Heap.realloc
  by_cases hn : s.b.dblk.n < n
  · have hn' : s.b.t.cap < n := hn
    rw [if_pos hn, freeIf_ok h.dense]
    refine ⟨_, _, rfl, fun t h1 h2 => Step.setDense h (c := n) (by omega) (by omega) h2 (fun i => ?_) rfl⟩
    simp only [Heap.alloc, upd_apply, Box.dblk]
  · have hn' : ¬ s.b.t.cap < n := hn
    rw [if_neg hn]
    exact ⟨_, _, rfl, fun t h1 h2 => Step.same h ⟨by omega, h2⟩⟩

theorem doRehash_sim {s : HB k K V} (h : Own s) (n : Nat) : Sim (Rel s) (s.doRehash n) (s.b.t.doRehash n) := by
  obtain ⟨m, p, e, hs⟩ := reallocSparse_ok h n
  have hp := s.b.t.doRehash_post n
  unfold HB.doRehash
  rw [e, bind_ok]
  cases e' : s.b.t.doRehash n with
  | error _ =>
    rw [e'] at hp
    exact ⟨rfl, hp⟩
  | ok t =>
    rw [e'] at hp
    exact ⟨rfl, hs t hp.1 hp.2⟩

theorem ok_sim {s : HB k K V} (h : Own s) : Sim (Rel s) (.ok s) (.ok s.b.t) := ⟨rfl, Step.refl h⟩

theorem maybeResize_sim {s : HB k K V} (h : Own s) : Sim (Rel s) s.maybeResize s.b.t.maybeResize := by
  unfold HB.maybeResize Table.maybeResize
  split
  · refine resizeData_sim h ?_
    split <;> omega
  · exact ok_sim h

theorem rehash_sim {s : HB k K V} (h : Own s) (n : Nat) : Sim (Rel s) (s.rehash n) (s.b.t.rehash n) := by
  unfold HB.rehash Table.rehash
  simp only
  split
  · exact ok_sim h
  · split
    · exact doRehash_sim h _
    · exact ok_sim h

theorem maybeRehash_sim {s : HB k K V} (h : Own s) : Sim (Rel s) s.maybeRehash s.b.t.maybeRehash := by
  unfold HB.maybeRehash Table.maybeRehash
  split
  · exact rehash_sim h _
  · split
    · exact rehash_sim h _
    · exact ok_sim h

/-- Sequential composition. -/
theorem Sim.next {s : HB k K V} {α β : Type} {R : α → β → Prop} {x : M (HB k K V)} {y : M (Table k K V)} {f : HB k K V → M α}
    {g : Table k K V → M β} (h : Sim (Rel s) x y) (hf : ∀ s', Step s s' → Sim R (f s') (g s'.b.t)) :
    Sim R (x >>= f) (y >>= g) :=
  h.bind fun s' t' hr => by
    obtain ⟨rfl, hs⟩ := hr
    exact hf s' hs

theorem Rel.trans {s s' s'' : HB k K V} {t : Table k K V} (h : Step s s') (h' : Rel s' s'' t) : Rel s s'' t :=
  ⟨h'.1, h.trans h'.2⟩

theorem reserve_sim {s : HB k K V} (h : Own s) (n : Nat) : Sim (Rel s) (s.reserve n) (s.b.t.reserve n) := by
  unfold HB.reserve Table.reserve
  refine Sim.next (s := s) ?_ fun s' hs => (rehash_sim hs.own _).mono fun _ _ hr => Rel.trans hs hr
  split
  · exact resizeData_sim h (by omega)
  · exact ok_sim h

/-- The same with a further result. -/
def Rel2 {α : Type} (s : HB k K V) (a : HB k K V × α) (b : Table k K V × α) : Prop := Rel s a.1 b.1 ∧ a.2 = b.2

theorem insert_sim (hash : K → Nat) {s : HB k K V} (h : Own s) (key : Fin k → K) (v : V) :
    Sim (Rel2 s) (s.insert hash key v) (s.b.t.insert hash key v) := by
  unfold HB.insert Table.insert
  refine Sim.next (maybeResize_sim h) fun s1 h1 => Sim.next (maybeRehash_sim h1.own) fun s2 h2 => ?_
  refine Sim.mono (lift2_sim h2.own ?_) fun a b hr => ⟨Rel.trans (h1.trans h2) hr.1, hr.2⟩
  refine (Table.locate_post hash s2.b.t key).bind fun found _ => ?_
  split
  · exact Same.refl _
  · exact (Table.pushNode_post s2.b.t key v).bind fun r hr =>
      (Table.commitNode_post r.1 r.2 _ _).bind fun t ht => hr.trans ht

theorem emplace_sim (hash : K → Nat) {s : HB k K V} (h : Own s) (key : Fin k → K) (v : V) :
    Sim (Rel2 s) (s.emplace hash key v) (s.b.t.emplace hash key v) := by
  unfold HB.emplace Table.emplace
  refine Sim.next (maybeResize_sim h) fun s1 h1 => Sim.next (maybeRehash_sim h1.own) fun s2 h2 => ?_
  refine Sim.mono (lift2_sim h2.own ?_) fun a b hr => ⟨Rel.trans (h1.trans h2) hr.1, hr.2⟩
  refine (Table.pushNode_post s2.b.t key v).bind fun r hr => (Table.locate_post hash r.1 key).bind fun found _ => ?_
  split
  · exact (Table.popNode_post r.1).bind fun t ht => hr.trans ht
  · exact (Table.commitNode_post r.1 r.2 _ _).bind fun t ht => hr.trans ht

theorem insertOrAssign_sim (hash : K → Nat) {s : HB 1 K V} (h : Own s) (x : K) (v : V) :
    Sim (Rel2 s) (s.insertOrAssign hash x v) (s.b.t.insertOrAssign hash x v) := by
  unfold HB.insertOrAssign Table.insertOrAssign
  refine Sim.next (maybeResize_sim h) fun s1 h1 => Sim.next (maybeRehash_sim h1.own) fun s2 h2 => ?_
  refine Sim.mono (lift2_sim h2.own ?_) fun a b hr => ⟨Rel.trans (h1.trans h2) hr.1, hr.2⟩
  refine (Table.findNode_post hash s2.b.t 0 x).bind fun ir _ => ?_
  obtain ⟨i, r⟩ := ir
  cases i with
  | none =>
    exact (Table.pushNode_post s2.b.t _ v).bind fun r hr =>
      (Table.commitNode_post r.1 r.2 _ _).bind fun t ht => hr.trans ht
  | some i => exact (Table.readNode_post s2.b.t i).bind fun n _ => ⟨rfl, rfl⟩

theorem assignStep_sim (hash : K → Nat) : ∀ {k : Nat} (hk : k = 1) {s : HB k K V} (_ : Own s) (x : K) (v : V),
    Sim (Rel2 s) (HB.assignStep hash hk s x v) (Table.assignStep hash hk s.b.t x v)
  | _, rfl, _, h, x, v => insertOrAssign_sim hash h x v

theorem insertRange_sim (hash : K → Nat) {s : HB k K V} (h : Own s) (ra : Bool) (xs : List (Elem k K V)) :
    Sim (Rel s) (s.insertRange hash ra xs) (s.b.t.insertRange hash ra xs) := by
  unfold HB.insertRange Table.insertRange
  refine Sim.next (s := s) ?_ fun s1 h1 => ?_
  · split
    · exact reserve_sim h _
    · exact ok_sim h
  · refine Sim.foldlM (R := Rel s) (fun a b c hr => ?_) xs ⟨rfl, h1⟩
    obtain ⟨rfl, hs⟩ := hr
    exact (insert_sim hash hs.own c.1 c.2).bind fun a' b' hr' => Rel.trans hs hr'.1

theorem assignRange_sim (hash : K → Nat) {s : HB k K V} (h : Own s) (ra : Bool) (xs : List (Elem k K V)) :
    Sim (Rel s) (s.assignRange hash ra xs) (s.b.t.assignRange hash ra xs) := by
  unfold HB.assignRange Table.assignRange
  refine Sim.next (lift_sim h ?_) fun s1 h1 => (insertRange_sim hash h1.own ra xs).mono fun _ _ hr => Rel.trans h1 hr
  exact (Table.clearData_post _).mono fun _ hr => hr

/-- Every operation: the same result as in `Verif.Dense.Model`, and memory is accounted for. -/
theorem step_sim (hash : K → Nat) {s : HB k K V} (h : Own s) (o : Op k K V) :
    Sim (Rel2 s) (s.step hash o) (s.b.t.step hash o) := by
  cases o with
  | insert key v =>
    simp only [HB.step, Table.step]
    exact (insert_sim hash h key v).bind fun a b hr => ⟨hr.1, by rw [hr.2]⟩
  | emplace key v =>
    simp only [HB.step, Table.step]
    exact (emplace_sim hash h key v).bind fun a b hr => ⟨hr.1, by rw [hr.2]⟩
  | assign hk x v =>
    simp only [HB.step, Table.step]
    exact (assignStep_sim hash hk h x v).bind fun a b hr => ⟨hr.1, by rw [hr.2]⟩
  | insertRange ra xs =>
    simp only [HB.step, Table.step]
    exact (insertRange_sim hash h ra xs).bind fun a b hr => ⟨hr, rfl⟩
  | assignRange ra xs =>
    simp only [HB.step, Table.step]
    exact (assignRange_sim hash h ra xs).bind fun a b hr => ⟨hr, rfl⟩
  | reserve n =>
    simp only [HB.step, Table.step]
    exact (reserve_sim h n).bind fun a b hr => ⟨hr, rfl⟩
  | rehash n =>
    simp only [HB.step, Table.step]
    exact (rehash_sim h n).bind fun a b hr => ⟨hr, rfl⟩
  | erase j x =>
    refine lift2_sim h ?_
    simp only [Table.step]
    exact (Table.erase_post hash _ j x).bind fun _ hr => hr
  | eraseAt pos =>
    refine lift2_sim h ?_
    simp only [Table.step]
    split
    · exact (Table.eraseAt_post _ pos).bind fun _ hr => hr
    · exact Same.refl _
  | eraseRange first n =>
    refine lift2_sim h ?_
    simp only [Table.step]
    split
    · exact (Table.eraseRange_post _ first _).bind fun _ hr => hr
    · exact Same.refl _
  | clear =>
    refine lift2_sim h ?_
    simp only [Table.step]
    exact Post.bind (P := Same s.b.t) ((Table.clearData_post _).mono fun _ hr => hr) fun _ hr => hr
  | setLoad lf => exact lift2_sim h (x := .ok (s.b.t.setLoad lf, Out.unit)) ⟨rfl, rfl⟩
  | find j x =>
    refine lift2_sim h ?_
    simp only [Table.step]
    exact (Table.lookup_post hash _ j x).bind fun _ _ => Same.refl _
  | contains j x =>
    refine lift2_sim h ?_
    simp only [Table.step]
    exact (Table.contains_post hash _ j x).bind fun _ _ => Same.refl _
  | size => exact lift2_sim h (x := .ok (s.b.t, Out.nat s.b.t.size)) (Same.refl _)
  | iterate =>
    refine lift2_sim h ?_
    simp only [Table.step]
    exact (Table.iterate_post _).bind fun _ _ => Same.refl _

end Tpp.Dense
