import Verif.Dense.Hist
import Verif.Dense.EraseWork
import Verif.Props.Buckets

/-!
# The dense table with 64-bit words

`Verif.Dense.Model` computes with unbounded numbers, reports a fault where the element counter would drop below 0, and has `none` for the
end of a chain.  Here the functions of the table are written once more as the compiled code computes them: sizes, hashes and chain indices
are 64-bit words, the end of a chain is the word `npos`, sums, differences and products are taken modulo 2^64 and not checked.  Pointers
(`m_dense + i`, `size_type *`) remain positions in their arrays, and accesses to the arrays remain checked.
-/

set_option linter.unusedSectionVars false

namespace Tpp.Dense

/-- `npos` (dense_table.hpp 20, 91): `std::numeric_limits<size_type>::max()`. -/
def npos : UInt64 := 0xffffffffffffffff

/-- `bucket_node` (dense_table.hpp 28-61, table_common.hpp 210-306). -/
structure WNode (k : Nat) (K V : Type) where
  key : Fin k → K
  val : V
  hash : Fin k → UInt64
  next : Fin k → UInt64

/-- The data members (dense_table.hpp 904-912). -/
structure WTable (k : Nat) (K V : Type) where
  size : UInt64
  cap : UInt64
  bc : UInt64
  node : Nat → Option (WNode k K V)
  head : Nat → Fin k → UInt64
  lf : LF

/-- `std::max` (used in dense_table.hpp 449). -/
def maxW (a b : UInt64) : UInt64 := if a < b then b else a

/-- `static_cast<size_type>` of a `float` (dense_table.hpp 361, 449): undefined for values that are no `size_type`. -/
def convert (x : Nat) : M UInt64 := if x < 2 ^ 64 then .ok (UInt64.ofNat x) else .error .underflow

/-- `for (size_type i = …; i < n; ++i)` (dense_table.hpp 771, 901). -/
def loopW {σ : Type} (n : UInt64) (f : σ → UInt64 → M σ) : Nat → UInt64 → σ → M σ
  | 0, _, _ => .error .diverge
  | fuel + 1, i, s => if i < n then do
      let s ← f s i
      loopW n f fuel (i + 1) s
    else .ok s

namespace WTable

variable {k : Nat} {K V : Type} [DecidableEq K]

/-- `dense_table()` (dense_table.hpp 214). -/
def init (lf : LF) : WTable k K V := { size := 0, cap := 0, bc := 0, node := fun _ => none, head := fun _ _ => npos, lf := lf }

/-- `m_dense[i]`, read. -/
def readNode (t : WTable k K V) (i : Nat) : M (WNode k K V) :=
  if i < t.cap.toNat then
    match t.node i with
    | some n => .ok n
    | none => .error .deadRead
  else .error .oobNode

/-- `*ref`, read. -/
def readRef (t : WTable k K V) (j : Fin k) : Ref → M UInt64
  | .head b => if b < t.bc.toNat then .ok (t.head b j) else .error .oobMeta
  | .next i => do
    let n ← t.readNode i
    .ok (n.next j)

/-- `*ref = v`. -/
def writeRef (t : WTable k K V) (j : Fin k) (r : Ref) (v : UInt64) : M (WTable k K V) :=
  match r with
  | .head b =>
    if b < t.bc.toNat then .ok { t with head := upd t.head b (fun j' => if j' = j then v else t.head b j') }
    else .error .oobMeta
  | .next i => do
    let n ← t.readNode i
    .ok { t with node := upd t.node i (some { n with next := fun j' => if j' = j then v else n.next j' }) }

/-- `get_chain` (dense_table.hpp 522-527). -/
def getChain (t : WTable k K V) (h : UInt64) : Option Ref := if t.bc = 0 then none else some (.head (h % t.bc).toNat)

/-- `find_chain_ptr` (dense_table.hpp 528-533). -/
def findChainPtr (t : WTable k K V) (j : Fin k) (pos : UInt64) : Nat → Ref → M Ref
  | 0, _ => .error .diverge
  | fuel + 1, r => do
    let i ← t.readRef j r
    if i ≠ npos ∧ i ≠ pos then t.findChainPtr j pos fuel (.next i.toNat) else .ok r

/-- The loop of `find_node` (dense_table.hpp 538-546): the position of the node returned (`end_node()` if there is none) and the chain
pointer. -/
def findLoop (t : WTable k K V) (j : Fin k) (x : K) (h : UInt64) : Nat → Ref → M (Nat × Ref)
  | 0, _ => .error .diverge
  | fuel + 1, r => do
    let i ← t.readRef j r
    if i ≠ npos then do
      let n ← t.readNode i.toNat
      if n.hash j = h ∧ x = n.key j then .ok (i.toNat, r) else t.findLoop j x h fuel (.next i.toNat)
    else .ok (t.size.toNat, r)

/-- `find_node` (dense_table.hpp 534-547). -/
def findNode (hash : K → UInt64) (t : WTable k K V) (j : Fin k) (x : K) : M (Nat × Option Ref) :=
  match t.getChain (hash x) with
  | none => .ok (t.size.toNat, none)
  | some r => do
    let (n, r) ← t.findLoop j x (hash x) (t.cap.toNat + 1) r
    .ok (n, some r)

/-- `push_node` (dense_table.hpp 549-556, 30-35). -/
def pushNode (t : WTable k K V) (key : Fin k → K) (v : V) : M (WTable k K V × UInt64) :=
  if t.size.toNat < t.cap.toNat then
    match t.node t.size.toNat with
    | some _ => .error .liveOverwrite
    | none =>
      .ok ({ t with size := t.size + 1, node := upd t.node t.size.toNat (some ⟨key, v, fun _ => 0, fun _ => npos⟩) }, t.size)
  else .error .oobNode

/-- `pop_node` (dense_table.hpp 557-561). -/
def popNode (t : WTable k K V) : M (WTable k K V) :=
  match t.node (t.size - 1).toNat with
  | none => .error .deadDestroy
  | some _ => .ok { t with size := t.size - 1, node := upd t.node (t.size - 1).toNat none }

/-- `insert_node` (dense_table.hpp 563-569). -/
def insertNode (t : WTable k K V) (i : UInt64) (j : Fin k) : M (WTable k K V) := do
  let n ← t.readNode i.toNat
  let r ← Table.deref (t.getChain (n.hash j))
  let v ← t.readRef j r
  let t ← t.writeRef j (.next i.toNat) v
  t.writeRef j r i

/-- `move_chain` (dense_table.hpp 570-576). -/
def moveChain (t : WTable k K V) (src dst : UInt64) (j : Fin k) : M (WTable k K V) := do
  let n ← t.readNode src.toNat
  let r ← Table.deref (t.getChain (n.hash j))
  let r ← t.findChainPtr j src (t.cap.toNat + 1) r
  let v ← t.readRef j r
  if v = npos then .error .assertFail else t.writeRef j r dst

/-- `node->template hash<j>() = h` (dense_table.hpp 585). -/
def setHashes (t : WTable k K V) (pos : UInt64) (hs : Fin k → UInt64) : M (WTable k K V) := do
  let n ← t.readNode pos.toNat
  .ok { t with node := upd t.node pos.toNat (some { n with hash := hs }) }

/-- `commit_node` (dense_table.hpp 578-587) without the order link. -/
def commitNode (t : WTable k K V) (pos : UInt64) (slice : List (Fin k × Option Ref)) (hs : Fin k → UInt64) :
    M (WTable k K V) := do
  let t ← slice.foldlM (fun t jr => do
    let r ← Table.deref jr.2
    t.writeRef jr.1 r pos) t
  t.setHashes pos hs

/-- Moving the last node into the hole at `pos` (dense_table.hpp 611-615, 47-51). -/
def fillHole (t : WTable k K V) (pos : UInt64) (js : List (Fin k)) : M (WTable k K V) := do
  let t ← js.foldlM (fun t j => t.moveChain (t.size - 1) pos j) t
  let last ← t.readNode (t.size - 1).toNat
  let _ ← t.readNode pos.toNat
  .ok { t with node := upd t.node pos.toNat (some last) }

/-- `erase_node` (dense_table.hpp 594-618) without the order links. -/
def eraseNode (t : WTable k K V) (pos : UInt64) (slice : List (Fin k × Ref)) : M (WTable k K V) := do
  let t ← slice.foldlM (fun t jr => do
    let n ← t.readNode pos.toNat
    t.writeRef jr.1 jr.2 (n.next jr.1)) t
  let t ← (if pos ≠ t.size - 1 then t.fillHole pos (slice.map (·.1)) else .ok t : M (WTable k K V))
  t.popNode

/-- `do_rehash` (dense_table.hpp 764-773, utility.hpp 232-248). -/
def doRehash (t : WTable k K V) (newCap : UInt64) : M (WTable k K V) :=
  let t : WTable k K V := { t with bc := if t.bc < newCap then newCap else t.bc, head := fun _ _ => npos }
  loopW t.size (fun t i => (List.finRange k).foldlM (fun t j => t.insertNode i j) t) (t.size.toNat + 1) 0 t

/-- `rehash` (dense_table.hpp 442-451). -/
def rehash (t : WTable k K V) (n : UInt64) : M (WTable k K V) :=
  if n = 0 ∧ t.size = 0 then .ok t
  else do
    let c ← convert (t.lf.div t.size.toNat)
    if n = 0 ∨ maxW c n ≠ t.bc then t.doRehash (maxW c n) else .ok t

/-- `maybe_rehash` (dense_table.hpp 775-781). -/
def maybeRehash (t : WTable k K V) : M (WTable k K V) :=
  if t.bc = 0 then t.rehash 8
  else if t.lf.full t.size.toNat t.bc.toNat then t.rehash (t.bc * 2)
  else .ok t

/-- `resize_data` (dense_table.hpp 783-801). -/
def resizeData (t : WTable k K V) (c : UInt64) : M (WTable k K V) :=
  if c.toNat < t.size.toNat then .error .oobNode
  else do
    let _ ← (List.range t.size.toNat).mapM (fun i => t.readNode i)
    .ok { t with cap := c, node := fun i => if i < t.size.toNat then t.node i else none }

/-- `maybe_resize` (dense_table.hpp 802-821). -/
def maybeResize (t : WTable k K V) : M (WTable k K V) :=
  if t.cap = t.size then t.resizeData (if t.cap = 0 then 1 else t.cap * 2) else .ok t

/-- `find_node` for all components (dense_table.hpp 628, 655, 683). -/
def locate (hash : K → UInt64) (t : WTable k K V) (key : Fin k → K) : M (List (Fin k × Nat × Option Ref)) :=
  (List.finRange k).mapM fun j => do
    let (n, r) ← t.findNode hash j (key j)
    .ok (j, n, r)

/-- `for (auto [node, chain]: node_list) if (chain && *chain != npos)` (dense_table.hpp 629-630, 684-685). -/
def conflict (t : WTable k K V) : List (Fin k × Nat × Option Ref) → M (Option Nat)
  | [] => .ok none
  | (j, n, some r) :: l => do
    let v ← t.readRef j r
    if v ≠ npos then .ok (some n) else t.conflict l
  | (_, _, none) :: l => t.conflict l

/-- `do_insert` (dense_table.hpp 674-697); also `do_try_emplace` (646-671). -/
def insert (hash : K → UInt64) (t : WTable k K V) (key : Fin k → K) (v : V) : M (WTable k K V × Nat × Bool) := do
  let t ← t.maybeResize
  let t ← t.maybeRehash
  let found ← t.locate hash key
  match ← t.conflict found with
  | some i => .ok (t, i, false)
  | none =>
    let (t, pos) ← t.pushNode key v
    let t ← t.commitNode pos (found.map fun x => (x.1, x.2.2)) (fun j => hash (key j))
    .ok (t, pos.toNat, true)

/-- `do_emplace` (dense_table.hpp 620-644). -/
def emplace (hash : K → UInt64) (t : WTable k K V) (key : Fin k → K) (v : V) : M (WTable k K V × Nat × Bool) := do
  let t ← t.maybeResize
  let t ← t.maybeRehash
  let (t, pos) ← t.pushNode key v
  let found ← t.locate hash key
  match ← t.conflict found with
  | some i =>
    let t ← t.popNode
    .ok (t, i, false)
  | none =>
    let t ← t.commitNode pos (found.map fun x => (x.1, x.2.2)) (fun j => hash (key j))
    .ok (t, pos.toNat, true)

/-- `do_insert_or_assign` (dense_table.hpp 699-723). -/
def insertOrAssign (hash : K → UInt64) (t : WTable 1 K V) (x : K) (v : V) : M (WTable 1 K V × Nat × Bool) := do
  let t ← t.maybeResize
  let t ← t.maybeRehash
  let (i, r) ← t.findNode hash 0 x
  let c ← (match r with
    | none => .ok npos
    | some r => t.readRef 0 r : M UInt64)
  if r.isSome ∧ c = npos then do
    let (t, pos) ← t.pushNode (fun _ => x) v
    let t ← t.commitNode pos [(0, r)] (fun _ => hash x)
    .ok (t, pos.toNat, true)
  else do
    let n ← t.readNode i
    .ok ({ t with node := upd t.node i (some { n with val := v }) }, i, false)

/-- The chain pointers to `pos` for a list of components (dense_table.hpp 731, 751-752). -/
def slices (t : WTable k K V) (n : WNode k K V) (pos : UInt64) (js : List (Fin k)) : M (List (Fin k × Ref)) :=
  js.mapM fun j => do
    let r ← Table.deref (t.getChain (n.hash j))
    let r ← t.findChainPtr j pos (t.cap.toNat + 1) r
    .ok (j, r)

/-- `erase(const_iterator)` and `do_erase(pos, node)` (dense_table.hpp 430-434, 725-734). -/
def eraseAt (t : WTable k K V) (pos : UInt64) : M (WTable k K V × Nat) :=
  if pos = t.size then .ok (t, pos.toNat)
  else do
    let n ← t.readNode pos.toNat
    let slice ← t.slices n pos (List.finRange k)
    let t ← t.eraseNode pos slice
    .ok (t, pos.toNat)

/-- `do_erase(key)` (dense_table.hpp 740-762): its loop is that of `find_node` except for the node returned. -/
def erase (hash : K → UInt64) (t : WTable k K V) (j : Fin k) (x : K) : M (WTable k K V × Nat) := do
  let r ← Table.deref (t.getChain (hash x))
  let (_, r) ← t.findLoop j x (hash x) (t.cap.toNat + 1) r
  let pos ← t.readRef j r
  if pos = npos then .ok (t, t.size.toNat)
  else do
    let n ← t.readNode pos.toNat
    let rest ← t.slices n pos ((List.finRange k).filter (· ≠ j))
    let t ← t.eraseNode pos ((j, r) :: rest)
    .ok (t, pos.toNat)

/-- `erase(first, last)` (dense_table.hpp 435-440). -/
def eraseRange (t : WTable k K V) (first last : Nat) : M (WTable k K V × Nat) :=
  ((List.range' first (last - first)).reverse).foldlM (fun tr i => tr.1.eraseAt (UInt64.ofNat i)) (t, t.size.toNat)

/-- `m_dense[i].destroy(alloc)` (dense_table.hpp 901). -/
def destroyNode (t : WTable k K V) (i : UInt64) : M (WTable k K V) :=
  match t.node i.toNat with
  | some _ => .ok { t with node := upd t.node i.toNat none }
  | none => .error .deadDestroy

/-- `clear_data` (dense_table.hpp 898-902). -/
def clearData (t : WTable k K V) : M (WTable k K V) :=
  loopW t.size (fun t i => t.destroyNode i) (t.size.toNat + 1) 0 { t with size := 0 }

/-- `clear` (dense_table.hpp 349-357). -/
def clear (t : WTable k K V) : M (WTable k K V) := ({ t with head := fun _ _ => npos } : WTable k K V).clearData

/-- `reserve` (dense_table.hpp 358-362). -/
def reserve (t : WTable k K V) (n : UInt64) : M (WTable k K V) := do
  let t ← (if t.cap < n then t.resizeData n else .ok t : M (WTable k K V))
  let c ← convert (t.lf.div n.toNat)
  t.rehash c

/-- `insert(first, last)` (dense_table.hpp 388-394). -/
def insertRange (hash : K → UInt64) (t : WTable k K V) (ra : Bool) (xs : List (Elem k K V)) : M (WTable k K V) := do
  let t ← (if ra then t.reserve (t.size + UInt64.ofNat xs.length) else .ok t : M (WTable k K V))
  xs.foldlM (fun t x => do
    let r ← t.insert hash x.1 x.2
    .ok r.1) t

/-- `assign(first, last)` (dense_table.hpp 311-316). -/
def assignRange (hash : K → UInt64) (t : WTable k K V) (ra : Bool) (xs : List (Elem k K V)) : M (WTable k K V) := do
  let t ← t.clear
  t.insertRange hash ra xs

/-- `begin()` to `end()` (dense_table.hpp 318-321, 490-515). -/
def iterate (t : WTable k K V) : M (List ((Fin k → K) × V)) :=
  (List.range t.size.toNat).mapM fun i => do
    let n ← t.readNode i
    .ok (n.key, n.val)

/-- `find` (dense_table.hpp 367-370), compared with `end()` and dereferenced. -/
def lookup (hash : K → UInt64) (t : WTable k K V) (j : Fin k) (x : K) : M (Option ((Fin k → K) × V)) := do
  let (i, _) ← t.findNode hash j x
  if i = t.size.toNat then .ok none
  else do
    let n ← t.readNode i
    .ok (some (n.key, n.val))

/-- `contains` (dense_table.hpp 364-365). -/
def contains (hash : K → UInt64) (t : WTable k K V) (j : Fin k) (x : K) : M Bool := do
  let (i, _) ← t.findNode hash j x
  .ok (decide (i ≠ t.size.toNat))

/-- `insert_or_assign` in a history. -/
def assignStep (hash : K → UInt64) : {k : Nat} → k = 1 → WTable k K V → K → V → M (WTable k K V × Nat × Bool)
  | _, rfl, t, x, v => t.insertOrAssign hash x v

/-- One operation of a history (the functions above; dense_table.hpp 311-455). -/
def step (hash : K → UInt64) (t : WTable k K V) : Op k K V → M (WTable k K V × Out k K V)
  | .insert key v => do
    let r ← t.insert hash key v
    .ok (r.1, .ins r.2.1 r.2.2)
  | .emplace key v => do
    let r ← t.emplace hash key v
    .ok (r.1, .ins r.2.1 r.2.2)
  | .assign hk x v => do
    let r ← assignStep hash hk t x v
    .ok (r.1, .ins r.2.1 r.2.2)
  | .erase j x => do
    let r ← t.erase hash j x
    .ok (r.1, .pos r.2)
  | .eraseAt pos =>
    if pos < t.size.toNat then do
      let r ← t.eraseAt (UInt64.ofNat pos)
      .ok (r.1, .pos r.2)
    else .ok (t, .unit)
  | .eraseRange first n =>
    if first + n ≤ t.size.toNat then do
      let r ← t.eraseRange first (first + n)
      .ok (r.1, .pos r.2)
    else .ok (t, .unit)
  | .insertRange ra xs => do
    let t ← t.insertRange hash ra xs
    .ok (t, .unit)
  | .assignRange ra xs => do
    let t ← t.assignRange hash ra xs
    .ok (t, .unit)
  | .clear => do
    let t ← t.clear
    .ok (t, .unit)
  | .reserve n => do
    let t ← t.reserve (UInt64.ofNat n)
    .ok (t, .unit)
  | .rehash n => do
    let t ← t.rehash (UInt64.ofNat n)
    .ok (t, .unit)
  | .setLoad lf => .ok ({ t with lf := lf }, .unit)
  | .find j x => do
    let e ← t.lookup hash j x
    .ok (t, .elem e)
  | .contains j x => do
    let b ← t.contains hash j x
    .ok (t, .bool b)
  | .size => .ok (t, .nat t.size.toNat)
  | .iterate => do
    let l ← t.iterate
    .ok (t, .list l)

/-- A history (dense_table.hpp 311-455). -/
def run (hash : K → UInt64) (t : WTable k K V) : List (Op k K V) → M (WTable k K V × List (Out k K V))
  | [] => .ok (t, [])
  | o :: os => do
    let r ← t.step hash o
    let s ← r.1.run hash os
    .ok (s.1, r.2 :: s.2)

end WTable

/-! ## The table the words stand for -/

/-- The chain index a word stands for. -/
def chainIdx (w : UInt64) : Option Nat := if w = npos then none else some w.toNat

/-- The node the words stand for. -/
def WNode.dec {k : Nat} {K V : Type} (n : WNode k K V) : Node k K V :=
  ⟨n.key, n.val, fun j => (n.hash j).toNat, fun j => chainIdx (n.next j)⟩

/-- The table the words stand for. -/
def WTable.dec {k : Nat} {K V : Type} (t : WTable k K V) : Table k K V :=
  { size := t.size.toNat, cap := t.cap.toNat, bc := t.bc.toNat, node := fun i => (t.node i).map WNode.dec,
    head := fun b j => chainIdx (t.head b j), lf := t.lf }


/-! ## Both compute the same -/

/-- Whenever the first computation succeeds, so does the second, with a related result. -/
def Follow {α β : Type} (R : α → β → Prop) (x : M α) (y : M β) : Prop := ∀ a, x = .ok a → ∃ b, y = .ok b ∧ R a b

section Follow

variable {α β γ δ σ τ : Type}

theorem Follow.ok {R : α → β → Prop} {a : α} {b : β} (h : R a b) : Follow R (.ok a : M α) (.ok b : M β) := by
  intro a' e
  cases e
  exact ⟨b, rfl, h⟩

theorem Follow.error {R : α → β → Prop} {e : Fault} {y : M β} : Follow R (.error e : M α) y := fun _ h => nomatch h

theorem Follow.bind {R : α → β → Prop} {S : γ → δ → Prop} {x : M α} {y : M β} {f : α → M γ} {g : β → M δ} (h : Follow R x y)
    (hf : ∀ a b, x = .ok a → y = .ok b → R a b → Follow S (f a) (g b)) : Follow S (x >>= f) (y >>= g) := by
  intro c e
  obtain ⟨a, ea, ef⟩ := Dense.bind_eq_ok e
  obtain ⟨b, eb, hr⟩ := h a ea
  obtain ⟨d, ed, hd⟩ := hf a b ea eb hr c ef
  exact ⟨d, by rw [eb, bind_ok, ed], hd⟩

theorem Follow.of_map {f : β → α} {x : M α} {y : M β} (h : x = y.map f) : Follow (fun a b => f b = a) x y := by
  subst h
  intro a e
  cases y with
  | error z => exact nomatch e
  | ok b =>
    cases e
    exact ⟨b, rfl, rfl⟩

theorem Follow.foldlM {R : α → β → Prop} {f : α → γ → M α} {g : β → γ → M β} (hf : ∀ a b c, R a b → Follow R (f a c) (g b c)) :
    ∀ (l : List γ) {a : α} {b : β}, R a b → Follow R (l.foldlM f a) (l.foldlM g b)
  | [], _, _, h => Follow.ok h
  | c :: l, a, b, h => by
    rw [List.foldlM_cons, List.foldlM_cons]
    exact (hf a b c h).bind fun a' b' _ _ h' => Follow.foldlM hf l h'

theorem Follow.mapM {R : α → β → Prop} {f : γ → M α} {g : γ → M β} (hf : ∀ c, Follow R (f c) (g c)) :
    ∀ (l : List γ), Follow (List.Forall₂ R) (l.mapM f) (l.mapM g)
  | [] => Follow.ok .nil
  | c :: l => by
    rw [List.mapM_cons, List.mapM_cons]
    exact (hf c).bind fun a b _ _ h => (Follow.mapM hf l).bind fun as bs _ _ hs => Follow.ok (.cons h hs)

theorem Follow.loop {R : α → β → Prop} {n : UInt64} {f : α → Nat → M α} {g : β → UInt64 → M β}
    (hf : ∀ a b i, i < n → R a b → Follow R (f a i.toNat) (g b i)) : ∀ (fuel : Nat) (i : UInt64) {a : α} {b : β}, R a b →
    n.toNat - i.toNat < fuel → Follow R ((List.range' i.toNat (n.toNat - i.toNat)).foldlM f a) (loopW n g fuel i b)
  | 0, _, _, _, _, hn => absurd hn (Nat.not_lt_zero _)
  | fuel + 1, i, a, b, h, hn => by
    unfold loopW
    by_cases hi : i < n
    · have h1 := UInt64.lt_iff_toNat_lt.mp hi
      have h2 : (i + 1).toNat = i.toNat + 1 := by
        rw [UInt64.toNat_add]
        have := n.toNat_lt
        have : (1 : UInt64).toNat = 1 := rfl
        omega
      rw [if_pos hi, show n.toNat - i.toNat = (n.toNat - (i + 1).toNat) + 1 by omega, List.range'_succ, List.foldlM_cons, ← h2]
      exact (hf a b i hi h).bind fun a' b' _ _ h' => Follow.loop hf fuel (i + 1) h' (by omega)
    · have h1 : ¬ i.toNat < n.toNat := fun h' => hi (UInt64.lt_iff_toNat_lt.mpr h')
      rw [if_neg hi, show n.toNat - i.toNat = 0 by omega]
      exact Follow.ok h

end Follow


section

variable {k : Nat} {K V : Type} [DecidableEq K]

theorem npos_toNat : npos.toNat = 2 ^ 64 - 1 := rfl

theorem chainIdx_npos : chainIdx npos = none := rfl

theorem chainIdx_some {v : UInt64} (h : v ≠ npos) : chainIdx v = some v.toNat := if_neg h

/-- A word below another one is not `npos`. -/
theorem ne_npos {v c : UInt64} (h : v.toNat < c.toNat) : v ≠ npos := by
  intro e
  rw [e, npos_toNat] at h
  have := c.toNat_lt
  omega

theorem toNat_inj {a b : UInt64} : a.toNat = b.toNat ↔ a = b := UInt64.toNat_inj

/-- The relation between the two tables. -/
def Stands (t : Table k K V) (w : WTable k K V) : Prop := w.dec = t

theorem dec_node (w : WTable k K V) (i : Nat) : w.dec.node i = (w.node i).map WNode.dec := rfl

theorem dec_upd (w : WTable k K V) (i : Nat) (n : Option (WNode k K V)) :
    ({ w with node := upd w.node i n } : WTable k K V).dec = { w.dec with node := upd w.dec.node i (n.map WNode.dec) } := by
  unfold WTable.dec
  congr 1
  funext i'
  unfold upd
  dsimp only
  split <;> rfl

theorem readNode_dec (w : WTable k K V) (i : Nat) : w.dec.readNode i = (w.readNode i).map WNode.dec := by
  unfold Table.readNode WTable.readNode
  by_cases h : i < w.cap.toNat
  · rw [if_pos (show i < w.dec.cap from h), if_pos h, dec_node]
    cases w.node i <;> rfl
  · rw [if_neg (show ¬ i < w.dec.cap from h), if_neg h]
    rfl

theorem readNode_word (w : WTable k K V) (i : Nat) : Follow (fun a b => b.dec = a) (w.dec.readNode i) (w.readNode i) :=
  Follow.of_map (readNode_dec w i)

theorem readRef_dec (w : WTable k K V) (j : Fin k) (r : Ref) : w.dec.readRef j r = (w.readRef j r).map chainIdx := by
  cases r with
  | head b =>
    simp only [Table.readRef, WTable.readRef]
    by_cases h : b < w.bc.toNat
    · rw [if_pos (show b < w.dec.bc from h), if_pos h]
      rfl
    · rw [if_neg (show ¬ b < w.dec.bc from h), if_neg h]
      rfl
  | next i =>
    simp only [Table.readRef, WTable.readRef]
    rw [readNode_dec]
    cases w.readNode i <;> rfl

theorem readRef_word (w : WTable k K V) (j : Fin k) (r : Ref) : Follow (fun a b => chainIdx b = a) (w.dec.readRef j r) (w.readRef j r) :=
  Follow.of_map (readRef_dec w j r)

theorem readNode_lt {t : Table k K V} {i : Nat} {n : Node k K V} (h : t.readNode i = .ok n) : i < t.cap := by
  unfold Table.readNode at h
  split at h
  · assumption
  · exact nomatch h

theorem readNode_some {t : Table k K V} {i : Nat} {n : Node k K V} (h : t.readNode i = .ok n) : t.node i = some n := by
  unfold Table.readNode at h
  split at h
  · split at h
    · next m hm =>
      cases h
      exact hm
    · exact nomatch h
  · exact nomatch h

theorem writeRef_word (w : WTable k K V) (j : Fin k) (r : Ref) (v : UInt64) :
    Follow Stands (w.dec.writeRef j r (chainIdx v)) (w.writeRef j r v) := by
  cases r with
  | head b =>
    simp only [Table.writeRef, WTable.writeRef]
    by_cases h : b < w.bc.toNat
    · rw [if_pos (show b < w.dec.bc from h), if_pos h]
      refine Follow.ok ?_
      unfold Stands WTable.dec
      congr 1
      funext b' j'
      unfold upd
      dsimp only
      by_cases hb : b' = b
      · rw [if_pos hb, if_pos hb]
        split <;> rfl
      · rw [if_neg hb, if_neg hb]
    · rw [if_neg (show ¬ b < w.dec.bc from h)]
      exact Follow.error
  | next i =>
    simp only [Table.writeRef, WTable.writeRef]
    refine (readNode_word w i).bind fun n m _ _ h => ?_
    subst h
    refine Follow.ok ?_
    unfold Stands
    rw [dec_upd]
    unfold WNode.dec Option.map
    dsimp only
    congr 3
    congr 1
    funext j'
    split <;> rfl

theorem getChain_dec (w : WTable k K V) (h : UInt64) : w.dec.getChain h.toNat = w.getChain h := by
  unfold Table.getChain WTable.getChain
  by_cases hb : w.bc = 0
  · rw [if_pos hb, if_pos (show w.dec.bc = 0 by rw [show w.dec.bc = w.bc.toNat from rfl, hb]; rfl)]
  · rw [if_neg hb, if_neg (show ¬ w.dec.bc = 0 from fun h => hb (toNat_inj.mp h)), UInt64.toNat_mod]
    rfl

theorem findChainPtr_word (w : WTable k K V) (j : Fin k) (pos : UInt64) : ∀ (fuel : Nat) (r : Ref),
    Follow Eq (w.dec.findChainPtr j pos.toNat fuel r) (w.findChainPtr j pos fuel r)
  | 0, _ => Follow.error
  | fuel + 1, r => by
    unfold Table.findChainPtr WTable.findChainPtr
    refine (readRef_word w j r).bind fun a b _ _ h => ?_
    subst h
    by_cases hb : b = npos
    · rw [hb, chainIdx_npos, if_neg (by simp)]
      exact Follow.ok rfl
    · rw [chainIdx_some hb]
      dsimp only
      by_cases hp : b = pos
      · rw [if_pos (by rw [hp]), if_neg (by simp [hp])]
        exact Follow.ok rfl
      · rw [if_neg (fun h => hp (toNat_inj.mp h)), if_pos ⟨hb, hp⟩]
        exact findChainPtr_word w j pos fuel _

/-- What the two versions of `find_node` return. -/
def FoundAs (w : WTable k K V) (j : Fin k) (a : Option Nat × Ref) (b : Nat × Ref) : Prop :=
  b.2 = a.2 ∧ b.1 = a.1.getD w.size.toNat ∧ (∃ v, w.readRef j a.2 = .ok v ∧ a.1 = chainIdx v) ∧
    ∀ i, a.1 = some i → ∃ n, w.dec.node i = some n

theorem findLoop_word (w : WTable k K V) (j : Fin k) (x : K) (hx : UInt64) : ∀ (fuel : Nat) (r : Ref),
    Follow (FoundAs w j) (w.dec.findLoop j x hx.toNat fuel r) (w.findLoop j x hx fuel r)
  | 0, _ => Follow.error
  | fuel + 1, r => by
    unfold Table.findLoop WTable.findLoop
    refine (readRef_word w j r).bind fun a b _ hb h => ?_
    subst h
    by_cases hn : b = npos
    · rw [hn, chainIdx_npos, if_neg (by simp)]
      exact Follow.ok ⟨rfl, rfl, ⟨b, hb, by rw [hn]; rfl⟩, fun i hi => nomatch hi⟩
    · rw [chainIdx_some hn, if_pos hn]
      refine (readNode_word w b.toNat).bind fun n m hn' _ h => ?_
      subst h
      have hiff : (m.dec.hash j = hx.toNat ∧ x = m.dec.key j) ↔ (m.hash j = hx ∧ x = m.key j) := and_congr toNat_inj Iff.rfl
      by_cases hc : m.hash j = hx ∧ x = m.key j
      · rw [if_pos hc, if_pos (hiff.mpr hc)]
        refine Follow.ok ⟨rfl, rfl, ⟨b, hb, (chainIdx_some hn).symm⟩, fun i hi => ?_⟩
        cases hi
        exact ⟨m.dec, readNode_some hn'⟩
      · rw [if_neg hc, if_neg (fun h => hc (hiff.mp h))]
        exact findLoop_word w j x hx fuel _

/-- The hash function the words stand for. -/
def hashNat (hash : K → UInt64) (x : K) : Nat := (hash x).toNat

/-- What the two versions of `find_node` return, the null chain included. -/
def FoundIn (w : WTable k K V) (j : Fin k) (a : Option Nat × Option Ref) (b : Nat × Option Ref) : Prop :=
  b.2 = a.2 ∧ b.1 = a.1.getD w.size.toNat ∧ (∀ r, a.2 = some r → ∃ v, w.readRef j r = .ok v ∧ a.1 = chainIdx v) ∧
    (a.2 = none → a.1 = none) ∧ ∀ i, a.1 = some i → ∃ n, w.dec.node i = some n

theorem findNode_word (hash : K → UInt64) (w : WTable k K V) (j : Fin k) (x : K) :
    Follow (FoundIn w j) (w.dec.findNode (hashNat hash) j x) (w.findNode hash j x) := by
  unfold Table.findNode WTable.findNode hashNat
  rw [getChain_dec]
  cases w.getChain (hash x) with
  | none => exact Follow.ok ⟨rfl, rfl, (fun r h => nomatch h), fun _ => rfl, (fun i h => nomatch h)⟩
  | some r =>
    refine (findLoop_word w j x (hash x) (w.cap.toNat + 1) r).bind fun a b _ _ h => ?_
    obtain ⟨h1, h2, ⟨v, h3, h4⟩, h5⟩ := h
    refine Follow.ok ⟨congrArg some h1, h2, fun r' h => ?_, fun h => (nomatch h), h5⟩
    cases h
    exact ⟨v, h3, h4⟩

theorem pushNode_word (w : WTable k K V) (key : Fin k → K) (v : V) :
    Follow (fun a b => b.1.dec = a.1 ∧ b.2.toNat = a.2 ∧ b.2 ≠ npos) (w.dec.pushNode key v) (w.pushNode key v) := by
  unfold Table.pushNode WTable.pushNode
  simp only
  by_cases h : w.size.toNat < w.cap.toNat
  · rw [if_pos (show w.dec.size < w.dec.cap from h), if_pos h, dec_node, show w.dec.size = w.size.toNat from rfl]
    cases w.node w.size.toNat with
    | some n => exact Follow.error
    | none =>
      refine Follow.ok ⟨?_, rfl, ne_npos h⟩
      have h1 : (w.size + 1).toNat = w.size.toNat + 1 := by
        rw [UInt64.toNat_add]
        have := w.cap.toNat_lt
        have : (1 : UInt64).toNat = 1 := rfl
        omega
      have h2 := dec_upd { w with size := w.size + 1 } w.size.toNat (some ⟨key, v, fun _ => 0, fun _ => npos⟩)
      refine h2.trans ?_
      unfold WTable.dec
      dsimp only
      rw [h1]
      rfl
  · rw [if_neg (show ¬ w.dec.size < w.dec.cap from h)]
    exact Follow.error

theorem pred_toNat {a : UInt64} (h : a.toNat ≠ 0) : (a - 1).toNat = a.toNat - 1 := by
  rw [UInt64.toNat_sub]
  have := a.toNat_lt
  have : (1 : UInt64).toNat = 1 := rfl
  omega

theorem popNode_word (w : WTable k K V) : Follow Stands w.dec.popNode w.popNode := by
  unfold Table.popNode WTable.popNode
  by_cases h : w.size.toNat = 0
  · rw [if_pos (show w.dec.size = 0 from h)]
    exact Follow.error
  · rw [if_neg (show ¬ w.dec.size = 0 from h), dec_node, show w.dec.size = w.size.toNat from rfl, pred_toNat h]
    cases w.node (w.size.toNat - 1) with
    | none => exact Follow.error
    | some n =>
      refine Follow.ok ?_
      have h2 := dec_upd { w with size := w.size - 1 } (w.size.toNat - 1) none
      refine Eq.trans h2 ?_
      unfold WTable.dec
      dsimp only
      rw [pred_toNat h]
      rfl

theorem deref_follow (r : Option Ref) : Follow Eq (Table.deref r) (Table.deref r) := fun a h => ⟨a, h, rfl⟩

theorem insertNode_word (w : WTable k K V) (i : UInt64) (j : Fin k) :
    Follow Stands (w.dec.insertNode i.toNat j) (w.insertNode i j) := by
  unfold Table.insertNode WTable.insertNode
  refine (readNode_word w i.toNat).bind fun n m hn hm h => ?_
  subst h
  have hi : i ≠ npos := ne_npos (readNode_lt hn)
  rw [show m.dec.hash j = (m.hash j).toNat from rfl, getChain_dec]
  refine (deref_follow _).bind fun r r' _ _ h => ?_
  subst h
  refine (readRef_word w j r).bind fun a v _ _ h => ?_
  subst h
  refine (writeRef_word w j _ v).bind fun t1 w1 _ _ h => ?_
  subst h
  rw [← chainIdx_some hi]
  exact writeRef_word w1 j r i

theorem moveChain_word (w : WTable k K V) (src dst : UInt64) (hd : dst ≠ npos) (j : Fin k) :
    Follow Stands (w.dec.moveChain src.toNat dst.toNat j) (w.moveChain src dst j) := by
  unfold Table.moveChain WTable.moveChain
  refine (readNode_word w src.toNat).bind fun n m hn hm h => ?_
  subst h
  rw [show m.dec.hash j = (m.hash j).toNat from rfl, getChain_dec]
  refine (deref_follow _).bind fun r r' _ _ h => ?_
  subst h
  refine (findChainPtr_word w j src (w.cap.toNat + 1) r).bind fun r1 r1' _ _ h => ?_
  subst h
  refine (readRef_word w j r1).bind fun a v _ _ h => ?_
  subst h
  by_cases hv : v = npos
  · rw [hv, chainIdx_npos]
    exact Follow.error
  · rw [chainIdx_some hv, if_neg hv, ← chainIdx_some hd]
    exact writeRef_word w j r1 dst

theorem setHashes_word (w : WTable k K V) (pos : UInt64) (hs : Fin k → UInt64) :
    Follow Stands (w.dec.setHashes pos.toNat (fun j => (hs j).toNat)) (w.setHashes pos hs) := by
  unfold Table.setHashes WTable.setHashes
  refine (readNode_word w pos.toNat).bind fun n m hn hm h => ?_
  subst h
  exact Follow.ok (dec_upd w pos.toNat _)

theorem commitNode_word (w : WTable k K V) (pos : UInt64) (hp : pos ≠ npos) (slice : List (Fin k × Option Ref)) (hs : Fin k → UInt64) :
    Follow Stands (w.dec.commitNode pos.toNat slice (fun j => (hs j).toNat)) (w.commitNode pos slice hs) := by
  unfold Table.commitNode WTable.commitNode
  refine Follow.bind (R := Stands) (Follow.foldlM (fun t w jr h => ?_) slice rfl) fun t w _ _ h => ?_
  · subst h
    refine (deref_follow _).bind fun r r' _ _ h => ?_
    subst h
    rw [← chainIdx_some hp]
    exact writeRef_word w jr.1 r pos
  · subst h
    exact setHashes_word w pos hs

theorem Follow.and {α β : Type} {R : α → β → Prop} {P : α → Prop} {x : M α} {y : M β} (h : Follow R x y) (hp : ∀ a, x = .ok a → P a) :
    Follow (fun a b => R a b ∧ P a) x y := by
  intro a e
  obtain ⟨b, eb, hr⟩ := h a e
  exact ⟨b, eb, hr, hp a e⟩

theorem fillHole_word (w : WTable k K V) (pos : UInt64) (hp : pos ≠ npos) (hz : w.dec.size ≠ 0) (js : List (Fin k)) :
    Follow Stands (w.dec.fillHole pos.toNat js) (w.fillHole pos js) := by
  unfold Table.fillHole WTable.fillHole
  refine Follow.bind (R := fun t w => Stands t w ∧ t.size ≠ 0) (Follow.foldlM (fun t w j h => ?_) js ⟨rfl, hz⟩)
    fun t w _ _ h => ?_
  · obtain ⟨h, hs⟩ := h
    subst h
    refine Follow.and ?_ fun t e => by rw [moveChain_size e]; exact hs
    rw [show w.dec.size - 1 = (w.size - 1).toNat from (pred_toNat hs).symm]
    exact moveChain_word w _ _ hp j
  · obtain ⟨h, hs⟩ := h
    subst h
    rw [show w.dec.size - 1 = (w.size - 1).toNat from (pred_toNat hs).symm]
    refine (readNode_word w _).bind fun n m _ _ h => ?_
    subst h
    refine (readNode_word w _).bind fun n' m' _ _ _ => ?_
    exact Follow.ok (dec_upd w pos.toNat (some m))

theorem eraseNode_word (w : WTable k K V) (pos : UInt64) (hp : pos ≠ npos) (slice : List (Fin k × Ref)) :
    Follow Stands (w.dec.eraseNode pos.toNat slice) (w.eraseNode pos slice) := by
  unfold Table.eraseNode WTable.eraseNode
  refine Follow.bind (R := Stands) (Follow.foldlM (fun t w jr h => ?_) slice rfl) fun t w _ _ h => ?_
  · subst h
    refine (readNode_word w _).bind fun n m _ _ h => ?_
    subst h
    exact writeRef_word w jr.1 jr.2 _
  · subst h
    by_cases hz : w.dec.size = 0
    · rw [if_pos hz]
      exact Follow.error
    · rw [if_neg hz]
      have hiff : pos.toNat ≠ w.dec.size - 1 ↔ pos ≠ w.size - 1 := by
        rw [show w.dec.size - 1 = (w.size - 1).toNat from (pred_toNat hz).symm]
        exact not_congr toNat_inj
      refine Follow.bind (R := Stands) ?_ fun t w _ _ h => by subst h; exact popNode_word w
      by_cases hl : pos ≠ w.size - 1
      · rw [if_pos hl, if_pos (hiff.mpr hl)]
        exact fillHole_word w pos hp hz _
      · rw [if_neg hl, if_neg (fun h => hl (hiff.mp h))]
        exact Follow.ok rfl

theorem doRehash_word (w : WTable k K V) (c : UInt64) : Follow Stands (w.dec.doRehash c.toNat) (w.doRehash c) := by
  unfold Table.doRehash WTable.doRehash
  simp only
  rw [List.range_eq_range']
  refine Follow.loop (R := Stands) (n := w.size) (fun t w i _ h => ?_) (w.size.toNat + 1) 0 ?_ (by simp)
  · subst h
    refine Follow.foldlM (fun t w j h => ?_) _ rfl
    subst h
    exact insertNode_word w i j
  · unfold Stands WTable.dec
    dsimp only
    by_cases h : w.bc < c
    · rw [if_pos h, if_pos (UInt64.lt_iff_toNat_lt.mp h)]
      rfl
    · rw [if_neg h, if_neg (fun h' => h (UInt64.lt_iff_toNat_lt.mpr h'))]
      rfl

theorem maxW_toNat (a b : UInt64) : (maxW a b).toNat = max a.toNat b.toNat := by
  unfold maxW
  split
  · next h =>
    have := UInt64.lt_iff_toNat_lt.mp h
    omega
  · next h =>
    have : ¬ a.toNat < b.toNat := fun h' => h (UInt64.lt_iff_toNat_lt.mpr h')
    omega

theorem convert_of {x : Nat} (h : x < 2 ^ 64) : ∃ c, convert x = .ok c ∧ c.toNat = x := by
  refine ⟨UInt64.ofNat x, by unfold convert; rw [if_pos h], ?_⟩
  rw [UInt64.toNat_ofNat']
  exact Nat.mod_eq_of_lt h

theorem zero_iff {a : UInt64} : a.toNat = 0 ↔ a = 0 := toNat_inj (b := 0)

theorem rehash_bc_word {t t' : Table k K V} {n : Nat} (e : t.rehash n = .ok t') : (n = 0 ∧ t.size = 0) ∨ max (t.lf.div t.size) n ≤ t'.bc := by
  unfold Table.rehash at e
  split at e
  · left
    assumption
  · right
    dsimp only at e
    split at e
    · have := Table.doRehash_post t (max (t.lf.div t.size) n)
      rw [e] at this
      have h2 : t'.bc = max t.bc (max (t.lf.div t.size) n) := this.2
      omega
    · next h =>
      cases e
      have : max (t.lf.div t.size) n = t.bc := by
        by_contra h'
        exact h (Or.inr h')
      omega

theorem rehash_word (w : WTable k K V) (n : UInt64) {t' : Table k K V} (e : w.dec.rehash n.toNat = .ok t') (hb : t'.bc < 2 ^ 64) :
    ∃ w', w.rehash n = .ok w' ∧ w'.dec = t' := by
  revert e
  suffices h : (n.toNat = 0 ∧ w.dec.size = 0) ∨ w.dec.lf.div w.dec.size < 2 ^ 64 →
      Follow Stands (w.dec.rehash n.toNat) (w.rehash n) by
    intro e
    exact h ((rehash_bc_word e).imp_right fun h => by omega) t' e
  intro hd
  unfold Table.rehash WTable.rehash
  have h0 : (n.toNat = 0 ∧ w.dec.size = 0) ↔ (n = 0 ∧ w.size = 0) := and_congr zero_iff zero_iff
  by_cases hc : n = 0 ∧ w.size = 0
  · rw [if_pos hc, if_pos (h0.mpr hc)]
    exact Follow.ok rfl
  · rw [if_neg hc, if_neg (fun h => hc (h0.mp h))]
    rcases hd with hd | hd
    · exact absurd (h0.mp hd) hc
    · obtain ⟨c, hc1, hc2⟩ := convert_of hd
      rw [show w.lf.div w.size.toNat = w.dec.lf.div w.dec.size from rfl, hc1, bind_ok, ← hc2, ← maxW_toNat]
      dsimp only
      have hiff : (n.toNat = 0 ∨ (maxW c n).toNat ≠ w.dec.bc) ↔ (n = 0 ∨ maxW c n ≠ w.bc) :=
        or_congr zero_iff (not_congr toNat_inj)
      by_cases hr : n = 0 ∨ maxW c n ≠ w.bc
      · rw [if_pos hr, if_pos (hiff.mpr hr)]
        exact doRehash_word w _
      · rw [if_neg hr, if_neg (fun h => hr (hiff.mp h))]
        exact Follow.ok rfl

theorem double_toNat {a : UInt64} (h : a.toNat * 2 < 2 ^ 64) : (a * 2).toNat = a.toNat * 2 := by
  rw [UInt64.toNat_mul]
  have : (2 : UInt64).toNat = 2 := rfl
  rw [this]
  exact Nat.mod_eq_of_lt h

theorem maybeRehash_word (w : WTable k K V) {t' : Table k K V} (e : w.dec.maybeRehash = .ok t') (hb : t'.bc < 2 ^ 64) :
    ∃ w', w.maybeRehash = .ok w' ∧ w'.dec = t' := by
  unfold Table.maybeRehash at e
  unfold WTable.maybeRehash
  by_cases h0 : w.bc = 0
  · rw [if_pos (show w.dec.bc = 0 from zero_iff.mpr h0)] at e
    rw [if_pos h0]
    exact rehash_word w 8 e hb
  · rw [if_neg (show ¬ w.dec.bc = 0 from fun h => h0 (zero_iff.mp h))] at e
    rw [if_neg h0]
    by_cases hf : w.dec.lf.full w.dec.size w.dec.bc = true
    · rw [if_pos hf] at e
      rw [if_pos (show w.lf.full w.size.toNat w.bc.toNat = true from hf)]
      have h1 : w.dec.bc * 2 ≤ t'.bc := by
        rcases rehash_bc_word e with h | h
        · have := mt zero_iff.mp h0
          have : w.dec.bc = w.bc.toNat := rfl
          omega
        · omega
      refine rehash_word w (w.bc * 2) ?_ hb
      rw [double_toNat (Nat.lt_of_le_of_lt h1 hb)]
      exact e
    · rw [if_neg hf] at e
      rw [if_neg (show ¬ w.lf.full w.size.toNat w.bc.toNat = true from hf)]
      cases e
      exact ⟨w, rfl, rfl⟩

theorem resizeData_word (w : WTable k K V) (c : UInt64) : Follow Stands (w.dec.resizeData c.toNat) (w.resizeData c) := by
  unfold Table.resizeData WTable.resizeData
  by_cases h : c.toNat < w.size.toNat
  · rw [if_pos (show c.toNat < w.dec.size from h)]
    exact Follow.error
  · rw [if_neg (show ¬ c.toNat < w.dec.size from h), if_neg h]
    refine (Follow.mapM (fun i => readNode_word w i) (List.range w.size.toNat)).bind fun _ _ _ _ _ => Follow.ok ?_
    unfold Stands WTable.dec
    dsimp only
    congr 1
    funext i
    split <;> rfl

theorem maybeResize_word (w : WTable k K V) {t' : Table k K V} (e : w.dec.maybeResize = .ok t') (hb : t'.cap < 2 ^ 64) :
    ∃ w', w.maybeResize = .ok w' ∧ w'.dec = t' := by
  unfold Table.maybeResize at e
  unfold WTable.maybeResize
  by_cases h : w.cap = w.size
  · rw [if_pos (show w.dec.cap = w.dec.size from toNat_inj.mpr h)] at e
    rw [if_pos h]
    refine resizeData_word w _ t' ?_
    have hp := Table.resizeData_post w.dec (if w.dec.cap = 0 then 1 else w.dec.cap * 2)
    rw [e] at hp
    have h1 : t'.cap = _ := hp.1
    rw [h1] at hb
    rw [← e]
    congr 1
    by_cases h0 : w.cap = 0
    · rw [if_pos h0, if_pos (show w.dec.cap = 0 from zero_iff.mpr h0)]
      rfl
    · rw [if_neg (show ¬ w.dec.cap = 0 from fun h => h0 (zero_iff.mp h))] at hb ⊢
      rw [if_neg h0]
      exact double_toNat hb
  · rw [if_neg (show ¬ w.dec.cap = w.dec.size from fun h' => h (toNat_inj.mp h'))] at e
    rw [if_neg h]
    cases e
    exact ⟨w, rfl, rfl⟩

theorem locate_word (hash : K → UInt64) (w : WTable k K V) (key : Fin k → K) :
    Follow (List.Forall₂ fun a b => b.1 = a.1 ∧ FoundIn w a.1 a.2 b.2) (w.dec.locate (hashNat hash) key) (w.locate hash key) := by
  unfold Table.locate WTable.locate
  refine Follow.mapM (fun j => ?_) _
  exact (findNode_word hash w j (key j)).bind fun a b _ _ h => Follow.ok ⟨rfl, h⟩

theorem conflict_word (w : WTable k K V) : ∀ {la : List (Fin k × Option Nat × Option Ref)} {lb : List (Fin k × Nat × Option Ref)},
    List.Forall₂ (fun a b => b.1 = a.1 ∧ FoundIn w a.1 a.2 b.2) la lb →
    w.conflict lb = .ok (la.findSome? (fun x => x.2.1)) ∧ lb.map (fun x => (x.1, x.2.2)) = la.map (fun x => (x.1, x.2.2))
  | [], [], .nil => ⟨rfl, rfl⟩
  | (ja, o, ra) :: la, (jb, p, rb) :: lb, .cons ⟨h, h1, h2, h3, h4, _⟩ ht => by
    obtain ⟨c1, c2⟩ := conflict_word w ht
    dsimp only at h h1 h2 h3 h4
    subst h h1
    refine ⟨?_, by rw [List.map_cons, List.map_cons, c2]⟩
    cases rb with
    | none =>
      rw [h4 rfl, List.findSome?_cons_of_isNone (by rfl)]
      exact c1
    | some r =>
      obtain ⟨v, hv, ho⟩ := h3 r rfl
      simp only [WTable.conflict]
      rw [hv, bind_ok]
      by_cases hn : v = npos
      · rw [if_neg (by simp [hn]), ho, hn, chainIdx_npos, List.findSome?_cons_of_isNone (by rfl)]
        exact c1
      · rw [if_pos hn, h2, ho, chainIdx_some hn, List.findSome?_cons_of_isSome (by rfl)]
        rfl

/-- What an operation of the one version leaves behind and returns, and the other. -/
def Alike {α : Type} (a : Table k K V × α) (b : WTable k K V × α) : Prop := b.1.dec = a.1 ∧ b.2 = a.2

theorem post_ok {α : Type} {P : α → Prop} {x : M α} {a : α} (h : Post P x) (e : x = .ok a) : P a := by
  rw [e] at h
  exact h

theorem commit_word (hash : K → UInt64) (w : WTable k K V) (key : Fin k → K) (pos : UInt64) (hp : pos ≠ npos)
    (slice : List (Fin k × Option Ref)) :
    Follow (Alike (α := Nat × Bool))
      (do
        let t ← w.dec.commitNode pos.toNat slice (fun j => hashNat hash (key j))
        .ok (t, pos.toNat, true))
      (do
        let t ← w.commitNode pos slice (fun j => hash (key j))
        .ok (t, pos.toNat, true)) := by
  refine (commitNode_word w pos hp slice (fun j => hash (key j))).bind fun t w _ _ h => Follow.ok ⟨h, rfl⟩

theorem insert_word (hash : K → UInt64) (w : WTable k K V) (key : Fin k → K) (v : V) {r : Table k K V × Nat × Bool}
    (e : w.dec.insert (hashNat hash) key v = .ok r) (hc : r.1.cap < 2 ^ 64) (hb : r.1.bc < 2 ^ 64) :
    ∃ r', w.insert hash key v = .ok r' ∧ Alike r r' := by
  unfold Table.insert at e
  obtain ⟨t1, e1, e⟩ := Dense.bind_eq_ok e
  obtain ⟨t2, e2, e⟩ := Dense.bind_eq_ok e
  have g2 := post_ok (Table.maybeRehash_grows t1) e2
  have g3 : Grows t2 r.1 := by
    refine post_ok (P := fun r : Table k K V × Nat × Bool => Grows t2 r.1) ?_ e
    refine (Table.locate_post (hashNat hash) t2 key).bind fun f _ => ?_
    split
    · exact Grows.refl t2
    · refine (Table.pushNode_post t2 key v).bind fun r h3 => ?_
      exact (Table.commitNode_post r.1 _ _ _).bind fun t4 h4 => (Same.grows h3).trans (Same.grows h4)
  obtain ⟨w1, f1, h1⟩ := maybeResize_word w e1 (by have := g2.1; have := g3.1; omega)
  subst h1
  obtain ⟨w2, f2, h2⟩ := maybeRehash_word w1 e2 (by have := g3.2; omega)
  subst h2
  unfold WTable.insert
  rw [f1, bind_ok, f2, bind_ok]
  revert e
  suffices h : Follow (Alike (α := Nat × Bool)) _ _ from h r
  refine (locate_word hash w2 key).bind fun la lb _ _ hl => ?_
  obtain ⟨c1, c2⟩ := conflict_word w2 hl
  rw [c1, bind_ok, c2]
  cases la.findSome? (fun x => x.2.1) with
  | some i => exact Follow.ok ⟨rfl, rfl⟩
  | none =>
    refine (pushNode_word w2 key v).bind fun p q _ _ h => ?_
    obtain ⟨t3, i⟩ := p
    obtain ⟨w3, i'⟩ := q
    obtain ⟨h, h', hn⟩ := h
    dsimp only at h h' hn
    subst h h'
    exact commit_word hash w3 key i' hn _

theorem emplace_word (hash : K → UInt64) (w : WTable k K V) (key : Fin k → K) (v : V) {r : Table k K V × Nat × Bool}
    (e : w.dec.emplace (hashNat hash) key v = .ok r) (hc : r.1.cap < 2 ^ 64) (hb : r.1.bc < 2 ^ 64) :
    ∃ r', w.emplace hash key v = .ok r' ∧ Alike r r' := by
  unfold Table.emplace at e
  obtain ⟨t1, e1, e⟩ := Dense.bind_eq_ok e
  obtain ⟨t2, e2, e⟩ := Dense.bind_eq_ok e
  have g2 := post_ok (Table.maybeRehash_grows t1) e2
  have g3 : Grows t2 r.1 := by
    refine post_ok (P := fun r : Table k K V × Nat × Bool => Grows t2 r.1) ?_ e
    refine (Table.pushNode_post t2 key v).bind fun r h3 => (Table.locate_post (hashNat hash) r.1 key).bind fun f _ => ?_
    split
    · exact (Table.popNode_post r.1).bind fun t4 h4 => (Same.grows h3).trans (Same.grows h4)
    · exact (Table.commitNode_post r.1 _ _ _).bind fun t4 h4 => (Same.grows h3).trans (Same.grows h4)
  obtain ⟨w1, f1, h1⟩ := maybeResize_word w e1 (by have := g2.1; have := g3.1; omega)
  subst h1
  obtain ⟨w2, f2, h2⟩ := maybeRehash_word w1 e2 (by have := g3.2; omega)
  subst h2
  unfold WTable.emplace
  rw [f1, bind_ok, f2, bind_ok]
  revert e
  suffices h : Follow (Alike (α := Nat × Bool)) _ _ from h r
  refine (pushNode_word w2 key v).bind fun p q _ _ h => ?_
  obtain ⟨t3, i⟩ := p
  obtain ⟨w3, i'⟩ := q
  obtain ⟨h, h', hn⟩ := h
  dsimp only at h h' hn
  subst h h'
  refine (locate_word hash w3 key).bind fun la lb _ _ hl => ?_
  obtain ⟨c1, c2⟩ := conflict_word w3 hl
  rw [c1, bind_ok, c2]
  cases la.findSome? (fun x => x.2.1) with
  | some i => exact (popNode_word w3).bind fun t w _ _ h => Follow.ok ⟨h, rfl⟩
  | none => exact commit_word hash w3 key i' hn _

theorem insertOrAssign_word (hash : K → UInt64) (w : WTable 1 K V) (x : K) (v : V) {r : Table 1 K V × Nat × Bool}
    (e : w.dec.insertOrAssign (hashNat hash) x v = .ok r) (hc : r.1.cap < 2 ^ 64) (hb : r.1.bc < 2 ^ 64) :
    ∃ r', w.insertOrAssign hash x v = .ok r' ∧ Alike r r' := by
  unfold Table.insertOrAssign at e
  obtain ⟨t1, e1, e⟩ := Dense.bind_eq_ok e
  obtain ⟨t2, e2, e⟩ := Dense.bind_eq_ok e
  have g2 := post_ok (Table.maybeRehash_grows t1) e2
  have g3 : Grows t2 r.1 := by
    refine post_ok (P := fun r : Table 1 K V × Nat × Bool => Grows t2 r.1) ?_ e
    refine (Table.findNode_post (hashNat hash) t2 0 x).bind fun f _ => ?_
    obtain ⟨i, ref⟩ := f
    cases i with
    | none =>
      refine (Table.pushNode_post t2 _ v).bind fun r h3 => ?_
      exact (Table.commitNode_post r.1 _ _ _).bind fun t4 h4 => (Same.grows h3).trans (Same.grows h4)
    | some i => exact (Table.readNode_post t2 i).bind fun n _ => ⟨Nat.le_refl _, Nat.le_refl _⟩
  obtain ⟨w1, f1, h1⟩ := maybeResize_word w e1 (by have := g2.1; have := g3.1; omega)
  subst h1
  obtain ⟨w2, f2, h2⟩ := maybeRehash_word w1 e2 (by have := g3.2; omega)
  subst h2
  unfold WTable.insertOrAssign
  rw [f1, bind_ok, f2, bind_ok]
  revert e
  suffices h : Follow (Alike (α := Nat × Bool)) _ _ from h r
  refine (findNode_word hash w2 0 x).bind fun p q _ _ h => ?_
  obtain ⟨o, ra⟩ := p
  obtain ⟨p, rb⟩ := q
  obtain ⟨h1, h2, h3, h4, h5⟩ := h
  dsimp only at h1 h2 h3 h4 h5
  subst h1
  cases rb with
  | none =>
    rw [h4 rfl]
    intro a e
    obtain ⟨y, e1, e⟩ := Dense.bind_eq_ok e
    obtain ⟨z, e2, e⟩ := Dense.bind_eq_ok e
    simp [Table.commitNode, Table.deref] at e2
  | some ref =>
    obtain ⟨c, hv, ho⟩ := h3 ref rfl
    simp only
    rw [hv, bind_ok]
    by_cases hn : c = npos
    · rw [if_pos ⟨rfl, hn⟩, ho, hn, chainIdx_npos]
      refine (pushNode_word w2 _ v).bind fun p q _ _ h => ?_
      obtain ⟨t3, i⟩ := p
      obtain ⟨w3, i'⟩ := q
      obtain ⟨h, h', hi⟩ := h
      dsimp only at h h' hi
      subst h h'
      exact commit_word hash w3 (fun _ => x) i' hi _
    · rw [if_neg (fun h => hn h.2), h2, ho, chainIdx_some hn]
      refine (readNode_word w2 _).bind fun n m _ _ h => ?_
      subst h
      refine Follow.ok ⟨?_, rfl⟩
      exact dec_upd w2 _ _

theorem slices_word (w : WTable k K V) (m : WNode k K V) (pos : UInt64) (js : List (Fin k)) :
    Follow Eq (w.dec.slices m.dec pos.toNat js) (w.slices m pos js) := by
  unfold Table.slices WTable.slices
  have h : Follow (List.Forall₂ Eq) _ _ := Follow.mapM (R := Eq) (f := fun j => do
      let r ← Table.deref (w.dec.getChain (m.dec.hash j))
      let r ← w.dec.findChainPtr j pos.toNat (w.dec.cap + 1) r
      .ok (j, r)) (g := fun j => do
      let r ← Table.deref (w.getChain (m.hash j))
      let r ← w.findChainPtr j pos (w.cap.toNat + 1) r
      .ok (j, r)) (fun j => by
    rw [show m.dec.hash j = (m.hash j).toNat from rfl, getChain_dec]
    refine (deref_follow _).bind fun r r' _ _ h => ?_
    subst h
    refine (findChainPtr_word w j pos (w.cap.toNat + 1) r).bind fun r1 r1' _ _ h => ?_
    subst h
    exact Follow.ok rfl) js
  intro a e
  obtain ⟨b, eb, hab⟩ := h a e
  exact ⟨b, eb, List.forall₂_eq_eq_eq ▸ hab⟩

theorem eraseAt_word (w : WTable k K V) (pos : UInt64) : Follow (Alike (α := Nat)) (w.dec.eraseAt pos.toNat) (w.eraseAt pos) := by
  unfold Table.eraseAt WTable.eraseAt
  by_cases h : pos = w.size
  · rw [if_pos h, if_pos (show pos.toNat = w.dec.size from toNat_inj.mpr h)]
    exact Follow.ok ⟨rfl, rfl⟩
  · rw [if_neg h, if_neg (show ¬ pos.toNat = w.dec.size from fun h' => h (toNat_inj.mp h'))]
    refine (readNode_word w _).bind fun n m hn _ h => ?_
    subst h
    refine (slices_word w m pos _).bind fun s s' _ _ h => ?_
    subst h
    exact (eraseNode_word w pos (ne_npos (readNode_lt hn)) s).bind fun t w _ _ h => Follow.ok ⟨h, rfl⟩

theorem erase_word (hash : K → UInt64) (w : WTable k K V) (j : Fin k) (x : K) :
    Follow (fun a b => b.1.dec = a.1 ∧ b.2 = a.2.1) (w.dec.erase (hashNat hash) j x) (w.erase hash j x) := by
  unfold Table.erase WTable.erase hashNat
  rw [getChain_dec]
  refine (deref_follow _).bind fun r r' _ _ h => ?_
  subst h
  refine (findLoop_word w j x (hash x) (w.cap.toNat + 1) r).bind fun p q _ _ h => ?_
  obtain ⟨o, ra⟩ := p
  obtain ⟨p, rb⟩ := q
  obtain ⟨h1, h2, ⟨v, h3, h4⟩, h5⟩ := h
  dsimp only at h1 h2 h3 h4 h5
  subst h1
  simp only
  rw [h3, bind_ok]
  by_cases hn : v = npos
  · rw [if_pos hn, h4, hn, chainIdx_npos]
    exact Follow.ok ⟨rfl, rfl⟩
  · rw [if_neg hn, h4, chainIdx_some hn]
    refine (readNode_word w _).bind fun n m hn' _ h => ?_
    subst h
    refine (slices_word w m v _).bind fun s s' _ _ h => ?_
    subst h
    exact (eraseNode_word w v hn _).bind fun t w _ _ h => Follow.ok ⟨h, rfl⟩

theorem eraseRange_word (w : WTable k K V) (first last : Nat) (hl : last < 2 ^ 64) :
    Follow (Alike (α := Nat)) (w.dec.eraseRange first last) (w.eraseRange first last) := by
  unfold Table.eraseRange WTable.eraseRange
  have key : ∀ (l : List Nat), (∀ i ∈ l, i < 2 ^ 64) → ∀ (a : Table k K V × Nat) (b : WTable k K V × Nat), Alike a b →
      Follow (Alike (α := Nat)) (l.foldlM (fun tr i => tr.1.eraseAt i) a) (l.foldlM (fun tr i => tr.1.eraseAt (UInt64.ofNat i)) b) := by
    intro l
    induction l with
    | nil => intro _ a b h; exact Follow.ok h
    | cons i l ih =>
      intro hi a b h
      rw [List.foldlM_cons, List.foldlM_cons]
      refine Follow.bind (R := Alike (α := Nat)) ?_ fun a' b' _ _ h' => ih (fun i hm => hi i (List.mem_cons_of_mem _ hm)) a' b' h'
      have h1 : (UInt64.ofNat i).toNat = i := by
        rw [UInt64.toNat_ofNat']
        exact Nat.mod_eq_of_lt (hi i List.mem_cons_self)
      have h2 := eraseAt_word b.1 (UInt64.ofNat i)
      rw [h1, h.1] at h2
      exact h2
  refine key _ (fun i hm => ?_) _ _ ⟨rfl, rfl⟩
  rw [List.mem_reverse, List.mem_range'_1] at hm
  omega

theorem clearData_word (w : WTable k K V) : Follow Stands w.dec.clearData w.clearData := by
  unfold Table.clearData WTable.clearData
  have h : Follow (fun (t : Table k K V) (w' : WTable k K V) => w'.dec = { t with size := 0 })
      ((List.range w.dec.size).foldlM (fun t i => t.destroyNode i) w.dec)
      (loopW w.size (fun t i => t.destroyNode i) (w.size.toNat + 1) 0 { w with size := 0 }) := by
    rw [List.range_eq_range']
    refine Follow.loop (n := w.size) (fun t w i _ h => ?_) (w.size.toNat + 1) 0 rfl (by simp)
    have hn : t.node = w.dec.node := by rw [h]
    unfold Table.destroyNode WTable.destroyNode
    rw [hn, dec_node]
    cases w.node i.toNat with
    | none => exact Follow.error
    | some n =>
      refine Follow.ok ?_
      rw [dec_upd, h]
      rfl
  intro a e
  obtain ⟨t1, e1, e⟩ := Dense.bind_eq_ok e
  obtain ⟨b, eb, hb⟩ := h t1 e1
  cases e
  exact ⟨b, eb, hb⟩

theorem clear_word (w : WTable k K V) : Follow Stands w.dec.clear w.clear := clearData_word { w with head := fun _ _ => npos }

theorem reserve_word (w : WTable k K V) (n : UInt64) {t' : Table k K V} (e : w.dec.reserve n.toNat = .ok t') (hb : t'.bc < 2 ^ 64) :
    ∃ w', w.reserve n = .ok w' ∧ w'.dec = t' := by
  unfold Table.reserve at e
  obtain ⟨t1, e1, e⟩ := Dense.bind_eq_ok e
  have h1 : Follow Stands (if n.toNat > w.dec.cap then w.dec.resizeData n.toNat else .ok w.dec)
      (if w.cap < n then w.resizeData n else .ok w) := by
    by_cases h : w.cap < n
    · rw [if_pos h, if_pos (show n.toNat > w.dec.cap from UInt64.lt_iff_toNat_lt.mp h)]
      exact resizeData_word w n
    · rw [if_neg h, if_neg (show ¬ n.toNat > w.dec.cap from fun h' => h (UInt64.lt_iff_toNat_lt.mpr h'))]
      exact Follow.ok rfl
  obtain ⟨w1, f1, h1⟩ := h1 t1 e1
  subst h1
  unfold WTable.reserve
  rw [f1, bind_ok]
  have hd : w1.dec.lf.div n.toNat < 2 ^ 64 := by
    rcases rehash_bc_word e with h | h <;> omega
  obtain ⟨c, hc1, hc2⟩ := convert_of hd
  rw [show w1.lf.div n.toNat = w1.dec.lf.div n.toNat from rfl, hc1, bind_ok]
  exact rehash_word w1 c (by rw [hc2]; exact e) hb

theorem reserve_cap_word {t t' : Table k K V} {n : Nat} (e : t.reserve n = .ok t') : n ≤ t'.cap := by
  unfold Table.reserve at e
  obtain ⟨t1, e1, e⟩ := Dense.bind_eq_ok e
  have h2 := (post_ok (Table.rehash_grows t1 _) e).1
  split at e1
  · have h1 := (post_ok (Table.resizeData_post t n) e1).1
    omega
  · cases e1
    omega

theorem toNat_ofNat_lt {n : Nat} (h : n < 2 ^ 64) : (UInt64.ofNat n).toNat = n := by
  rw [UInt64.toNat_ofNat']
  exact Nat.mod_eq_of_lt h

theorem inserts_word (hash : K → UInt64) : ∀ (xs : List (Elem k K V)) (w : WTable k K V) {t' : Table k K V},
    xs.foldlM (fun t x => do
      let r ← t.insert (hashNat hash) x.1 x.2
      .ok r.1) w.dec = .ok t' → t'.cap < 2 ^ 64 → t'.bc < 2 ^ 64 →
    ∃ w', xs.foldlM (fun t x => do
      let r ← t.insert hash x.1 x.2
      .ok r.1) w = .ok w' ∧ w'.dec = t'
  | [], w, t', e, _, _ => by
    cases e
    exact ⟨w, rfl, rfl⟩
  | x :: xs, w, t', e, hc, hb => by
    rw [List.foldlM_cons] at e
    obtain ⟨t1, e1, e⟩ := Dense.bind_eq_ok e
    obtain ⟨r, e2, e3⟩ := Dense.bind_eq_ok e1
    cases e3
    have g : Grows r.1 t' := by
      refine post_ok (Post.foldlM (P := Grows r.1) (fun t x h => ?_) xs (Grows.refl _)) e
      exact (Table.insert_grows (hashNat hash) t x.1 x.2).bind fun r h' => h.trans h'
    obtain ⟨r', f, h1, h2⟩ := insert_word hash w x.1 x.2 e2 (by have := g.1; omega) (by have := g.2; omega)
    rw [← h1] at e
    obtain ⟨w', f', h'⟩ := inserts_word hash xs r'.1 e hc hb
    refine ⟨w', ?_, h'⟩
    rw [List.foldlM_cons, f]
    exact f'

theorem insertRange_word (hash : K → UInt64) (w : WTable k K V) (ra : Bool) (xs : List (Elem k K V)) {t' : Table k K V}
    (e : w.dec.insertRange (hashNat hash) ra xs = .ok t') (hc : t'.cap < 2 ^ 64) (hb : t'.bc < 2 ^ 64) :
    ∃ w', w.insertRange hash ra xs = .ok w' ∧ w'.dec = t' := by
  unfold Table.insertRange at e
  obtain ⟨t1, e1, e⟩ := Dense.bind_eq_ok e
  have g : Grows t1 t' := by
    refine post_ok (Post.foldlM (P := Grows t1) (fun t x h => ?_) xs (Grows.refl _)) e
    exact (Table.insert_grows (hashNat hash) t x.1 x.2).bind fun r h' => h.trans h'
  unfold WTable.insertRange
  cases ra with
  | false =>
    cases e1
    obtain ⟨w', f, h⟩ := inserts_word hash xs w e hc hb
    exact ⟨w', f, h⟩
  | true =>
    have hn : w.dec.size + xs.length ≤ t1.cap := reserve_cap_word e1
    have h1 : (w.size + UInt64.ofNat xs.length).toNat = w.dec.size + xs.length := by
      have h2 : w.dec.size = w.size.toNat := rfl
      have h3 := g.1
      rw [UInt64.toNat_add, toNat_ofNat_lt (by omega), Nat.mod_eq_of_lt (by omega), h2]
    obtain ⟨w1, f1, h⟩ := reserve_word w (w.size + UInt64.ofNat xs.length) (by rw [h1]; exact e1) (by have := g.2; omega)
    subst h
    obtain ⟨w', f, h⟩ := inserts_word hash xs w1 e hc hb
    refine ⟨w', ?_, h⟩
    rw [if_pos rfl, f1]
    exact f

theorem iterate_word (w : WTable k K V) : Follow Eq w.dec.iterate w.iterate := by
  unfold Table.iterate WTable.iterate
  have h : Follow (List.Forall₂ Eq) _ _ := Follow.mapM (R := Eq) (f := fun i => do
      let n ← w.dec.readNode i
      .ok (n.key, n.val)) (g := fun i => do
      let n ← w.readNode i
      .ok (n.key, n.val)) (fun i => by
    refine (readNode_word w i).bind fun n m _ _ h => ?_
    subst h
    exact Follow.ok rfl) (List.range w.size.toNat)
  intro a e
  obtain ⟨b, eb, hab⟩ := h a e
  exact ⟨b, eb, List.forall₂_eq_eq_eq ▸ hab⟩

/-- Behind the last element there are no objects. -/
def Dead (t : Table k K V) : Prop := ∀ i n, t.node i = some n → i < t.size

theorem lookup_word (hash : K → UInt64) (w : WTable k K V) (hd : Dead w.dec) (j : Fin k) (x : K) :
    Follow Eq (w.dec.lookup (hashNat hash) j x) (w.lookup hash j x) := by
  unfold Table.lookup WTable.lookup
  refine (findNode_word hash w j x).bind fun p q _ _ h => ?_
  obtain ⟨o, ra⟩ := p
  obtain ⟨p, rb⟩ := q
  obtain ⟨_, h2, _, _, h5⟩ := h
  dsimp only at h2 h5
  subst h2
  cases o with
  | none =>
    simp only [Option.getD_none, if_true]
    exact Follow.ok rfl
  | some i =>
    obtain ⟨n, hn⟩ := h5 i rfl
    have hlt : i < w.size.toNat := hd i n hn
    have hne : ¬ i = w.size.toNat := by omega
    simp only [Option.getD_some, hne, if_false]
    refine (readNode_word w i).bind fun n m _ _ h => ?_
    subst h
    exact Follow.ok rfl

theorem contains_word (hash : K → UInt64) (w : WTable k K V) (hd : Dead w.dec) (j : Fin k) (x : K) :
    Follow Eq (w.dec.contains (hashNat hash) j x) (w.contains hash j x) := by
  unfold Table.contains WTable.contains
  refine (findNode_word hash w j x).bind fun p q _ _ h => ?_
  obtain ⟨o, ra⟩ := p
  obtain ⟨p, rb⟩ := q
  obtain ⟨_, h2, _, _, h5⟩ := h
  dsimp only at h2 h5
  subst h2
  refine Follow.ok ?_
  cases o with
  | none => simp
  | some i =>
    obtain ⟨n, hn⟩ := h5 i rfl
    have hlt : i < w.size.toNat := hd i n hn
    simp only [Option.getD_some, Option.isSome_some]
    exact (decide_eq_true (by omega)).symm

theorem assignStep_word (hash : K → UInt64) (hk : k = 1) (w : WTable k K V) (x : K) (v : V) {r : Table k K V × Nat × Bool}
    (e : Table.assignStep (hashNat hash) hk w.dec x v = .ok r) (hc : r.1.cap < 2 ^ 64) (hb : r.1.bc < 2 ^ 64) :
    ∃ r', WTable.assignStep hash hk w x v = .ok r' ∧ Alike r r' := by
  subst hk
  exact insertOrAssign_word hash w x v e hc hb

theorem step_word (hash : K → UInt64) (w : WTable k K V) (hd : Dead w.dec) (op : Op k K V) {r : Table k K V × Out k K V}
    (e : w.dec.step (hashNat hash) op = .ok r) (hc : r.1.cap < 2 ^ 64) (hb : r.1.bc < 2 ^ 64) :
    ∃ r', w.step hash op = .ok r' ∧ Alike r r' := by
  cases op with
  | insert key v =>
    simp only [Table.step] at e
    obtain ⟨s, e1, e2⟩ := Dense.bind_eq_ok e
    cases e2
    obtain ⟨s', f, h1, h2⟩ := insert_word hash w key v e1 hc hb
    refine ⟨(s'.1, .ins s'.2.1 s'.2.2), ?_, h1, by rw [h2]⟩
    simp only [WTable.step]
    rw [f, bind_ok]
  | emplace key v =>
    simp only [Table.step] at e
    obtain ⟨s, e1, e2⟩ := Dense.bind_eq_ok e
    cases e2
    obtain ⟨s', f, h1, h2⟩ := emplace_word hash w key v e1 hc hb
    refine ⟨(s'.1, .ins s'.2.1 s'.2.2), ?_, h1, by rw [h2]⟩
    simp only [WTable.step]
    rw [f, bind_ok]
  | assign hk x v =>
    simp only [Table.step] at e
    obtain ⟨s, e1, e2⟩ := Dense.bind_eq_ok e
    cases e2
    obtain ⟨s', f, h1, h2⟩ := assignStep_word hash hk w x v e1 hc hb
    refine ⟨(s'.1, .ins s'.2.1 s'.2.2), ?_, h1, by rw [h2]⟩
    simp only [WTable.step]
    rw [f, bind_ok]
  | erase j x =>
    simp only [Table.step] at e
    obtain ⟨s, e1, e2⟩ := Dense.bind_eq_ok e
    cases e2
    obtain ⟨s', f, h1, h2⟩ := erase_word hash w j x s e1
    refine ⟨(s'.1, .pos s'.2), ?_, h1, by rw [h2]⟩
    simp only [WTable.step]
    rw [f, bind_ok]
  | eraseAt pos =>
    simp only [Table.step] at e
    simp only [WTable.step]
    by_cases hp : pos < w.size.toNat
    · rw [if_pos (show pos < w.dec.size from hp)] at e
      rw [if_pos hp]
      obtain ⟨s, e1, e2⟩ := Dense.bind_eq_ok e
      cases e2
      have := w.size.toNat_lt
      obtain ⟨s', f, h1, h2⟩ := eraseAt_word w (UInt64.ofNat pos) s (by rw [toNat_ofNat_lt (by omega)]; exact e1)
      refine ⟨(s'.1, .pos s'.2), ?_, h1, by rw [h2]⟩
      rw [f, bind_ok]
    · rw [if_neg (show ¬ pos < w.dec.size from hp)] at e
      rw [if_neg hp]
      cases e
      exact ⟨_, rfl, rfl, rfl⟩
  | eraseRange first n =>
    simp only [Table.step] at e
    simp only [WTable.step]
    by_cases hp : first + n ≤ w.size.toNat
    · rw [if_pos (show first + n ≤ w.dec.size from hp)] at e
      rw [if_pos hp]
      obtain ⟨s, e1, e2⟩ := Dense.bind_eq_ok e
      cases e2
      have := w.size.toNat_lt
      obtain ⟨s', f, h1, h2⟩ := eraseRange_word w first (first + n) (by omega) s e1
      refine ⟨(s'.1, .pos s'.2), ?_, h1, by rw [h2]⟩
      rw [f, bind_ok]
    · rw [if_neg (show ¬ first + n ≤ w.dec.size from hp)] at e
      rw [if_neg hp]
      cases e
      exact ⟨_, rfl, rfl, rfl⟩
  | insertRange ra xs =>
    simp only [Table.step] at e
    obtain ⟨s, e1, e2⟩ := Dense.bind_eq_ok e
    cases e2
    obtain ⟨s', f, h⟩ := insertRange_word hash w ra xs e1 hc hb
    refine ⟨(s', .unit), ?_, h, rfl⟩
    simp only [WTable.step]
    rw [f, bind_ok]
  | assignRange ra xs =>
    simp only [Table.step] at e
    obtain ⟨s, e1, e2⟩ := Dense.bind_eq_ok e
    cases e2
    unfold Table.assignRange at e1
    obtain ⟨t1, e3, e1⟩ := Dense.bind_eq_ok e1
    obtain ⟨w1, f1, h1⟩ := clear_word w t1 e3
    subst h1
    obtain ⟨s', f, h⟩ := insertRange_word hash w1 ra xs e1 hc hb
    refine ⟨(s', .unit), ?_, h, rfl⟩
    simp only [WTable.step, WTable.assignRange]
    rw [f1, bind_ok, f, bind_ok]
  | clear =>
    simp only [Table.step] at e
    obtain ⟨s, e1, e2⟩ := Dense.bind_eq_ok e
    cases e2
    obtain ⟨s', f, h⟩ := clear_word w s e1
    refine ⟨(s', .unit), ?_, h, rfl⟩
    simp only [WTable.step]
    rw [f, bind_ok]
  | reserve n =>
    simp only [Table.step] at e
    obtain ⟨s, e1, e2⟩ := Dense.bind_eq_ok e
    cases e2
    have hn := reserve_cap_word e1
    dsimp only at hc
    obtain ⟨s', f, h⟩ := reserve_word w (UInt64.ofNat n) (by rw [toNat_ofNat_lt (by omega)]; exact e1) hb
    refine ⟨(s', .unit), ?_, h, rfl⟩
    simp only [WTable.step]
    rw [f, bind_ok]
  | rehash n =>
    simp only [Table.step] at e
    obtain ⟨s, e1, e2⟩ := Dense.bind_eq_ok e
    cases e2
    dsimp only at hb
    have hn : n < 2 ^ 64 := by rcases rehash_bc_word e1 with h | h <;> omega
    obtain ⟨s', f, h⟩ := rehash_word w (UInt64.ofNat n) (by rw [toNat_ofNat_lt hn]; exact e1) hb
    refine ⟨(s', .unit), ?_, h, rfl⟩
    simp only [WTable.step]
    rw [f, bind_ok]
  | setLoad lf =>
    simp only [Table.step] at e
    cases e
    exact ⟨_, rfl, rfl, rfl⟩
  | find j x =>
    simp only [Table.step] at e
    obtain ⟨s, e1, e2⟩ := Dense.bind_eq_ok e
    cases e2
    obtain ⟨s', f, h⟩ := lookup_word hash w hd j x s e1
    refine ⟨(w, .elem s'), ?_, rfl, by rw [h]⟩
    simp only [WTable.step]
    rw [f, bind_ok]
  | contains j x =>
    simp only [Table.step] at e
    obtain ⟨s, e1, e2⟩ := Dense.bind_eq_ok e
    cases e2
    obtain ⟨s', f, h⟩ := contains_word hash w hd j x s e1
    refine ⟨(w, .bool s'), ?_, rfl, by rw [h]⟩
    simp only [WTable.step]
    rw [f, bind_ok]
  | size =>
    simp only [Table.step] at e
    cases e
    exact ⟨_, rfl, rfl, rfl⟩
  | iterate =>
    simp only [Table.step] at e
    obtain ⟨s, e1, e2⟩ := Dense.bind_eq_ok e
    cases e2
    obtain ⟨s', f, h⟩ := iterate_word w s e1
    refine ⟨(w, .list s'), ?_, rfl, by rw [h]⟩
    simp only [WTable.step]
    rw [f, bind_ok]

end

end Tpp.Dense
