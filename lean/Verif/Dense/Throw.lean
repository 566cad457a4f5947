import Verif.Dense.Faults

/-!
# Dense tables whose elements, hash function or key comparison throw

What a call leaves behind when it ends in an exception at some point.  The functions return `none` (or an answer) if no
exception is thrown.
-/

set_option linter.unusedSectionVars false

namespace Tpp.Dense

variable {k : Nat} {K V : Type} [DecidableEq K]

namespace Table

/-! ## Hash function and key comparison -/

/-- The number of key comparisons of `find_node` (dense_table.hpp 538-545): keys are compared only if the stored hash
agrees. -/
def findCalls (t : Table k K V) (j : Fin k) (x : K) (h : Nat) : Nat → Ref → M Nat
  | 0, _ => .error .diverge
  | fuel + 1, r => do
    match ← t.readRef j r with
    | none => .ok 0
    | some i =>
      let n ← t.readNode i
      if n.hash j = h then
        if x = n.key j then .ok 1
        else do
          let c ← t.findCalls j x h fuel (.next i)
          .ok (c + 1)
      else t.findCalls j x h fuel (.next i)

/-- The calls of the hash function (one per component) and of the comparison that an insertion makes
(dense_table.hpp 627-628, 654-655, 682-683, 707-708). -/
def locateCalls (hash : K → Nat) (t : Table k K V) (key : Fin k → K) : M Nat :=
  (List.finRange k).foldlM (fun c j =>
    match t.getChain (hash (key j)) with
    | none => .ok c
    | some r => do
      let d ← t.findCalls j (key j) (hash (key j)) (t.cap + 1) r
      .ok (c + d)) k

/-- `do_insert` (dense_table.hpp 674-697; also `do_try_emplace`, 646-671) if the call number `b` (from 0) of the hash function
or of the comparison throws: the table left behind, and the answer unless the exception leaves the function. -/
def insertCall (hash : K → Nat) (b : Nat) (t : Table k K V) (key : Fin k → K) (v : V) :
    M (Table k K V × Option (Nat × Bool)) := do
  let t ← t.maybeResize
  let t ← t.maybeRehash
  let c ← t.locateCalls hash key
  if b < c then .ok (t, none)
  else do
    let found ← t.locate hash key
    match found.findSome? (fun x => x.2.1) with
    | some i => .ok (t, some (i, false))
    | none =>
      let (t, pos) ← t.pushNode key v
      let t ← t.commitNode pos (found.map fun x => (x.1, x.2.2)) (fun j => hash (key j))
      .ok (t, some (pos, true))

/-- `do_emplace` (dense_table.hpp 620-644) if the call number `b` throws.  The new node is in the array, its stored hashes are
uninitialised (`g`), it is in no chain. -/
def emplaceCall (hash : K → Nat) (b : Nat) (g : Fin k → Nat) (t : Table k K V) (key : Fin k → K) (v : V) :
    M (Table k K V × Option (Nat × Bool)) := do
  let t ← t.maybeResize
  let t ← t.maybeRehash
  let (t, pos) ← t.pushNode key v
  let c ← t.locateCalls hash key
  if b < c then do
    let t ← t.setHashes pos g
    .ok (t, none)
  else do
    let found ← t.locate hash key
    match found.findSome? (fun x => x.2.1) with
    | some i =>
      let t ← t.popNode
      .ok (t, some (i, false))
    | none =>
      let t ← t.commitNode pos (found.map fun x => (x.1, x.2.2)) (fun j => hash (key j))
      .ok (t, some (pos, true))

/-! ## Elements -/

/-- `copy_data` (dense_table.hpp 823-859) if the copy of element `q` throws (848): the elements before it are copied, linked
and counted. -/
def copyDataThrow (t other : Table k K V) (q : Nat) : M (Option (Table k K V)) :=
  if t.size ≠ 0 then .error .assertFail
  else if q < other.size then
    let t : Table k K V :=
      { t with
        bc := if t.bc < other.bc then other.bc else t.bc
        head := fun _ _ => none
        cap := if t.cap < other.size then other.size else t.cap
        node := if t.cap < other.size then fun _ => none else t.node }
    do
      let t ← (List.range q).foldlM (fun t i => copyNode other t i) t
      .ok (some t)
  else .ok none

/-- Copy construction (dense_table.hpp 230-237) if the copy of element `q` throws.  The result is the abandoned object; its
destructor does not run. -/
def copyCtorThrow (other : Table k K V) (q : Nat) : M (Option (Table k K V)) := (init other.lf).copyDataThrow other q

/-- Copy assignment (dense_table.hpp 250-275) if the copy of element `q` throws. -/
def copyAssignThrow (prop : Bool) (t other : Table k K V) (q : Nat) : M (Option (Table k K V)) := do
  let t ← ({ t with lf := other.lf } : Table k K V).clearData
  let t : Table k K V := if prop then t.dropBuffers else t
  t.copyDataThrow other q

/-- `move_data` (dense_table.hpp 860-885) if the relocation of element `q` throws (882): the elements before it are gone from
`other`, whose size is reset only at the end. -/
def moveDataThrow (t other : Table k K V) (q : Nat) : M (Option (Table k K V × Table k K V)) := do
  let t ← t.copyDataThrow other q
  .ok (t.map fun t => (t, { other with node := fun i => if i < q then none else other.node i }))

/-- Move assignment (dense_table.hpp 276-302, 904-910) between unequal allocators that do not propagate, if the relocation
of element `q` throws. -/
def moveAssignThrow (t other : Table k K V) (q : Nat) : M (Option (Table k K V × Table k K V)) := do
  let t ← ({ t with lf := other.lf } : Table k K V).clearData
  t.moveDataThrow other q

/-- `resize_data` (dense_table.hpp 783-801, utility.hpp 220-230) if the relocation of element `q` throws: the handler frees
the new array and leaves the old one in place.  The second component lists the elements in the freed array. -/
def resizeThrow (t : Table k K V) (q : Nat) : M (Option (Table k K V × List (Elem k K V))) :=
  if q < t.size then do
    let lost ← (List.range q).mapM (fun i => do
      let n ← t.readNode i
      .ok (n.key, n.val))
    .ok (some ({ t with node := fun i => if i < q then none else t.node i }, lost))
  else .ok none

/-- An insertion (dense_table.hpp 620-723, 802-806) if the relocation of element `q` into the new array throws. -/
def insertRoomThrow (t : Table k K V) (q : Nat) : M (Option (Table k K V × List (Elem k K V))) :=
  if t.cap = t.size then t.resizeThrow q else .ok none

/-- `reserve(n)` (dense_table.hpp 358-362) if the relocation of element `q` throws. -/
def reserveThrow (t : Table k K V) (n q : Nat) : M (Option (Table k K V × List (Elem k K V))) :=
  if n > t.cap then t.resizeThrow q else .ok none

/-- `erase(const_iterator)` (dense_table.hpp 594-618, 725-734) if the assignment of the last element's value to the erased one
throws (614, table_common.hpp 240-245): chains are changed already, the node at `pos` still has its hashes and links, and (say)
its value. -/
def eraseMoveThrow (t : Table k K V) (pos : Nat) : M (Option (Table k K V)) :=
  if pos + 1 < t.size then do
    let n ← t.readNode pos
    let slice ← t.slices n pos (List.finRange k)
    let t ← slice.foldlM (fun t jr => do
      let n ← t.readNode pos
      t.writeRef jr.1 jr.2 (n.next jr.1)) t
    let t ← (slice.map (·.1)).foldlM (fun t j => t.moveChain (t.size - 1) pos j) t
    .ok (some t)
  else .ok none

/-! ## Allocation failure in copies -/

/-- A table together with whether `m_sparse`, `m_dense` point to freed memory and whether the bucket heads are
uninitialised. -/
structure B (k : Nat) (K V : Type) where
  t : Table k K V
  sparseFreed : Bool
  denseFreed : Bool
  raw : Bool

/-- Any use of the buckets. -/
def B.lookup (hash : K → Nat) (a : B k K V) (j : Fin k) (x : K) : M (Option (Elem k K V)) :=
  if a.t.bc = 0 then .ok none
  else if a.sparseFreed then .error .dangling
  else if a.raw then .error .deadRead
  else a.t.lookup hash j x

/-- The destructor (dense_table.hpp 304-309). -/
def B.destroy (a : B k K V) : M Unit := do
  let _ ← a.t.clearData
  if a.sparseFreed || a.denseFreed then .error .badFree else .ok ()

/-- `copy_data` (dense_table.hpp 823-859) with `realloc_buffer` (utility.hpp 232-248): `fails1`, `fails2` tell whether the
allocation of the buckets and of the elements fails.  Each buffer is freed before its successor is allocated, the heads are
filled after both allocations. -/
def copyDataB (fails1 fails2 : Bool) (t other : Table k K V) : M (B k K V × Bool) :=
  if t.size ≠ 0 then .error .assertFail
  else if other.size = 0 then .ok (⟨t, false, false, false⟩, false)
  else if t.bc < other.bc ∧ fails1 = true then .ok (⟨t, decide (t.bc ≠ 0), false, false⟩, true)
  else if t.cap < other.size ∧ fails2 = true then
    .ok (⟨{ t with bc := if t.bc < other.bc then other.bc else t.bc }, false, decide (t.cap ≠ 0), decide (t.bc < other.bc)⟩, true)
  else do
    let t ← t.copyData other
    .ok (⟨t, false, false, false⟩, false)

/-- Copy assignment (dense_table.hpp 250-275). -/
def copyAssignB (fails1 fails2 prop : Bool) (t other : Table k K V) : M (B k K V × Bool) := do
  let t ← ({ t with lf := other.lf } : Table k K V).clearData
  let t : Table k K V := if prop then t.dropBuffers else t
  t.copyDataB fails1 fails2 other

end Table

/-! ## Calls -/

theorem findCalls_ok {t : Table k K V} {j : Fin k} {x : K} {h : Nat} : ∀ {fuel : Nat} {r : Ref} {v : Option Nat × Ref},
    t.findLoop j x h fuel r = .ok v → ∃ c, t.findCalls j x h fuel r = .ok c := by
  intro fuel
  induction fuel with
  | zero => intro r v e; cases e
  | succ fuel ih =>
    intro r v e
    unfold Table.findLoop at e
    unfold Table.findCalls
    obtain ⟨o, ho, e⟩ := bind_eq_ok e
    rw [ho, bind_ok]
    cases o with
    | none => exact ⟨0, rfl⟩
    | some i =>
      simp only at e ⊢
      obtain ⟨n, hn, e⟩ := bind_eq_ok e
      rw [hn, bind_ok]
      by_cases h1 : n.hash j = h
      · rw [if_pos h1]
        by_cases h2 : x = n.key j
        · rw [if_pos h2]; exact ⟨1, rfl⟩
        · rw [if_neg h2]
          rw [if_neg (fun g => h2 g.2)] at e
          obtain ⟨c, hc⟩ := ih e
          rw [hc, bind_ok]
          exact ⟨_, rfl⟩
      · rw [if_neg h1]
        rw [if_neg (fun g => h1 g.1)] at e
        exact ih e

theorem locateCalls_ok {hash : K → Nat} {t : Table k K V} {key : Fin k → K} {f : List (Fin k × Option Nat × Option Ref)}
    (e : t.locate hash key = .ok f) : ∃ c, t.locateCalls hash key = .ok c ∧ k ≤ c := by
  have H : ∀ (js : List (Fin k)) (f : List (Fin k × Option Nat × Option Ref)) (c : Nat),
      js.mapM (fun j => do
        let (n, r) ← t.findNode hash j (key j)
        (.ok (j, n, r) : M (Fin k × Option Nat × Option Ref))) = .ok f →
      ∃ d, js.foldlM (fun c j =>
        match t.getChain (hash (key j)) with
        | none => (.ok c : M Nat)
        | some r => do
          let d ← t.findCalls j (key j) (hash (key j)) (t.cap + 1) r
          (.ok (c + d) : M Nat)) c = .ok d ∧ c ≤ d := by
    intro js
    induction js with
    | nil => intro f c _; exact ⟨c, rfl, Nat.le_refl _⟩
    | cons j js ih =>
      intro f c e
      rw [List.mapM_cons] at e
      obtain ⟨a, ha, e⟩ := bind_eq_ok e
      obtain ⟨as, has, _⟩ := bind_eq_ok e
      rw [List.foldlM_cons]
      obtain ⟨o, ho, _⟩ := bind_eq_ok ha
      unfold Table.findNode at ho
      cases hg : t.getChain (hash (key j)) with
      | none =>
        simp only [bind_ok]
        exact ih as c has
      | some r =>
        rw [hg] at ho
        simp only at ho ⊢
        obtain ⟨p, hp, _⟩ := bind_eq_ok ho
        obtain ⟨d, hd⟩ := findCalls_ok hp
        rw [hd, bind_ok, bind_ok]
        obtain ⟨d', e', g⟩ := ih as (c + d) has
        exact ⟨d', e', by omega⟩
  exact H _ f k e

theorem Extends.findChainPtr {t t1 : Table k K V} (h : Extends t t1) {j : Fin k} {pos : Nat} :
    ∀ {fuel : Nat} {r v : Ref}, t.findChainPtr j pos fuel r = .ok v → t1.findChainPtr j pos fuel r = .ok v := by
  intro fuel
  induction fuel with
  | zero => intro r v e; cases e
  | succ fuel ih =>
    intro r v e
    unfold Table.findChainPtr at e ⊢
    obtain ⟨o, ho, e⟩ := bind_eq_ok e
    rw [h.readRef ho, bind_ok]
    cases o with
    | none => exact e
    | some i =>
      simp only at e ⊢
      by_cases hi : i = pos
      · rw [if_pos hi] at e ⊢; exact e
      · rw [if_neg hi] at e ⊢; exact ih e

theorem Extends.slices {t t1 : Table k K V} (h : Extends t t1) {n : Node k K V} {pos : Nat} {js : List (Fin k)}
    {f : List (Fin k × Ref)} (e : t.slices n pos js = .ok f) : t1.slices n pos js = .ok f := by
  refine mapM_congr_ok ?_ e
  intro j _ b hb
  obtain ⟨r, hr, hb⟩ := bind_eq_ok hb
  obtain ⟨r', hr', hb⟩ := bind_eq_ok hb
  have : t1.getChain (n.hash j) = t.getChain (n.hash j) := by unfold Table.getChain; rw [h.bc]
  rw [this, hr, bind_ok, h.cap, h.findChainPtr hr', bind_ok]
  exact hb

theorem Extends.cell {t t1 : Table k K V} (h : Extends t t1) {j : Fin k} {r : Ref}
    (hr : ∀ i, r = .next i → t.node i ≠ none) : t1.cell j r = t.cell j r := by
  cases r with
  | head b => unfold Table.cell; simp only; rw [h.head]
  | next i =>
    obtain ⟨n, hn⟩ := Option.ne_none_iff_exists'.mp (hr i rfl)
    unfold Table.cell
    simp only
    rw [hn, h.node i n hn]

theorem Extends.mem {t t1 : Table k K V} (h : Extends t t1) {j : Fin k} {i b : Nat} (hi : t.node i ≠ none) :
    (∃ m, t1.node i = some m ∧ m.hash j % t1.bc = b) ↔ ∃ m, t.node i = some m ∧ m.hash j % t.bc = b := by
  obtain ⟨n, hn⟩ := Option.ne_none_iff_exists'.mp hi
  rw [h.bc, hn, h.node i n hn]

theorem Extends.path {t t1 : Table k K V} (h : Extends t t1) {j : Fin k} {b : Nat} {c : List Nat}
    (hp : Path (t.cell j) (.head b) c) (hc : ∀ i ∈ c, t.node i ≠ none) : Path (t1.cell j) (.head b) c :=
  hp.congr (h.cell (fun i hi => (by cases hi))) (fun i hi => h.cell (fun i' e => (by cases e; exact hc i hi)))

theorem Extends.chained {t t1 : Table k K V} (h : Extends t t1) {j : Fin k} {S : Nat → Prop} (hc : Chained t j S)
    (hS : ∀ i, S i → t.node i ≠ none) : Chained t1 j S := by
  intro b hb
  rw [h.bc] at hb
  obtain ⟨c, g1, g2, g3⟩ := hc b hb
  refine ⟨c, h.path g1 (fun i hi => hS i ((g3 i).mp hi).1), g2, ?_⟩
  intro i
  rw [g3 i]
  exact and_congr_right fun hi => (h.mem (hS i hi)).symm

theorem Extends.refTo {t t1 : Table k K V} (h : Extends t t1) {j : Fin k} {S : Nat → Prop} {n : Node k K V} {pos : Nat} {r : Ref}
    (hr : RefTo t S n pos j r) (hS : ∀ i, S i → t.node i ≠ none) : RefTo t1 S n pos j r := by
  obtain ⟨x, y, g1, g2, g3, g4⟩ := hr
  refine ⟨x, y, ?_, g2, ?_, ?_⟩
  · rw [h.bc]; exact h.path g1 (fun i hi => hS i ((g3 i).mp hi).1)
  · intro i
    rw [g3 i, h.bc]
    refine and_congr_right fun hi => ?_
    have := h.mem (j := j) (i := i) (b := n.hash j % t.bc) (hS i hi)
    rw [h.bc] at this
    exact this.symm
  · rw [h.bc]; exact g4

theorem Extends.valid {t t1 : Table k K V} (h : Extends t t1) {r : Ref} (hr : t.Valid r) : t1.Valid r := by
  cases r with
  | head b => show b < t1.bc; rw [h.bc]; exact hr
  | next i =>
    obtain ⟨n, hn⟩ := Option.ne_none_iff_exists'.mp hr.2
    exact ⟨by rw [h.cap]; exact hr.1, by rw [h.node i n hn]; simp⟩

/-- `find_chain_ptr` on a chain that does not contain `pos`. -/
theorem findChainPtr_none {t : Table k K V} {j : Fin k} {pos : Nat} : ∀ {fuel : Nat} {r : Ref} {x : List Nat},
    Path (t.cell j) r x → pos ∉ x → t.Valid r → (∀ i ∈ x, t.Valid (.next i)) → x.length < fuel →
    t.findChainPtr j pos fuel r = .ok (endRef r x) := by
  intro fuel
  induction fuel with
  | zero => intro r x _ _ _ _ h; omega
  | succ fuel ih =>
    intro r x hp hx hr hv hl
    unfold Table.findChainPtr
    rw [readRef_ok j hr, bind_ok]
    cases x with
    | nil =>
      rw [show t.cell j r = none from hp]
      rfl
    | cons i x =>
      rw [show t.cell j r = some i from hp.1]
      simp only
      rw [if_neg (fun e : i = pos => hx (e ▸ List.mem_cons_self))]
      exact ih hp.2 (fun h => hx (List.mem_cons_of_mem _ h)) (hv i List.mem_cons_self)
        (fun i' hi => hv i' (List.mem_cons_of_mem _ hi)) (by simp only [List.length_cons] at hl; omega)

/-- A node behind the chained ones that is in no chain. -/
structure Orphan (hash : K → Nat) (t : Table k K V) (l : List (Elem k K V)) (e : Elem k K V) (t1 : Table k K V) : Prop where
  inv : Inv hash t l
  ext : Extends t t1
  size : t1.size = l.length + 1
  le_cap : l.length < t1.cap
  last : ∃ n, t1.node l.length = some n ∧ (n.key, n.val) = e
  bc : 0 < t.bc

theorem Orphan.iterate {hash : K → Nat} {t t1 : Table k K V} {l : List (Elem k K V)} {e : Elem k K V}
    (h : Orphan hash t l e t1) : t1.iterate = .ok (l ++ [e]) := by
  unfold Table.iterate
  rw [h.size, List.range_succ, List.mapM_append]
  have h1 : (List.range l.length).mapM (fun i => do
      let n ← t1.readNode i
      (.ok (n.key, n.val) : M (Elem k K V))) = .ok l := by
    refine mapM_range fun i hi => ?_
    obtain ⟨n, hr, hn, he⟩ := h.inv.toArr.read hi
    rw [h.ext.readNode hr, bind_ok, he]
  obtain ⟨n, hn, he⟩ := h.last
  rw [h1, bind_ok, List.mapM_cons, readNode_ok h.le_cap hn, bind_ok, he, bind_ok]
  rfl

theorem Orphan.lookup {hash : K → Nat} {t t1 : Table k K V} {l : List (Elem k K V)} {e : Elem k K V}
    (h : Orphan hash t l e t1) (j : Fin k) (x : K) : t1.lookup hash j x = .ok (l.find? (fun e => e.1 j = x)) := by
  have := lookup_ok h.inv j x
  unfold Table.lookup at this ⊢
  obtain ⟨o, ho, e1⟩ := bind_eq_ok this
  rw [h.ext.findNode ho, bind_ok]
  obtain ⟨i, r⟩ := o
  simp only at e1 ⊢
  cases i with
  | none => exact e1
  | some i =>
    simp only at e1 ⊢
    obtain ⟨n, hn, e2⟩ := bind_eq_ok e1
    rw [h.ext.readNode hn, bind_ok]
    exact e2

/-- Erasing another element moves the orphan into the hole, and its chain is searched in vain. -/
theorem Orphan.eraseAt {hash : K → Nat} {t t1 : Table k K V} {l : List (Elem k K V)} {e : Elem k K V}
    (h : Orphan hash t l e t1) (hk : 0 < k) {pos : Nat} (hp : pos < l.length) : t1.eraseAt pos = .error .assertFail := by
  have hi := h.inv
  have hb := h.bc
  obtain ⟨n, hr, hn, _⟩ := hi.toArr.read hp
  obtain ⟨r, e1, h1⟩ := slices_ok hi hb hn (List.finRange k)
  have hS : ∀ i, i < l.length → t.node i ≠ none := by
    intro i hil
    obtain ⟨m, hm, _⟩ := hi.toArr.node_some hil
    rw [hm]; simp
  have hn1 : t1.node pos = some n := h.ext.node pos n hn
  have hnd : (((List.finRange k).map fun j => (j, r j)).map (·.1)) = List.finRange k := by
    rw [List.map_map]; exact List.map_id _
  obtain ⟨t2, e2, s2, c2, _⟩ := fold_components (comp := fun a : Fin k × Ref => a.1)
    (step := fun (t : Table k K V) (jr : Fin k × Ref) => do
      let n ← t.readNode pos
      t.writeRef jr.1 jr.2 (n.next jr.1))
    (F := fun a => setc (t1.cell a.1) a.2 (t1.cell a.1 (.next pos))) (t := t1) (as := (List.finRange k).map fun j => (j, r j))
    (by rw [hnd]; exact List.nodup_finRange k)
    (by
      intro t' a ha hs hc
      obtain ⟨j, _, rfl⟩ := List.mem_map.mp ha
      obtain ⟨n1, hn1', _⟩ := SameBut.node_some hs hn1
      have hv : t'.Valid (r j) := hs.valid (h.ext.valid ((h1 j).valid hi.toArr hb (fun i hi => hi)))
      obtain ⟨t2, e, s, c, f⟩ := writeRef_ok j (n1.next j) hv
      refine ⟨t2, ?_, s, ?_, f⟩
      · rw [readNode_ok (by rw [hs.cap]; have := h.le_cap; omega) hn1', bind_ok]; exact e
      · rw [c, hc]
        congr 1
        rw [← hc]
        unfold Table.cell
        simp only
        rw [hn1']
        rfl)
  unfold Table.eraseAt
  rw [if_neg (by rw [h.size]; omega), h.ext.readNode hr, bind_ok, h.ext.slices e1, bind_ok]
  unfold Table.eraseNode
  rw [e2, bind_ok, if_neg (by rw [s2.size, h.size]; omega), if_pos (by rw [s2.size, h.size]; omega)]
  unfold Table.fillHole
  rw [hnd]
  obtain ⟨k', rfl⟩ : ∃ k', k = k' + 1 := ⟨k - 1, by omega⟩
  rw [List.finRange_succ, List.foldlM_cons]
  have hch : Chained t2 0 (fun i => i < l.length ∧ i ≠ pos) := by
    refine (h.ext.chained (hi.chained 0) hS).unlink hn1 (h.ext.refTo (h1 0) hS) s2 ?_
    exact c2 (0, r 0) (List.mem_map.mpr ⟨0, List.mem_finRange 0, rfl⟩)
  obtain ⟨m, hm, _⟩ := h.last
  obtain ⟨m2, hm2, _, _, _⟩ := SameBut.node_some s2 hm
  have hb2 : 0 < t2.bc := by rw [s2.bc, h.ext.bc]; exact hb
  obtain ⟨c, g1, g2, g3⟩ := hch (m2.hash 0 % t2.bc) (Nat.mod_lt _ hb2)
  have hv0 : t2.Valid (.head (m2.hash 0 % t2.bc)) := Nat.mod_lt _ hb2
  have hvc : ∀ i ∈ c, t2.Valid (.next i) := by
    intro i hic
    have := ((g3 i).mp hic).1.1
    exact s2.valid (h.ext.valid (hi.toArr.valid this))
  have hlen : c.length < t2.cap + 1 := by
    rw [s2.cap, h.ext.cap]
    exact Chained.length_le hi.toArr g2 (fun i hic => ((g3 i).mp hic).1.1)
  have hmc : t2.moveChain (t2.size - 1) pos 0 = .error .assertFail := by
    unfold Table.moveChain
    rw [show t2.size - 1 = l.length by rw [s2.size, h.size]; omega,
      readNode_ok (by rw [s2.cap]; exact h.le_cap) hm2, bind_ok, getChain_pos hb2]
    unfold Table.deref
    simp only [bind_ok]
    rw [findChainPtr_none g1 (fun g => by have := ((g3 _).mp g).1.1; omega) hv0 hvc hlen, bind_ok]
    have hve : t2.Valid (endRef (.head (m2.hash 0 % t2.bc)) c) := by
      rcases endRef_cases (.head (m2.hash 0 % t2.bc)) c with ⟨_, e⟩ | ⟨i, hic, e⟩
      · rw [e]; exact hv0
      · rw [e]; exact hvc i hic
    rw [readRef_ok 0 hve, bind_ok, g1.end_none]
  rw [hmc]
  rfl

/-! ## A chain with one node taken out and put back elsewhere -/

/-- The only cell that points to a chained node. -/
theorem RefTo.only {t : Table k K V} {j : Fin k} {S : Nat → Prop} {n : Node k K V} {pos : Nat} {r : Ref}
    (hch : Chained t j S) (hr : RefTo t S n pos j r) (hn : t.node pos = some n) {r' : Ref}
    (hc : t.cell j r' = some pos) (hr' : (∃ b, r' = .head b ∧ b < t.bc) ∨ ∃ i, r' = .next i ∧ S i) (hb : 0 < t.bc)
    (hS : ∀ i, S i → t.node i ≠ none) : r' = r := by
  obtain ⟨x, y, g1, g2, g3, g4⟩ := hr
  -- the position of `pos` in its chain is unique
  have huni : ∀ a c, x ++ pos :: y = a ++ pos :: c → a = x := by
    intro a c e
    have hx1 := not_mem_of_nodup g2
    have hx2 := not_mem_of_nodup (e ▸ g2)
    have h1 := List.takeWhile_append_of_pos (p := fun i => decide (i ≠ pos)) (l₁ := x) (l₂ := pos :: y)
      (by intro a ha; simp only [decide_eq_true_eq]; exact fun e => hx1 (e ▸ ha))
    have h2 := List.takeWhile_append_of_pos (p := fun i => decide (i ≠ pos)) (l₁ := a) (l₂ := pos :: c)
      (by intro a ha; simp only [decide_eq_true_eq]; exact fun e => hx2 (e ▸ ha))
    rw [e, h2] at h1
    simpa using h1
  -- a chain that contains `pos` is its chain
  have hsame : ∀ b c, Path (t.cell j) (.head b) c → (∀ i, i ∈ c ↔ S i ∧ ∃ m, t.node i = some m ∧ m.hash j % t.bc = b) →
      pos ∈ c → b = n.hash j % t.bc ∧ c = x ++ pos :: y := by
    intro b c hp hm hpc
    obtain ⟨_, m, hm1, hm2⟩ := (hm pos).mp hpc
    rw [hn] at hm1
    cases hm1
    refine ⟨hm2.symm, ?_⟩
    rw [← hm2] at hp
    exact hp.unique g1
  rcases hr' with ⟨b, rfl, hbb⟩ | ⟨i, rfl, hi⟩
  · obtain ⟨c, q1, q2, q3⟩ := hch b hbb
    cases c with
    | nil => rw [show t.cell j (.head b) = none from q1] at hc; cases hc
    | cons a c =>
      have : a = pos := by have := q1.1; rw [hc] at this; cases this; rfl
      subst this
      obtain ⟨hbe, hce⟩ := hsame b _ q1 q3 List.mem_cons_self
      have := huni [] c hce.symm
      rw [g4, ← this, hbe]
      rfl
  · obtain ⟨m, hm⟩ := Option.ne_none_iff_exists'.mp (hS i hi)
    obtain ⟨c, q1, q2, q3⟩ := hch (m.hash j % t.bc) (Nat.mod_lt _ hb)
    have hic : i ∈ c := (q3 i).mpr ⟨hi, m, hm, rfl⟩
    obtain ⟨a, d, e⟩ := List.append_of_mem hic
    have hpd : ∃ d', d = pos :: d' := by
      rw [e, show a ++ i :: d = (a ++ [i]) ++ d by simp] at q1
      have hp := q1.append
      rw [endRef_append] at hp
      cases d with
      | nil => rw [show t.cell j (.next i) = none from hp] at hc; cases hc
      | cons p d' =>
        have := hp.1
        rw [hc] at this
        cases this
        exact ⟨d', rfl⟩
    obtain ⟨d', rfl⟩ := hpd
    obtain ⟨hbe, hce⟩ := hsame _ c q1 q3 (by rw [e]; simp)
    have hax := huni (a ++ [i]) d' (by rw [← hce, e]; simp)
    rw [g4, ← hax, endRef_append]

/-- A node that no cell points to is not found. -/
theorem findLoop_never {t : Table k K V} {j : Fin k} {x : K} {h last : Nat}
    (hc : ∀ r, t.readRef j r ≠ .ok (some last)) (hm : ∀ i n, t.node i = some n → n.key j = x → i = last) :
    ∀ {fuel : Nat} {r : Ref} {i : Nat} {r' : Ref}, t.findLoop j x h fuel r ≠ .ok (some i, r') := by
  intro fuel
  induction fuel with
  | zero => intro r i r' e; cases e
  | succ fuel ih =>
    intro r i r' e
    unfold Table.findLoop at e
    obtain ⟨o, ho, e⟩ := bind_eq_ok e
    cases o with
    | none => cases e
    | some a =>
      simp only at e
      obtain ⟨n, hn, e⟩ := bind_eq_ok e
      by_cases hx : n.hash j = h ∧ x = n.key j
      · have hna : t.node a = some n := by
          unfold Table.readNode at hn
          split at hn
          · cases hq : t.node a with
            | none => rw [hq] at hn; cases hn
            | some m => rw [hq] at hn; cases hn; rfl
          · cases hn
        exact hc r (hm a n hna hx.2.symm ▸ ho)
      · rw [if_neg hx] at e
        exact ih e

theorem lookup_never {hash : K → Nat} {t : Table k K V} {j : Fin k} {x : K} {last : Nat}
    (hc : ∀ r, t.readRef j r ≠ .ok (some last)) (hm : ∀ i n, t.node i = some n → n.key j = x → i = last)
    (e : Elem k K V) : t.lookup hash j x ≠ .ok (some e) := by
  intro he
  unfold Table.lookup at he
  obtain ⟨o, ho, he⟩ := bind_eq_ok he
  unfold Table.findNode at ho
  cases hg : t.getChain (hash x) with
  | none => rw [hg] at ho; cases ho; cases he
  | some r =>
    rw [hg] at ho
    simp only at ho
    obtain ⟨p, hp, ho⟩ := bind_eq_ok ho
    obtain ⟨i, r'⟩ := p
    cases ho
    cases i with
    | none => cases he
    | some i => exact findLoop_never hc hm hp

/-- What is left if the assignment of the last element's value throws. -/
theorem eraseMoveThrow_ok {hash : K → Nat} {t : Table k K V} {l : List (Elem k K V)} (h : Inv hash t l) {pos : Nat}
    (hp : pos + 1 < l.length) :
    ∃ t', t.eraseMoveThrow pos = .ok (some t') ∧ t.SameBut t' ∧
      ∀ j, t.cell j (.next pos) ≠ some (l.length - 1) → ∀ r, t'.readRef j r ≠ .ok (some (l.length - 1)) := by
  have hpl : pos < l.length := by omega
  have hb : 0 < t.bc := by
    rcases Nat.eq_zero_or_pos t.bc with e | e
    · rw [h.empty e] at hp; simp at hp
    · exact e
  have hsz := h.size
  have hle := h.le_cap
  obtain ⟨n, hr, hn, _⟩ := h.toArr.read hpl
  obtain ⟨rp, e1, h1⟩ := slices_ok h hb hn (List.finRange k)
  have hnd : (((List.finRange k).map fun j => (j, rp j)).map (·.1)) = List.finRange k := by
    rw [List.map_map]; exact List.map_id _
  obtain ⟨t1, e2, s1, c1, _⟩ := fold_components (comp := fun a : Fin k × Ref => a.1)
    (step := fun (t : Table k K V) (jr : Fin k × Ref) => do
      let n ← t.readNode pos
      t.writeRef jr.1 jr.2 (n.next jr.1))
    (F := fun a => setc (t.cell a.1) a.2 (t.cell a.1 (.next pos))) (t := t) (as := (List.finRange k).map fun j => (j, rp j))
    (by rw [hnd]; exact List.nodup_finRange k)
    (by
      intro t' a ha hs hc
      obtain ⟨j, _, rfl⟩ := List.mem_map.mp ha
      obtain ⟨n1, hn1', _⟩ := SameBut.node_some hs hn
      have hv : t'.Valid (rp j) := hs.valid ((h1 j).valid h.toArr hb (fun i hi => hi))
      obtain ⟨t2, e, s, c, f⟩ := writeRef_ok j (n1.next j) hv
      refine ⟨t2, ?_, s, ?_, f⟩
      · rw [readNode_ok (by rw [hs.cap]; omega) hn1', bind_ok]; exact e
      · rw [c, hc]
        congr 1
        rw [← hc]
        unfold Table.cell
        simp only
        rw [hn1']
        rfl)
  have a1 : Arr hash t1 l := h.toArr.sameBut s1
  have hb1 : 0 < t1.bc := by rw [s1.bc]; exact hb
  have cc1 : ∀ j, t1.cell j = setc (t.cell j) (rp j) (t.cell j (.next pos)) :=
    fun j => c1 (j, rp j) (List.mem_map.mpr ⟨j, List.mem_finRange j, rfl⟩)
  have ch1 : ∀ j, Chained t1 j (fun i => i < l.length ∧ i ≠ pos) :=
    fun j => (h.chained j).unlink hn (h1 j) s1 (cc1 j)
  have hsz1 : t1.size = l.length := a1.size
  obtain ⟨ne, hne, hnee⟩ := a1.node_some (i := l.length - 1) (by omega)
  have hS : ∀ i, (i < l.length ∧ i ≠ pos) → i < l.length := fun i hi => hi.1
  have hlastS : (l.length - 1 < l.length ∧ l.length - 1 ≠ pos) := ⟨by omega, by omega⟩
  have := fun j => moveChain_ok a1 hb1 hS hne hlastS (ch1 j) (dst := pos)
  choose r hrr _ using this
  have hSn : ∀ i, (i < l.length ∧ i ≠ pos) → t1.node i ≠ none := by
    intro i hi
    obtain ⟨m, hm, _⟩ := a1.node_some hi.1
    rw [hm]; simp
  obtain ⟨t2, e3, s2, c2, _⟩ := fold_components (comp := id)
    (step := fun (t : Table k K V) j => t.moveChain (t.size - 1) pos j)
    (F := fun j => setc (t1.cell j) (r j) (some pos)) (t := t1) (as := List.finRange k)
    (by rw [List.map_id]; exact List.nodup_finRange k)
    (by
      intro t' j _ hs hc
      simp only [id_eq] at hc
      obtain ⟨n', hn', _, _, e3⟩ := SameBut.node_some hs hne
      obtain ⟨r', hr', t'', e, s, c, f⟩ := moveChain_ok (a1.sameBut hs) (hs.bc ▸ hb1) hS hn' hlastS
        ((ch1 j).congr hs hc) (dst := pos)
      refine ⟨t'', ?_, s, ?_, f⟩
      · rw [hs.size, hsz1]; exact e
      · simp only [id_eq]
        rw [c, hc]
        have : r' = r j := by
          have hcell : t1.cell j r' = some (l.length - 1) := by
            obtain ⟨x, y, p1, _, _, p4⟩ := hr'
            rw [← hc, p4]
            exact p1.point
          refine RefTo.only (ch1 j) (hrr j) hne hcell ?_ hb1 hSn
          obtain ⟨x, y, p1, p2, p3, p4⟩ := hr'
          rcases endRef_cases (.head (n'.hash j % t'.bc)) x with ⟨_, e⟩ | ⟨z, hz, e⟩
          · exact Or.inl ⟨_, p4.trans e, by rw [hs.bc]; exact Nat.mod_lt _ hb1⟩
          · exact Or.inr ⟨z, p4.trans e, ((p3 z).mp (List.mem_append_left _ hz)).1⟩
        rw [this])
  unfold Table.eraseMoveThrow
  rw [if_pos (by omega), hr, bind_ok, e1, bind_ok, e2, bind_ok, hnd, e3, bind_ok]
  refine ⟨t2, rfl, s1.trans s2, ?_⟩
  intro j hj ref e
  have hc2 : t2.cell j = setc (t1.cell j) (r j) (some pos) := c2 j (List.mem_finRange j)
  -- the reference is one of a bucket or of a node
  have hcell : t2.cell j ref = some (l.length - 1) ∧ ((∃ b, ref = .head b ∧ b < t1.bc) ∨ ∃ i, ref = .next i ∧ i < l.length) := by
    cases ref with
    | head b =>
      unfold Table.readRef at e
      simp only at e
      split at e
      · rename_i hbb
        refine ⟨by injection e, Or.inl ⟨b, rfl, ?_⟩⟩
        rw [s2.bc] at hbb
        exact hbb
      · cases e
    | next i =>
      unfold Table.readRef at e
      simp only at e
      obtain ⟨m, hm, e⟩ := bind_eq_ok e
      have hmi : t2.node i = some m := by
        unfold Table.readNode at hm
        split at hm
        · cases hq : t2.node i with
          | none => rw [hq] at hm; cases hm
          | some m' => rw [hq] at hm; cases hm; rfl
        · cases hm
      refine ⟨?_, Or.inr ⟨i, rfl, (a1.sameBut s2).node_lt hmi⟩⟩
      unfold Table.cell
      simp only
      rw [hmi]
      injection e
  obtain ⟨hcl, href⟩ := hcell
  rw [hc2] at hcl
  unfold setc at hcl
  by_cases hrj : ref = r j
  · rw [if_pos hrj] at hcl
    injection hcl with hcl
    omega
  · rw [if_neg hrj] at hcl
    by_cases hpn : ref = .next pos
    · subst hpn
      rw [cc1 j] at hcl
      unfold setc at hcl
      split at hcl
      · exact hj hcl
      · exact hj hcl
    · refine hrj (RefTo.only (ch1 j) (hrr j) hne hcl ?_ hb1 hSn)
      rcases href with ⟨b, g1, g2⟩ | ⟨i, g1, g2⟩
      · exact Or.inl ⟨b, g1, g2⟩
      · refine Or.inr ⟨i, g1, g2, ?_⟩
        intro hip
        exact hpn (by rw [g1, hip])

/-! ## Copies -/

theorem copyDataThrow_ok {hash : K → Nat} {t other : Table k K V} {l : List (Elem k K V)} (h : Inv hash other l) {q : Nat}
    (hq : q < l.length) (hs : t.size = 0) (hn : ∀ i, t.node i = none) :
    ∃ t', t.copyDataThrow other q = .ok (some t') ∧ Inv hash t' (l.take q) ∧ t'.lf = t.lf ∧ 0 < t'.bc ∧ l.length ≤ t'.cap ∧
      t'.cap = (if t.cap < l.length then l.length else t.cap) := by
  have hob : 0 < other.bc := by
    rcases Nat.eq_zero_or_pos other.bc with e | e
    · rw [h.empty e] at hq; cases hq
    · exact e
  have hsz := h.size
  unfold Table.copyDataThrow
  rw [if_neg (by omega), if_pos (by omega)]
  simp only
  generalize ht0 : ({ t with
        bc := if t.bc < other.bc then other.bc else t.bc
        head := fun _ _ => none
        cap := if t.cap < other.size then other.size else t.cap
        node := if t.cap < other.size then fun _ => none else t.node } : Table k K V) = t0
  have hn0 : ∀ i, t0.node i = none := by
    intro i
    rw [← ht0]
    simp only
    split
    · rfl
    · exact hn i
  have hs0 : t0.size = 0 := by rw [← ht0]; exact hs
  have hb0 : 0 < t0.bc := by rw [← ht0]; simp only; split <;> omega
  have hc0 : l.length ≤ t0.cap := by rw [← ht0]; simp only; split <;> omega
  have hlf0 : t0.lf = t.lf := by rw [← ht0]
  have hcc0 : t0.cap = if t.cap < l.length then l.length else t.cap := by rw [← ht0]; simp only; rw [hsz]
  have hh0 : ∀ b j, t0.head b j = none := by intro b j; rw [← ht0]
  obtain ⟨t', e, a', c', b', p', f'⟩ := copyLoop_ok h hn0 hs0 hb0 hc0 hh0 q (Nat.le_of_lt hq)
  rw [e, bind_ok]
  have hlen : (l.take q).length = q := by rw [List.length_take]; omega
  refine ⟨t', rfl, ⟨a', ?_, fun e => by omega, ?_⟩, f'.trans hlf0, by omega, by omega, by rw [← hcc0]; omega⟩
  · intro j
    rw [List.map_take]
    exact (h.uniq j).sublist (List.take_sublist _ _)
  · rw [hlen]; exact c'

theorem iterate_dead {hash : K → Nat} {t : Table k K V} {l : List (Elem k K V)} (h : Inv hash t l) {q : Nat} (hq : 0 < q)
    (hl : l ≠ []) : ({ t with node := fun i => if i < q then none else t.node i } : Table k K V).iterate = .error .deadRead := by
  have hlen : 0 < l.length := List.length_pos_iff.mpr hl
  have hsz := h.size
  have hle := h.le_cap
  unfold Table.iterate
  simp only
  obtain ⟨m, hm⟩ : ∃ m, t.size = m + 1 := ⟨t.size - 1, by omega⟩
  rw [hm, List.range_succ_eq_map, List.mapM_cons]
  have : ({ t with node := fun i => if i < q then none else t.node i } : Table k K V).readNode 0 = .error .deadRead := by
    unfold Table.readNode
    rw [if_pos (show 0 < t.cap by omega)]
    simp only
    rw [if_pos hq]
  rw [← hm, this]
  rfl

theorem destroy_dead {hash : K → Nat} {t : Table k K V} {l : List (Elem k K V)} (h : Inv hash t l) {q : Nat} (hq : 0 < q)
    (hl : l ≠ []) : ({ t with node := fun i => if i < q then none else t.node i } : Table k K V).destroy = .error .deadDestroy := by
  have hlen : 0 < l.length := List.length_pos_iff.mpr hl
  have hsz := h.size
  unfold Table.destroy Table.clearData
  simp only
  obtain ⟨m, hm⟩ : ∃ m, t.size = m + 1 := ⟨t.size - 1, by omega⟩
  rw [hm, List.range_succ_eq_map, List.foldlM_cons]
  have : Table.destroyNode ({ t with size := m + 1, node := fun i => if i < q then none else t.node i } : Table k K V) 0 =
      .error .deadDestroy := by
    unfold Table.destroyNode
    simp only
    rw [if_pos hq]
  rw [this]
  rfl

theorem resizeThrow_ok {hash : K → Nat} {t : Table k K V} {l : List (Elem k K V)} (h : Inv hash t l) {q : Nat} (hq : q < l.length) :
    t.resizeThrow q = .ok (some ({ t with node := fun i => if i < q then none else t.node i }, l.take q)) := by
  have hsz := h.size
  unfold Table.resizeThrow
  rw [if_pos (by omega)]
  have : (List.range q).mapM (fun i => do
      let n ← t.readNode i
      (.ok (n.key, n.val) : M (Elem k K V))) = .ok (l.take q) := by
    have hlen : (l.take q).length = q := by rw [List.length_take]; omega
    have := mapM_range (f := fun i => do
      let n ← t.readNode i
      (.ok (n.key, n.val) : M (Elem k K V))) (l := l.take q) (by
        intro i hi
        obtain ⟨n, hr, hn, he⟩ := h.toArr.read (i := i) (by omega)
        rw [hr, bind_ok, he, List.getElem_take])
    rw [hlen] at this
    exact this
  rw [this, bind_ok]

/-! ## Calls, continued -/

/-- Nothing has happened yet when a call throws, except that room was made. -/
theorem insertCall_ok {hash : K → Nat} {t t1 t2 : Table k K V} {l : List (Elem k K V)} (h : Inv hash t l)
    (e1 : t.maybeResize = .ok t1) (e2 : t1.maybeRehash = .ok t2) (i2 : Inv hash t2 l) (p2 : 0 < t2.bc) (b : Nat) (key : Fin k → K)
    (v : V) :
    t.insertCall hash b key v = .ok (t2, none) ∨
      (k ≤ b ∧ ∃ q, t.insertCall hash b key v = .ok (q.1, some q.2) ∧ t.insert hash key v = .ok q) := by
  obtain ⟨r, e3, hr⟩ := locate_ok i2.toArr i2.uniq i2.chained p2 key
  obtain ⟨c, e4, hc⟩ := locateCalls_ok e3
  obtain ⟨q, e5, _⟩ := insert_ok h key v
  unfold Table.insertCall
  rw [e1, bind_ok, e2, bind_ok, e4, bind_ok]
  by_cases hb : b < c
  · rw [if_pos hb]
    exact Or.inl rfl
  · rw [if_neg hb]
    right
    refine ⟨by omega, q, ?_, e5⟩
    have e6 := e5
    unfold Table.insert at e6
    rw [e1, bind_ok, e2, bind_ok] at e6
    obtain ⟨found, ef, e6⟩ := bind_eq_ok e6
    rw [ef, bind_ok]
    cases hf : found.findSome? (fun x => x.2.1) with
    | some i =>
      rw [hf] at e6
      cases e6
      rfl
    | none =>
      rw [hf] at e6
      simp only at e6 ⊢
      obtain ⟨p, ep, e6⟩ := bind_eq_ok e6
      obtain ⟨t3, e7, e6⟩ := bind_eq_ok e6
      cases e6
      rw [ep, bind_ok]
      simp only at e7 ⊢
      rw [e7, bind_ok]

/-- The new node is in the array and in no chain when a call throws. -/
theorem emplaceCall_ok {hash : K → Nat} {t t1 t2 : Table k K V} {l : List (Elem k K V)} (h : Inv hash t l)
    (e1 : t.maybeResize = .ok t1) (e2 : t1.maybeRehash = .ok t2) (i2 : Inv hash t2 l) (p2 : 0 < t2.bc) (hcap : t2.size < t2.cap)
    (b : Nat) (g : Fin k → Nat) (key : Fin k → K) (v : V) :
    (∃ t', t.emplaceCall hash b g key v = .ok (t', none) ∧ Orphan hash t2 l (key, v) t') ∨
      (k ≤ b ∧ ∃ q, t.emplaceCall hash b g key v = .ok (q.1, some q.2) ∧ t.emplace hash key v = .ok q) := by
  obtain ⟨r, e3, hr⟩ := locate_ok i2.toArr i2.uniq i2.chained p2 key
  have hsz : t2.size = l.length := i2.size
  have hext : ∀ m, Extends t2 ({ t2 with size := t2.size + 1, node := upd t2.node t2.size (some m) } : Table k K V) := by
    intro m
    refine ⟨rfl, rfl, rfl, ?_⟩
    intro i n hn
    have := i2.toArr.node_lt hn
    show upd t2.node t2.size (some m) i = some n
    rw [upd_ne _ _ (by omega)]
    exact hn
  obtain ⟨c, e4, hc⟩ := locateCalls_ok ((hext ⟨key, v, fun _ => 0, fun _ => none⟩).locate e3)
  obtain ⟨q, e5, _⟩ := emplace_ok h key v
  unfold Table.emplaceCall
  rw [e1, bind_ok, e2, bind_ok, pushNode_ok i2.toArr hcap, bind_ok]
  simp only
  rw [e4, bind_ok]
  by_cases hb : b < c
  · rw [if_pos hb]
    left
    unfold Table.setHashes
    generalize hu : upd t2.node t2.size (some (⟨key, v, fun _ => 0, fun _ => none⟩ : Node k K V)) = u
    have hul : u t2.size = some ⟨key, v, fun _ => 0, fun _ => none⟩ := by rw [← hu]; exact upd_same ..
    rw [readNode_ok (t := ({ t2 with size := t2.size + 1, node := u } : Table k K V)) hcap hul, bind_ok, bind_ok]
    simp only
    refine ⟨_, rfl, i2, ⟨rfl, rfl, rfl, ?_⟩, by simp only; omega, by simp only; omega, ?_, p2⟩
    · intro i n hn
      have := i2.toArr.node_lt hn
      show upd _ _ _ i = some n
      rw [upd_ne _ _ (by omega), ← hu, upd_ne _ _ (by omega)]
      exact hn
    · refine ⟨⟨key, v, g, fun _ => none⟩, ?_, rfl⟩
      show upd _ _ _ l.length = _
      rw [← hsz]
      exact upd_same ..
  · rw [if_neg hb]
    right
    refine ⟨by omega, q, ?_, e5⟩
    have e6 := e5
    unfold Table.emplace at e6
    rw [e1, bind_ok, e2, bind_ok, pushNode_ok i2.toArr hcap, bind_ok] at e6
    simp only at e6
    obtain ⟨found, ef, e6⟩ := bind_eq_ok e6
    rw [ef, bind_ok]
    cases hf : found.findSome? (fun x => x.2.1) with
    | some i =>
      rw [hf] at e6
      simp only at e6 ⊢
      obtain ⟨p, ep, e6⟩ := bind_eq_ok e6
      cases e6
      rw [ep, bind_ok]
    | none =>
      rw [hf] at e6
      simp only at e6 ⊢
      obtain ⟨t3, e7, e6⟩ := bind_eq_ok e6
      cases e6
      rw [e7, bind_ok]

end Tpp.Dense
