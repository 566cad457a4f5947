import Verif.Dense.Hist
import Verif.Swiss.Equiv

/-!
# User-defined key equality and transparent lookup (dense table)

As in `Verif.Swiss.Equiv`: `key_equal` is any equivalence that the hash function respects.  An element is stored as a whole in the
field `val` of a node; the field `key` holds the classes of its key components and is a ghost: the functions below compare the
components of `val.1` by means of `cmp`, and the functions they share with the other files do not look at keys.
-/

set_option linter.unusedSectionVars false

namespace Tpp.Dense

variable {k : Nat} {K V : Type} (E : KeyEq K)

/-- A table of elements with key components in `K` (dense_table.hpp 904-912). -/
abbrev ETable (k : Nat) {K : Type} (E : KeyEq K) (V : Type) := Table k E.Cls (Elem k K V)

/-- The classes of the key components: a ghost, see above (dense_table.hpp 490-491). -/
def clsOf (key : Fin k → K) : Fin k → E.Cls := fun j => E.cls (key j)

namespace Table

/-- The loop of `find_node` (dense_table.hpp 538-545); `p` is `cmp(key, ·)`. -/
def findLoopBy (p : K → Bool) {Q : Type} (t : Table k Q (Elem k K V)) (j : Fin k) (h : Nat) : Nat → Ref → M (Option Nat × Ref)
  | 0, _ => .error .diverge
  | fuel + 1, r => do
    match ← t.readRef j r with
    | none => .ok (none, r)
    | some i =>
      let n ← t.readNode i
      if n.hash j = h ∧ p (n.val.1 j) = true then .ok (some i, r) else findLoopBy p t j h fuel (.next i)

/-- `find_node` (dense_table.hpp 534-547). -/
def findNodeBy (p : K → Bool) {Q : Type} (t : Table k Q (Elem k K V)) (j : Fin k) (h : Nat) : M (Option Nat × Option Ref) :=
  match t.getChain h with
  | none => .ok (none, none)
  | some r => do
    let (n, r) ← t.findLoopBy p j h (t.cap + 1) r
    .ok (n, some r)

/-- `find_node` for all components (dense_table.hpp 628, 655, 683). -/
def locateE (t : ETable k E V) (key : Fin k → K) : M (List (Fin k × Option Nat × Option Ref)) :=
  (List.finRange k).mapM fun j => do
    let (n, r) ← t.findNodeBy (E.cmp (key j)) j (E.hash (key j))
    .ok (j, n, r)

/-- `do_insert` (dense_table.hpp 674-697), `do_try_emplace` (646-671). -/
def insertE (t : ETable k E V) (key : Fin k → K) (v : V) : M (ETable k E V × Nat × Bool) := do
  let t ← t.maybeResize
  let t ← t.maybeRehash
  let found ← locateE E t key
  match found.findSome? (fun x => x.2.1) with
  | some i => .ok (t, i, false)
  | none =>
    let (t, pos) ← t.pushNode (clsOf E key) (key, v)
    let t ← t.commitNode pos (found.map fun x => (x.1, x.2.2)) (fun j => E.hash (key j))
    .ok (t, pos, true)

/-- `do_emplace` (dense_table.hpp 620-644). -/
def emplaceE (t : ETable k E V) (key : Fin k → K) (v : V) : M (ETable k E V × Nat × Bool) := do
  let t ← t.maybeResize
  let t ← t.maybeRehash
  let (t, pos) ← t.pushNode (clsOf E key) (key, v)
  let found ← locateE E t key
  match found.findSome? (fun x => x.2.1) with
  | some i =>
    let t ← t.popNode
    .ok (t, i, false)
  | none =>
    let t ← t.commitNode pos (found.map fun x => (x.1, x.2.2)) (fun j => E.hash (key j))
    .ok (t, pos, true)

/-- `do_insert_or_assign` (dense_table.hpp 699-723) with `replace` (table_common.hpp 246-258): the stored key stays. -/
def assignE (t : ETable 1 E V) (x : K) (v : V) : M (ETable 1 E V × Nat × Bool) := do
  let t ← t.maybeResize
  let t ← t.maybeRehash
  let (i, r) ← t.findNodeBy (E.cmp x) 0 (E.hash x)
  match i with
  | none =>
    let (t, pos) ← t.pushNode (fun _ => E.cls x) (fun _ => x, v)
    let t ← t.commitNode pos [(0, r)] (fun _ => E.hash x)
    .ok (t, pos, true)
  | some i =>
    let n ← t.readNode i
    .ok ({ t with node := upd t.node i (some { n with val := (n.val.1, v) }) }, i, false)

/-- `do_erase(key)` (dense_table.hpp 740-762) for a key of any type. -/
def eraseE (p : K → Bool) (h : Nat) (t : ETable k E V) (j : Fin k) : M (ETable k E V × Nat × Bool) := do
  let r ← deref (t.getChain h)
  let (i, r) ← t.findLoopBy p j h (t.cap + 1) r
  match i with
  | none => .ok (t, t.size, false)
  | some pos =>
    let n ← t.readNode pos
    let rest ← t.slices n pos ((List.finRange k).filter (· ≠ j))
    let t ← t.eraseNode pos ((j, r) :: rest)
    .ok (t, pos, true)

/-- `find` (dense_table.hpp 367-370) and dereference, for a key of any type. -/
def findE (p : K → Bool) (h : Nat) (t : ETable k E V) (j : Fin k) : M (Option (Elem k K V)) := do
  let (i, _) ← t.findNodeBy p j h
  match i with
  | none => .ok none
  | some i =>
    let n ← t.readNode i
    .ok (some n.val)

/-- `contains` (dense_table.hpp 364-365) for a key of any type. -/
def containsE (p : K → Bool) (h : Nat) (t : ETable k E V) (j : Fin k) : M Bool := do
  let (i, _) ← t.findNodeBy p j h
  .ok i.isSome

/-- `insert(first, last)` (dense_table.hpp 388-394). -/
def insertRangeE (t : ETable k E V) (ra : Bool) (xs : List (Elem k K V)) : M (ETable k E V) := do
  let t ← (if ra then t.reserve (t.size + xs.length) else .ok t : M (ETable k E V))
  xs.foldlM (fun t x => do
    let r ← insertE E t x.1 x.2
    .ok r.1) t

/-- `insert_or_assign` in a history. -/
def assignStepE : {k : Nat} → k = 1 → ETable k E V → K → V → M (ETable k E V × Nat × Bool)
  | _, rfl, t, x, v => assignE E t x v

/-- One operation (dense_table.hpp 304-457), as `Table.step`. -/
def stepE (t : ETable k E V) : Op k K V → M (ETable k E V × Out k K V)
  | .insert key v => do
    let r ← insertE E t key v
    .ok (r.1, .ins r.2.1 r.2.2)
  | .emplace key v => do
    let r ← emplaceE E t key v
    .ok (r.1, .ins r.2.1 r.2.2)
  | .assign hk x v => do
    let r ← assignStepE E hk t x v
    .ok (r.1, .ins r.2.1 r.2.2)
  | .erase j x => do
    let r ← eraseE E (E.cmp x) (E.hash x) t j
    .ok (r.1, .pos r.2.1)
  | .eraseAt pos =>
    if pos < t.size then do
      let r ← t.eraseAt pos
      .ok (r.1, .pos r.2)
    else .ok (t, .unit)
  | .eraseRange first n =>
    if first + n ≤ t.size then do
      let r ← t.eraseRange first (first + n)
      .ok (r.1, .pos r.2)
    else .ok (t, .unit)
  | .insertRange ra xs => do
    let t ← insertRangeE E t ra xs
    .ok (t, .unit)
  | .assignRange ra xs => do
    let t ← t.clear
    let t ← insertRangeE E t ra xs
    .ok (t, .unit)
  | .clear => do
    let t ← t.clear
    .ok (t, .unit)
  | .reserve n => do
    let t ← t.reserve n
    .ok (t, .unit)
  | .rehash n => do
    let t ← t.rehash n
    .ok (t, .unit)
  | .setLoad lf => .ok (t.setLoad lf, .unit)
  | .find j x => do
    let e ← findE E (E.cmp x) (E.hash x) t j
    .ok (t, .elem e)
  | .contains j x => do
    let b ← containsE E (E.cmp x) (E.hash x) t j
    .ok (t, .bool b)
  | .size => .ok (t, .nat t.size)
  | .iterate => do
    let l ← t.iterate
    .ok (t, .list (l.map Prod.snd))

/-- A history (dense_table.hpp 304-457). -/
def runE (t : ETable k E V) : List (Op k K V) → M (ETable k E V × List (Out k K V))
  | [] => .ok (t, [])
  | o :: os => do
    let r ← stepE E t o
    let s ← runE r.1 os
    .ok (s.1, r.2 :: s.2)

end Table

/-! ## The specification -/

namespace ESpec

/-- Position of the element whose component `j` matches. -/
def index (p : K → Bool) (l : List (Elem k K V)) (j : Fin k) : Option Nat := l.findIdx? fun e => p (e.1 j)

/-- Position of the element that has a component equivalent to that of `key`; the first such component counts. -/
def clash (l : List (Elem k K V)) (key : Fin k → K) : Option Nat :=
  (List.finRange k).findSome? fun j => index (E.cmp (key j)) l j

/-- Append the element unless it has a component equivalent to that of another one. -/
def insert (l : List (Elem k K V)) (key : Fin k → K) (v : V) : List (Elem k K V) × Nat × Bool :=
  match clash E l key with
  | some i => (l, i, false)
  | none => (l ++ [(key, v)], l.length, true)

/-- One step: a sequence with append and swap-remove. -/
def step (l : List (Elem k K V)) : Op k K V → List (Elem k K V) × Out k K V
  | .insert key v => ((insert E l key v).1, .ins (insert E l key v).2.1 (insert E l key v).2.2)
  | .emplace key v => ((insert E l key v).1, .ins (insert E l key v).2.1 (insert E l key v).2.2)
  | .assign hk x v =>
    match index (E.cmp x) l ⟨0, by omega⟩ with
    | some i => (l.modify i (fun e => (e.1, v)), .ins i false)
    | none => (l ++ [(fun _ => x, v)], .ins l.length true)
  | .erase j x =>
    match index (E.cmp x) l j with
    | some i => (swapRemove l i, .pos i)
    | none => (l, .pos l.length)
  | .eraseAt pos => if pos < l.length then (swapRemove l pos, .pos pos) else (l, .unit)
  | .eraseRange first n =>
    if first + n ≤ l.length then (removeRange l first n, .pos (if n = 0 then l.length else first)) else (l, .unit)
  | .insertRange _ xs => (xs.foldl (fun l x => (insert E l x.1 x.2).1) l, .unit)
  | .assignRange _ xs => (xs.foldl (fun l x => (insert E l x.1 x.2).1) [], .unit)
  | .clear => ([], .unit)
  | .reserve _ => (l, .unit)
  | .rehash _ => (l, .unit)
  | .setLoad _ => (l, .unit)
  | .find j x => (l, .elem (l.find? (fun e => E.cmp x (e.1 j))))
  | .contains j x => (l, .bool (l.any (fun e => E.cmp x (e.1 j))))
  | .size => (l, .nat l.length)
  | .iterate => (l, .list l)

/-- A history. -/
def run (l : List (Elem k K V)) : List (Op k K V) → List (Elem k K V) × List (Out k K V)
  | [] => (l, [])
  | o :: os => ((run (step E l o).1 os).1, (step E l o).2 :: (run (step E l o).1 os).2)

end ESpec

/-- The elements with the classes of their key components. -/
def etag (l : List (Elem k K V)) : List (Elem k E.Cls (Elem k K V)) := l.map fun e => (clsOf E e.1, e)

theorem etag_length (l : List (Elem k K V)) : (etag E l).length = l.length := List.length_map _

theorem cmp_cls (x a : K) : decide (E.cls a = E.cls x) = E.cmp x a := by
  rw [Bool.eq_iff_iff, decide_eq_true_eq, E.cls_eq]
  exact ⟨E.symm, E.symm⟩

theorem index_tag (l : List (Elem k K V)) (j : Fin k) (x : K) : idxOf (etag E l) j (E.cls x) = ESpec.index (E.cmp x) l j := by
  unfold idxOf etag ESpec.index
  rw [List.findIdx?_map]
  congr 1
  funext e
  exact cmp_cls E x (e.1 j)

theorem elemOf_tag (l : List (Elem k K V)) (j : Fin k) (x : K) :
    (elemOf (etag E l) j (E.cls x)).map Prod.snd = l.find? (fun e => E.cmp x (e.1 j)) := by
  unfold elemOf etag
  rw [List.find?_map, Option.map_map]
  have : ((fun e : Elem k E.Cls (Elem k K V) => decide (e.1 j = E.cls x)) ∘ fun e : Elem k K V => (clsOf E e.1, e)) =
      fun e : Elem k K V => E.cmp x (e.1 j) := by
    funext e
    exact cmp_cls E x (e.1 j)
  rw [this]
  cases l.find? (fun e => E.cmp x (e.1 j)) <;> rfl

theorem clash_tag (l : List (Elem k K V)) (key : Fin k → K) : conflict (etag E l) (clsOf E key) = ESpec.clash E l key := by
  unfold conflict ESpec.clash
  congr 1
  funext j
  exact index_tag E l j (key j)

theorem insert_tag (l : List (Elem k K V)) (key : Fin k → K) (v : V) :
    Spec.insert (etag E l) (clsOf E key) (key, v) = (etag E (ESpec.insert E l key v).1, (ESpec.insert E l key v).2) := by
  unfold Spec.insert ESpec.insert
  rw [show Spec.clash (etag E l) (clsOf E key) = conflict (etag E l) (clsOf E key) from rfl, clash_tag]
  cases ESpec.clash E l key with
  | some i => rfl
  | none =>
    simp only [etag, List.map_append, List.length_map]
    rfl

theorem swapRemove_map {α β : Type} (f : α → β) (l : List α) (pos : Nat) :
    swapRemove (l.map f) pos = (swapRemove l pos).map f := by
  unfold swapRemove
  rw [List.getLast?_map]
  cases l.getLast? with
  | none => rfl
  | some e =>
    simp only [Option.map_some]
    rw [← List.map_set, List.map_dropLast]

theorem removeRange_map {α β : Type} (f : α → β) (first n : Nat) : ∀ l : List α,
    removeRange (l.map f) first n = (removeRange l first n).map f := by
  induction n with
  | zero => intro l; rfl
  | succ n ih =>
    intro l
    unfold removeRange
    rw [swapRemove_map, ih]

variable {E}

/-- The elements carry the classes of their key components. -/
def Ghost (t : ETable k E V) : Prop := ∀ i n, t.node i = some n → n.key = clsOf E n.val.1

theorem Inv.ghost {t : ETable k E V} {l : List (Elem k K V)} (h : Inv E.hashC t (etag E l)) : Ghost t := by
  intro i n hn
  have h1 := h.toArr.node_elem hn
  unfold etag at h1
  rw [List.getElem?_map, Option.map_eq_some_iff] at h1
  obtain ⟨e, _, h2⟩ := h1
  have := Prod.mk.inj h2
  rw [← this.1, ← this.2]

theorem readNode_node {Q W : Type} {t : Table k Q W} {i : Nat} {n : Node k Q W} (h : t.readNode i = .ok n) : t.node i = some n := by
  unfold Table.readNode at h
  split at h
  · cases e : t.node i with
    | none => rw [e] at h; cases h
    | some n' => rw [e] at h; cases h; rfl
  · cases h

theorem findLoopBy_eq {t : ETable k E V} (hg : Ghost t) (j : Fin k) (x : K) (h : Nat) (fuel : Nat) : ∀ r,
    t.findLoopBy (E.cmp x) j h fuel r = t.findLoop j (E.cls x) h fuel r := by
  induction fuel with
  | zero => intro r; rfl
  | succ fuel ih =>
    intro r
    unfold Table.findLoopBy Table.findLoop
    cases t.readRef j r with
    | error f => rfl
    | ok o =>
      simp only [bind_ok]
      cases o with
      | none => rfl
      | some i =>
        simp only
        cases hn : t.readNode i with
        | error f => rfl
        | ok n =>
          simp only [bind_ok]
          have hk : n.key j = E.cls (n.val.1 j) := congrFun (hg i n (readNode_node hn)) j
          have : (n.hash j = h ∧ E.cmp x (n.val.1 j) = true) ↔ (n.hash j = h ∧ E.cls x = n.key j) := by
            rw [hk, E.cls_eq]
          by_cases g : n.hash j = h ∧ E.cls x = n.key j
          · rw [if_pos g, if_pos (this.mpr g)]
          · rw [if_neg g, if_neg (fun e => g (this.mp e)), ih]

theorem findNodeBy_eq {t : ETable k E V} (hg : Ghost t) (j : Fin k) (x : K) :
    t.findNodeBy (E.cmp x) j (E.hash x) = t.findNode E.hashC j (E.cls x) := by
  unfold Table.findNodeBy Table.findNode
  rw [E.hashC_cls]
  cases t.getChain (E.hash x) with
  | none => rfl
  | some r => simp only [findLoopBy_eq hg]

theorem locateE_eq {t : ETable k E V} (hg : Ghost t) (key : Fin k → K) :
    Table.locateE E t key = t.locate E.hashC (clsOf E key) := by
  unfold Table.locateE Table.locate
  congr 1
  funext j
  rw [findNodeBy_eq hg]
  rfl

theorem insertE_eq {t : ETable k E V} {l : List (Elem k K V)} (h : Inv E.hashC t (etag E l)) (key : Fin k → K) (v : V) :
    Table.insertE E t key v = t.insert E.hashC (clsOf E key) (key, v) := by
  obtain ⟨t1, e1, i1, _⟩ := maybeResize_ok h
  obtain ⟨t2, e2, i2, _⟩ := maybeRehash_ok i1
  unfold Table.insertE Table.insert
  rw [e1, bind_ok, e2, bind_ok, bind_ok, e2, bind_ok, locateE_eq i2.ghost]
  rfl

theorem emplaceE_eq {t : ETable k E V} {l : List (Elem k K V)} (h : Inv E.hashC t (etag E l)) (key : Fin k → K) (v : V) :
    Table.emplaceE E t key v = t.emplace E.hashC (clsOf E key) (key, v) := by
  obtain ⟨t1, e1, i1, c1, f1, b1, s1⟩ := maybeResize_ok h
  obtain ⟨t2, e2, i2, c2, f2, b2, p2⟩ := maybeRehash_ok i1
  have hcap : t2.size < t2.cap := by rw [i2.size, ← i1.size, c2]; exact s1
  unfold Table.emplaceE Table.emplace
  rw [e1, bind_ok, e2, bind_ok, bind_ok, e2, bind_ok, pushNode_ok i2.toArr hcap]
  simp only [bind_ok]
  rw [locateE_eq]
  · rfl
  · intro i n hn
    by_cases hi : i = t2.size
    · subst hi
      simp only [upd_same] at hn
      cases hn
      rfl
    · simp only [upd, if_neg hi] at hn
      exact i2.ghost i n hn

theorem assignE_ok {t : ETable 1 E V} {l : List (Elem 1 K V)} (h : Inv E.hashC t (etag E l)) (x : K) (v : V) :
    ∃ r, Table.assignE E t x v = .ok r ∧ r.2 = (match ESpec.index (E.cmp x) l 0 with
        | some i => (i, false)
        | none => (l.length, true)) ∧ 0 < r.1.bc ∧
      Inv E.hashC r.1 (etag E (match ESpec.index (E.cmp x) l 0 with
        | some i => l.modify i (fun e => (e.1, v))
        | none => l ++ [(fun _ => x, v)])) := by
  obtain ⟨t1, e1, i1, c1, f1, b1, s1⟩ := maybeResize_ok h
  obtain ⟨t2, e2, i2, c2, f2, b2, p2⟩ := maybeRehash_ok i1
  obtain ⟨r, e3⟩ := findNode_ok i2 0 (E.cls x)
  rw [index_tag] at e3
  cases hc : ESpec.index (E.cmp x) l 0 with
  | none =>
    rw [hc] at e3
    obtain ⟨r', e, hr⟩ := insertOrAssign_ok h (E.cls x) ((fun _ => x, v) : Elem 1 K V)
    have : Table.assignE E t x v = t.insertOrAssign E.hashC (E.cls x) (fun _ => x, v) := by
      unfold Table.assignE Table.insertOrAssign
      rw [e1, bind_ok, bind_ok, e2, bind_ok, bind_ok, findNodeBy_eq i2.ghost, e3, bind_ok, bind_ok]
      rfl
    rw [this, e]
    obtain ⟨g1, g2⟩ := hr.fresh (by rw [index_tag, hc])
    refine ⟨r', rfl, by rw [g1, etag_length], hr.bc, ?_⟩
    unfold etag at g2 ⊢
    rw [List.map_append]
    exact g2
  | some i =>
    rw [hc] at e3
    obtain ⟨hi, _⟩ := List.findIdx?_eq_some_iff_getElem.mp hc
    obtain ⟨n, hr1, hn, hn2⟩ := i2.toArr.read (i := i) (by rw [etag_length]; exact hi)
    have hv : n.val = l[i] := by
      have := (Prod.mk.inj hn2).2
      simpa [etag] using this
    obtain ⟨r', e, hr⟩ := insertOrAssign_ok h (E.cls x) ((l[i].1, v) : Elem 1 K V)
    have : Table.assignE E t x v = t.insertOrAssign E.hashC (E.cls x) (l[i].1, v) := by
      unfold Table.assignE Table.insertOrAssign
      rw [e1, bind_ok, bind_ok, e2, bind_ok, bind_ok, findNodeBy_eq i2.ghost, e3, bind_ok, bind_ok]
      simp only
      rw [hr1, bind_ok, bind_ok, hv]
    rw [this, e]
    have hc' : idxOf (etag E l) 0 (E.cls x) = some i := by rw [index_tag, hc]
    obtain ⟨g1, g2⟩ := hr.dup i hc'
    refine ⟨r', rfl, g1, hr.bc, ?_⟩
    have : (etag E l).set i (fun _ => E.cls x, (l[i].1, v)) = etag E (l.modify i fun e => (e.1, v)) := by
      obtain ⟨e', h4, h5⟩ := idxOf_some hc'
      have h6 : e' = (clsOf E l[i].1, l[i]) := by
        unfold etag at h4
        rw [List.getElem?_map, List.getElem?_eq_getElem hi] at h4
        exact (Option.some.inj h4).symm
      have h7 : (fun _ => E.cls x : Fin 1 → E.Cls) = clsOf E l[i].1 := by
        funext j
        rw [Subsingleton.elim j 0, ← h5, h6]
      rw [h7]
      unfold etag
      rw [List.modify_eq_set_getElem?, List.getElem?_eq_getElem hi]
      rw [show ((fun a : Elem 1 K V => l.set i (a.1, v)) <$> some l[i]).getD l = l.set i (l[i].1, v) from rfl, List.map_set]
    rw [← this]
    exact g2

theorem eraseE_eq {t : ETable k E V} (hg : Ghost t) (j : Fin k) (x : K) :
    Table.eraseE E (E.cmp x) (E.hash x) t j = t.erase E.hashC j (E.cls x) := by
  unfold Table.eraseE Table.erase
  simp only [findLoopBy_eq hg, E.hashC_cls]
  rfl

theorem findE_eq {t : ETable k E V} (hg : Ghost t) (j : Fin k) (x : K) :
    Table.findE E (E.cmp x) (E.hash x) t j = (t.lookup E.hashC j (E.cls x)).map (Option.map Prod.snd) := by
  unfold Table.findE Table.lookup
  rw [findNodeBy_eq hg]
  cases t.findNode E.hashC j (E.cls x) with
  | error f => rfl
  | ok r =>
    simp only [bind_ok]
    cases r.1 with
    | none => rfl
    | some i =>
      simp only
      cases t.readNode i <;> rfl

theorem containsE_eq {t : ETable k E V} (hg : Ghost t) (j : Fin k) (x : K) :
    Table.containsE E (E.cmp x) (E.hash x) t j = t.contains E.hashC j (E.cls x) := by
  unfold Table.containsE Table.contains
  rw [findNodeBy_eq hg]

theorem insertE_ok {t : ETable k E V} {l : List (Elem k K V)} (h : Inv E.hashC t (etag E l)) (key : Fin k → K) (v : V) :
    ∃ r, Table.insertE E t key v = .ok r ∧ r.2 = (ESpec.insert E l key v).2 ∧ 0 < r.1.bc ∧
      Inv E.hashC r.1 (etag E (ESpec.insert E l key v).1) := by
  obtain ⟨r, e, hr⟩ := insert_ok h (clsOf E key) (key, v)
  obtain ⟨h1, h2⟩ := insertOk_spec hr
  rw [insert_tag] at h1 h2
  exact ⟨r, (insertE_eq h key v).trans e, h1, hr.bc, h2⟩

theorem insertAllE_ok : ∀ (xs : List (Elem k K V)) {t : ETable k E V} {l : List (Elem k K V)}, Inv E.hashC t (etag E l) →
    ∃ t', xs.foldlM (fun (t : ETable k E V) x => do
      let r ← Table.insertE E t x.1 x.2
      .ok r.1) t = (.ok t' : M (ETable k E V)) ∧ Inv E.hashC t' (etag E (xs.foldl (fun l x => (ESpec.insert E l x.1 x.2).1) l)) ∧
      (0 < t.bc ∨ xs ≠ [] → 0 < t'.bc) := by
  intro xs
  induction xs with
  | nil => intro t l h; exact ⟨t, rfl, h, fun g => g.resolve_right (fun g => g rfl)⟩
  | cons x xs ih =>
    intro t l h
    obtain ⟨r, e, _, hb', h2⟩ := insertE_ok h x.1 x.2
    obtain ⟨t', e', h', hb⟩ := ih h2
    refine ⟨t', ?_, h', fun _ => hb (Or.inl hb')⟩
    rw [List.foldlM_cons, e, bind_ok, bind_ok]
    exact e'

theorem insertRangeE_ok {t : ETable k E V} {l : List (Elem k K V)} (h : Inv E.hashC t (etag E l)) (ra : Bool)
    (xs : List (Elem k K V)) :
    ∃ t', Table.insertRangeE E t ra xs = .ok t' ∧ Inv E.hashC t' (etag E (xs.foldl (fun l x => (ESpec.insert E l x.1 x.2).1) l)) ∧
      (0 < t.bc ∨ xs ≠ [] → 0 < t'.bc) := by
  unfold Table.insertRangeE
  cases ra with
  | false =>
    simp only [Bool.false_eq_true, if_false, bind_ok]
    exact insertAllE_ok xs h
  | true =>
    simp only [if_true]
    obtain ⟨t1, e1, h1, _, _, f1, b1, _⟩ := reserve_ok h (t.size + xs.length)
    rw [e1, bind_ok]
    obtain ⟨t2, e2, h2, b2⟩ := insertAllE_ok xs h1
    exact ⟨t2, e2, h2, fun g => b2 (g.imp_left (fun g => by omega))⟩

/-- One operation: the table and its answer are those of the specification.  `erase(key)` needs buckets. -/
theorem stepE_ok {t : ETable k E V} {l : List (Elem k K V)} (h : Inv E.hashC t (etag E l)) (o : Op k K V)
    (hg : ∀ j x, o = .erase j x → 0 < t.bc) :
    ∃ t', Table.stepE E t o = .ok (t', (ESpec.step E l o).2) ∧ Inv E.hashC t' (etag E (ESpec.step E l o).1) ∧
      ∀ b, (b = true → 0 < t.bc) → o.buckets b = true → 0 < t'.bc := by
  have hsz : t.size = l.length := by rw [h.size, etag_length]
  cases o with
  | insert key v =>
    obtain ⟨r, e, h1, hb, h2⟩ := insertE_ok h key v
    simp only [Table.stepE, ESpec.step]
    rw [e, bind_ok, ← h1]
    exact ⟨_, rfl, h2, fun _ _ _ => hb⟩
  | emplace key v =>
    obtain ⟨r, e, hr⟩ := emplace_ok h (clsOf E key) (key, v)
    obtain ⟨h1, h2⟩ := insertOk_spec hr
    rw [insert_tag] at h1 h2
    simp only [Table.stepE, ESpec.step]
    rw [emplaceE_eq h, e, bind_ok]
    simp only at h1
    rw [← h1]
    exact ⟨_, rfl, h2, fun _ _ _ => hr.bc⟩
  | assign hk x v =>
    clear hg
    cases hk
    obtain ⟨r, e, h1, hb, h2⟩ := assignE_ok h x v
    simp only [Table.stepE, ESpec.step, Table.assignStepE]
    rw [e, bind_ok, show (⟨0, _⟩ : Fin 1) = 0 from rfl]
    cases hc : ESpec.index (E.cmp x) l 0 with
    | none => rw [hc] at h1 h2; rw [h1]; exact ⟨_, rfl, h2, fun _ _ _ => hb⟩
    | some i => rw [hc] at h1 h2; rw [h1]; exact ⟨_, rfl, h2, fun _ _ _ => hb⟩
  | erase j x =>
    obtain ⟨r, e, hb, _, _, h1, h2⟩ := erase_ok h (hg j x rfl) j (E.cls x)
    simp only [Table.stepE, ESpec.step]
    rw [eraseE_eq h.ghost, e, bind_ok]
    rw [index_tag] at h1
    simp only [index_tag] at h2
    cases hc : ESpec.index (E.cmp x) l j with
    | none =>
      rw [h1 hc, etag_length]
      exact ⟨_, rfl, h, fun b hb' hb'' => hb' hb''⟩
    | some i =>
      obtain ⟨h3, h4⟩ := h2 i hc
      rw [h3]
      refine ⟨_, rfl, ?_, fun b hb' hb'' => hb ▸ hb' hb''⟩
      unfold etag at h4 ⊢
      rw [swapRemove_map] at h4
      exact h4
  | eraseAt pos =>
    simp only [Table.stepE, ESpec.step]
    rw [hsz]
    by_cases hp : pos < l.length
    · obtain ⟨t', e, h1, h2, _⟩ := eraseAt_ok h (by rw [etag_length]; exact hp)
      rw [if_pos hp, if_pos hp, e, bind_ok]
      refine ⟨t', rfl, ?_, fun b hb' hb'' => h2 ▸ hb' hb''⟩
      unfold etag at h1 ⊢
      rw [swapRemove_map] at h1
      exact h1
    · rw [if_neg hp, if_neg hp]
      exact ⟨t, rfl, h, fun b hb' hb'' => hb' hb''⟩
  | eraseRange first n =>
    simp only [Table.stepE, ESpec.step]
    rw [hsz]
    by_cases hp : first + n ≤ l.length
    · obtain ⟨t', e, h1, h2, _⟩ := eraseRange_ok (p := t.size) h (by rw [etag_length]; exact hp)
      rw [if_pos hp, if_pos hp]
      unfold Table.eraseRange
      rw [Nat.add_sub_cancel_left, e, bind_ok, hsz]
      refine ⟨t', rfl, ?_, fun b hb' hb'' => h2 ▸ hb' hb''⟩
      unfold etag at h1 ⊢
      rw [removeRange_map] at h1
      exact h1
    · rw [if_neg hp, if_neg hp]
      exact ⟨t, rfl, h, fun b hb' hb'' => hb' hb''⟩
  | insertRange ra xs =>
    obtain ⟨t', e, h1, h2⟩ := insertRangeE_ok h ra xs
    simp only [Table.stepE, ESpec.step]
    rw [e, bind_ok]
    refine ⟨t', rfl, h1, fun b hb' hb'' => h2 ?_⟩
    simp only [Op.buckets, Bool.or_eq_true, Bool.not_eq_true', List.isEmpty_eq_false_iff] at hb''
    exact hb''.imp_left hb'
  | assignRange ra xs =>
    obtain ⟨t0, e0, h0, h3, _⟩ := clear_ok h.toArr
    obtain ⟨t', e, h1, h2⟩ := insertRangeE_ok (l := []) h0 ra xs
    simp only [Table.stepE, ESpec.step]
    rw [e0, bind_ok, e, bind_ok]
    refine ⟨t', rfl, h1, fun b hb' hb'' => h2 ?_⟩
    simp only [Op.buckets, Bool.or_eq_true, Bool.not_eq_true', List.isEmpty_eq_false_iff] at hb''
    exact hb''.imp_left (fun g => h3 ▸ hb' g)
  | clear =>
    obtain ⟨t', e, h1, h2, _⟩ := clear_ok h.toArr
    simp only [Table.stepE, ESpec.step]
    rw [e, bind_ok]
    exact ⟨t', rfl, h1, fun b hb' hb'' => h2 ▸ hb' hb''⟩
  | reserve n =>
    obtain ⟨t', e, h1, _, _, _, h2, _⟩ := reserve_ok h n
    simp only [Table.stepE, ESpec.step]
    rw [e, bind_ok]
    exact ⟨t', rfl, h1, fun b hb' hb'' => Nat.lt_of_lt_of_le (hb' hb'') h2⟩
  | rehash n =>
    obtain ⟨t', e, h1, _, _, h2, h3⟩ := rehash_ok h n
    simp only [Table.stepE, ESpec.step]
    rw [e, bind_ok]
    refine ⟨t', rfl, h1, fun b hb' hb'' => ?_⟩
    simp only [Op.buckets, Bool.or_eq_true, decide_eq_true_eq] at hb''
    rcases hb'' with g | g
    · exact Nat.lt_of_lt_of_le (hb' g) h2
    · omega
  | setLoad lf => exact ⟨_, rfl, h.setLoad lf, fun b hb' hb'' => hb' hb''⟩
  | find j x =>
    simp only [Table.stepE, ESpec.step]
    rw [findE_eq h.ghost, lookup_ok h]
    simp only [Except.map, bind_ok, elemOf_tag]
    exact ⟨t, rfl, h, fun b hb' hb'' => hb' hb''⟩
  | contains j x =>
    simp only [Table.stepE, ESpec.step]
    rw [containsE_eq h.ghost, contains_ok h, bind_ok]
    refine ⟨t, ?_, h, fun b hb' hb'' => hb' hb''⟩
    have : (elemOf (etag E l) j (E.cls x)).isSome = (l.find? (fun e => E.cmp x (e.1 j))).isSome := by
      rw [← elemOf_tag, Option.isSome_map]
    rw [this]
    congr 3
    rw [Bool.eq_iff_iff, List.find?_isSome, List.any_eq_true]
  | size =>
    simp only [Table.stepE, ESpec.step]
    rw [hsz]
    exact ⟨t, rfl, h, fun b hb' hb'' => hb' hb''⟩
  | iterate =>
    simp only [Table.stepE, ESpec.step]
    rw [iterate_ok h.toArr, bind_ok]
    refine ⟨t, ?_, h, fun b hb' hb'' => hb' hb''⟩
    congr 3
    unfold etag
    rw [List.map_map]
    exact List.map_id _

theorem guarded_cons {b : Bool} {o : Op k K V} {os : List (Op k K V)} (h : Spec.Guarded b (o :: os) = true) :
    (∀ j x, o = .erase j x → b = true) ∧ Spec.Guarded (o.buckets b) os = true := by
  cases o with
  | erase j x =>
    simp only [Spec.Guarded, Bool.and_eq_true] at h
    exact ⟨fun _ _ _ => h.1, h.2⟩
  | _ => exact ⟨fun _ _ e => (by cases e), h⟩

/-- Any guarded history: no fault, the answers and the final contents are those of the specification. -/
theorem runE_ok : ∀ (os : List (Op k K V)) {t : ETable k E V} {l : List (Elem k K V)} {b : Bool},
    Inv E.hashC t (etag E l) → (b = true → 0 < t.bc) → Spec.Guarded b os = true →
    ∃ t', Table.runE E t os = .ok (t', (ESpec.run E l os).2) ∧ Inv E.hashC t' (etag E (ESpec.run E l os).1) := by
  intro os
  induction os with
  | nil => intro t l b h _ _; exact ⟨t, rfl, h⟩
  | cons o os ih =>
    intro t l b h hb hg
    obtain ⟨g1, g2⟩ := guarded_cons hg
    obtain ⟨t1, e1, h1, hb1⟩ := stepE_ok h o (fun j x e => hb (g1 j x e))
    obtain ⟨t2, e2, h2⟩ := ih h1 (hb1 b hb) g2
    refine ⟨t2, ?_, h2⟩
    unfold Table.runE
    rw [e1, bind_ok]
    simp only
    rw [e2, bind_ok]
    rfl

/-! ## Transparent lookup -/

/-- If no element matches, the search ends without a result. -/
theorem findLoopBy_none {t : ETable k E V} {p : K → Bool} {j : Fin k} {h : Nat}
    (hp : ∀ i n, t.node i = some n → p (n.val.1 j) = false) : ∀ {fuel : Nat} {r : Ref} {l : List Nat},
    Path (t.cell j) r l → t.Valid r → (∀ i ∈ l, t.Valid (.next i)) → l.length < fuel →
    ∃ r', t.findLoopBy p j h fuel r = .ok (none, r') := by
  intro fuel
  induction fuel with
  | zero => intro r l _ _ _ h; omega
  | succ fuel ih =>
    intro r l hl hr hv hlen
    unfold Table.findLoopBy
    rw [readRef_ok j hr, bind_ok]
    cases l with
    | nil =>
      rw [show t.cell j r = none from hl]
      exact ⟨r, rfl⟩
    | cons i l =>
      rw [show t.cell j r = some i from hl.1]
      simp only
      obtain ⟨hc, hn⟩ := hv i (by simp)
      obtain ⟨n, hn⟩ := Option.ne_none_iff_exists'.mp hn
      rw [show t.readNode i = .ok n by unfold Table.readNode; rw [if_pos hc, hn], bind_ok,
        if_neg (by rw [hp i n hn]; simp)]
      exact ih hl.2 (hv i (by simp)) (fun i' hi' => hv i' (by simp [hi'])) (by simp at hlen; omega)

theorem findE_key {t : ETable k E V} {l : List (Elem k K V)} (h : Inv E.hashC t (etag E l)) (j : Fin k) {p : K → Bool} {h0 : Nat}
    (hk : Key E p h0) :
    (∃ x, E.hash x = h0 ∧ p = E.cmp x) ∨ ((∀ e ∈ l, p (e.1 j) = false) ∧ (0 < t.bc → ∃ r',
      t.findLoopBy p j h0 (t.cap + 1) (.head (h0 % t.bc)) = .ok (none, r'))) := by
  by_cases hx : ∃ e ∈ l, p (e.1 j) = true
  · left
    obtain ⟨e, _, he⟩ := hx
    refine ⟨e.1 j, hk.hash he, ?_⟩
    funext a
    cases g : E.cmp (e.1 j) a with
    | true => exact hk.congr g he
    | false =>
      cases g' : p a with
      | false => rfl
      | true => rw [hk.one he g'] at g; cases g
  · right
    have hno : ∀ e ∈ l, p (e.1 j) = false := by
      intro e he
      cases g : p (e.1 j) with
      | false => rfl
      | true => exact absurd ⟨e, he, g⟩ hx
    refine ⟨hno, fun hb => ?_⟩
    obtain ⟨c, h1, h2, h3⟩ := h.chained j (h0 % t.bc) (Nat.mod_lt _ hb)
    have hlt : ∀ i ∈ c, i < (etag E l).length := fun i hi => ((h3 i).mp hi).1
    refine findLoopBy_none ?_ h1 (show t.Valid (.head _) from Nat.mod_lt _ hb) (fun i hi => h.toArr.valid (hlt i hi))
      (Chained.length_le h.toArr h2 hlt)
    intro i n hn
    have h4 := h.toArr.node_elem hn
    unfold etag at h4
    rw [List.getElem?_map, Option.map_eq_some_iff] at h4
    obtain ⟨e, h5, h6⟩ := h4
    rw [← (Prod.mk.inj h6).2]
    exact hno e (List.mem_of_getElem? h5)

theorem findE_spec {t : ETable k E V} {l : List (Elem k K V)} (h : Inv E.hashC t (etag E l)) (j : Fin k) {p : K → Bool} {h0 : Nat}
    (hk : Key E p h0) : Table.findE E p h0 t j = .ok (l.find? fun e => p (e.1 j)) ∧
      Table.containsE E p h0 t j = .ok (l.any fun e => p (e.1 j)) := by
  rcases findE_key h j hk with ⟨x, rfl, rfl⟩ | ⟨h1, h2⟩
  · obtain ⟨t1, e1, _⟩ := stepE_ok h (.find j x) (fun _ _ e => by cases e)
    obtain ⟨t2, e2, _⟩ := stepE_ok h (.contains j x) (fun _ _ e => by cases e)
    simp only [Table.stepE, ESpec.step] at e1 e2
    refine ⟨?_, ?_⟩
    · cases e : Table.findE E (E.cmp x) (E.hash x) t j with
      | error f => rw [e] at e1; cases e1
      | ok y => rw [e, bind_ok] at e1; injection e1 with e1; injection e1 with _ e1; injection e1 with e1; rw [e1]
    · cases e : Table.containsE E (E.cmp x) (E.hash x) t j with
      | error f => rw [e] at e2; cases e2
      | ok y => rw [e, bind_ok] at e2; injection e2 with e2; injection e2 with _ e2; injection e2 with e2; rw [e2]
  · have hf : l.find? (fun e => p (e.1 j)) = none := by
      rw [List.find?_eq_none]
      intro e he
      simp [h1 e he]
    have ha : l.any (fun e => p (e.1 j)) = false := by
      rw [List.any_eq_false]
      intro e he
      simp [h1 e he]
    rw [hf, ha]
    unfold Table.findE Table.containsE Table.findNodeBy
    by_cases hb : t.bc = 0
    · unfold Table.getChain
      rw [if_pos hb]
      exact ⟨rfl, rfl⟩
    · obtain ⟨r', e⟩ := h2 (by omega)
      rw [getChain_pos (by omega)]
      simp only
      rw [e]
      exact ⟨rfl, rfl⟩

theorem eraseE_spec {t : ETable k E V} {l : List (Elem k K V)} (h : Inv E.hashC t (etag E l)) (hb : 0 < t.bc) (j : Fin k)
    {p : K → Bool} {h0 : Nat} (hk : Key E p h0) :
    ∃ t', Table.eraseE E p h0 t j = .ok (t', (ESpec.index p l j).getD l.length, (ESpec.index p l j).isSome) ∧
      Inv E.hashC t' (etag E (match ESpec.index p l j with | some i => swapRemove l i | none => l)) := by
  rcases findE_key h j hk with ⟨x, rfl, rfl⟩ | ⟨h1, h2⟩
  · obtain ⟨r, e, _, _, _, g1, g2⟩ := erase_ok h hb j (E.cls x)
    rw [eraseE_eq h.ghost, e]
    rw [index_tag] at g1
    simp only [index_tag] at g2
    cases hc : ESpec.index (E.cmp x) l j with
    | none =>
      rw [g1 hc, etag_length]
      exact ⟨t, rfl, h⟩
    | some i =>
      obtain ⟨g3, g4⟩ := g2 i hc
      obtain ⟨t', r2⟩ := r
      simp only at g3 g4
      rw [g3]
      refine ⟨t', rfl, ?_⟩
      unfold etag at g4 ⊢
      rw [swapRemove_map] at g4
      exact g4
  · have hi : ESpec.index p l j = none := by
      unfold ESpec.index
      rw [List.findIdx?_eq_none_iff]
      exact h1
    obtain ⟨r', e⟩ := h2 hb
    rw [hi]
    refine ⟨t, ?_, h⟩
    unfold Table.eraseE
    rw [getChain_pos hb]
    simp only [Table.deref, bind_ok]
    rw [e, bind_ok]
    simp only
    rw [h.size, etag_length]
    rfl

end Tpp.Dense
