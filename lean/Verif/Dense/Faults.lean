import Verif.Dense.Hist

/-!
# Dense tables under exceptions, aliasing arguments and iterator loops

The model of what `Verif.Dense.Model` leaves out: a constructor that throws, an allocation that fails, an argument that refers
to an element of the container itself, `erase_if`, the destructor.
-/

set_option linter.unusedSectionVars false

namespace Tpp.Dense

variable {k : Nat} {K V : Type} [DecidableEq K]

namespace Table

/-- The destructor (dense_table.hpp 304-309) up to the deallocation of the buffers. -/
def destroy (t : Table k K V) : M Unit := do
  let _ ← t.clearData
  .ok ()

/-- The loop of `erase_if` (dense_set.hpp 339-353, dense_map.hpp, dense_multiset.hpp, dense_multimap.hpp 464-478): `last` was
computed before the loop.  Dereferencing reads the node. -/
def eraseIfLoop (pred : Elem k K V → Bool) (last : Nat) : Nat → Table k K V → Nat → Nat → M (Table k K V × Nat)
  | 0, _, _, _ => .error .diverge
  | fuel + 1, t, i, result =>
    if i = last then .ok (t, result)
    else do
      let n ← t.readNode i
      if pred (n.key, n.val) then do
        let r ← t.eraseAt i
        eraseIfLoop pred last fuel r.1 r.2 (result + 1)
      else eraseIfLoop pred last fuel t (i + 1) result

/-- `erase_if` (dense_set.hpp 339-353). -/
def eraseIf (t : Table k K V) (pred : Elem k K V → Bool) : M (Table k K V × Nat) :=
  eraseIfLoop pred t.size (2 * t.size + 1) t 0 0

/-- `push_node` (dense_table.hpp 549-556) when the constructor throws: the size has been incremented. -/
def pushThrow (t : Table k K V) : M (Table k K V) :=
  if t.size < t.cap then .ok { t with size := t.size + 1 } else .error .oobNode

/-- `do_insert`, `do_try_emplace` (dense_table.hpp 646-697) when the constructor of the element throws; the flag tells whether
the exception leaves the function (it does not if nothing is constructed). -/
def insertThrow (hash : K → Nat) (t : Table k K V) (key : Fin k → K) : M (Table k K V × Bool) := do
  let t ← t.maybeResize
  let t ← t.maybeRehash
  let found ← t.locate hash key
  match found.findSome? (fun x => x.2.1) with
  | some _ => .ok (t, false)
  | none => do
    let t ← t.pushThrow
    .ok (t, true)

/-- `do_emplace` (dense_table.hpp 620-644) when the constructor of the element throws. -/
def emplaceThrow (t : Table k K V) : M (Table k K V) := do
  let t ← t.maybeResize
  let t ← t.maybeRehash
  t.pushThrow

/-- `insert(x)` where `x` refers to element `i` of the table (dense_table.hpp 372, 674-697): `maybe_resize` frees the old
array before the keys are read. -/
def insertSelf (hash : K → Nat) (t : Table k K V) (i : Nat) : M (Table k K V × Nat × Bool) :=
  if t.cap = t.size then .error .dangling
  else do
    let n ← t.readNode i
    t.insert hash n.key n.val

/-- A table together with whether `m_sparse` points to freed memory. -/
structure A (k : Nat) (K V : Type) where
  t : Table k K V
  freed : Bool

/-- `do_rehash` (dense_table.hpp 764-773) with `realloc_buffer` (utility.hpp 232-248), whose allocation may fail: the old
buckets are freed first, `m_sparse` and `m_sparse_size` are assigned only afterwards.  The flag of the result tells whether an
exception leaves the function. -/
def doRehashA (fails : Bool) (t : Table k K V) (newCap : Nat) : M (A k K V × Bool) :=
  if t.bc < newCap ∧ fails = true then .ok (⟨t, decide (t.bc ≠ 0)⟩, true)
  else do
    let t ← t.doRehash newCap
    .ok (⟨t, false⟩, false)

/-- `rehash` (dense_table.hpp 442-451). -/
def rehashA (fails : Bool) (t : Table k K V) (n : Nat) : M (A k K V × Bool) :=
  if n = 0 ∧ t.size = 0 then .ok (⟨t, false⟩, false)
  else
    let newCap := max (t.lf.div t.size) n
    if n = 0 ∨ newCap ≠ t.bc then t.doRehashA fails newCap else .ok (⟨t, false⟩, false)

/-- `resize_data` (dense_table.hpp 783-801): allocates before anything else. -/
def resizeDataA (fails : Bool) (t : Table k K V) (c : Nat) : M (A k K V × Bool) :=
  if fails then .ok (⟨t, false⟩, true)
  else do
    let t ← t.resizeData c
    .ok (⟨t, false⟩, false)

/-- `reserve` (dense_table.hpp 358-362); `fails1`, `fails2`: the allocations of the elements and of the buckets. -/
def reserveA (fails1 fails2 : Bool) (t : Table k K V) (n : Nat) : M (A k K V × Bool) := do
  let r ← (if n > t.cap then t.resizeDataA fails1 n else .ok (⟨t, false⟩, false) : M (A k K V × Bool))
  if r.2 then .ok r else r.1.t.rehashA fails2 (r.1.t.lf.div n)

/-- `do_insert` (dense_table.hpp 674-697) up to the insertion itself. -/
def insertA (hash : K → Nat) (fails1 fails2 : Bool) (t : Table k K V) (key : Fin k → K) (v : V) : M (A k K V × Bool) := do
  let r ← (if t.cap = t.size then t.resizeDataA fails1 (if t.cap = 0 then 1 else t.cap * 2)
    else .ok (⟨t, false⟩, false) : M (A k K V × Bool))
  if r.2 then .ok r
  else
    let t := r.1.t
    let r ← (if t.bc = 0 then t.rehashA fails2 8
      else if t.lf.full t.size t.bc then t.rehashA fails2 (t.bc * 2)
      else .ok (⟨t, false⟩, false) : M (A k K V × Bool))
    if r.2 then .ok r
    else do
      let r ← r.1.t.insert hash key v
      .ok (⟨r.1, false⟩, false)

/-- Any use of the buckets (here `find`, dense_table.hpp 522-547). -/
def A.lookup (hash : K → Nat) (a : A k K V) (j : Fin k) (x : K) : M (Option (Elem k K V)) :=
  if a.freed then .error .dangling else a.t.lookup hash j x

/-- The destructor (dense_table.hpp 304-309): the buckets are freed again. -/
def A.destroy (a : A k K V) : M Unit := do
  let _ ← a.t.clearData
  if a.freed then .error .badFree else .ok ()

end Table

/-- `m_max_load_factor = p / q` computed exactly. -/
def LF.ratio (p q : Nat) : LF := { div := fun n => n * q / p, full := fun s b => decide (p * b ≤ s * q) }

/-- `initial_load_factor` (dense_table.hpp 94), 0.875; all its products with small numbers are exact in `float`. -/
def LF.initial : LF := LF.ratio 7 8

/-! ## `erase_if` -/

theorem eraseIfLoop_fault {hash : K → Nat} {pred : Elem k K V → Bool} {last : Nat} : ∀ {fuel : Nat} {t : Table k K V}
    {l : List (Elem k K V)} {i c : Nat}, Inv hash t l → i ≤ l.length → l.length ≤ last → last ≤ t.cap →
    l.length - i < fuel → (l.length < last ∨ ∃ e ∈ l.drop i, pred e = true) →
    Table.eraseIfLoop pred last fuel t i c = .error .deadRead := by
  intro fuel
  induction fuel with
  | zero => intro t l i c _ _ _ _ h; omega
  | succ fuel ih =>
    intro t l i c h hi hl hc hf hx
    unfold Table.eraseIfLoop
    by_cases hil : i = l.length
    · have hlt : l.length < last := by
        rcases hx with g | ⟨e, he, _⟩
        · exact g
        · rw [List.drop_eq_nil_of_le (by omega)] at he
          cases he
      rw [if_neg (by omega)]
      have : t.readNode i = .error .deadRead := by
        unfold Table.readNode
        rw [if_pos (by omega), h.toArr.node_none (by omega)]
      rw [this]
      rfl
    · rw [if_neg (by omega)]
      obtain ⟨n, hr, hn, hne⟩ := h.toArr.read (i := i) (by omega)
      rw [hr, bind_ok]
      by_cases hp : pred (n.key, n.val) = true
      · rw [if_pos hp]
        obtain ⟨t', e, h', _, hcap, _⟩ := eraseAt_ok h (pos := i) (by omega)
        rw [e, bind_ok]
        refine ih h' ?_ ?_ (by rw [hcap]; exact hc) ?_ (Or.inl ?_)
        all_goals (rw [swapRemove_length]; omega)
      · rw [if_neg hp]
        refine ih h (by omega) hl hc (by omega) ?_
        rcases hx with g | ⟨e, he, hpe⟩
        · exact Or.inl g
        · right
          rw [List.drop_eq_getElem_cons (by omega)] at he
          rcases List.mem_cons.mp he with g | g
          · rw [g, ← hne] at hpe
            exact absurd hpe hp
          · exact ⟨e, g, hpe⟩

theorem eraseIfLoop_none {hash : K → Nat} {pred : Elem k K V → Bool} : ∀ {fuel : Nat} {t : Table k K V}
    {l : List (Elem k K V)} {i c : Nat}, Inv hash t l → i ≤ l.length → l.length - i < fuel → (∀ e ∈ l, pred e = false) →
    Table.eraseIfLoop pred l.length fuel t i c = .ok (t, c) := by
  intro fuel
  induction fuel with
  | zero => intro t l i c _ _ h; omega
  | succ fuel ih =>
    intro t l i c h hi hf hx
    unfold Table.eraseIfLoop
    by_cases hil : i = l.length
    · rw [if_pos hil]
    · rw [if_neg hil]
      obtain ⟨n, hr, hn, hne⟩ := h.toArr.read (i := i) (by omega)
      rw [hr, bind_ok, if_neg (by rw [hne, hx _ (List.getElem_mem _)]; simp)]
      exact ih h (by omega) (by omega) hx

/-! ## Exceptions -/

theorem iterate_hole {hash : K → Nat} {t : Table k K V} {l : List (Elem k K V)} (h : Inv hash t l) (hcap : t.size < t.cap) :
    ({ t with size := t.size + 1 } : Table k K V).iterate = .error .deadRead := by
  unfold Table.iterate
  simp only
  rw [List.range_succ, List.mapM_append]
  have : (List.range t.size).mapM (fun i => do
      let n ← ({ t with size := t.size + 1 } : Table k K V).readNode i
      (.ok (n.key, n.val) : M (Elem k K V))) = .ok l := iterate_ok h.toArr
  rw [this, bind_ok, List.mapM_cons]
  have : ({ t with size := t.size + 1 } : Table k K V).readNode t.size = .error .deadRead := by
    unfold Table.readNode
    rw [if_pos hcap]
    simp only
    rw [h.toArr.node_none (Nat.le_of_eq h.size.symm)]
  rw [this]
  rfl

theorem destroy_hole {hash : K → Nat} {t : Table k K V} {l : List (Elem k K V)} (h : Inv hash t l) :
    ({ t with size := t.size + 1 } : Table k K V).destroy = .error .deadDestroy := by
  unfold Table.destroy Table.clearData
  simp only
  rw [List.range_succ, List.foldlM_append]
  have hf : ∀ n, n ≤ l.length → ∃ t', (List.range n).foldlM (fun (t : Table k K V) i => t.destroyNode i)
      ({ t with size := t.size + 1 } : Table k K V) = .ok t' ∧ ∀ i, t'.node i = if i < n then none else t.node i := by
    intro n
    induction n with
    | zero => intro _; exact ⟨_, rfl, fun i => by simp⟩
    | succ n ih =>
      intro hn
      obtain ⟨t', e, h1⟩ := ih (by omega)
      rw [List.range_succ, List.foldlM_append, e, bind_ok]
      obtain ⟨m, hm, _⟩ := h.toArr.node_some (i := n) (by omega)
      simp only [List.foldlM_cons, List.foldlM_nil]
      unfold Table.destroyNode
      rw [h1 n, if_neg (Nat.lt_irrefl n), hm]
      simp only [bind_ok]
      refine ⟨_, rfl, ?_⟩
      intro i
      simp only [upd_apply]
      by_cases e : i = n
      · rw [if_pos e, if_pos (by omega)]
      · rw [if_neg e, h1 i]
        by_cases e' : i < n
        · rw [if_pos e', if_pos (by omega)]
        · rw [if_neg e', if_neg (by omega)]
  obtain ⟨t', e, h1⟩ := hf t.size (Nat.le_of_eq h.size)
  rw [e, bind_ok, List.foldlM_cons]
  unfold Table.destroyNode
  rw [h1 t.size, if_neg (Nat.lt_irrefl _), h.toArr.node_none (Nat.le_of_eq h.size.symm)]
  rfl

/-! ## Stale chains -/

/-- Buckets of a table whose elements have been destroyed. -/
theorem stale_lookup {hash : K → Nat} {t t' : Table k K V} {l : List (Elem k K V)} (h : Inv hash t l) (hcap : t'.cap = t.cap)
    (hbc : t'.bc = t.bc) (hhead : t'.head = t.head) (hnode : ∀ i, t'.node i = none) {e : Elem k K V} (he : e ∈ l) (j : Fin k) :
    t'.lookup hash j (e.1 j) = .error .deadRead := by
  obtain ⟨i, hi, hie⟩ := List.getElem_of_mem he
  obtain ⟨n, hn, hne⟩ := h.toArr.node_some hi
  have hb : 0 < t.bc := by
    rcases Nat.eq_zero_or_pos t.bc with g | g
    · rw [h.empty g] at he; cases he
    · exact g
  have hbk : hash (e.1 j) % t.bc < t.bc := Nat.mod_lt _ hb
  obtain ⟨c, g1, g2, g3⟩ := h.chained j _ hbk
  have hmem : i ∈ c := by
    rw [g3 i]
    refine ⟨hi, n, hn, ?_⟩
    rw [h.hashed i n hn j]
    have : n.key = e.1 := by rw [← hie, ← hne]
    rw [this]
  cases c with
  | nil => cases hmem
  | cons a c =>
    have ha : t.head (hash (e.1 j) % t.bc) j = some a := g1.1
    have halt : a < l.length := ((g3 a).mp List.mem_cons_self).1
    have hsz := h.size
    have hle := h.le_cap
    unfold Table.lookup Table.findNode
    rw [getChain_pos (by omega)]
    simp only
    unfold Table.findLoop
    have h1 : t'.readRef j (.head (hash (e.1 j) % t'.bc)) = .ok (some a) := by
      unfold Table.readRef
      simp only
      rw [hbc, if_pos hbk, hhead, ha]
    have h2 : t'.readNode a = .error .deadRead := by
      unfold Table.readNode
      rw [if_pos (by omega), hnode a]
    rw [h1, bind_ok]
    simp only
    rw [h2]
    rfl

/-! ## Load factor -/

theorem maybeRehash_bc {hash : K → Nat} {t t' : Table k K V} {l : List (Elem k K V)} (h : Inv hash t l)
    (e : t.maybeRehash = .ok t') :
    t'.bc = if t.bc = 0 then max (t.lf.div t.size) 8
      else if t.lf.full t.size t.bc then max (t.lf.div t.size) (t.bc * 2) else t.bc := by
  have key : ∀ n, n ≠ 0 → t.bc < n → t.rehash n = .ok t' → t'.bc = max (t.lf.div t.size) n := by
    intro n hn hlt e
    unfold Table.rehash at e
    rw [if_neg (by omega)] at e
    simp only at e
    have hm : t.bc < max (t.lf.div t.size) n := by omega
    rw [if_pos (by omega)] at e
    obtain ⟨t1, e1, _, _, _, _, hb, _⟩ := doRehash_ok h.toArr (c := max (t.lf.div t.size) n) (Or.inr (by omega))
    rw [e1] at e
    cases e
    rw [hb, if_pos hm]
  unfold Table.maybeRehash at e
  by_cases h0 : t.bc = 0
  · rw [if_pos h0] at e ⊢
    exact key 8 (by omega) (by omega) e
  · rw [if_neg h0] at e ⊢
    by_cases hf : t.lf.full t.size t.bc = true
    · rw [if_pos hf] at e ⊢
      exact key _ (by omega) (by omega) e
    · rw [if_neg hf] at e ⊢
      cases e
      rfl

/-- The bucket count after an insertion. -/
theorem insert_bc {hash : K → Nat} {t : Table k K V} {l : List (Elem k K V)} (h : Inv hash t l) {key : Fin k → K} {v : V}
    {r : Table k K V × Nat × Bool} (e : t.insert hash key v = .ok r) :
    r.1.bc = if t.bc = 0 then max (t.lf.div t.size) 8
      else if t.lf.full t.size t.bc then max (t.lf.div t.size) (t.bc * 2) else t.bc := by
  obtain ⟨t1, e1, i1, c1, f1, b1, s1⟩ := maybeResize_ok h
  obtain ⟨t2, e2, i2, c2, f2, b2, p2⟩ := maybeRehash_ok i1
  have hbc := maybeRehash_bc i1 e2
  rw [b1, f1, i1.size, ← h.size] at hbc
  obtain ⟨rr, e3, hr⟩ := locate_ok i2.toArr i2.uniq i2.chained p2 key
  have hcap : t2.size < t2.cap := by rw [i2.size, ← i1.size, c2]; exact s1
  unfold Table.insert at e
  rw [e1, bind_ok, e2, bind_ok, e3, bind_ok, findSome_map] at e
  rw [show List.findSome? (fun a => (a, idxOf l a (key a), some (rr a)).2.1) (List.finRange k) = conflict l key from rfl] at e
  cases hc : conflict l key with
  | some i =>
    rw [hc] at e
    cases e
    exact hbc
  | none =>
    rw [hc] at e
    simp only at e
    rw [pushNode_ok i2.toArr hcap, bind_ok] at e
    simp only [List.map_map] at e
    have hn := conflict_none hc
    obtain ⟨t3, e4, a4, c4, b4, k4, f4⟩ := commitNode_ok i2.toArr i2.chained p2 hcap rfl (key := key) (v := v) (r := rr)
      (fun j => hr j (hn j))
    rw [show (List.finRange k).map (fun j => (j, some (rr j))) = (List.finRange k).map ((fun x : Fin k × Option Nat × Option Ref =>
      (x.1, x.2.2)) ∘ fun j => (j, idxOf l j (key j), some (rr j))) from rfl] at e4
    rw [e4, bind_ok] at e
    cases e
    exact b4.trans hbc

end Tpp.Dense
