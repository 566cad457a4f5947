import Verif.Dense.Faults

/-!
# Dense tables: arguments that refer to an element of the same container, and `replace`

As `Verif.Swiss.Alias`.  The argument `x` refers to the mapped value of element `i`.
-/

set_option linter.unusedSectionVars false

namespace Tpp.Dense

variable {k : Nat} {K V W : Type} [DecidableEq K]

namespace Table

/-- Reading the argument (dense_table.hpp 554): `maybe_resize` (802-821) has freed the array it refers to exactly if the array was
full at the call; `t0` is the table at the call. -/
def readArg (t0 t : Table k K V) (i : Nat) : M V :=
  if t0.cap = t0.size then .error .dangling
  else do
    let n ← t.readNode i
    .ok n.val

/-- `try_emplace(key, x)` (dense_table.hpp 646-672). -/
def tryEmplaceRef (hash : K → Nat) (t : Table k K V) (key : Fin k → K) (i : Nat) : M (Table k K V × Nat × Bool) := do
  let t1 ← t.maybeResize
  let t1 ← t1.maybeRehash
  let found ← t1.locate hash key
  match found.findSome? (fun x => x.2.1) with
  | some p => .ok (t1, p, false)
  | none =>
    let v ← t.readArg t1 i
    let (t2, pos) ← t1.pushNode key v
    let t2 ← t2.commitNode pos (found.map fun x => (x.1, x.2.2)) (fun j => hash (key j))
    .ok (t2, pos, true)

/-- `emplace(key, x)` (dense_table.hpp 620-644): the element is constructed before the search. -/
def emplaceRef (hash : K → Nat) (t : Table k K V) (key : Fin k → K) (i : Nat) : M (Table k K V × Nat × Bool) := do
  let t1 ← t.maybeResize
  let t1 ← t1.maybeRehash
  let v ← t.readArg t1 i
  let (t1, pos) ← t1.pushNode key v
  let found ← t1.locate hash key
  match found.findSome? (fun x => x.2.1) with
  | some p =>
    let t1 ← t1.popNode
    .ok (t1, p, false)
  | none =>
    let t1 ← t1.commitNode pos (found.map fun x => (x.1, x.2.2)) (fun j => hash (key j))
    .ok (t1, pos, true)

/-- `insert_or_assign(key, x)` (dense_table.hpp 699-723) with `replace` (table_common.hpp 246-258): the old mapped value is
destroyed before the argument is read. -/
def insertOrAssignRef (hash : K → Nat) (t : Table 1 K V) (x : K) (i : Nat) : M (Table 1 K V × Nat × Bool) := do
  let t1 ← t.maybeResize
  let t1 ← t1.maybeRehash
  let (p, r) ← t1.findNode hash 0 x
  match p with
  | none =>
    let v ← t.readArg t1 i
    let (t2, pos) ← t1.pushNode (fun _ => x) v
    let t2 ← t2.commitNode pos [(0, r)] (fun _ => hash x)
    .ok (t2, pos, true)
  | some p =>
    if p = i ∧ t.cap ≠ t.size then .error .deadRead
    else
      let v ← t.readArg t1 i
      let n ← t1.readNode p
      .ok ({ t1 with node := upd t1.node p (some { n with val := v }) }, p, false)

/-- `insert_or_assign(key, x)` of a present key when constructing the mapped value from `x` throws (dense_table.hpp 699-723,
table_common.hpp 246-258): a mapped value `none` is one whose destructor has run.  For an absent key see `insertThrow`; the flag
tells which it was. -/
def assignThrow (hash : K → Nat) (t : Table 1 K (Option W)) (x : K) : M (Table 1 K (Option W) × Bool) := do
  let t1 ← t.maybeResize
  let t1 ← t1.maybeRehash
  let (p, _) ← t1.findNode hash 0 x
  match p with
  | none => do
    let t ← t1.pushThrow
    .ok (t, true)
  | some p =>
    let n ← t1.readNode p
    .ok ({ t1 with node := upd t1.node p (some { n with val := none }) }, false)

/-- Reading the mapped value of an element whose mapped value may have been destroyed. -/
def readMapped (hash : K → Nat) (t : Table 1 K (Option W)) (x : K) : M (Option W) := do
  match ← t.lookup hash 0 x with
  | none => .ok none
  | some e =>
    match e.2 with
    | none => .error .deadRead
    | some w => .ok (some w)

end Table

theorem maybeResize_room {t : Table k K V} (h : t.cap ≠ t.size) : t.maybeResize = .ok t := by
  unfold Table.maybeResize
  rw [if_neg h]

/-- With room in the array the argument is the mapped value it referred to at the call. -/
theorem readArg_room {hash : K → Nat} {t0 t : Table k K V} {l : List (Elem k K V)} (h : Inv hash t l) (hr : t0.cap ≠ t0.size)
    {i : Nat} {e : Elem k K V} (he : l[i]? = some e) : t0.readArg t i = .ok e.2 := by
  unfold Table.readArg
  rw [if_neg hr]
  obtain ⟨n, h1, h2, _⟩ := h.toArr.read (List.getElem?_eq_some_iff.mp he).1
  have h3 := h.toArr.node_elem h2
  rw [he] at h3
  cases h3
  rw [h1, bind_ok]

theorem readArg_full {t0 t : Table k K V} (hr : t0.cap = t0.size) (i : Nat) : t0.readArg t i = .error .dangling := by
  unfold Table.readArg
  rw [if_pos hr]

theorem tryEmplaceRef_room {hash : K → Nat} {t : Table k K V} {l : List (Elem k K V)} (h : Inv hash t l)
    (hr : t.cap ≠ t.size) (key : Fin k → K) {i : Nat} {e : Elem k K V} (he : l[i]? = some e) :
    t.tryEmplaceRef hash key i = t.insert hash key e.2 := by
  unfold Table.tryEmplaceRef Table.insert
  rw [maybeResize_room hr, bind_ok, bind_ok]
  obtain ⟨t2, e2, i2, _⟩ := maybeRehash_ok h
  rw [e2, bind_ok, bind_ok, readArg_room i2 hr he]
  rfl

theorem emplaceRef_room {hash : K → Nat} {t : Table k K V} {l : List (Elem k K V)} (h : Inv hash t l)
    (hr : t.cap ≠ t.size) (key : Fin k → K) {i : Nat} {e : Elem k K V} (he : l[i]? = some e) :
    t.emplaceRef hash key i = t.emplace hash key e.2 := by
  unfold Table.emplaceRef Table.emplace
  rw [maybeResize_room hr, bind_ok, bind_ok]
  obtain ⟨t2, e2, i2, _⟩ := maybeRehash_ok h
  rw [e2, bind_ok, bind_ok, readArg_room i2 hr he]
  rfl

/-- A full array: `try_emplace` of a present key never reads the argument, of an absent one it reads freed memory. -/
theorem tryEmplaceRef_full {hash : K → Nat} {t : Table k K V} {l : List (Elem k K V)} (h : Inv hash t l)
    (hf : t.cap = t.size) (key : Fin k → K) (i : Nat) (v : V) :
    (conflict l key = none → t.tryEmplaceRef hash key i = .error .dangling) ∧
    (conflict l key ≠ none → t.tryEmplaceRef hash key i = t.insert hash key v) := by
  obtain ⟨t1, e1, i1, c1, f1, b1, s1⟩ := maybeResize_ok h
  obtain ⟨t2, e2, i2, c2, f2, b2, p2⟩ := maybeRehash_ok i1
  obtain ⟨r, e3, hr⟩ := locate_ok i2.toArr i2.uniq i2.chained p2 key
  unfold Table.tryEmplaceRef Table.insert
  rw [e1, bind_ok, bind_ok, e2, bind_ok, bind_ok, e3, bind_ok, bind_ok, findSome_map]
  rw [show List.findSome? (fun a => (a, idxOf l a (key a), some (r a)).2.1) (List.finRange k) = conflict l key from rfl]
  rw [readArg_full hf]
  constructor
  · intro hc; rw [hc]; rfl
  · intro hc
    cases hx : conflict l key with
    | none => exact absurd hx hc
    | some p => rfl

theorem emplaceRef_full {hash : K → Nat} {t : Table k K V} {l : List (Elem k K V)} (h : Inv hash t l)
    (hf : t.cap = t.size) (key : Fin k → K) (i : Nat) : t.emplaceRef hash key i = .error .dangling := by
  obtain ⟨t1, e1, i1, c1, f1, b1, s1⟩ := maybeResize_ok h
  obtain ⟨t2, e2, i2, c2, f2, b2, p2⟩ := maybeRehash_ok i1
  unfold Table.emplaceRef
  rw [e1, bind_ok, e2, bind_ok, readArg_full hf]
  rfl

theorem insertOrAssignRef_cases {hash : K → Nat} {t : Table 1 K V} {l : List (Elem 1 K V)} (h : Inv hash t l) (x : K) {i : Nat}
    {e : Elem 1 K V} (he : l[i]? = some e) :
    (t.cap = t.size → t.insertOrAssignRef hash x i = .error .dangling) ∧
    (t.cap ≠ t.size → e.1 0 = x → t.insertOrAssignRef hash x i = .error .deadRead) ∧
    (t.cap ≠ t.size → e.1 0 ≠ x → t.insertOrAssignRef hash x i = t.insertOrAssign hash x e.2) := by
  refine ⟨?_, ?_, ?_⟩
  · intro hf
    obtain ⟨t1, e1, i1, c1, f1, b1, s1⟩ := maybeResize_ok h
    obtain ⟨t2, e2, i2, c2, f2, b2, p2⟩ := maybeRehash_ok i1
    obtain ⟨r, e3, hr⟩ := findNode_full i2.toArr i2.uniq (i2.chained 0) p2 x
    unfold Table.insertOrAssignRef
    rw [e1, bind_ok, e2, bind_ok, e3, bind_ok]
    simp only
    cases hc : idxOf l 0 x with
    | none => simp only; rw [readArg_full hf]; rfl
    | some p => simp only; rw [if_neg (fun g => g.2 hf), readArg_full hf]; rfl
  · intro hr hx
    obtain ⟨t2, e2, i2, c2, f2, b2, p2⟩ := maybeRehash_ok h
    obtain ⟨r, e3, _⟩ := findNode_full i2.toArr i2.uniq (i2.chained 0) p2 x
    unfold Table.insertOrAssignRef
    rw [maybeResize_room hr, bind_ok, e2, bind_ok, e3, bind_ok]
    simp only
    have hi := idxOf_of_uniq (i2.uniq 0) he
    rw [hx] at hi
    rw [hi]
    simp only
    rw [if_pos ⟨trivial, hr⟩]
  · intro hr hx
    obtain ⟨t2, e2, i2, c2, f2, b2, p2⟩ := maybeRehash_ok h
    obtain ⟨r, e3, _⟩ := findNode_full i2.toArr i2.uniq (i2.chained 0) p2 x
    unfold Table.insertOrAssignRef Table.insertOrAssign
    rw [maybeResize_room hr, bind_ok, bind_ok, e2, bind_ok, bind_ok, e3, bind_ok, bind_ok, readArg_room i2 hr he]
    simp only
    cases hc : idxOf l 0 x with
    | none => rfl
    | some p =>
      simp only
      have hne : p ≠ i := by
        rintro rfl
        obtain ⟨e', he', hx'⟩ := idxOf_some hc
        rw [he] at he'
        cases he'
        exact hx hx'
      rw [if_neg (fun g => hne g.1)]
      rfl

end Tpp.Dense
