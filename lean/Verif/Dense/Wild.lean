import Verif.Dense.Equiv

/-!
# Hash functions and comparisons that answer arbitrarily (dense table)

As `Verif.Swiss.Wild`: every operation that calls the hash function or the comparison gets the answers as arguments, a number for each hash and an
answer for each comparison of a search, given by the position of the stored element and its key component.  The field `val` of a node holds the whole
element, the field `key` is a ghost: for each component a serial number together with the hash that was computed when the element was inserted.
-/

set_option linter.unusedSectionVars false

namespace Tpp.Dense

variable {k : Nat} {K V : Type}

/-- A table with ghost keys (dense_table.hpp 904-912). -/
abbrev GTable (k : Nat) (K V : Type) := Table k (Nat × Nat) (Elem k K V)

/-- The functions of the container (dense_table.hpp 304-457). -/
inductive WildOp (k : Nat) (K V : Type)
  | insert (h : Fin k → Nat) (p : Fin k → Nat → K → Bool) (key : Fin k → K) (v : V)
  | emplace (h : Fin k → Nat) (p : Fin k → Nat → K → Bool) (key : Fin k → K) (v : V)
  | assign (hk : k = 1) (h : Nat) (p : Nat → K → Bool) (x : K) (v : V)
  | erase (j : Fin k) (h : Nat) (p : Nat → K → Bool)
  | eraseAt (pos : Nat)
  | clear
  | reserve (n : Nat)
  | rehash (n : Nat)
  | setLoad (lf : LF)
  | find (j : Fin k) (h : Nat) (p : Nat → K → Bool)
  | contains (j : Fin k) (h : Nat) (p : Nat → K → Bool)
  | size
  | iterate

namespace Table

/-- The loop of `find_node` (dense_table.hpp 538-545). -/
def findLoopWild (p : Nat → K → Bool) (t : GTable k K V) (j : Fin k) (h : Nat) : Nat → Ref → M (Option Nat × Ref)
  | 0, _ => .error .diverge
  | fuel + 1, r => do
    match ← t.readRef j r with
    | none => .ok (none, r)
    | some i =>
      let n ← t.readNode i
      if n.hash j = h ∧ p i (n.val.1 j) = true then .ok (some i, r) else findLoopWild p t j h fuel (.next i)

/-- `find_node` (dense_table.hpp 534-547). -/
def findNodeWild (p : Nat → K → Bool) (t : GTable k K V) (j : Fin k) (h : Nat) : M (Option Nat × Option Ref) :=
  match t.getChain h with
  | none => .ok (none, none)
  | some r => do
    let (n, r) ← t.findLoopWild p j h (t.cap + 1) r
    .ok (n, some r)

/-- `find_node` for all components (dense_table.hpp 628, 655, 683). -/
def locateWild (t : GTable k K V) (h : Fin k → Nat) (p : Fin k → Nat → K → Bool) : M (List (Fin k × Option Nat × Option Ref)) :=
  (List.finRange k).mapM fun j => do
    let (n, r) ← t.findNodeWild (p j) j (h j)
    .ok (j, n, r)

/-- `do_insert` (dense_table.hpp 674-697), `do_try_emplace` (646-671). -/
def insertWild (g : Nat) (t : GTable k K V) (h : Fin k → Nat) (p : Fin k → Nat → K → Bool) (key : Fin k → K) (v : V) : M (GTable k K V × Nat × Bool) := do
  let t ← t.maybeResize
  let t ← t.maybeRehash
  let found ← t.locateWild h p
  match found.findSome? (fun x => x.2.1) with
  | some i => .ok (t, i, false)
  | none =>
    let (t, pos) ← t.pushNode (fun j => (g, h j)) (key, v)
    let t ← t.commitNode pos (found.map fun x => (x.1, x.2.2)) h
    .ok (t, pos, true)

/-- `do_emplace` (dense_table.hpp 620-644). -/
def emplaceWild (g : Nat) (t : GTable k K V) (h : Fin k → Nat) (p : Fin k → Nat → K → Bool) (key : Fin k → K) (v : V) : M (GTable k K V × Nat × Bool) := do
  let t ← t.maybeResize
  let t ← t.maybeRehash
  let (t, pos) ← t.pushNode (fun j => (g, h j)) (key, v)
  let found ← t.locateWild h p
  match found.findSome? (fun x => x.2.1) with
  | some i =>
    let t ← t.popNode
    .ok (t, i, false)
  | none =>
    let t ← t.commitNode pos (found.map fun x => (x.1, x.2.2)) h
    .ok (t, pos, true)

/-- `do_insert_or_assign` (dense_table.hpp 699-723) with `replace` (table_common.hpp 246-258). -/
def assignWild (g : Nat) (t : GTable 1 K V) (h : Nat) (p : Nat → K → Bool) (x : K) (v : V) : M (GTable 1 K V × Nat × Bool) := do
  let t ← t.maybeResize
  let t ← t.maybeRehash
  let (i, r) ← t.findNodeWild p 0 h
  match i with
  | none =>
    let (t, pos) ← t.pushNode (fun _ => (g, h)) (fun _ => x, v)
    let t ← t.commitNode pos [(0, r)] (fun _ => h)
    .ok (t, pos, true)
  | some i =>
    let n ← t.readNode i
    .ok ({ t with node := upd t.node i (some { n with val := (n.val.1, v) }) }, i, false)

/-- `do_erase(key)` (dense_table.hpp 740-762). -/
def eraseWild (t : GTable k K V) (j : Fin k) (h : Nat) (p : Nat → K → Bool) : M (GTable k K V × Nat × Bool) := do
  let r ← deref (t.getChain h)
  let (i, r) ← t.findLoopWild p j h (t.cap + 1) r
  match i with
  | none => .ok (t, t.size, false)
  | some pos =>
    let n ← t.readNode pos
    let rest ← t.slices n pos ((List.finRange k).filter (· ≠ j))
    let t ← t.eraseNode pos ((j, r) :: rest)
    .ok (t, pos, true)

/-- `insert_or_assign` in a history (dense_table.hpp 699-723). -/
def assignStepWild (g : Nat) : {k : Nat} → k = 1 → GTable k K V → Nat → (Nat → K → Bool) → K → V → M (GTable k K V × Nat × Bool)
  | _, rfl, t, h, p, x, v => t.assignWild g h p x v

/-- One operation (dense_table.hpp 304-457). -/
def stepWild (g : Nat) (t : GTable k K V) : WildOp k K V → M (GTable k K V × Out k K V)
  | .insert h p key v => do
    let r ← t.insertWild g h p key v
    .ok (r.1, .ins r.2.1 r.2.2)
  | .emplace h p key v => do
    let r ← t.emplaceWild g h p key v
    .ok (r.1, .ins r.2.1 r.2.2)
  | .assign hk h p x v => do
    let r ← assignStepWild g hk t h p x v
    .ok (r.1, .ins r.2.1 r.2.2)
  | .erase j h p => do
    let r ← t.eraseWild j h p
    .ok (r.1, .pos r.2.1)
  | .eraseAt pos =>
    if pos < t.size then do
      let r ← t.eraseAt pos
      .ok (r.1, .pos r.2)
    else .ok (t, .unit)
  | .clear => do
    let t ← t.clear
    .ok (t, .unit)
  | .reserve n => do
    let t ← t.reserve n
    .ok (t, .unit)
  | .rehash n => do
    let t ← t.rehash n
    .ok (t, .unit)
  | .setLoad lf => .ok (t.setLoad lf, .unit)
  | .find j h p => do
    let (i, _) ← t.findNodeWild p j h
    match i with
    | none => .ok (t, .elem none)
    | some i =>
      let n ← t.readNode i
      .ok (t, .elem (some n.val))
  | .contains j h p => do
    let (i, _) ← t.findNodeWild p j h
    .ok (t, .bool i.isSome)
  | .size => .ok (t, .nat t.size)
  | .iterate => do
    let l ← t.iterate
    .ok (t, .list (l.map Prod.snd))

/-- A history (dense_table.hpp 304-457); the serial numbers start at `g`. -/
def runWild (g : Nat) (t : GTable k K V) : List (WildOp k K V) → M (GTable k K V × List (Out k K V))
  | [] => .ok (t, [])
  | o :: os => do
    let r ← t.stepWild g o
    let s ← r.1.runWild (g + 1) os
    .ok (s.1, r.2 :: s.2)

end Table

/-! ## The search -/

theorem findLoopWild_cases {t : GTable k K V} {j : Fin k} {q : Nat × Nat} (hq : ∀ i n, t.readNode i = .ok n → n.key j ≠ q) (p : Nat → K → Bool)
    {h : Nat} : ∀ {fuel : Nat} {r : Ref} {o : Option Nat × Ref}, t.findLoop j q h fuel r = .ok o → o.1 = none ∧
      (t.findLoopWild p j h fuel r = .ok o ∨ ∃ i r' n, t.findLoopWild p j h fuel r = .ok (some i, r') ∧ t.readNode i = .ok n ∧ n.hash j = h ∧
        p i (n.val.1 j) = true)
  | 0, _, _, e => by cases e
  | fuel + 1, r, o, e => by
    unfold Table.findLoop at e
    obtain ⟨c, h1, e⟩ := bind_eq_ok e
    unfold Table.findLoopWild
    rw [h1, bind_ok]
    cases c with
    | none =>
      cases e
      exact ⟨rfl, Or.inl rfl⟩
    | some i =>
      simp only at e ⊢
      obtain ⟨n, h2, e⟩ := bind_eq_ok e
      rw [if_neg (fun x => hq i n h2 x.2.symm)] at e
      rw [h2, bind_ok]
      obtain ⟨g1, g2⟩ := findLoopWild_cases hq p e
      refine ⟨g1, ?_⟩
      by_cases hp : n.hash j = h ∧ p i (n.val.1 j) = true
      · rw [if_pos hp]
        exact Or.inr ⟨i, r, n, rfl, h2, hp.1, hp.2⟩
      · rw [if_neg hp]
        exact g2

/-- The search that stops at a node is the search for the ghost key of that node. -/
theorem findLoopWild_found {t : GTable k K V} {j : Fin k} {i : Nat} {n : Node k (Nat × Nat) (Elem k K V)} (hn : t.readNode i = .ok n)
    (hu : ∀ i' n', t.readNode i' = .ok n' → n'.key j = n.key j → i' = i) {p : Nat → K → Bool} (hp : p i (n.val.1 j) = true) :
    ∀ {fuel : Nat} {r r' : Ref}, t.findLoopWild p j (n.hash j) fuel r = .ok (some i, r') →
      t.findLoop j (n.key j) (n.hash j) fuel r = .ok (some i, r')
  | 0, _, _, e => by cases e
  | fuel + 1, r, r', e => by
    unfold Table.findLoopWild at e
    obtain ⟨c, h1, e⟩ := bind_eq_ok e
    unfold Table.findLoop
    rw [h1, bind_ok]
    cases c with
    | none => cases e
    | some i' =>
      simp only at e ⊢
      obtain ⟨n', h2, e⟩ := bind_eq_ok e
      rw [h2, bind_ok]
      by_cases hi : i' = i
      · subst hi
        rw [hn] at h2
        cases h2
        rw [if_pos ⟨rfl, hp⟩] at e
        rw [if_pos ⟨rfl, rfl⟩]
        exact e
      · rw [if_neg (fun x => hi (hu i' n' h2 x.2.symm))]
        split at e
        · cases e
          exact absurd rfl hi
        · exact findLoopWild_found hn hu hp e

/-- The serial numbers are below `g`. -/
def Below (g : Nat) (m : List (Elem k (Nat × Nat) (Elem k K V))) : Prop := ∀ x ∈ m, ∀ j, (x.1 j).1 < g

theorem Below.absent {g : Nat} {m : List (Elem k (Nat × Nat) (Elem k K V))} (hg : Below g m) (j : Fin k) (h0 : Nat) : idxOf m j (g, h0) = none := by
  refine idxOf_none fun e he hk => ?_
  have := hg e he j
  rw [hk] at this
  exact Nat.lt_irrefl _ this

theorem Below.fresh {g : Nat} {m : List (Elem k (Nat × Nat) (Elem k K V))} (hg : Below g m) {t : GTable k K V} (ha : Arr Prod.snd t m) (j : Fin k)
    (h0 i : Nat) (n : Node k (Nat × Nat) (Elem k K V)) (hr : t.readNode i = .ok n) : n.key j ≠ (g, h0) := by
  intro hk
  have := hg _ (List.mem_of_getElem? (ha.node_elem (readNode_node hr))) j
  simp only [hk] at this
  exact Nat.lt_irrefl _ this

/-- A stored element. -/
theorem Inv.stored {t : GTable k K V} {m : List (Elem k (Nat × Nat) (Elem k K V))} (h : Inv Prod.snd t m) {i : Nat}
    {n : Node k (Nat × Nat) (Elem k K V)} (hr : t.readNode i = .ok n) : (m.map Prod.snd)[i]? = some n.val := by
  rw [List.getElem?_map, h.toArr.node_elem (readNode_node hr)]
  rfl

theorem findNodeWild_cases {g : Nat} {t : GTable k K V} {m : List (Elem k (Nat × Nat) (Elem k K V))} (h : Inv Prod.snd t m) (hg : Below g m)
    (j : Fin k) (h0 : Nat) (p : Nat → K → Bool) : ∃ r, t.findNode Prod.snd j (g, h0) = .ok (none, r) ∧
      (t.findNodeWild p j h0 = .ok (none, r) ∨
      ∃ i r' n, t.findNodeWild p j h0 = .ok (some i, r') ∧ t.readNode i = .ok n ∧ n.hash j = h0 ∧ p i (n.val.1 j) = true) := by
  obtain ⟨r, e⟩ := findNode_ok h j (g, h0)
  rw [hg.absent] at e
  refine ⟨r, e, ?_⟩
  unfold Table.findNode at e
  unfold Table.findNodeWild
  simp only at e ⊢
  cases hc : t.getChain h0 with
  | none =>
    rw [hc] at e
    exact Or.inl e
  | some r0 =>
    rw [hc] at e
    simp only at e ⊢
    obtain ⟨⟨o, r1⟩, h1, e⟩ := bind_eq_ok e
    cases e
    rcases (findLoopWild_cases (hg.fresh h.toArr j h0) p h1).2 with h2 | ⟨i, r', n, h2, h3⟩
    · rw [h2, bind_ok]
      exact Or.inl rfl
    · rw [h2, bind_ok]
      exact Or.inr ⟨i, some r', n, rfl, h3⟩

theorem locateWild_cases {g : Nat} {t : GTable k K V} {m : List (Elem k (Nat × Nat) (Elem k K V))} (h : Inv Prod.snd t m) (hg : Below g m)
    (h0 : Fin k → Nat) (p : Fin k → Nat → K → Bool) : ∃ f, t.locateWild h0 p = .ok f ∧
      ((f.findSome? (fun x => x.2.1) = none ∧ t.locate Prod.snd (fun j => (g, h0 j)) = .ok f) ∨
      ∃ i j n, f.findSome? (fun x => x.2.1) = some i ∧ t.readNode i = .ok n ∧ p j i (n.val.1 j) = true) := by
  have each : ∀ j, ∃ o, t.findNodeWild (p j) j (h0 j) = .ok o ∧ (o.1 = none → t.findNode Prod.snd j (g, h0 j) = .ok o) ∧
      ∀ i, o.1 = some i → ∃ n, t.readNode i = .ok n ∧ p j i (n.val.1 j) = true := by
    intro j
    obtain ⟨r, e, h1 | ⟨i, r', n, h1, h2, -, h3⟩⟩ := findNodeWild_cases h hg j (h0 j) (p j)
    · exact ⟨_, h1, fun _ => e, fun i hi => by cases hi⟩
    · refine ⟨_, h1, fun hi => (by cases hi), fun i' hi => ?_⟩
      cases hi
      exact ⟨n, h2, h3⟩
  choose o ho hn hs using each
  refine ⟨(List.finRange k).map fun j => (j, o j), ?_, ?_⟩
  · unfold Table.locateWild
    apply mapM_ok
    intro j _
    rw [ho j, bind_ok]
  · rw [findSome_map]
    cases hf : (List.finRange k).findSome? (fun j => (j, o j).2.1) with
    | none =>
      refine Or.inl ⟨rfl, ?_⟩
      rw [List.findSome?_eq_none_iff] at hf
      unfold Table.locate
      apply mapM_ok
      intro j hj
      rw [hn j (hf j hj), bind_ok]
    | some i =>
      obtain ⟨j, -, hj⟩ := List.exists_of_findSome?_eq_some hf
      obtain ⟨n, h1, h2⟩ := hs j i hj
      exact Or.inr ⟨i, j, n, rfl, h1, h2⟩

theorem Extends.findLoopWild {t t1 : GTable k K V} (h : Extends t t1) {p : Nat → K → Bool} {j : Fin k} {h0 : Nat} : ∀ {fuel : Nat} {r : Ref}
    {v : Option Nat × Ref}, t.findLoopWild p j h0 fuel r = .ok v → t1.findLoopWild p j h0 fuel r = .ok v
  | 0, _, _, e => by cases e
  | fuel + 1, r, v, e => by
    unfold Table.findLoopWild at e ⊢
    obtain ⟨o, ho, e⟩ := bind_eq_ok e
    rw [h.readRef ho, bind_ok]
    cases o with
    | none => exact e
    | some i =>
      simp only at e ⊢
      obtain ⟨n, hn, e⟩ := bind_eq_ok e
      rw [h.readNode hn, bind_ok]
      split
      · rename_i hc
        rw [if_pos hc] at e
        exact e
      · rename_i hc
        rw [if_neg hc] at e
        exact h.findLoopWild e

theorem Extends.locateWild {t t1 : GTable k K V} (h : Extends t t1) {h0 : Fin k → Nat} {p : Fin k → Nat → K → Bool}
    {v : List (Fin k × Option Nat × Option Ref)} (hv : t.locateWild h0 p = .ok v) : t1.locateWild h0 p = .ok v := by
  refine mapM_congr_ok ?_ hv
  intro j _ b hb
  obtain ⟨o, ho, hb⟩ := bind_eq_ok hb
  have : t1.findNodeWild (p j) j (h0 j) = .ok o := by
    unfold Table.findNodeWild Table.getChain at ho ⊢
    rw [h.bc, h.cap]
    split at ho
    · exact ho
    · obtain ⟨o', ho', ho⟩ := bind_eq_ok ho
      rw [h.findLoopWild ho', bind_ok]
      exact ho
  rw [this, bind_ok]
  exact hb

/-! ## What the operations do -/

/-- What an operation with arbitrary answers may do to a container with the elements `l`, in this order: `l'` are the elements afterwards. -/
def Does (l l' : List (Elem k K V)) (out : Out k K V) : WildOp k K V → Prop
  | .insert _ p key v | .emplace _ p key v => (l' = l ++ [(key, v)] ∧ out = .ins l.length true) ∨
      (l' = l ∧ ∃ i j e, l[i]? = some e ∧ p j i (e.1 j) = true ∧ out = .ins i false)
  | .assign hk _ p x v => (l' = l ++ [((fun _ => x, v) : Elem k K V)] ∧ out = .ins l.length true) ∨
      ∃ i e, l[i]? = some e ∧ p i (e.1 ⟨0, by omega⟩) = true ∧ l' = l.set i (e.1, v) ∧ out = .ins i false
  | .erase j _ p => (l' = l ∧ out = .pos l.length) ∨ ∃ i e, l[i]? = some e ∧ p i (e.1 j) = true ∧ l' = swapRemove l i ∧ out = .pos i
  | .eraseAt pos => if pos < l.length then l' = swapRemove l pos ∧ out = .pos pos else l' = l ∧ out = .unit
  | .clear => l' = [] ∧ out = .unit
  | .reserve _ | .rehash _ | .setLoad _ => l' = l ∧ out = .unit
  | .find j _ p => l' = l ∧ (out = .elem none ∨ ∃ i e, l[i]? = some e ∧ p i (e.1 j) = true ∧ out = .elem (some e))
  | .contains j _ p => l' = l ∧ (out = .bool false ∨ ∃ i e, l[i]? = some e ∧ p i (e.1 j) = true ∧ out = .bool true)
  | .size => l' = l ∧ out = .nat l.length
  | .iterate => l' = l ∧ out = .list l

/-- Whether there are buckets after an operation, given whether there are before. -/
def WildOp.buckets : WildOp k K V → Bool → Bool
  | .insert _ _ _ _, _ | .emplace _ _ _ _, _ | .assign _ _ _ _ _, _ => true
  | .rehash n, b => b || n ≠ 0
  | _, b => b

/-- The operation needs buckets. -/
def WildOp.needs : WildOp k K V → Bool
  | .erase _ _ _ => true
  | _ => false

theorem Below.mono {g : Nat} {m : List (Elem k (Nat × Nat) (Elem k K V))} (hg : Below g m) : Below (g + 1) m :=
  fun x hx j => Nat.lt_succ_of_lt (hg x hx j)

theorem Below.snoc {g : Nat} {m : List (Elem k (Nat × Nat) (Elem k K V))} (hg : Below g m) (h0 : Fin k → Nat) (e : Elem k K V) :
    Below (g + 1) (m ++ [((fun j => (g, h0 j)), e)]) := by
  intro x hx j
  rcases List.mem_append.mp hx with hx | hx
  · exact Nat.lt_succ_of_lt (hg x hx j)
  · rw [List.mem_singleton] at hx
    subst hx
    exact Nat.lt_succ_self g

theorem mem_swapRemove {α : Type} {l : List α} {pos : Nat} {x : α} (hx : x ∈ swapRemove l pos) : x ∈ l := by
  unfold swapRemove at hx
  cases hl : l.getLast? with
  | none =>
    rw [hl] at hx
    cases hx
  | some e =>
    rw [hl] at hx
    rcases List.mem_or_eq_of_mem_set (List.dropLast_subset _ hx) with h | h
    · exact h
    · rw [h]
      exact List.mem_of_getLast? hl

theorem Below.remove {g : Nat} {m : List (Elem k (Nat × Nat) (Elem k K V))} (hg : Below g m) (pos : Nat) : Below (g + 1) (swapRemove m pos) :=
  fun x hx j => Nat.lt_succ_of_lt (hg x (mem_swapRemove hx) j)

theorem Below.conflict {g : Nat} {m : List (Elem k (Nat × Nat) (Elem k K V))} (hg : Below g m) (h0 : Fin k → Nat) :
    conflict m (fun j => (g, h0 j)) = none := by
  unfold Dense.conflict
  rw [List.findSome?_eq_none_iff]
  intro j _
  exact hg.absent j (h0 j)

theorem insertWild_ok {g : Nat} {t : GTable k K V} {m : List (Elem k (Nat × Nat) (Elem k K V))} (h : Inv Prod.snd t m) (hg : Below g m)
    (h0 : Fin k → Nat) (p : Fin k → Nat → K → Bool) (key : Fin k → K) (v : V) : ∃ r m', t.insertWild g h0 p key v = .ok r ∧ Inv Prod.snd r.1 m' ∧
      Below (g + 1) m' ∧ 0 < r.1.bc ∧ (∀ t1, t.maybeResize = .ok t1 → r.1.cap = t1.cap) ∧
      Does (m.map Prod.snd) (m'.map Prod.snd) (.ins r.2.1 r.2.2) (.insert h0 p key v) := by
  obtain ⟨t1, e1, i1, c1, f1, b1, s1⟩ := maybeResize_ok h
  obtain ⟨t2, e2, i2, c2, f2, b2, p2⟩ := maybeRehash_ok i1
  obtain ⟨f, e3, ⟨h1, h2⟩ | ⟨i, j, n, h1, h2, h3⟩⟩ := locateWild_cases i2 hg h0 p
  · obtain ⟨r, e, hr⟩ := insert_ok h (fun j => (g, h0 j)) (key, v)
    obtain ⟨g1, g2⟩ := hr.fresh (hg.conflict h0)
    refine ⟨r, _, ?_, g2, hg.snoc h0 _, hr.bc, hr.cap, Or.inl ⟨by rw [List.map_append]; rfl, ?_⟩⟩
    · unfold Table.insert at e
      unfold Table.insertWild
      rw [e1, bind_ok, e2, bind_ok, h2, bind_ok, h1] at e
      rw [e1, bind_ok, e2, bind_ok, e3, bind_ok, h1]
      exact e
    · rw [g1, List.length_map]
  · refine ⟨(t2, i, false), m, ?_, i2, hg.mono, p2, (fun t3 e => by rw [e1] at e; cases e; exact c2), Or.inr ⟨rfl, i, j, n.val, i2.stored h2, h3, rfl⟩⟩
    unfold Table.insertWild
    rw [e1, bind_ok, e2, bind_ok, e3, bind_ok, h1]

theorem emplaceWild_ok {g : Nat} {t : GTable k K V} {m : List (Elem k (Nat × Nat) (Elem k K V))} (h : Inv Prod.snd t m) (hg : Below g m)
    (h0 : Fin k → Nat) (p : Fin k → Nat → K → Bool) (key : Fin k → K) (v : V) : ∃ r m', t.emplaceWild g h0 p key v = .ok r ∧ Inv Prod.snd r.1 m' ∧
      Below (g + 1) m' ∧ 0 < r.1.bc ∧ (∀ t1, t.maybeResize = .ok t1 → r.1.cap = t1.cap) ∧
      Does (m.map Prod.snd) (m'.map Prod.snd) (.ins r.2.1 r.2.2) (.emplace h0 p key v) := by
  obtain ⟨t1, e1, i1, c1, f1, b1, s1⟩ := maybeResize_ok h
  obtain ⟨t2, e2, i2, c2, f2, b2, p2⟩ := maybeRehash_ok i1
  have hcap : t2.size < t2.cap := by rw [i2.size, ← i1.size, c2]; exact s1
  have hnone : t2.node t2.size = none := i2.toArr.node_none (Nat.le_of_eq i2.size.symm)
  have hext : Extends t2
      { t2 with size := t2.size + 1, node := upd t2.node t2.size (some ⟨(fun j => (g, h0 j)), (key, v), fun _ => 0, fun _ => none⟩) } := by
    refine ⟨rfl, rfl, rfl, ?_⟩
    intro i n hn
    simp only
    rw [upd_ne]
    · exact hn
    · intro e
      rw [e, hnone] at hn
      cases hn
  obtain ⟨f, e3, ⟨h1, h2⟩ | ⟨i, j, n, h1, h2, h3⟩⟩ := locateWild_cases i2 hg h0 p
  · obtain ⟨r, e, hr⟩ := emplace_ok h (fun j => (g, h0 j)) (key, v)
    obtain ⟨g1, g2⟩ := hr.fresh (hg.conflict h0)
    refine ⟨r, _, ?_, g2, hg.snoc h0 _, hr.bc, hr.cap, Or.inl ⟨by rw [List.map_append]; rfl, ?_⟩⟩
    · unfold Table.emplace at e
      unfold Table.emplaceWild
      rw [e1, bind_ok, e2, bind_ok, pushNode_ok i2.toArr hcap, bind_ok] at e
      rw [e1, bind_ok, e2, bind_ok, pushNode_ok i2.toArr hcap, bind_ok]
      simp only at e ⊢
      rw [hext.locate h2, bind_ok, h1] at e
      rw [hext.locateWild e3, bind_ok, h1]
      exact e
    · rw [g1, List.length_map]
  · refine ⟨(t2, i, false), m, ?_, i2, hg.mono, p2, (fun t3 e => by rw [e1] at e; cases e; exact c2), Or.inr ⟨rfl, i, j, n.val, i2.stored h2, h3, rfl⟩⟩
    unfold Table.emplaceWild
    rw [e1, bind_ok, e2, bind_ok, pushNode_ok i2.toArr hcap, bind_ok]
    simp only
    rw [hext.locateWild e3, bind_ok, h1]
    unfold Table.popNode
    simp only
    rw [if_neg (by omega), Nat.add_sub_cancel, upd_same]
    simp only [bind_ok]
    have hback : upd (upd t2.node t2.size (some ⟨(fun j => (g, h0 j)), (key, v), fun _ => 0, fun _ => none⟩)) t2.size none = t2.node := by
      funext i
      simp only [upd_apply]
      by_cases e : i = t2.size
      · rw [if_pos e, e, hnone]
      · rw [if_neg e, if_neg e]
    rw [hback]

theorem assignWild_ok {g : Nat} {t : GTable 1 K V} {m : List (Elem 1 (Nat × Nat) (Elem 1 K V))} (h : Inv Prod.snd t m) (hg : Below g m)
    (h0 : Nat) (p : Nat → K → Bool) (x : K) (v : V) : ∃ r m', t.assignWild g h0 p x v = .ok r ∧ Inv Prod.snd r.1 m' ∧ Below (g + 1) m' ∧
      0 < r.1.bc ∧ (∀ t1, t.maybeResize = .ok t1 → r.1.cap = t1.cap) ∧
      Does (m.map Prod.snd) (m'.map Prod.snd) (.ins r.2.1 r.2.2) (.assign rfl h0 p x v) := by
  obtain ⟨t1, e1, i1, c1, f1, b1, s1⟩ := maybeResize_ok h
  obtain ⟨t2, e2, i2, c2, f2, b2, p2⟩ := maybeRehash_ok i1
  obtain ⟨r0, e3, h1 | ⟨i, r', n, h1, h2, -, h3⟩⟩ := findNodeWild_cases i2 hg 0 h0 p
  · obtain ⟨r, e, hr⟩ := insertOrAssign_ok h (g, h0) ((fun _ => x, v) : Elem 1 K V)
    obtain ⟨g1, g2⟩ := hr.fresh (hg.absent 0 h0)
    refine ⟨r, _, ?_, g2, hg.snoc (fun _ => h0) _, hr.bc, hr.cap, Or.inl ⟨by rw [List.map_append]; rfl, ?_⟩⟩
    · unfold Table.insertOrAssign at e
      unfold Table.assignWild
      rw [e1, bind_ok, e2, bind_ok, e3, bind_ok] at e
      rw [e1, bind_ok, e2, bind_ok, h1, bind_ok]
      exact e
    · rw [g1, List.length_map]
  · have hn := readNode_node h2
    refine ⟨(_, i, false), _, ?_, i2.setVal hn (n.val.1, v), ?_, p2, (fun t3 e => by rw [e1] at e; cases e; exact c2), Or.inr ⟨i, n.val, i2.stored h2, h3, ?_, rfl⟩⟩
    · unfold Table.assignWild
      rw [e1, bind_ok, e2, bind_ok, h1, bind_ok]
      simp only
      rw [h2, bind_ok]
    · intro y hy j
      rcases List.mem_or_eq_of_mem_set hy with hy | hy
      · exact Nat.lt_succ_of_lt (hg y hy j)
      · subst hy
        exact Nat.lt_succ_of_lt (hg _ (List.mem_of_getElem? (i2.toArr.node_elem hn)) j)
    · rw [List.map_set]

theorem eraseWild_ok {g : Nat} {t : GTable k K V} {m : List (Elem k (Nat × Nat) (Elem k K V))} (h : Inv Prod.snd t m) (hg : Below g m)
    (hb : 0 < t.bc) (j : Fin k) (h0 : Nat) (p : Nat → K → Bool) : ∃ r m', t.eraseWild j h0 p = .ok r ∧ Inv Prod.snd r.1 m' ∧ Below (g + 1) m' ∧
      r.1.bc = t.bc ∧ Does (m.map Prod.snd) (m'.map Prod.snd) (.pos r.2.1) (.erase j h0 p) ∧ r.1.cap = t.cap ∧
      ((r = (t, t.size, false) ∧ m' = m) ∨ ∃ i x, r.2 = (i, true) ∧ m[i]? = some x ∧ p i (x.2.1 j) = true ∧ m' = swapRemove m i) := by
  obtain ⟨r, e, hr⟩ := erase_ok h hb j (g, h0)
  have e' := e
  unfold Table.erase at e'
  simp only at e'
  obtain ⟨r0, d1, e'⟩ := bind_eq_ok e'
  obtain ⟨o, d2, e'⟩ := bind_eq_ok e'
  obtain ⟨d3, d4 | ⟨i, r', n, d4, d5, d6, d7⟩⟩ := findLoopWild_cases (hg.fresh h.toArr j h0) p d2
  · have := hr.2.2.2.1 (hg.absent j h0)
    refine ⟨(t, t.size, false), m, ?_, h, hg.mono, rfl, Or.inl ⟨rfl, by rw [h.size, List.length_map]⟩, rfl, Or.inl ⟨rfl, rfl⟩⟩
    unfold Table.eraseWild
    obtain ⟨o1, o2⟩ := o
    simp only at d3
    subst d3
    rw [d1, bind_ok, d4, bind_ok]
  · have hn := readNode_node d5
    have hl := h.toArr.node_elem hn
    have hidx := idxOf_of_uniq (h.uniq j) hl
    obtain ⟨s, es, hbc, hcap, -, -, hs⟩ := erase_ok h hb j (n.key j)
    obtain ⟨s1, s2⟩ := hs i hidx
    subst d6
    have hh : (n.key j).2 = n.hash j := (h.hashed i n hn j).symm
    have huniq : ∀ i' n', t.readNode i' = .ok n' → n'.key j = n.key j → i' = i := by
      intro i' n' hr' hk
      have := idxOf_of_uniq (h.uniq j) (h.toArr.node_elem (readNode_node hr'))
      simp only [hk] at this
      simp only at hidx
      rw [this] at hidx
      exact Option.some.inj hidx
    refine ⟨s, _, ?_, s2, hg.remove i, hbc, Or.inr ⟨i, n.val, h.stored d5, d7, ?_, by rw [s1]⟩, hcap,
      Or.inr ⟨i, _, s1, hl, d7, rfl⟩⟩
    · unfold Table.erase at es
      rw [hh, d1, bind_ok, findLoopWild_found d5 huniq d7 d4, bind_ok] at es
      unfold Table.eraseWild
      rw [d1, bind_ok, d4, bind_ok]
      exact es
    · rw [swapRemove_map]

theorem stepWild_ok {g : Nat} {t : GTable k K V} {m : List (Elem k (Nat × Nat) (Elem k K V))} (h : Inv Prod.snd t m) (hg : Below g m)
    (op : WildOp k K V) (hb : op.needs = true → 0 < t.bc) : ∃ r m', t.stepWild g op = .ok r ∧ Inv Prod.snd r.1 m' ∧ Below (g + 1) m' ∧
      Does (m.map Prod.snd) (m'.map Prod.snd) r.2 op ∧ ∀ b, (b = true → 0 < t.bc) → op.buckets b = true → 0 < r.1.bc := by
  cases op with
  | insert h0 p key v =>
    obtain ⟨r, m', e, h1, h2, h3, -, h4⟩ := insertWild_ok h hg h0 p key v
    refine ⟨(r.1, .ins r.2.1 r.2.2), m', ?_, h1, h2, h4, fun _ _ _ => h3⟩
    simp only [Table.stepWild]
    rw [e, bind_ok]
  | emplace h0 p key v =>
    obtain ⟨r, m', e, h1, h2, h3, -, h4⟩ := emplaceWild_ok h hg h0 p key v
    refine ⟨(r.1, .ins r.2.1 r.2.2), m', ?_, h1, h2, h4, fun _ _ _ => h3⟩
    simp only [Table.stepWild]
    rw [e, bind_ok]
  | assign hk h0 p x v =>
    clear hb
    cases hk
    obtain ⟨r, m', e, h1, h2, h3, -, h4⟩ := assignWild_ok h hg h0 p x v
    refine ⟨(r.1, .ins r.2.1 r.2.2), m', ?_, h1, h2, h4, fun _ _ _ => h3⟩
    simp only [Table.stepWild, Table.assignStepWild]
    rw [e, bind_ok]
  | erase j h0 p =>
    obtain ⟨r, m', e, h1, h2, h3, h4, -⟩ := eraseWild_ok h hg (hb rfl) j h0 p
    refine ⟨(r.1, .pos r.2.1), m', ?_, h1, h2, h4, fun _ hb' hb'' => h3 ▸ hb' hb''⟩
    simp only [Table.stepWild]
    rw [e, bind_ok]
  | eraseAt pos =>
    simp only [Table.stepWild, Does]
    rw [h.size, List.length_map]
    by_cases hp : pos < m.length
    · obtain ⟨t', e, h1, h2, _⟩ := eraseAt_ok h hp
      simp only [if_pos hp]
      rw [e, bind_ok]
      exact ⟨_, _, rfl, h1, hg.remove pos, ⟨by rw [swapRemove_map], rfl⟩, fun b hb' hb'' => h2 ▸ hb' hb''⟩
    · simp only [if_neg hp]
      exact ⟨_, m, rfl, h, hg.mono, ⟨rfl, rfl⟩, fun b hb' hb'' => hb' hb''⟩
  | clear =>
    obtain ⟨t', e, h1, h2, _⟩ := clear_ok h.toArr
    simp only [Table.stepWild]
    rw [e, bind_ok]
    exact ⟨_, [], rfl, h1, (fun x hx => by cases hx), ⟨rfl, rfl⟩, fun b hb' hb'' => h2 ▸ hb' hb''⟩
  | reserve n =>
    obtain ⟨t', e, h1, _, _, _, h2, _⟩ := reserve_ok h n
    simp only [Table.stepWild]
    rw [e, bind_ok]
    exact ⟨_, m, rfl, h1, hg.mono, ⟨rfl, rfl⟩, fun b hb' hb'' => Nat.lt_of_lt_of_le (hb' hb'') h2⟩
  | rehash n =>
    obtain ⟨t', e, h1, _, _, h2, h3⟩ := rehash_ok h n
    simp only [Table.stepWild]
    rw [e, bind_ok]
    refine ⟨_, m, rfl, h1, hg.mono, ⟨rfl, rfl⟩, fun b hb' hb'' => ?_⟩
    simp only [WildOp.buckets, Bool.or_eq_true, decide_eq_true_eq] at hb''
    rcases hb'' with g' | g'
    · exact Nat.lt_of_lt_of_le (hb' g') h2
    · simp only
      omega
  | setLoad lf => exact ⟨_, m, rfl, h.setLoad lf, hg.mono, ⟨rfl, rfl⟩, fun b hb' hb'' => hb' hb''⟩
  | find j h0 p =>
    obtain ⟨r0, -, h1 | ⟨i, r', n, h1, h2, -, h3⟩⟩ := findNodeWild_cases h hg j h0 p
    · refine ⟨(t, .elem none), m, ?_, h, hg.mono, ⟨rfl, Or.inl rfl⟩, fun b hb' hb'' => hb' hb''⟩
      simp only [Table.stepWild]
      rw [h1, bind_ok]
    · refine ⟨(t, .elem (some n.val)), m, ?_, h, hg.mono, ⟨rfl, Or.inr ⟨i, n.val, h.stored h2, h3, rfl⟩⟩, fun b hb' hb'' => hb' hb''⟩
      simp only [Table.stepWild]
      rw [h1, bind_ok]
      simp only
      rw [h2, bind_ok]
  | contains j h0 p =>
    obtain ⟨r0, -, h1 | ⟨i, r', n, h1, h2, -, h3⟩⟩ := findNodeWild_cases h hg j h0 p
    · refine ⟨(t, .bool false), m, ?_, h, hg.mono, ⟨rfl, Or.inl rfl⟩, fun b hb' hb'' => hb' hb''⟩
      simp only [Table.stepWild]
      rw [h1, bind_ok]
      rfl
    · refine ⟨(t, .bool true), m, ?_, h, hg.mono, ⟨rfl, Or.inr ⟨i, n.val, h.stored h2, h3, rfl⟩⟩, fun b hb' hb'' => hb' hb''⟩
      simp only [Table.stepWild]
      rw [h1, bind_ok]
      rfl
  | size =>
    refine ⟨_, m, rfl, h, hg.mono, ⟨rfl, ?_⟩, fun b hb' hb'' => hb' hb''⟩
    rw [h.size, List.length_map]
  | iterate =>
    simp only [Table.stepWild]
    rw [iterate_ok h.toArr, bind_ok]
    exact ⟨_, m, rfl, h, hg.mono, ⟨rfl, rfl⟩, fun b hb' hb'' => hb' hb''⟩

/-! ## An element that is always accepted -/

theorem findLoopWild_some {t : GTable k K V} {j : Fin k} {q : Nat × Nat} {p : Nat → K → Bool}
    (hq : ∀ i n, t.readNode i = .ok n → n.key j = q → p i (n.val.1 j) = true) {h : Nat} : ∀ {fuel : Nat} {r : Ref} {o : Option Nat × Ref},
      t.findLoop j q h fuel r = .ok o → o.1.isSome = true → ∃ i r', t.findLoopWild p j h fuel r = .ok (some i, r')
  | 0, _, _, e, _ => by cases e
  | fuel + 1, r, o, e, hs => by
    unfold Table.findLoop at e
    obtain ⟨c, h1, e⟩ := bind_eq_ok e
    unfold Table.findLoopWild
    rw [h1, bind_ok]
    cases c with
    | none =>
      cases e
      cases hs
    | some i =>
      simp only at e ⊢
      obtain ⟨n, h2, e⟩ := bind_eq_ok e
      rw [h2, bind_ok]
      by_cases hp : n.hash j = h ∧ p i (n.val.1 j) = true
      · rw [if_pos hp]
        exact ⟨i, r, rfl⟩
      · rw [if_neg hp]
        rw [if_neg (fun x => hp ⟨x.1, hq i n h2 x.2.symm⟩)] at e
        exact findLoopWild_some hq e hs

theorem findNodeWild_some {t : GTable k K V} {m : List (Elem k (Nat × Nat) (Elem k K V))} (h : Inv Prod.snd t m) {i : Nat}
    {x : Elem k (Nat × Nat) (Elem k K V)} (hx : m[i]? = some x) (j : Fin k) {p : Nat → K → Bool} (hp : p i (x.2.1 j) = true) :
    ∃ i' r, t.findNodeWild p j (x.1 j).2 = .ok (some i', r) := by
  have hidx := idxOf_of_uniq (h.uniq j) hx
  obtain ⟨r, e⟩ := findNode_ok h j (x.1 j)
  rw [hidx] at e
  unfold Table.findNode at e
  unfold Table.findNodeWild
  cases hc : t.getChain (x.1 j).2 with
  | none =>
    rw [hc] at e
    cases e
  | some r0 =>
    rw [hc] at e
    simp only at e ⊢
    obtain ⟨⟨o, r1⟩, h1, e⟩ := bind_eq_ok e
    cases e
    have hq : ∀ i' n, t.readNode i' = .ok n → n.key j = x.1 j → p i' (n.val.1 j) = true := by
      intro i' n hr hk
      have hn := h.toArr.node_elem (readNode_node hr)
      have := idxOf_of_uniq (h.uniq j) hn
      simp only [hk] at this
      rw [hidx] at this
      cases this
      rw [hx] at hn
      cases hn
      exact hp
    obtain ⟨i', r', h2⟩ := findLoopWild_some hq h1 rfl
    rw [h2, bind_ok]
    exact ⟨i', some r', rfl⟩

end Tpp.Dense
