import Verif.Swiss.Hist

/-!
# Exceptions from the user's hash function, comparison and predicate

Every call of the hash function and of the comparison is counted: `c` calls return, the next one throws.  An operation yields the
container as it is when the exception leaves it and `none`, or its result and the calls that are left.  Exceptions of constructors
and allocators are treated elsewhere (`Table.insertThrow`, `Verif.Swiss.Throw`).
-/

set_option linter.unusedSectionVars false

namespace Tpp.Swiss

variable {K V : Type} [DecidableEq K]

namespace Table

/-- The inner loop of `find_node` (swiss_table.hpp 1221-1226), each test being a call of the comparison (1152). -/
def scanC (t : Table K V) (k : K) (pos : Nat) : List Nat → Nat → M (Option (Option Nat × Nat))
  | [], c => .ok (some (none, c))
  | i :: is, c => do
    let off := (pos + i) &&& t.cap
    let n ← t.readNode off
    match c with
    | 0 => .ok none
    | c + 1 => if n.key = k then .ok (some (some off, c)) else scanC t k pos is c

/-- The probe loop of `find_node` (swiss_table.hpp 1217-1231). -/
def findLoopC (isa : Isa) (t : Table K V) (k : K) (tag : Nat) : (fuel pos idx : Nat) → Nat → M (Option (Nat × Nat))
  | 0, _, _, _ => .error .diverge
  | fuel + 1, pos, idx, c => do
    t.loadBlock isa pos
    match ← t.scanC k pos (t.matchEq isa pos tag) c with
    | none => .ok none
    | some (some off, c) => .ok (some (off, c))
    | some (none, c) =>
      if t.matches_ isa pos (·.isEmpty) ≠ [] then .ok (some (t.cap, c))
      else if idx < t.cap then
        findLoopC isa t k tag fuel ((pos + (idx + isa.W)) &&& t.cap) (idx + isa.W) c
      else .error .assertFail

/-- `find_node` (swiss_table.hpp 1209-1234). -/
def findNodeC (isa : Isa) (t : Table K V) (k : K) (h : Nat) (c : Nat) : M (Option (Nat × Nat)) :=
  if t.size ≠ 0 then t.findLoopC isa k (hashLo h) (t.cap + 1) (hashHi h &&& t.cap) 0 c
  else .ok (some (t.cap, c))

/-- `find_node(key, hash(key))` as the operations begin (swiss_table.hpp 932-938, 1052-1084, 1330-1350; `hash` 1149): the hash
value, the slot and the calls left. -/
def seekC (isa : Isa) (hash : K → Nat) (t : Table K V) (k : K) : Nat → M (Option (Nat × Nat × Nat))
  | 0 => .ok none
  | c + 1 => do
    match ← t.findNodeC isa k (hash k) c with
    | none => .ok none
    | some (pos, c) => .ok (some (hash k, pos, c))

/-- `do_insert` and `do_try_emplace` (swiss_table.hpp 1330-1347). -/
def insertC (isa : Isa) (hash : K → Nat) (t : Table K V) (k : K) (v : V) (c : Nat) : M (Table K V × Option (Nat × Bool × Nat)) := do
  match ← t.seekC isa hash k c with
  | none => .ok (t, none)
  | some (h, pos, c) =>
    if pos = t.cap then
      let (t, p) ← t.emplaceNode isa ⟨k, v, h⟩
      .ok (t, some (p, true, c))
    else .ok (t, some (pos, false, c))

/-- `do_insert_or_assign` (swiss_table.hpp 1348-1359). -/
def assignC (isa : Isa) (hash : K → Nat) (t : Table K V) (k : K) (v : V) (c : Nat) : M (Table K V × Option (Nat × Bool × Nat)) := do
  match ← t.seekC isa hash k c with
  | none => .ok (t, none)
  | some (h, pos, c) =>
    if pos = t.cap then
      let (t, p) ← t.emplaceNode isa ⟨k, v, h⟩
      .ok (t, some (p, true, c))
    else
      let n ← t.readNode pos
      .ok ({ t with node := upd t.node pos (some { n with val := v }) }, some (pos, false, c))

/-- `erase(key)` (swiss_table.hpp 1052-1059). -/
def eraseC (isa : Isa) (hash : K → Nat) (t : Table K V) (k : K) (c : Nat) : M (Table K V × Option (Nat × Nat)) := do
  match ← t.seekC isa hash k c with
  | none => .ok (t, none)
  | some (_, pos, c) =>
    if pos ≠ t.cap then
      let (t, it) ← t.doErase isa pos
      .ok (t, some (it, c))
    else
      let e ← t.end_ isa
      .ok (t, some (e, c))

/-- `extract(key)` (swiss_table.hpp 1077-1084). -/
def extractC (isa : Isa) (hash : K → Nat) (t : Table K V) (k : K) (c : Nat) : M (Table K V × Option (Option (K × V) × Nat)) := do
  match ← t.seekC isa hash k c with
  | none => .ok (t, none)
  | some (_, pos, c) =>
    if pos ≠ t.cap then
      let (t, n) ← t.extractAt isa pos
      .ok (t, some (some (n.key, n.val), c))
    else .ok (t, some (none, c))

/-- `insert(node_type&&)` (swiss_table.hpp 962-970): the third component is what the caller's handle holds afterwards. -/
def insertNodeC (isa : Isa) (hash : K → Nat) (t : Table K V) (x : K × V) (c : Nat) :
    M (Table K V × Option (Nat × Bool × Nat) × Option (K × V)) := do
  match ← t.seekC isa hash x.1 c with
  | none => .ok (t, none, some x)
  | some (h, pos, c) =>
    if pos = t.cap then
      let (t, p) ← t.emplaceNode isa ⟨x.1, x.2, h⟩
      .ok (t, some (p, true, c), none)
    else .ok (t, some (pos, false, c), some x)

/-- The loop of range insertion (swiss_table.hpp 985-986). -/
def insertListC (isa : Isa) (hash : K → Nat) : Table K V → List (K × V) → Nat → M (Table K V × Option Nat)
  | t, [], c => .ok (t, some c)
  | t, x :: xs, c => do
    match ← t.insertC isa hash x.1 x.2 c with
    | (t, none) => .ok (t, none)
    | (t, some (_, _, c)) => insertListC isa hash t xs c

/-- Range insertion (swiss_table.hpp 981-987). -/
def insertRangeC (isa : Isa) (hash : K → Nat) (ra : Bool) (t : Table K V) (xs : List (K × V)) (c : Nat) : M (Table K V × Option Nat) := do
  let t ← if ra then t.reserve isa (t.size + xs.length) else .ok t
  t.insertListC isa hash xs c

/-- `emplace` (`do_emplace`, swiss_table.hpp 1318-1329): the number of temporaries that were constructed and not destroyed is
returned as well; `bucket_node` has no destructor (table_common.hpp 200-300). -/
def emplaceC (isa : Isa) (hash : K → Nat) (t : Table K V) (k : K) (v : V) (c : Nat) :
    M (Table K V × Nat × Option (Nat × Bool × Nat)) := do
  match ← t.insertC isa hash k v c with
  | (t, none) => .ok (t, 1, none)
  | (t, some r) => .ok (t, 0, some r)

/-- One operation; the predicate of `erase_if` does not throw here (see `eraseIfC`). -/
def stepC (isa : Isa) (hash : K → Nat) (t : Table K V) (c : Nat) : Op K V → M (Table K V × Option (Out K V × Nat))
  | .insert k v => do
    match ← t.insertC isa hash k v c with
    | (t, none) => .ok (t, none)
    | (t, some (p, b, c)) =>
      let n ← t.readNode (← t.toIter isa p)
      .ok (t, some (.ins (n.key, n.val) b, c))
  | .assign k v => do
    match ← t.assignC isa hash k v c with
    | (t, none) => .ok (t, none)
    | (t, some (p, b, c)) =>
      let n ← t.readNode (← t.toIter isa p)
      .ok (t, some (.ins (n.key, n.val) b, c))
  | .erase k => do
    match ← t.eraseC isa hash k c with
    | (t, none) => .ok (t, none)
    | (t, some (_, c)) => .ok (t, some (.unit, c))
  | .find k => do
    match ← t.seekC isa hash k c with
    | none => .ok (t, none)
    | some (_, pos, c) =>
      if pos = t.cap then .ok (t, some (.opt none, c))
      else
        let n ← t.readNode pos
        .ok (t, some (.opt (some n.val), c))
  | .contains k => do
    match ← t.seekC isa hash k c with
    | none => .ok (t, none)
    | some (_, pos, c) => .ok (t, some (.bool (pos != t.cap), c))
  | .index k d => do
    match ← t.insertC isa hash k d c with
    | (t, none) => .ok (t, none)
    | (t, some (p, _, c)) =>
      let n ← t.readNode (← t.toIter isa p)
      .ok (t, some (.opt (some n.val), c))
  | .extract k => do
    match ← t.extractC isa hash k c with
    | (t, none) => .ok (t, none)
    | (t, some (x, c)) => .ok (t, some (.node x, c))
  | .insertNode x => do
    match ← t.insertNodeC isa hash x c with
    | (t, none, _) => .ok (t, none)
    | (t, some (p, b, c), _) =>
      let n ← t.readNode (← t.toIter isa p)
      .ok (t, some (.ins (n.key, n.val) b, c))
  | .insertThrow k => do
    match ← t.seekC isa hash k c with
    | none => .ok (t, none)
    | some (h, pos, c) =>
      if pos = t.cap then
        let (t, _) ← t.prepare isa h
        .ok (t, some (.bool true, c))
      else .ok (t, some (.bool false, c))
  | .insertRange ra xs => do
    match ← t.insertRangeC isa hash ra xs c with
    | (t, none) => .ok (t, none)
    | (t, some c) => .ok (t, some (.unit, c))
  | op => do
    let (t, o) ← t.step isa hash op
    .ok (t, some (o, c))

/-- The loop of `erase_if` (sparse_set.hpp 289-303); `c` calls of the predicate return, the next one throws.  `none`: it threw. -/
def eraseIfLoopC (isa : Isa) (pred : K × V → Bool) : (fuel : Nat) → (t : Table K V) → (pos last count : Nat) → Nat →
    M (Table K V × Option Nat)
  | 0, _, _, _, _, _ => .error .diverge
  | fuel + 1, t, pos, last, count, c =>
    if pos = last then .ok (t, some count)
    else do
      let n ← t.readNode pos
      match c with
      | 0 => .ok (t, none)
      | c + 1 =>
        if pred (n.key, n.val) then
          let (t, pos) ← t.eraseIter isa pos
          eraseIfLoopC isa pred fuel t pos last (count + 1) c
        else
          let pos ← t.nextOccupied isa (t.cap + 1) (pos + 1)
          eraseIfLoopC isa pred fuel t pos last count c

/-- `erase_if` (sparse_set.hpp 289-303) with a predicate that throws at its call number `c + 1`. -/
def eraseIfC (isa : Isa) (pred : K × V → Bool) (t : Table K V) (c : Nat) : M (Table K V × Option Nat) := do
  let first ← t.begin_ isa
  let last ← t.end_ isa
  eraseIfLoopC isa pred (t.cap + 1) t first last 0 c

/-- The loop of `merge` (swiss_table.hpp 1104-1111).  The lambda is `noexcept` (1104): an exception inside calls
`std::terminate`, the outcome `none`. -/
def mergeLoopC (isa : Isa) (hash : K → Nat) : (fuel : Nat) → (dst src : Table K V) → (pos last : Nat) → Nat →
    M (Option (Table K V × Table K V × Nat))
  | 0, _, _, _, _, _ => .error .diverge
  | fuel + 1, dst, src, pos, last, c =>
    if pos = last then .ok (some (dst, src, c))
    else do
      let n ← src.readNode pos
      match ← dst.seekC isa hash n.key c with
      | none => .ok none
      | some (h, p, c) =>
        let (dst, src) ←
          if p = dst.cap then do
            let (src, n) ← src.extractAt isa pos
            let (dst, _) ← dst.emplaceNode isa ⟨n.key, n.val, h⟩
            Except.ok (dst, src)
          else Except.ok (dst, src)
        let pos ← src.nextOccupied isa (src.cap + 1) (pos + 1)
        mergeLoopC isa hash fuel dst src pos last c

/-- `dst.merge(src)` (swiss_table.hpp 1096-1113). -/
def mergeC (isa : Isa) (hash : K → Nat) (dst src : Table K V) (c : Nat) : M (Option (Table K V × Table K V × Nat)) := do
  let dst ← dst.reserve isa (dst.size + src.size)
  let pos ← src.begin_ isa
  let last ← src.end_ isa
  mergeLoopC isa hash (src.cap + 1) dst src pos last c

end Table

/-! ### The number of calls of a search -/

/-- The search `f` makes `N` calls and then ends as `r`. -/
def Costs {α : Type} (f : Nat → M (Option (α × Nat))) (r : M α) (N : Nat) : Prop :=
  ∀ c, f c = if c < N then .ok none else (do let a ← r; .ok (some (a, c - N)))

theorem scanC_costs (t : Table K V) (k : K) (pos : Nat) (l : List Nat) : ∃ N, N ≤ l.length ∧ Costs (t.scanC k pos l) (t.scan k pos l) N := by
  induction l with
  | nil => exact ⟨0, Nat.le_refl _, fun c => rfl⟩
  | cons i is ih =>
    obtain ⟨N, hN, h⟩ := ih
    unfold Costs Table.scanC Table.scan
    simp only
    cases hr : t.readNode ((pos + i) &&& t.cap) with
    | error e => exact ⟨0, Nat.zero_le _, fun c => rfl⟩
    | ok n =>
      simp only [bind_ok]
      by_cases hk : n.key = k
      · refine ⟨1, by simp, fun c => ?_⟩
        cases c with
        | zero => rfl
        | succ c => simp only [if_pos hk]; rfl
      · refine ⟨N + 1, by simp; omega, fun c => ?_⟩
        cases c with
        | zero => simp
        | succ c =>
          simp only [if_neg hk]
          rw [h c]
          simp [Nat.add_sub_add_right]

theorem findLoopC_costs (isa : Isa) (t : Table K V) (k : K) (tag fuel : Nat) :
    ∀ pos idx, ∃ N, Costs (t.findLoopC isa k tag fuel pos idx) (t.findLoop isa k tag fuel pos idx) N := by
  induction fuel with
  | zero => intro _ _; exact ⟨0, fun c => rfl⟩
  | succ fuel ih =>
    intro pos idx
    unfold Costs Table.findLoopC Table.findLoop
    cases t.loadBlock isa pos with
    | error e => exact ⟨0, fun c => rfl⟩
    | ok u =>
      simp only [bind_ok]
      obtain ⟨N, _, h⟩ := scanC_costs t k pos (t.matchEq isa pos tag)
      cases hs : t.scan k pos (t.matchEq isa pos tag) with
      | error e =>
        refine ⟨N, fun c => ?_⟩
        rw [h c, hs]
        by_cases hc : c < N
        · simp only [if_pos hc]; rfl
        · simp only [if_neg hc]; rfl
      | ok r =>
        cases r with
        | some off =>
          refine ⟨N, fun c => ?_⟩
          rw [h c, hs]
          by_cases hc : c < N
          · simp only [if_pos hc]; rfl
          · simp only [if_neg hc]; rfl
        | none =>
          by_cases hm : t.matches_ isa pos (·.isEmpty) ≠ []
          · refine ⟨N, fun c => ?_⟩
            rw [h c, hs]
            by_cases hc : c < N
            · simp only [if_pos hc]; rfl
            · simp only [if_neg hc, if_pos hm]; simp only [bind_ok, if_pos hm]
          · by_cases hi : idx < t.cap
            · obtain ⟨N', h'⟩ := ih ((pos + (idx + isa.W)) &&& t.cap) (idx + isa.W)
              refine ⟨N + N', fun c => ?_⟩
              rw [h c, hs]
              by_cases hc : c < N
              · simp only [if_pos hc, if_pos (show c < N + N' by omega)]; rfl
              · simp only [if_neg hc, if_pos hi, if_neg hm, bind_ok]
                rw [h' (c - N)]
                by_cases hc' : c < N + N'
                · rw [if_pos hc', if_pos (by omega)]
                · rw [if_neg hc', if_neg (by omega), Nat.sub_sub]
            · refine ⟨N, fun c => ?_⟩
              rw [h c, hs]
              by_cases hc : c < N
              · simp only [if_pos hc]; rfl
              · simp only [if_neg hc, if_neg hm, if_neg hi, bind_ok]; rfl

theorem findNodeC_costs (isa : Isa) (t : Table K V) (k : K) (h : Nat) :
    ∃ N, Costs (t.findNodeC isa k h) (t.findNode isa k h) N := by
  unfold Table.findNodeC Table.findNode
  by_cases hs : t.size ≠ 0
  · simp only [if_pos hs]
    exact findLoopC_costs isa t k _ _ _ _
  · simp only [if_neg hs]
    exact ⟨0, fun c => rfl⟩

/-- A search by key calls the user's functions at least once (the hash function). -/
theorem seekC_costs (isa : Isa) (hash : K → Nat) (t : Table K V) (k : K) :
    ∃ N, ∀ c, t.seekC isa hash k c =
      if c < N + 1 then .ok none else (do let p ← t.findNode isa k (hash k); .ok (some (hash k, p, c - (N + 1)))) := by
  obtain ⟨N, h⟩ := findNodeC_costs isa t k (hash k)
  refine ⟨N, fun c => ?_⟩
  cases c with
  | zero => simp [Table.seekC]
  | succ c =>
    unfold Table.seekC
    simp only
    rw [h c]
    by_cases hc : c < N
    · rw [if_pos hc, if_pos (by omega)]; rfl
    · rw [if_neg hc, if_neg (by omega), Nat.add_sub_add_right]
      cases t.findNode isa k (hash k) <;> rfl

/-- Operations that call the hash function. -/
def _root_.Tpp.Op.keyed : Op K V → Bool
  | .insert .. | .assign .. | .erase .. | .find .. | .contains .. | .index .. | .extract .. | .insertNode .. | .insertThrow .. => true
  | _ => false

/-- The operation with a limit on the calls, given that it makes `N` calls. -/
def StepCosts (isa : Isa) (hash : K → Nat) (t : Table K V) (op : Op K V) (N : Nat) : Prop :=
  ∀ c, t.stepC isa hash c op =
    if c < N then .ok (t, none) else (do let (u, o) ← t.step isa hash op; .ok (u, some (o, c - N)))

theorem stepC_keyed (isa : Isa) (hash : K → Nat) (t : Table K V) (op : Op K V) (hop : op.keyed = true) :
    ∃ N, StepCosts isa hash t op (N + 1) := by
  cases op with
  | insert k v =>
    obtain ⟨N, h⟩ := seekC_costs isa hash t k
    refine ⟨N, fun c => ?_⟩
    simp only [Table.stepC, Table.insertC, Table.step, Table.insert]
    rw [h c]
    split
    · rfl
    · cases t.findNode isa k (hash k) with
      | error e => rfl
      | ok pos =>
        simp only [bind_ok]
        split
        · cases t.emplaceNode isa ⟨k, v, hash k⟩ with
          | error e => rfl
          | ok r =>
            simp only [bind_ok]
            cases r.1.toIter isa r.2 with
            | error e => rfl
            | ok it =>
              simp only [bind_ok]
              cases r.1.readNode it <;> rfl
        · simp only [bind_ok]
          cases t.toIter isa pos with
          | error e => rfl
          | ok it =>
            simp only [bind_ok]
            cases t.readNode it <;> rfl
  | assign k v =>
    obtain ⟨N, h⟩ := seekC_costs isa hash t k
    refine ⟨N, fun c => ?_⟩
    simp only [Table.stepC, Table.assignC, Table.step, Table.insertOrAssign, Table.insertOrAssignWith]
    rw [h c]
    split
    · rfl
    · cases t.findNode isa k (hash k) with
      | error e => rfl
      | ok pos =>
        simp only [bind_ok]
        split
        · cases t.emplaceNode isa ⟨k, v, hash k⟩ with
          | error e => rfl
          | ok r =>
            simp only [bind_ok]
            cases r.1.toIter isa r.2 with
            | error e => rfl
            | ok it =>
              simp only [bind_ok]
              cases r.1.readNode it <;> rfl
        · cases t.readNode pos with
          | error e => rfl
          | ok n =>
            simp only [bind_ok]
            generalize ({ t with node := upd t.node pos (some { n with val := v }) } : Table K V) = u
            cases u.toIter isa pos with
            | error e => rfl
            | ok it =>
              simp only [bind_ok]
              cases u.readNode it <;> rfl
  | erase k =>
    obtain ⟨N, h⟩ := seekC_costs isa hash t k
    refine ⟨N, fun c => ?_⟩
    simp only [Table.stepC, Table.eraseC, Table.step, Table.erase]
    rw [h c]
    split
    · rfl
    · cases t.findNode isa k (hash k) with
      | error e => rfl
      | ok pos =>
        simp only [bind_ok]
        split
        · cases t.doErase isa pos <;> rfl
        · cases t.end_ isa <;> rfl
  | find k =>
    obtain ⟨N, h⟩ := seekC_costs isa hash t k
    refine ⟨N, fun c => ?_⟩
    simp only [Table.stepC, Table.step, Table.lookup]
    rw [h c]
    split
    · rfl
    · cases t.findNode isa k (hash k) with
      | error e => rfl
      | ok pos =>
        simp only [bind_ok]
        split
        · rfl
        · cases t.readNode pos <;> rfl
  | contains k =>
    obtain ⟨N, h⟩ := seekC_costs isa hash t k
    refine ⟨N, fun c => ?_⟩
    simp only [Table.stepC, Table.step, Table.contains]
    rw [h c]
    split
    · rfl
    · cases t.findNode isa k (hash k) <;> rfl
  | index k v =>
    obtain ⟨N, h⟩ := seekC_costs isa hash t k
    refine ⟨N, fun c => ?_⟩
    simp only [Table.stepC, Table.insertC, Table.step, Table.index, Table.insert]
    rw [h c]
    split
    · rfl
    · cases t.findNode isa k (hash k) with
      | error e => rfl
      | ok pos =>
        simp only [bind_ok]
        split
        · cases t.emplaceNode isa ⟨k, v, hash k⟩ with
          | error e => rfl
          | ok r =>
            simp only [bind_ok]
            cases r.1.toIter isa r.2 with
            | error e => rfl
            | ok it =>
              simp only [bind_ok]
              cases r.1.readNode it <;> rfl
        · simp only [bind_ok]
          cases t.toIter isa pos with
          | error e => rfl
          | ok it =>
            simp only [bind_ok]
            cases t.readNode it <;> rfl
  | extract k =>
    obtain ⟨N, h⟩ := seekC_costs isa hash t k
    refine ⟨N, fun c => ?_⟩
    simp only [Table.stepC, Table.extractC, Table.step, Table.extract]
    rw [h c]
    split
    · rfl
    · cases t.findNode isa k (hash k) with
      | error e => rfl
      | ok pos =>
        simp only [bind_ok]
        split
        · cases t.extractAt isa pos <;> rfl
        · rfl
  | insertNode x =>
    obtain ⟨N, h⟩ := seekC_costs isa hash t x.1
    refine ⟨N, fun c => ?_⟩
    simp only [Table.stepC, Table.insertNodeC, Table.step, Table.insertNode]
    rw [h c]
    split
    · rfl
    · cases t.findNode isa x.1 (hash x.1) with
      | error e => rfl
      | ok pos =>
        simp only [bind_ok]
        split
        · cases t.emplaceNode isa ⟨x.1, x.2, hash x.1⟩ with
          | error e => rfl
          | ok r =>
            simp only [bind_ok]
            cases r.1.toIter isa r.2 with
            | error e => rfl
            | ok it =>
              simp only [bind_ok]
              cases r.1.readNode it <;> rfl
        · simp only [bind_ok]
          cases t.toIter isa pos with
          | error e => rfl
          | ok it =>
            simp only [bind_ok]
            cases t.readNode it <;> rfl
  | insertThrow k =>
    obtain ⟨N, h⟩ := seekC_costs isa hash t k
    refine ⟨N, fun c => ?_⟩
    simp only [Table.stepC, Table.step, Table.insertThrow]
    rw [h c]
    split
    · rfl
    · cases t.findNode isa k (hash k) with
      | error e => rfl
      | ok pos =>
        simp only [bind_ok]
        split
        · cases t.prepare isa (hash k) <;> rfl
        · rfl
  | _ => cases hop

theorem insertC_spec {isa : Isa} {hash : K → Nat} {t : Table K V} (h : Inv isa hash t) (k : K) (v : V) (c : Nat) :
    t.insertC isa hash k v c = .ok (t, none) ∨
    ∃ t' p b c', t.insertC isa hash k v c = .ok (t', some (p, b, c')) ∧ c' < c ∧ t.insert isa hash k v = .ok (t', p, b) := by
  obtain ⟨N, hN⟩ := seekC_costs isa hash t k
  obtain ⟨t', p, b, e, _⟩ := insert_spec h k v
  unfold Table.insertC
  rw [hN c]
  by_cases hc : c < N + 1
  · rw [if_pos hc]; exact Or.inl rfl
  · rw [if_neg hc]
    right
    unfold Table.insert at e
    simp only at e
    cases hf : t.findNode isa k (hash k) with
    | error e' => rw [hf] at e; cases e
    | ok pos =>
      rw [hf] at e
      simp only [bind_ok] at e ⊢
      by_cases hp : pos = t.cap
      · rw [if_pos hp] at e ⊢
        cases he : t.emplaceNode isa ⟨k, v, hash k⟩ with
        | error e' => rw [he] at e; cases e
        | ok r =>
          rw [he] at e
          simp only [bind_ok] at e ⊢
          cases e
          refine ⟨_, _, _, _, rfl, by omega, ?_⟩
          simp only [Table.insert, hf, bind_ok, if_pos hp, he]
      · rw [if_neg hp] at e ⊢
        cases e
        refine ⟨_, _, _, _, rfl, by omega, ?_⟩
        simp only [Table.insert, hf, bind_ok, if_neg hp]

theorem insertListC_spec {isa : Isa} {hash : K → Nat} (xs : List (K × V)) :
    ∀ (t : Table K V) (c : Nat), Inv isa hash t →
      ∃ t' r, t.insertListC isa hash xs c = .ok (t', r) ∧
        (r = none → ∃ n, n < xs.length ∧ (xs.take n).foldlM (fun (t : Table K V) x => do
          let (t, _, _) ← t.insert isa hash x.1 x.2
          .ok t) t = .ok t') ∧
        (∀ c', r = some c' → c' + xs.length ≤ c ∧ xs.foldlM (fun (t : Table K V) x => do
          let (t, _, _) ← t.insert isa hash x.1 x.2
          .ok t) t = .ok t') := by
  induction xs with
  | nil => intro t c _; exact ⟨t, some c, rfl, fun e => by (cases e), fun c' e => by cases e; exact ⟨Nat.le_refl _, rfl⟩⟩
  | cons x xs ih =>
    intro t c h
    unfold Table.insertListC
    rcases insertC_spec h x.1 x.2 c with e | ⟨t1, p, b, c1, e, hlt, e1⟩
    · rw [e]
      exact ⟨t, none, rfl, fun _ => ⟨0, by simp, rfl⟩, fun _ e => by cases e⟩
    · rw [e]
      have h1 : Inv isa hash t1 := by
        obtain ⟨t', p', b', e', h1, _⟩ := insert_spec h x.1 x.2
        rw [e1] at e'
        cases e'
        exact h1
      obtain ⟨t', r, g1, g2, g3⟩ := ih t1 c1 h1
      refine ⟨t', r, g1, ?_, ?_⟩
      · intro hr
        obtain ⟨n, n1, n2⟩ := g2 hr
        refine ⟨n + 1, by simp; omega, ?_⟩
        rw [List.take_succ_cons, List.foldlM_cons, e1]
        exact n2
      · intro c' hr
        obtain ⟨n1, n2⟩ := g3 c' hr
        refine ⟨by simp; omega, ?_⟩
        rw [List.foldlM_cons, e1]
        exact n2

theorem insertListC_total {isa : Isa} {hash : K → Nat} (xs : List (K × V)) :
    ∀ (t : Table K V), Inv isa hash t → ∃ N, ∀ c, N ≤ c → ∃ t' c', t.insertListC isa hash xs c = .ok (t', some c') := by
  induction xs with
  | nil => intro t _; exact ⟨0, fun c _ => ⟨t, c, rfl⟩⟩
  | cons x xs ih =>
    intro t h
    obtain ⟨t1, p, b, e1, h1, _⟩ := insert_spec h x.1 x.2
    obtain ⟨N', g⟩ := ih t1 h1
    obtain ⟨N1, hN1⟩ := seekC_costs isa hash t x.1
    refine ⟨N1 + 1 + N', fun c hc => ?_⟩
    have : t.insertC isa hash x.1 x.2 c = .ok (t1, some (p, b, c - (N1 + 1))) := by
      rcases insertC_spec h x.1 x.2 c with e | ⟨t', p', b', c', e, _, e2⟩
      · exfalso
        unfold Table.insertC at e
        rw [hN1 c, if_neg (by omega)] at e
        cases hf : t.findNode isa x.1 (hash x.1) with
        | error e' => rw [hf] at e; cases e
        | ok pos =>
          rw [hf] at e
          simp only [bind_ok] at e
          split at e
          · cases he : t.emplaceNode isa ⟨x.1, x.2, hash x.1⟩ with
            | error e' => rw [he] at e; cases e
            | ok r => rw [he] at e; cases e
          · cases e
      · rw [e1] at e2
        cases e2
        have := e
        unfold Table.insertC at e
        rw [hN1 c, if_neg (by omega)] at e
        cases hf : t.findNode isa x.1 (hash x.1) with
        | error e' => rw [hf] at e; cases e
        | ok pos =>
          rw [hf] at e
          simp only [bind_ok] at e
          split at e
          · cases he : t.emplaceNode isa ⟨x.1, x.2, hash x.1⟩ with
            | error e' => rw [he] at e; cases e
            | ok r => rw [he] at e; cases e; exact this
          · cases e; exact this
    unfold Table.insertListC
    rw [this]
    exact g _ (by omega)

theorem eraseIfLoopC_spec {isa : Isa} {hash : K → Nat} (pred : K × V → Bool) :
    ∀ (fuel : Nat) (t : Table K V) (pos count c : Nat), Inv isa hash t → pos ≤ t.cap →
      (pos < t.cap → (t.ctl pos).isOccupied = true) → t.cap - pos < fuel →
      Ends isa (Table.eraseIfLoopC isa pred fuel t pos t.cap count c) (fun r => Inv isa hash r.1 ∧
        t.contents.Perm (((t.elemsFrom pos).take c).filter pred ++ r.1.contents) ∧
        r.2 = if c < (t.elemsFrom pos).length then none else some (count + ((t.elemsFrom pos).filter pred).length)) := by
  intro fuel
  induction fuel with
  | zero => intro _ _ _ _ _ _ _ h; omega
  | succ fuel ih =>
    intro t pos count c h hle hocc hf
    unfold Table.eraseIfLoopC
    by_cases he : pos = t.cap
    · rw [if_pos he]
      have : t.elemsFrom pos = [] := elemsFrom_end t (by omega)
      rw [this]
      exact Ends.of_ok rfl ⟨h, by simp, by simp⟩
    · rw [if_neg he]
      have hp : pos < t.cap := by omega
      obtain ⟨n, hn⟩ := node_of_occupied h hp (hocc hp)
      obtain ⟨hel, hne⟩ := elemsFrom_occupied h hp hn
      rw [readNode_some hp hn]
      simp only [bind_ok]
      cases c with
      | zero => exact Ends.of_ok rfl ⟨h, by simp, by rw [hel]; simp⟩
      | succ c =>
        simp only
        by_cases hpr : pred (n.key, n.val) = true
        · rw [if_pos hpr]
          refine (eraseIter_spec h hp hn).bind ?_
          rintro ⟨t', q⟩ ⟨x1, x2, x3, x4, x5, x6, x7, x8, x9, x10⟩
          simp only at x1 x2 x3 x4 x5 x6 x7 x8 x9 x10
          simp only
          rw [← x2]
          refine (ih t' q (count + 1) c x1 x8 x9 (by omega)).mono ?_
          rintro r ⟨r1, r2, r3⟩
          rw [x7] at r2 r3
          rw [hel]
          refine ⟨r1, ?_, ?_⟩
          · rw [List.take_succ_cons, List.filter_cons, if_pos hpr]
            exact x4.trans (r2.cons _)
          · rw [List.filter_cons, if_pos hpr, List.length_cons, List.length_cons, r3]
            simp only [Nat.add_lt_add_iff_right]
            split
            · rfl
            · congr 1; omega
        · rw [if_neg hpr]
          refine (step_iter h hp).bind ?_
          rintro q ⟨q1, q2, q3, q4⟩
          refine (ih t q count c h q2 q3 (by omega)).mono ?_
          rintro r ⟨r1, r2, r3⟩
          rw [q4] at r2 r3
          rw [hel]
          refine ⟨r1, ?_, ?_⟩
          · rw [List.take_succ_cons, List.filter_cons, if_neg hpr]; exact r2
          · rw [List.filter_cons, if_neg hpr, List.length_cons, r3]
            simp only [Nat.add_lt_add_iff_right]

theorem eraseIfC_spec {isa : Isa} {hash : K → Nat} (pred : K × V → Bool) {t : Table K V} (h : Inv isa hash t) (c : Nat) :
    Ends isa (t.eraseIfC isa pred c) (fun r => Inv isa hash r.1 ∧
      r.1.contents.Perm ((t.contents.take c).filter (fun x => !pred x) ++ t.contents.drop c) ∧
      r.2 = if c < t.contents.length then none else some (t.contents.filter pred).length) := by
  unfold Table.eraseIfC Table.begin_
  refine (toIter_spec h (Nat.zero_le _)).bind ?_
  intro pos hpos
  rw [end_spec h]
  simp only [bind_ok]
  have he : t.elemsFrom pos = t.contents := by rw [← elemsFrom_zero]; exact (elemsFrom_next h.live hpos).symm
  refine (eraseIfLoopC_spec pred (t.cap + 1) t pos 0 c h hpos.2.1 hpos.2.2.2 (by omega)).mono ?_
  rintro r ⟨r1, r2, r3⟩
  rw [he] at r2 r3
  refine ⟨r1, ?_, by rw [r3]; simp⟩
  have h1 : ((t.contents.take c).filter pred ++ ((t.contents.take c).filter (fun x => !pred x) ++ t.contents.drop c)).Perm t.contents := by
    rw [← List.append_assoc]
    have := (List.filter_append_perm pred (t.contents.take c)).append_right (t.contents.drop c)
    rwa [List.take_append_drop] at this
  exact ((List.perm_append_left_iff _).mp (h1.trans r2)).symm

/-- `merge` makes at least one call for every element of the other container; if not all of them return, the program ends. -/
theorem mergeLoopC_spec {isa : Isa} {hash hash' : K → Nat} :
    ∀ (fuel : Nat) (dst src : Table K V) (pos : Nat), Inv isa hash dst → Inv isa hash' src → pos ≤ src.cap →
      (pos < src.cap → (src.ctl pos).isOccupied = true) → src.cap - pos < fuel →
      ∃ N, (src.elemsFrom pos).length ≤ N ∧ ∀ c,
        (c < N → Ends isa (Table.mergeLoopC isa hash fuel dst src pos src.cap c) (fun r => r = none)) ∧
        (N ≤ c → Ends isa (Table.mergeLoopC isa hash fuel dst src pos src.cap c)
          (fun r => ∃ d s, r = some (d, s, c - N) ∧ Table.mergeLoop isa hash fuel dst src pos src.cap = .ok (d, s))) := by
  intro fuel
  induction fuel with
  | zero => intro _ _ _ _ _ _ _ h; omega
  | succ fuel ih =>
    intro dst src pos hd hs hle hocc hf
    unfold Table.mergeLoopC Table.mergeLoop
    by_cases he : pos = src.cap
    · simp only [if_pos he]
      have : src.elemsFrom pos = [] := elemsFrom_end src (by omega)
      rw [this]
      exact ⟨0, Nat.zero_le _, fun c => ⟨fun hc => by omega, fun _ => Ends.of_ok rfl ⟨_, _, rfl, rfl⟩⟩⟩
    · simp only [if_neg he]
      have hp : pos < src.cap := by omega
      obtain ⟨n, hn⟩ := node_of_occupied hs hp (hocc hp)
      obtain ⟨hel, hne⟩ := elemsFrom_occupied hs hp hn
      rw [readNode_some hp hn]
      simp only [bind_ok]
      obtain ⟨N, hN⟩ := seekC_costs isa hash dst n.key
      simp only [hN]
      rcases find_cases hd n.key with ⟨i, n', hi, hn', hk, hfnd, hl⟩ | ⟨hno, hfnd, hl⟩
      · -- present: skip
        simp only [hfnd, bind_ok, show ¬ i = dst.cap by omega, if_false]
        rcases step_iter hs hp with ⟨q, eq, q1, q2, q3, q4⟩ | ⟨w, eq⟩
        · obtain ⟨N', g0, g⟩ := ih dst src q hd hs q2 q3 (by omega)
          refine ⟨N + 1 + N', by rw [hel, ← q4, List.length_cons]; omega, fun c => ?_⟩
          by_cases hc : c < N + 1
          · simp only [if_pos hc, bind_ok]
            exact ⟨fun _ => Ends.of_ok rfl rfl, fun h => by omega⟩
          · simp only [if_neg hc, bind_ok, eq, show ¬ i = dst.cap by omega, if_false]
            refine ⟨fun h => (g (c - (N + 1))).1 (by omega), fun h => ((g (c - (N + 1))).2 (by omega)).mono ?_⟩
            rintro r ⟨d, s, rfl, e⟩
            exact ⟨d, s, by rw [Nat.sub_sub], e⟩
        · refine ⟨N + 1 + (src.elemsFrom pos).length, by omega, fun c => ?_⟩
          by_cases hc : c < N + 1
          · simp only [if_pos hc, bind_ok]
            exact ⟨fun _ => Ends.of_ok rfl rfl, fun h => by omega⟩
          · simp only [if_neg hc, bind_ok, eq, show ¬ i = dst.cap by omega, if_false]
            exact ⟨fun _ => Or.inr ⟨w, rfl⟩, fun _ => Or.inr ⟨w, rfl⟩⟩
      · simp only [hfnd, bind_ok, if_true]
        rcases extractAt_spec hs hp hn with ⟨⟨src', n'⟩, ex, x1, x2, x3, x4, x5, x6, x7, x8⟩ | ⟨w, eq⟩
        · simp only at x1 x2 x3 x4 x5 x6 x7 x8
          subst x2
          obtain ⟨dst', p, e1, e2, e3, e4, e5, e6, e7, e8⟩ := emplaceNode_spec hd (n := ⟨n'.key, n'.val, hash n'.key⟩) rfl hno
          simp only [ex, e1, bind_ok]
          rcases step_iter x1 (pos := pos) (by omega) with ⟨q, eq, q1, q2, q3, q4⟩ | ⟨w, eq⟩
          · obtain ⟨N', g0, g⟩ := ih dst' src' q e2 x1 q2 q3 (by omega)
            have htail : src'.elemsFrom q = src.elemsFrom (pos + 1) := by
              rw [q4]
              exact elemsFrom_congr x3 (fun i hi _ => x6 i (by omega))
            refine ⟨N + 1 + N', by rw [hel, ← htail, List.length_cons]; omega, fun c => ?_⟩
            by_cases hc : c < N + 1
            · simp only [if_pos hc, bind_ok]
              exact ⟨fun _ => Ends.of_ok rfl rfl, fun h => by omega⟩
            · simp only [if_neg hc, bind_ok, e1, eq, if_true, show src.cap = src'.cap by omega]
              refine ⟨fun h => (g (c - (N + 1))).1 (by omega), fun h => ((g (c - (N + 1))).2 (by omega)).mono ?_⟩
              rintro r ⟨d, s, rfl, e⟩
              exact ⟨d, s, by rw [Nat.sub_sub], e⟩
          · refine ⟨N + 1 + (src.elemsFrom pos).length, by omega, fun c => ?_⟩
            by_cases hc : c < N + 1
            · simp only [if_pos hc, bind_ok]
              exact ⟨fun _ => Ends.of_ok rfl rfl, fun h => by omega⟩
            · simp only [if_neg hc, bind_ok, if_true, e1, eq]
              exact ⟨fun _ => Or.inr ⟨w, rfl⟩, fun _ => Or.inr ⟨w, rfl⟩⟩
        · refine ⟨N + 1 + (src.elemsFrom pos).length, by omega, fun c => ?_⟩
          by_cases hc : c < N + 1
          · simp only [if_pos hc, bind_ok]
            exact ⟨fun _ => Ends.of_ok rfl rfl, fun h => by omega⟩
          · simp only [if_neg hc, bind_ok, if_true, eq]
            exact ⟨fun _ => Or.inr ⟨w, rfl⟩, fun _ => Or.inr ⟨w, rfl⟩⟩

theorem mergeC_spec {isa : Isa} {hash hash' : K → Nat} {dst src : Table K V} (hd : Inv isa hash dst) (hs : Inv isa hash' src) :
    ∃ N, src.size ≤ N ∧ ∀ c,
      (c < N → Ends isa (dst.mergeC isa hash src c) (fun r => r = none)) ∧
      (N ≤ c → Ends isa (dst.mergeC isa hash src c)
        (fun r => ∃ d s, r = some (d, s, c - N) ∧ dst.merge isa hash src = .ok (d, s))) := by
  obtain ⟨d, d1, d2, d3, d4, d5, _⟩ := reserve_spec hd (dst.size + src.size)
  unfold Table.mergeC Table.merge
  simp only [d1, bind_ok, Table.begin_]
  rcases toIter_spec hs (Nat.zero_le _) with ⟨pos, ep, hpos⟩ | ⟨w, ep⟩
  · simp only [ep, end_spec hs, bind_ok]
    have he : src.elemsFrom pos = src.contents := by rw [← elemsFrom_zero]; exact (elemsFrom_next hs.live hpos).symm
    have := mergeLoopC_spec (hash := hash) (src.cap + 1) d src pos d2 hs hpos.2.1 hpos.2.2.2 (by omega)
    rwa [he, hs.contents_length] at this
  · simp only [ep]
    exact ⟨src.size, Nat.le_refl _, fun c => ⟨fun _ => Or.inr ⟨w, rfl⟩, fun _ => Or.inr ⟨w, rfl⟩⟩⟩

end Tpp.Swiss
