import Verif.Swiss.Hist

/-!
# User-defined key equality and transparent lookup (swiss table)

The other files compare keys by equality.  Here `key_equal` is any equivalence that the hash function respects, keys that are
equivalent may differ, and elements can be looked up by values of another type.

An element is a pair of a key and a mapped value and is stored as a whole in the field `val` of a node.  The field `key` of a node
holds the class of the key; it is a ghost: the functions below compare `val.1` by means of `cmp`, and the functions they share with
the other files (`emplaceNode`, `doErase`, …) do not look at keys.
-/

set_option linter.unusedSectionVars false

namespace Tpp

/-- A hash function and a key comparison as required of the parameters `Kh` and `Kc` (swiss_table.hpp 1149-1152). -/
structure KeyEq (K : Type) where
  cmp : K → K → Bool
  hash : K → Nat
  refl : ∀ a, cmp a a = true
  symm : ∀ {a b}, cmp a b = true → cmp b a = true
  trans : ∀ {a b c}, cmp a b = true → cmp b c = true → cmp a c = true
  hash_eq : ∀ {a b}, cmp a b = true → hash a = hash b

namespace KeyEq

variable {K : Type} (E : KeyEq K)

/-- Equivalent keys (swiss_table.hpp 1151-1152). -/
def setoid : Setoid K := ⟨fun a b => E.cmp a b = true, ⟨E.refl, E.symm, E.trans⟩⟩

/-- Classes of equivalent keys: a ghost, see above (swiss_table.hpp 1151-1152). -/
def Cls : Type := Quotient E.setoid

/-- The class of a key (swiss_table.hpp 1151-1152). -/
def cls (k : K) : E.Cls := Quotient.mk E.setoid k

/-- The hash of a class (swiss_table.hpp 1149-1150). -/
def hashC : E.Cls → Nat := Quotient.lift E.hash fun _ _ h => E.hash_eq h

theorem cls_eq {a b : K} : E.cls a = E.cls b ↔ E.cmp a b = true := ⟨fun h => Quotient.exact h, fun h => Quotient.sound h⟩

@[simp] theorem hashC_cls (k : K) : E.hashC (E.cls k) = E.hash k := rfl

instance : DecidableEq E.Cls :=
  have : ∀ a b : K, Decidable (E.setoid.r a b) := fun a b => inferInstanceAs (Decidable (E.cmp a b = true))
  fun a b => Quotient.recOnSubsingleton₂ a b fun a b =>
    decidable_of_iff (E.cmp a b = true) (E.cls_eq (a := a) (b := b)).symm

/-- Comparison does not distinguish equivalent keys. -/
theorem cmp_congr {a b c : K} (h : E.cmp a b = true) : E.cmp c a = E.cmp c b := by
  cases e : E.cmp c b with
  | true => exact E.trans e (E.symm h)
  | false =>
    cases e' : E.cmp c a with
    | false => rfl
    | true => rw [E.trans e' h] at e; cases e

end KeyEq

/-- What is required of the arguments of transparent lookup functions (`find(const K &)` etc., sparse_map.hpp 458-459, 482-495): the value
`x` of another type designates a class of equivalent keys, or none. -/
structure Key {K : Type} (E : KeyEq K) (cmp : K → Bool) (h : Nat) : Prop where
  congr : ∀ {a b}, E.cmp a b = true → cmp a = true → cmp b = true
  one : ∀ {a b}, cmp a = true → cmp b = true → E.cmp a b = true
  hash : ∀ {a}, cmp a = true → E.hash a = h

namespace Swiss

variable {K V : Type} (E : KeyEq K)

namespace Table

/-- The inner loop of `find_node` (swiss_table.hpp 1221-1226); `p` is `cmp(·, key)`. -/
def scanBy (p : K → Bool) {Q : Type} (t : Table Q (K × V)) (pos : Nat) : List Nat → M (Option Nat)
  | [] => .ok none
  | i :: is => do
    let off := (pos + i) &&& t.cap
    let n ← t.readNode off
    if p n.val.1 then .ok (some off) else scanBy p t pos is

/-- The probe loop of `find_node` (swiss_table.hpp 1217-1231). -/
def findLoopBy (isa : Isa) (p : K → Bool) {Q : Type} (t : Table Q (K × V)) (tag : Nat) : (fuel pos idx : Nat) → M Nat
  | 0, _, _ => .error .diverge
  | fuel + 1, pos, idx => do
    t.loadBlock isa pos
    match ← t.scanBy p pos (t.matchEq isa pos tag) with
    | some off => .ok off
    | none =>
      if t.matches_ isa pos (·.isEmpty) ≠ [] then .ok t.cap
      else if idx < t.cap then
        findLoopBy isa p t tag fuel ((pos + (idx + isa.W)) &&& t.cap) (idx + isa.W)
      else .error .assertFail

/-- `find_node(key, h)` (swiss_table.hpp 1209-1234). -/
def findNodeBy (isa : Isa) (p : K → Bool) {Q : Type} (t : Table Q (K × V)) (h : Nat) : M Nat :=
  if t.size ≠ 0 then t.findLoopBy isa p (hashLo h) (t.cap + 1) (hashHi h &&& t.cap) 0
  else .ok t.cap

/-- `do_insert`, `do_try_emplace` (swiss_table.hpp 1330-1347). -/
def insertE (isa : Isa) (t : Table E.Cls (K × V)) (k : K) (v : V) : M (Table E.Cls (K × V) × Nat × Bool) := do
  let h := E.hash k
  let pos ← t.findNodeBy isa (E.cmp · k) h
  if pos = t.cap then
    let (t, p) ← t.emplaceNode isa ⟨E.cls k, (k, v), h⟩
    .ok (t, p, true)
  else .ok (t, pos, false)

/-- `do_insert_or_assign` (swiss_table.hpp 1348-1359) with `replace` (table_common.hpp 246-258): only the mapped value is replaced, the stored key stays. -/
def assignE (isa : Isa) (t : Table E.Cls (K × V)) (k : K) (v : V) : M (Table E.Cls (K × V) × Nat × Bool) := do
  let h := E.hash k
  let pos ← t.findNodeBy isa (E.cmp · k) h
  if pos = t.cap then
    let (t, p) ← t.emplaceNode isa ⟨E.cls k, (k, v), h⟩
    .ok (t, p, true)
  else
    let n ← t.readNode pos
    .ok ({ t with node := upd t.node pos (some { n with val := (n.val.1, v) }) }, pos, false)

/-- `find(key)` and dereferencing (swiss_table.hpp 935-938) for a key of any type: `p` is `cmp(·, key)`, `h` is `hash(key)`. -/
def findE (isa : Isa) (p : K → Bool) (h : Nat) (t : Table E.Cls (K × V)) : M (Option (K × V)) := do
  let pos ← t.findNodeBy isa p h
  if pos = t.cap then .ok none
  else do
    let n ← t.readNode pos
    .ok (some n.val)

/-- `contains(key)` (swiss_table.hpp 932-933). -/
def containsE (isa : Isa) (p : K → Bool) (h : Nat) (t : Table E.Cls (K × V)) : M Bool := do
  let pos ← t.findNodeBy isa p h
  .ok (pos != t.cap)

/-- `erase(key)` (swiss_table.hpp 1052-1059). -/
def eraseE (isa : Isa) (p : K → Bool) (h : Nat) (t : Table E.Cls (K × V)) : M (Table E.Cls (K × V) × Nat) := do
  let pos ← t.findNodeBy isa p h
  if pos ≠ t.cap then t.doErase isa pos
  else do
    let e ← t.end_ isa
    .ok (t, e)

/-- `extract(key)` (swiss_table.hpp 1077-1084). -/
def extractE (isa : Isa) (p : K → Bool) (h : Nat) (t : Table E.Cls (K × V)) : M (Table E.Cls (K × V) × Option (K × V)) := do
  let pos ← t.findNodeBy isa p h
  if pos ≠ t.cap then
    let (t, n) ← t.extractAt isa pos
    .ok (t, some n.val)
  else .ok (t, none)

/-- `insert_node` (swiss_table.hpp 962-970). -/
def insertNodeE (isa : Isa) (t : Table E.Cls (K × V)) (x : K × V) : M (Table E.Cls (K × V) × Nat × Bool × Option (K × V)) := do
  let h := E.hash x.1
  let pos ← t.findNodeBy isa (E.cmp · x.1) h
  if pos = t.cap then
    let (t, p) ← t.emplaceNode isa ⟨E.cls x.1, x, h⟩
    .ok (t, p, true, none)
  else .ok (t, pos, false, some x)

/-- An insertion whose constructor throws (swiss_table.hpp 1330-1347, 1264-1291). -/
def insertThrowE (isa : Isa) (t : Table E.Cls (K × V)) (k : K) : M (Table E.Cls (K × V) × Bool) := do
  let h := E.hash k
  let pos ← t.findNodeBy isa (E.cmp · k) h
  if pos = t.cap then
    let (t, _) ← t.prepare isa h
    .ok (t, true)
  else .ok (t, false)

/-- Range insertion (swiss_table.hpp 981-987). -/
def insertRangeE (isa : Isa) (ra : Bool) (t : Table E.Cls (K × V)) (xs : List (K × V)) : M (Table E.Cls (K × V)) := do
  let t ← if ra then t.reserve isa (t.size + xs.length) else .ok t
  xs.foldlM (fun (t : Table E.Cls (K × V)) x => do
    let (t, _, _) ← t.insertE E isa x.1 x.2
    .ok t) t

/-- One operation (swiss_table.hpp 894-1087, sparse_map.hpp 515-526): as `Table.step`; `find`, `operator[]` yield the element. -/
def stepE (isa : Isa) (t : Table E.Cls (K × V)) : Op K V → M (Table E.Cls (K × V) × Out K V)
  | .insert k v => do
    let (t, p, b) ← t.insertE E isa k v
    let n ← t.readNode (← t.toIter isa p)
    .ok (t, .ins n.val b)
  | .assign k v => do
    let (t, p, b) ← t.assignE E isa k v
    let n ← t.readNode (← t.toIter isa p)
    .ok (t, .ins n.val b)
  | .erase k => do
    let (t, _) ← t.eraseE E isa (E.cmp · k) (E.hash k)
    .ok (t, .unit)
  | .clear => do
    let t ← t.clear isa
    .ok (t, .unit)
  | .reserve n => do
    let t ← t.reserve isa n
    .ok (t, .unit)
  | .rehash n => do
    let t ← t.rehash isa (n + 1)
    .ok (t, .unit)
  | .find k => do
    let x ← t.findE E isa (E.cmp · k) (E.hash k)
    .ok (t, .node x)
  | .contains k => do
    let b ← t.containsE E isa (E.cmp · k) (E.hash k)
    .ok (t, .bool b)
  | .size => .ok (t, .nat t.size)
  | .iterate => do
    let l ← t.iterate isa
    .ok (t, .list (l.map Prod.snd))
  | .index k d => do
    let (t, p, _) ← t.insertE E isa k d
    let n ← t.readNode (← t.toIter isa p)
    .ok (t, .node (some n.val))
  | .extract k => do
    let (t, x) ← t.extractE E isa (E.cmp · k) (E.hash k)
    .ok (t, .node x)
  | .insertNode x => do
    let (t, p, b, _) ← t.insertNodeE E isa x
    let n ← t.readNode (← t.toIter isa p)
    .ok (t, .ins n.val b)
  | .eraseIf p => do
    let (t, n, calls) ← t.eraseIf isa fun x => p x.2
    .ok (t, .count n (calls.map Prod.snd))
  | .insertThrow k => do
    let (t, b) ← t.insertThrowE E isa k
    .ok (t, .bool b)
  | .insertRange ra xs => do
    let t ← t.insertRangeE E isa ra xs
    .ok (t, .unit)

/-- A history (swiss_table.hpp 894-1087). -/
def runE (isa : Isa) (t : Table E.Cls (K × V)) : List (Op K V) → M (Table E.Cls (K × V) × List (Out K V))
  | [] => .ok (t, [])
  | op :: ops => do
    let (t, o) ← t.stepE E isa op
    let (t, os) ← runE isa t ops
    .ok (t, o :: os)

end Table

/-! ## Searching -/

theorem scanBy_eq {Q : Type} [DecidableEq Q] {t : Table Q (K × V)} {p : K → Bool} {q : Q}
    (hp : ∀ i n, t.readNode i = .ok n → (p n.val.1 = true ↔ n.key = q)) (pos : Nat) (l : List Nat) :
    t.scanBy p pos l = t.scan q pos l := by
  induction l with
  | nil => rfl
  | cons i l ih =>
    unfold Table.scanBy Table.scan
    simp only
    cases hn : t.readNode ((pos + i) &&& t.cap) with
    | error f => simp only [bind_error]
    | ok n =>
      simp only [bind_ok]
      by_cases g : n.key = q
      · rw [if_pos g, if_pos ((hp _ _ hn).mpr g)]
      · rw [if_neg g, if_neg (fun e => g ((hp _ _ hn).mp e)), ih]

theorem findLoopBy_eq {isa : Isa} {Q : Type} [DecidableEq Q] {t : Table Q (K × V)} {p : K → Bool} {q : Q}
    (hp : ∀ i n, t.readNode i = .ok n → (p n.val.1 = true ↔ n.key = q)) (tag fuel : Nat) :
    ∀ pos idx, t.findLoopBy isa p tag fuel pos idx = t.findLoop isa q tag fuel pos idx := by
  induction fuel with
  | zero => intro _ _; rfl
  | succ fuel ih =>
    intro pos idx
    unfold Table.findLoopBy Table.findLoop
    rw [scanBy_eq hp]
    simp only [ih]
    rfl

theorem findNodeBy_eq {isa : Isa} {Q : Type} [DecidableEq Q] {t : Table Q (K × V)} {p : K → Bool} {q : Q}
    (hp : ∀ i n, t.readNode i = .ok n → (p n.val.1 = true ↔ n.key = q)) (h : Nat) :
    t.findNodeBy isa p h = t.findNode isa q h := by
  unfold Table.findNodeBy Table.findNode
  rw [findLoopBy_eq hp]

/-- The table with one more possible key. -/
def Table.lift {Q W : Type} (t : Table Q W) : Table (Option Q) W :=
  { cap := t.cap, len := t.len, ctl := t.ctl, node := fun i => (t.node i).map fun n => ⟨some n.key, n.val, n.hash⟩, size := t.size,
    numEmpty := t.numEmpty, log := t.log }

theorem Inv.lift {isa : Isa} {Q W : Type} [DecidableEq Q] {hash : Q → Nat} {t : Table Q W} (h : Inv isa hash t) (h0 : Nat) :
    Inv isa (fun q => match q with | some q => hash q | none => h0) t.lift := by
  have hn : ∀ {i n}, (t.lift).node i = some n → ∃ n', t.node i = some n' ∧ n = ⟨some n'.key, n'.val, n'.hash⟩ := by
    intro i n hi
    simp only [Table.lift, Option.map_eq_some_iff] at hi
    obtain ⟨n', h1, h2⟩ := hi
    exact ⟨n', h1, h2.symm⟩
  refine ⟨h.shape, ?_, ?_, ?_, ?_, ?_, h.size_eq, h.budget⟩
  · intro i hi
    have := h.live i hi
    simpa [Table.lift] using this
  · intro i hi n hi'
    obtain ⟨n', h1, rfl⟩ := hn hi'
    exact h.tag i hi n' h1
  · intro i hi n hi'
    obtain ⟨n', h1, rfl⟩ := hn hi'
    exact h.hash_ok i hi n' h1
  · intro i hi j hj a b ha hb e
    obtain ⟨a', h1, rfl⟩ := hn ha
    obtain ⟨b', h2, rfl⟩ := hn hb
    exact h.uniq i hi j hj a' b' h1 h2 (Option.some.inj e)
  · intro i hi n hi'
    obtain ⟨n', h1, rfl⟩ := hn hi'
    exact h.reach i hi n' h1

theorem readNode_lift {Q W : Type} (t : Table Q W) (i : Nat) :
    t.lift.readNode i = (t.readNode i).map fun n => ⟨some n.key, n.val, n.hash⟩ := by
  unfold Table.readNode Table.lift
  simp only
  split
  · cases t.node i <;> rfl
  · rfl

theorem scanBy_lift {Q : Type} (t : Table Q (K × V)) (p : K → Bool) (pos : Nat) (l : List Nat) :
    t.lift.scanBy p pos l = t.scanBy p pos l := by
  induction l with
  | nil => rfl
  | cons i l ih =>
    unfold Table.scanBy
    simp only
    rw [readNode_lift, show t.lift.cap = t.cap from rfl]
    cases t.readNode ((pos + i) &&& t.cap) with
    | error f => rfl
    | ok n =>
      simp only [Except.map, bind_ok]
      rw [ih]

theorem findNodeBy_lift {isa : Isa} {Q : Type} (t : Table Q (K × V)) (p : K → Bool) (h : Nat) :
    t.lift.findNodeBy isa p h = t.findNodeBy isa p h := by
  have : ∀ (tag fuel pos idx : Nat), t.lift.findLoopBy isa p tag fuel pos idx = t.findLoopBy isa p tag fuel pos idx := by
    intro tag fuel
    induction fuel with
    | zero => intro _ _; rfl
    | succ fuel ih =>
      intro pos idx
      unfold Table.findLoopBy
      simp only [ih, scanBy_lift]
      rfl
  unfold Table.findNodeBy
  rw [this]
  rfl

/-- If no element matches, the search ends without a result, whatever the hash. -/
theorem findNodeBy_none {isa : Isa} {Q : Type} [DecidableEq Q] {hash : Q → Nat} {t : Table Q (K × V)} (h : Inv isa hash t)
    {p : K → Bool} (hp : ∀ i n, t.readNode i = .ok n → p n.val.1 = false) (h0 : Nat) : t.findNodeBy isa p h0 = .ok t.cap := by
  rw [← findNodeBy_lift, findNodeBy_eq (q := none)]
  · rcases findNode_spec (h.lift h0) none with ⟨i, n, hi, hn, hk, _⟩ | ⟨_, hf⟩
    · simp only [Table.lift, Option.map_eq_some_iff] at hn
      obtain ⟨n', _, rfl⟩ := hn
      cases hk
    · exact hf
  · intro i n hn
    rw [readNode_lift] at hn
    cases e : t.readNode i with
    | error f => rw [e] at hn; cases hn
    | ok n' =>
      rw [e] at hn
      cases hn
      simp [hp i n' e]

/-! ## The specification -/

end Swiss

namespace ESpec

variable {K V : Type} (E : KeyEq K)

/-- The element whose key matches. -/
def find (p : K → Bool) (m : List (K × V)) : Option (K × V) := m.find? fun x => p x.1

/-- Insert unless there is an equivalent key. -/
def insert (m : List (K × V)) (k : K) (v : V) : List (K × V) :=
  match find (E.cmp · k) m with
  | some _ => m
  | none => (k, v) :: m

/-- Remove the element whose key matches. -/
def erase (p : K → Bool) (m : List (K × V)) : List (K × V) := m.filter fun x => !p x.1

/-- Insert, or replace the mapped value of the equivalent key. -/
def assign (m : List (K × V)) (k : K) (v : V) : List (K × V) :=
  match find (E.cmp · k) m with
  | some _ => m.map fun x => if E.cmp x.1 k then (x.1, v) else x
  | none => (k, v) :: m

/-- The answer to one operation. -/
def step (m : List (K × V)) : Op K V → List (K × V) × Out K V
  | .insert k v => (insert E m k v, .ins ((find (E.cmp · k) m).getD (k, v)) (find (E.cmp · k) m).isNone)
  | .assign k v => (assign E m k v, .ins (((find (E.cmp · k) m).getD (k, v)).1, v) (find (E.cmp · k) m).isNone)
  | .erase k => (erase (E.cmp · k) m, .unit)
  | .clear => ([], .unit)
  | .reserve _ => (m, .unit)
  | .rehash _ => (m, .unit)
  | .find k => (m, .node (find (E.cmp · k) m))
  | .contains k => (m, .bool (find (E.cmp · k) m).isSome)
  | .size => (m, .nat m.length)
  | .iterate => (m, .list m)
  | .index k d => (insert E m k d, .node (some ((find (E.cmp · k) m).getD (k, d))))
  | .extract k => (erase (E.cmp · k) m, .node (find (E.cmp · k) m))
  | .insertNode x => (insert E m x.1 x.2, .ins ((find (E.cmp · x.1) m).getD x) (find (E.cmp · x.1) m).isNone)
  | .eraseIf p => (m.filter fun x => !p x, .count (m.filter p).length m)
  | .insertThrow k => (m, .bool (find (E.cmp · k) m).isNone)
  | .insertRange _ xs => (xs.foldl (fun m x => insert E m x.1 x.2) m, .unit)

/-- The answers to a history. -/
def run (m : List (K × V)) : List (Op K V) → List (K × V) × List (Out K V)
  | [] => (m, [])
  | op :: ops =>
    let r := step E m op
    let s := run r.1 ops
    (s.1, r.2 :: s.2)

/-- The elements with the classes of their keys. -/
def tag (m : List (K × V)) : List (E.Cls × (K × V)) := m.map fun x => (E.cls x.1, x)

theorem lookup_tag (m : List (K × V)) (k : K) : Spec.lookup (tag E m) (E.cls k) = find (E.cmp · k) m := by
  induction m with
  | nil => rfl
  | cons x m ih =>
    have : tag E (x :: m) = (E.cls x.1, x) :: tag E m := rfl
    rw [this, Spec.lookup_cons, ih]
    simp only [find, List.find?_cons]
    by_cases g : E.cmp x.1 k = true
    · rw [if_pos (E.cls_eq.mpr g), g]
    · rw [if_neg (fun e => g (E.cls_eq.mp e)), (Bool.not_eq_true _).mp g]

theorem insert_tag (m : List (K × V)) (k : K) (v : V) : Spec.insert (tag E m) (E.cls k) (k, v) = tag E (insert E m k v) := by
  unfold Spec.insert insert
  rw [lookup_tag]
  cases find (E.cmp · k) m <;> rfl

theorem erase_tag (m : List (K × V)) (k : K) : Spec.erase (tag E m) (E.cls k) = tag E (erase (E.cmp · k) m) := by
  induction m with
  | nil => rfl
  | cons x m ih =>
    have : tag E (x :: m) = (E.cls x.1, x) :: tag E m := rfl
    rw [this]
    unfold Spec.erase erase at ih ⊢
    rw [List.filter_cons, List.filter_cons, ih]
    by_cases g : E.cmp x.1 k = true
    · rw [if_neg (by simp [E.cls_eq.mpr g]), if_neg (by simp [g])]
    · have g' : ¬ E.cls x.1 = E.cls k := fun e => g (E.cls_eq.mp e)
      rw [if_pos (by simp [g']), if_pos (by simp [g])]
      rfl

theorem assign_tag {m : List (K × V)} (hu : Spec.Uniq (tag E m)) {k : K} {w : K × V} (hw : find (E.cmp · k) m = some w) (v : V) :
    ((E.cls k, (w.1, v)) :: Spec.erase (tag E m) (E.cls k)).Perm (tag E (assign E m k v)) := by
  unfold assign
  rw [hw, erase_tag]
  simp only
  induction m with
  | nil => cases hw
  | cons x m ih =>
    have hu' : Spec.Uniq ((E.cls x.1, x) :: tag E m) := hu
    unfold Spec.Uniq at hu' ih
    rw [List.map_cons, List.nodup_cons] at hu'
    by_cases g : E.cmp x.1 k = true
    · have hx : w = x := by
        simp only [find, List.find?_cons, g] at hw
        exact (Option.some.inj hw).symm
      subst hx
      have hno : ∀ y ∈ m, E.cmp y.1 k = false := by
        intro y hy
        cases e : E.cmp y.1 k with
        | false => rfl
        | true =>
          exfalso
          refine hu'.1 (List.mem_map.mpr ⟨(E.cls y.1, y), List.mem_map.mpr ⟨y, hy, rfl⟩, ?_⟩)
          exact E.cls_eq.mpr (E.trans e (E.symm g))
      have h1 : erase (E.cmp · k) (w :: m) = m := by
        unfold erase
        rw [List.filter_cons, if_neg (by simp [g]), List.filter_eq_self]
        intro y hy
        simp [hno y hy]
      have h2 : m.map (fun x => if E.cmp x.1 k then (x.1, v) else x) = m := by
        conv_rhs => rw [← List.map_id m]
        refine List.map_congr_left ?_
        intro y hy
        simp [hno y hy]
      rw [h1, List.map_cons, h2, if_pos g]
      unfold tag
      rw [List.map_cons, E.cls_eq.mpr g]
    · have hw' : find (E.cmp · k) m = some w := by
        simp only [find, List.find?_cons] at hw ⊢
        rw [Bool.not_eq_true] at g
        rw [g] at hw
        exact hw
      have h1 : erase (E.cmp · k) (x :: m) = x :: erase (E.cmp · k) m := by
        unfold erase
        rw [List.filter_cons, if_pos (by simp [g])]
      rw [h1, List.map_cons, if_neg g]
      exact (List.Perm.swap _ _ _).trans ((ih hu'.2 hw').cons _)

end ESpec

namespace Swiss

open ESpec (tag lookup_tag insert_tag erase_tag assign_tag)

variable {K V : Type} {E : KeyEq K}

/-- The elements carry the classes of their keys. -/
theorem ghost {t : Table E.Cls (K × V)} {m : List (K × V)} (hm : t.contents.Perm (tag E m)) {i : Nat} {n : Node E.Cls (K × V)}
    (hn : t.readNode i = .ok n) : n.key = E.cls n.val.1 ∧ n.val ∈ m := by
  unfold Table.readNode at hn
  split at hn
  · rename_i hi
    cases e : t.node i with
    | none => rw [e] at hn; cases hn
    | some n' =>
      rw [e] at hn
      cases hn
      have := hm.mem_iff.mp (mem_contents.mpr ⟨i, n, hi, e, rfl, rfl⟩)
      obtain ⟨x, hx, h2⟩ := List.mem_map.mp this
      have h3 := Prod.mk.inj h2
      rw [← h3.1, ← h3.2]
      exact ⟨rfl, hx⟩
  · cases hn

theorem findE_eq {isa : Isa} {t : Table E.Cls (K × V)} {m : List (K × V)} (hm : t.contents.Perm (tag E m)) (k : K) :
    t.findNodeBy isa (E.cmp · k) (E.hash k) = t.findNode isa (E.cls k) (E.hashC (E.cls k)) := by
  refine findNodeBy_eq ?_ _
  intro i n hn
  rw [(ghost hm hn).1]
  exact E.cls_eq.symm

theorem insertE_eq {isa : Isa} {t : Table E.Cls (K × V)} {m : List (K × V)} (hm : t.contents.Perm (tag E m)) (k : K) (v : V) :
    t.insertE E isa k v = t.insert isa E.hashC (E.cls k) (k, v) := by
  unfold Table.insertE Table.insert
  simp only
  rw [findE_eq hm]
  rfl

theorem assignE_eq {isa : Isa} {t : Table E.Cls (K × V)} {m : List (K × V)} (hm : t.contents.Perm (tag E m)) (k : K) (v : V) :
    t.assignE E isa k v = t.insertOrAssignWith isa E.hashC (E.cls k) (k, v) fun w => (w.1, v) := by
  unfold Table.assignE Table.insertOrAssignWith
  simp only
  rw [findE_eq hm]
  rfl

/-- The insertions of a range one by one. -/
theorem insertRangeE_ok {isa : Isa} (xs : List (K × V)) : ∀ {t : Table E.Cls (K × V)} {m : List (K × V)}, Inv isa E.hashC t →
    t.contents.Perm (tag E m) → ∃ t', xs.foldlM (fun (t : Table E.Cls (K × V)) x => do
      let (t, _, _) ← t.insertE E isa x.1 x.2
      .ok t) t = Except.ok (ε := Fault) t' ∧ Inv isa E.hashC t' ∧
      t'.contents.Perm (tag E (xs.foldl (fun m x => ESpec.insert E m x.1 x.2) m)) := by
  induction xs with
  | nil => intro t m h hm; exact ⟨t, rfl, h, hm⟩
  | cons x xs ih =>
    intro t m h hm
    obtain ⟨r, e, h1, h2, _⟩ := step_direct h hm (.insert (E.cls x.1) x) rfl
    obtain ⟨t', p, b, e1, _⟩ := insert_spec h (E.cls x.1) x
    have : r.1 = t' := by
      simp only [Table.step, e1, bind_ok] at e
      cases e2 : t'.toIter isa p with
      | error f => rw [e2] at e; cases e
      | ok q =>
        rw [e2, bind_ok] at e
        cases e3 : t'.readNode q with
        | error f => rw [e3] at e; cases e
        | ok n => rw [e3, bind_ok] at e; cases e; rfl
    subst this
    simp only [Spec.step] at h2
    rw [show (x : K × V) = (x.1, x.2) from rfl, insert_tag] at h2
    rw [List.foldlM_cons, insertE_eq hm, e1]
    exact ih h1 h2

/-- What a correct step is. -/
def StepOkE (isa : Isa) (m : List (K × V)) (op : Op K V) (r : Table E.Cls (K × V) × Out K V) : Prop :=
  Inv isa E.hashC r.1 ∧ r.1.contents.Perm (tag E (ESpec.step E m op).1) ∧ r.2.Agree (ESpec.step E m op).2

theorem tag_snd (m : List (K × V)) : (tag E m).map Prod.snd = m := by
  unfold tag
  rw [List.map_map]
  exact List.map_id m

theorem stepE_spec {isa : Isa} {t : Table E.Cls (K × V)} (h : Inv isa E.hashC t) {m : List (K × V)} (hm : t.contents.Perm (tag E m))
    (op : Op K V) : Ends isa (t.stepE E isa op) (StepOkE isa m op) := by
  have hu := h.contents_uniq
  have hl : ∀ k, Spec.lookup t.contents (E.cls k) = ESpec.find (E.cmp · k) m := fun k => by
    rw [Spec.lookup_perm hm hu, lookup_tag]
  cases op with
  | insert k v =>
    simp only [Table.stepE, insertE_eq hm]
    obtain ⟨t', p, b, h1, h2, _, h3⟩ := insert_spec h (E.cls k) (k, v)
    rw [h1, bind_ok]
    rcases h3 with ⟨hb, h4, h5, h6, _⟩ | ⟨w, hb, h4, h5, h6⟩
    · obtain ⟨n, d1, d2, d3⟩ := deref_spec h2 h6
      rw [hl] at h4
      refine Ends.of_ok (by simp only [d1, d2, bind_ok]; rfl) ⟨h2, ?_, ?_⟩
      · simp only [ESpec.step, ESpec.insert, h4]; exact h5.trans (hm.cons _)
      · simp [ESpec.step, Out.Agree, h4, hb, (Prod.mk.inj d3).2]
    · subst h5
      obtain ⟨n, d1, d2, d3⟩ := deref_spec h2 h6
      rw [hl] at h4
      refine Ends.of_ok (by simp only [d1, d2, bind_ok]; rfl) ⟨h2, ?_, ?_⟩
      · simp only [ESpec.step, ESpec.insert, h4]; exact hm
      · simp [ESpec.step, Out.Agree, h4, hb, (Prod.mk.inj d3).2]
  | assign k v =>
    simp only [Table.stepE, assignE_eq hm]
    obtain ⟨t', p, b, h1, h2, _, h3⟩ := insertOrAssignWith_spec h (E.cls k) (k, v) (fun w => (w.1, v))
    rw [h1, bind_ok]
    rcases h3 with ⟨hb, h4, h5, h6, _⟩ | ⟨w, hb, h4, h5, h6, _⟩
    · obtain ⟨n, d1, d2, d3⟩ := deref_spec h2 h6
      rw [hl] at h4
      refine Ends.of_ok (by simp only [d1, d2, bind_ok]; rfl) ⟨h2, ?_, ?_⟩
      · simp only [ESpec.step, ESpec.assign, h4]; exact h5.trans (hm.cons _)
      · simp [ESpec.step, Out.Agree, h4, hb, (Prod.mk.inj d3).2]
    · obtain ⟨n, d1, d2, d3⟩ := deref_spec h2 h6
      rw [hl] at h4
      refine Ends.of_ok (by simp only [d1, d2, bind_ok]; rfl) ⟨h2, ?_, ?_⟩
      · simp only [ESpec.step]
        exact (h5.trans ((Spec.erase_perm hm _).cons _)).trans (assign_tag E (hu.perm hm) h4 v)
      · simp [ESpec.step, Out.Agree, h4, hb, (Prod.mk.inj d3).2]
  | erase k =>
    have : t.eraseE E isa (E.cmp · k) (E.hash k) = t.erase isa E.hashC (E.cls k) := by
      unfold Table.eraseE Table.erase
      rw [findE_eq hm]
    simp only [Table.stepE, this]
    refine (erase_spec h _).bind ?_
    rintro ⟨t', it⟩ ⟨h1, _, h2, _⟩
    exact Ends.of_ok rfl ⟨h1, h2.trans ((erase_tag E m k) ▸ Spec.erase_perm hm _), trivial⟩
  | clear =>
    obtain ⟨t', h1, h2, h3, h4, h5, _⟩ := clear_spec h
    refine Ends.of_ok (a := (t', .unit)) (by simp only [Table.stepE, h1, bind_ok]) ⟨h2, ?_, trivial⟩
    simp only [ESpec.step, h5]; exact List.Perm.refl _
  | reserve n =>
    obtain ⟨t', h1, h2, h3, h4, h5⟩ := reserve_spec h n
    exact Ends.of_ok (a := (t', .unit)) (by simp only [Table.stepE, h1, bind_ok])
      ⟨h2, (contents_perm h4).trans hm, trivial⟩
  | rehash n =>
    obtain ⟨t', h1, h2, h3, h4, h5⟩ := rehash_spec h (n := n + 1) (by omega)
    exact Ends.of_ok (a := (t', .unit)) (by simp only [Table.stepE, h1, bind_ok])
      ⟨h2, (contents_perm h4).trans hm, trivial⟩
  | find k =>
    have : t.findE E isa (E.cmp · k) (E.hash k) = t.lookup isa E.hashC (E.cls k) := by
      unfold Table.findE Table.lookup
      rw [findE_eq hm]
    refine Ends.of_ok (a := (t, .node (ESpec.find (E.cmp · k) m))) ?_ ⟨h, hm, rfl⟩
    simp only [Table.stepE, this, lookup_spec h, bind_ok, hl]
  | contains k =>
    have : t.containsE E isa (E.cmp · k) (E.hash k) = t.contains isa E.hashC (E.cls k) := by
      unfold Table.containsE Table.contains
      rw [findE_eq hm]
    refine Ends.of_ok (a := (t, .bool (ESpec.find (E.cmp · k) m).isSome)) ?_ ⟨h, hm, rfl⟩
    simp only [Table.stepE, this, contains_spec h, bind_ok, hl]
  | size =>
    refine Ends.of_ok (a := (t, .nat t.size)) rfl ⟨h, hm, ?_⟩
    simp only [ESpec.step, Out.Agree]
    rw [← h.contents_length, hm.length_eq]
    unfold tag
    rw [List.length_map]
  | iterate =>
    refine (iterate_spec h).bind ?_
    rintro l rfl
    refine Ends.of_ok rfl ⟨h, hm, ?_⟩
    have := hm.map Prod.snd
    rw [tag_snd] at this
    exact this
  | index k d =>
    simp only [Table.stepE, insertE_eq hm]
    obtain ⟨t', p, b, h1, h2, _, h3⟩ := insert_spec h (E.cls k) (k, d)
    rw [h1, bind_ok]
    rcases h3 with ⟨hb, h4, h5, h6, _⟩ | ⟨w, hb, h4, h5, h6⟩
    · obtain ⟨n, d1, d2, d3⟩ := deref_spec h2 h6
      rw [hl] at h4
      refine Ends.of_ok (by simp only [d1, d2, bind_ok]; rfl) ⟨h2, ?_, ?_⟩
      · simp only [ESpec.step, ESpec.insert, h4]; exact h5.trans (hm.cons _)
      · simp [ESpec.step, Out.Agree, h4, (Prod.mk.inj d3).2]
    · subst h5
      obtain ⟨n, d1, d2, d3⟩ := deref_spec h2 h6
      rw [hl] at h4
      refine Ends.of_ok (by simp only [d1, d2, bind_ok]; rfl) ⟨h2, ?_, ?_⟩
      · simp only [ESpec.step, ESpec.insert, h4]; exact hm
      · simp [ESpec.step, Out.Agree, h4, (Prod.mk.inj d3).2]
  | extract k =>
    have : t.extractE E isa (E.cmp · k) (E.hash k) =
        (t.extract isa E.hashC (E.cls k)).map fun r => (r.1, r.2.map Prod.snd) := by
      unfold Table.extractE Table.extract
      rw [findE_eq hm]
      cases t.findNode isa (E.cls k) (E.hashC (E.cls k)) with
      | error f => rfl
      | ok pos =>
        simp only [bind_ok]
        split
        · cases t.extractAt isa pos <;> rfl
        · rfl
    simp only [Table.stepE, this]
    rcases extract_spec h (E.cls k) with ⟨⟨t', x⟩, e, h1, h2, h3, _⟩ | ⟨e1, e2⟩
    · rw [e]
      refine Ends.of_ok rfl ⟨h1, h2.trans ((erase_tag E m k) ▸ Spec.erase_perm hm _), ?_⟩
      show x.map Prod.snd = _
      simp only at h3
      rw [h3, hl, Option.map_map]
      simp [ESpec.step, Function.comp_def]
    · rw [e2]
      exact Or.inr ⟨e1, rfl⟩
  | insertNode x =>
    have : t.insertNodeE E isa x =
        (t.insertNode isa E.hashC (E.cls x.1, x)).map fun r => (r.1, r.2.1, r.2.2.1, r.2.2.2.map Prod.snd) := by
      unfold Table.insertNodeE Table.insertNode
      simp only
      rw [findE_eq hm]
      cases t.findNode isa (E.cls x.1) (E.hashC (E.cls x.1)) with
      | error f => rfl
      | ok pos =>
        simp only [bind_ok]
        split
        · rw [E.hashC_cls]
          cases t.emplaceNode isa ⟨E.cls x.1, x, E.hash x.1⟩ <;> rfl
        · rfl
    simp only [Table.stepE, this]
    obtain ⟨t', p, b, l, h1, h2, _, h3⟩ := insertNode_spec h (E.cls x.1, x)
    rw [h1]
    simp only [Except.map, bind_ok]
    rcases h3 with ⟨hb, _, h4, h5, h6⟩ | ⟨w, hb, _, h4, h5, h6⟩
    · obtain ⟨n, d1, d2, d3⟩ := deref_spec h2 h6
      rw [hl] at h4
      refine Ends.of_ok (by simp only [d1, d2, bind_ok]; rfl) ⟨h2, ?_, ?_⟩
      · simp only [ESpec.step, ESpec.insert, h4]; exact h5.trans (hm.cons _)
      · simp [ESpec.step, Out.Agree, h4, hb, (Prod.mk.inj d3).2]
    · subst h5
      obtain ⟨n, d1, d2, d3⟩ := deref_spec h2 h6
      rw [hl] at h4
      refine Ends.of_ok (by simp only [d1, d2, bind_ok]; rfl) ⟨h2, ?_, ?_⟩
      · simp only [ESpec.step, ESpec.insert, h4]; exact hm
      · simp [ESpec.step, Out.Agree, h4, hb, (Prod.mk.inj d3).2]
  | eraseIf p =>
    simp only [Table.stepE]
    refine (eraseIf_spec (fun x => p x.2) h).bind ?_
    rintro ⟨t', n, calls⟩ ⟨h1, h2, h3, h4, _⟩
    have hf : ∀ q : K × V → Bool, (tag E m).filter (fun x => q x.2) = tag E (m.filter q) := by
      intro q
      unfold tag
      rw [List.filter_map]
      rfl
    simp only at h3 h4
    refine Ends.of_ok rfl ⟨h1, ?_, ?_⟩
    · have := h2.trans (hm.filter _)
      rw [hf (fun x => !p x)] at this
      exact this
    · simp only [ESpec.step, Out.Agree, h3, h4]
      refine ⟨?_, ?_⟩
      · rw [(hm.filter _).length_eq, hf p]
        unfold tag
        rw [List.length_map]
      · have := hm.map Prod.snd
        rw [tag_snd] at this
        exact this
  | insertThrow k =>
    have : t.insertThrowE E isa k = t.insertThrow isa E.hashC (E.cls k) := by
      unfold Table.insertThrowE Table.insertThrow
      simp only
      rw [findE_eq hm]
      rfl
    obtain ⟨t', h1, h2, h3, h4, _⟩ := insertThrow_spec h (E.cls k)
    refine Ends.of_ok (a := (t', .bool (ESpec.find (E.cmp · k) m).isNone)) ?_ ⟨h2, h3.trans hm, rfl⟩
    simp only [Table.stepE, this, h1, bind_ok, hl]
  | insertRange ra xs =>
    simp only [Table.stepE, Table.insertRangeE]
    cases ra with
    | false =>
      simp only [Bool.false_eq_true, if_false, bind_ok]
      obtain ⟨t', e, h1, h2⟩ := insertRangeE_ok xs h hm
      rw [e]
      exact Ends.of_ok rfl ⟨h1, h2, trivial⟩
    | true =>
      simp only [if_true]
      obtain ⟨d, d1, d2, d3, d4, _⟩ := reserve_spec h (t.size + xs.length)
      rw [d1]
      simp only [bind_ok]
      obtain ⟨t', e, h1, h2⟩ := insertRangeE_ok xs d2 ((contents_perm d4).trans hm)
      rw [e]
      exact Ends.of_ok rfl ⟨h1, h2, trivial⟩

theorem runE_spec {isa : Isa} (ops : List (Op K V)) : ∀ {t : Table E.Cls (K × V)}, Inv isa E.hashC t →
    ∀ {m : List (K × V)}, t.contents.Perm (tag E m) →
      Ends isa (t.runE E isa ops) (fun r => Inv isa E.hashC r.1 ∧ r.1.contents.Perm (tag E (ESpec.run E m ops).1) ∧
        List.Forall₂ Out.Agree r.2 (ESpec.run E m ops).2) := by
  induction ops with
  | nil => intro t h m hm; exact Ends.of_ok rfl ⟨h, hm, .nil⟩
  | cons op ops ih =>
    intro t h m hm
    unfold Table.runE
    refine (stepE_spec h hm op).bind ?_
    rintro ⟨t', o⟩ ⟨h1, h2, h3⟩
    refine (ih h1 h2).bind ?_
    rintro ⟨t'', os⟩ ⟨h4, h5, h6⟩
    exact Ends.of_ok rfl ⟨h4, h5, .cons h3 h6⟩

/-! ## Transparent lookup -/

/-- A value that designates a class, or none. -/
theorem Key.cases {p : K → Bool} {h0 : Nat} (hk : Key E p h0) (m : List (K × V)) :
    (∃ k, E.hash k = h0 ∧ (∀ a, p a = E.cmp a k)) ∨ ESpec.find p m = none := by
  cases e : ESpec.find p m with
  | none => exact Or.inr rfl
  | some x =>
    left
    have hx := List.find?_some e
    refine ⟨x.1, hk.hash hx, ?_⟩
    intro a
    cases g : E.cmp a x.1 with
    | true => exact hk.congr (E.symm g) hx
    | false =>
      cases g' : p a with
      | false => rfl
      | true => rw [hk.one g' hx] at g; cases g

theorem findE_key {isa : Isa} {t : Table E.Cls (K × V)} (h : Inv isa E.hashC t) {m : List (K × V)} (hm : t.contents.Perm (tag E m))
    {p : K → Bool} {h0 : Nat} (hk : Key E p h0) :
    (∃ k, E.hash k = h0 ∧ p = (E.cmp · k)) ∨ (ESpec.find p m = none ∧ t.findNodeBy isa p h0 = .ok t.cap) := by
  rcases Key.cases hk m with ⟨k, h1, h2⟩ | hn
  · exact Or.inl ⟨k, h1, funext h2⟩
  · refine Or.inr ⟨hn, findNodeBy_none h ?_ h0⟩
    intro i n hi
    have := List.find?_eq_none.mp hn n.val (ghost hm hi).2
    simpa using this

theorem findE_spec {isa : Isa} {t : Table E.Cls (K × V)} (h : Inv isa E.hashC t) {m : List (K × V)} (hm : t.contents.Perm (tag E m))
    {p : K → Bool} {h0 : Nat} (hk : Key E p h0) :
    t.findE E isa p h0 = .ok (ESpec.find p m) ∧ t.containsE E isa p h0 = .ok (ESpec.find p m).isSome := by
  rcases findE_key h hm hk with ⟨k, rfl, rfl⟩ | ⟨h1, h2⟩
  · have hl : Spec.lookup t.contents (E.cls k) = ESpec.find (E.cmp · k) m := by
      rw [Spec.lookup_perm hm h.contents_uniq, lookup_tag]
    unfold Table.findE Table.containsE
    rw [findE_eq hm, ← hl]
    exact ⟨lookup_spec h _, contains_spec h _⟩
  · unfold Table.findE Table.containsE
    rw [h2, h1]
    simp

/-- Nothing matches: nothing is erased. -/
theorem erase_none {p : K → Bool} {m : List (K × V)} (h : ESpec.find p m = none) : ESpec.erase p m = m := by
  unfold ESpec.erase
  rw [List.filter_eq_self]
  intro x hx
  have := List.find?_eq_none.mp h x hx
  simpa using this

theorem eraseE_spec {isa : Isa} {t : Table E.Cls (K × V)} (h : Inv isa E.hashC t) {m : List (K × V)}
    (hm : t.contents.Perm (tag E m)) {p : K → Bool} {h0 : Nat} (hk : Key E p h0) :
    Ends isa (t.eraseE E isa p h0) (fun r => Inv isa E.hashC r.1 ∧ r.1.contents.Perm (tag E (ESpec.erase p m))) := by
  rcases findE_key h hm hk with ⟨k, rfl, rfl⟩ | ⟨h1, h2⟩
  · have : t.eraseE E isa (E.cmp · k) (E.hash k) = t.erase isa E.hashC (E.cls k) := by
      unfold Table.eraseE Table.erase
      rw [findE_eq hm]
    rw [this]
    refine (erase_spec h _).mono ?_
    rintro ⟨t', it⟩ ⟨g1, _, g2, _⟩
    exact ⟨g1, g2.trans ((erase_tag E m k) ▸ Spec.erase_perm hm _)⟩
  · unfold Table.eraseE
    rw [h2, erase_none h1]
    simp only [bind_ok, ne_eq, not_true_eq_false, if_false, end_spec h]
    exact Ends.of_ok rfl ⟨h, hm⟩

theorem extractE_spec {isa : Isa} {t : Table E.Cls (K × V)} (h : Inv isa E.hashC t) {m : List (K × V)}
    (hm : t.contents.Perm (tag E m)) {p : K → Bool} {h0 : Nat} (hk : Key E p h0) :
    Ends isa (t.extractE E isa p h0) (fun r => Inv isa E.hashC r.1 ∧ r.1.contents.Perm (tag E (ESpec.erase p m)) ∧
      r.2 = ESpec.find p m) := by
  rcases findE_key h hm hk with ⟨k, rfl, rfl⟩ | ⟨h1, h2⟩
  · have := stepE_spec h hm (.extract k)
    simp only [Table.stepE] at this
    rcases this with ⟨r, e, g1, g2, g3⟩ | ⟨e1, e2⟩
    · cases e3 : t.extractE E isa (E.cmp · k) (E.hash k) with
      | error f => rw [e3] at e; cases e
      | ok y =>
        rw [e3, bind_ok] at e
        cases e
        exact Or.inl ⟨y, rfl, g1, g2, g3⟩
    · refine Or.inr ⟨e1, ?_⟩
      cases e3 : t.extractE E isa (E.cmp · k) (E.hash k) with
      | error f => rw [e3, bind_error] at e2; injection e2 with e2; rw [e2]
      | ok r => rw [e3] at e2; cases e2
  · unfold Table.extractE
    rw [h2, erase_none h1, h1]
    simp only [bind_ok, ne_eq, not_true_eq_false, if_false]
    exact Ends.of_ok rfl ⟨h, hm, rfl⟩

end Swiss
end Tpp
