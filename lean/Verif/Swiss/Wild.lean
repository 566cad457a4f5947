import Verif.Swiss.Equiv
import Verif.Swiss.Log

/-!
# Hash functions and comparisons that answer arbitrarily (swiss table)

The hash function may return any number at each call and the comparison may answer anything at each call, also different things for the same
arguments.  Every operation that calls them gets the answers as arguments: a number for the one hash that it computes, and an answer for each
comparison of its search, given by the number of the block, the position in the block and the stored key.

As in `Verif.Swiss.Equiv` an element is stored as a whole in the field `val` of a node.  The field `key` is a ghost: a serial number together with the
hash that was computed when the element was inserted.  The functions that are shared with the other files do not look at it.
-/

set_option linter.unusedSectionVars false

namespace Tpp.Swiss

variable {K V : Type}

/-- The answers to the comparisons of one search. -/
abbrev Answers (K : Type) : Type := Nat → Nat → K → Bool

/-- Some comparison with this key is answered with yes. -/
def Answers.accepts (p : Answers K) (k : K) : Prop := ∃ i j, p i j k = true

/-- The functions of the container (swiss_table.hpp 894-1087). -/
inductive WildOp (K V : Type)
  | insert (h : Nat) (p : Answers K) (k : K) (v : V)
  | assign (h : Nat) (p : Answers K) (k : K) (v : V)
  | erase (h : Nat) (p : Answers K)
  | find (h : Nat) (p : Answers K)
  | contains (h : Nat) (p : Answers K)
  | extract (h : Nat) (p : Answers K)
  | eraseIf (pred : K × V → Bool)
  | clear
  | reserve (n : Nat)
  | rehash (n : Nat)
  | size
  | iterate

namespace Table

/-- The inner loop of `find_node` (swiss_table.hpp 1221-1226). -/
def scanWild (p : Nat → K → Bool) {Q : Type} (t : Table Q (K × V)) (pos : Nat) : List Nat → M (Option Nat)
  | [] => .ok none
  | i :: is => do
    let off := (pos + i) &&& t.cap
    let n ← t.readNode off
    if p i n.val.1 then .ok (some off) else scanWild p t pos is

/-- The probe loop of `find_node` (swiss_table.hpp 1217-1231). -/
def findLoopWild (isa : Isa) (p : Answers K) {Q : Type} (t : Table Q (K × V)) (tag : Nat) : (fuel pos idx : Nat) → M Nat
  | 0, _, _ => .error .diverge
  | fuel + 1, pos, idx => do
    t.loadBlock isa pos
    match ← t.scanWild (p idx) pos (t.matchEq isa pos tag) with
    | some off => .ok off
    | none =>
      if t.matches_ isa pos (·.isEmpty) ≠ [] then .ok t.cap
      else if idx < t.cap then
        findLoopWild isa p t tag fuel ((pos + (idx + isa.W)) &&& t.cap) (idx + isa.W)
      else .error .assertFail

/-- `find_node(key, h)` (swiss_table.hpp 1209-1234). -/
def findNodeWild (isa : Isa) (p : Answers K) {Q : Type} (t : Table Q (K × V)) (h : Nat) : M Nat :=
  if t.size ≠ 0 then t.findLoopWild isa p (hashLo h) (t.cap + 1) (hashHi h &&& t.cap) 0
  else .ok t.cap

/-- `do_insert`, `do_try_emplace` (swiss_table.hpp 1330-1347); `g` is the serial number of the new element. -/
def insertWild (isa : Isa) (g : Nat) (t : Table (Nat × Nat) (K × V)) (h : Nat) (p : Answers K) (k : K) (v : V) :
    M (Table (Nat × Nat) (K × V) × Nat × Bool) := do
  let pos ← t.findNodeWild isa p h
  if pos = t.cap then
    let (t, q) ← t.emplaceNode isa ⟨(g, h), (k, v), h⟩
    .ok (t, q, true)
  else .ok (t, pos, false)

/-- `do_insert_or_assign` (swiss_table.hpp 1348-1359) with `replace` (table_common.hpp 246-258). -/
def assignWild (isa : Isa) (g : Nat) (t : Table (Nat × Nat) (K × V)) (h : Nat) (p : Answers K) (k : K) (v : V) :
    M (Table (Nat × Nat) (K × V) × Nat × Bool) := do
  let pos ← t.findNodeWild isa p h
  if pos = t.cap then
    let (t, q) ← t.emplaceNode isa ⟨(g, h), (k, v), h⟩
    .ok (t, q, true)
  else
    let n ← t.readNode pos
    .ok ({ t with node := upd t.node pos (some { n with val := (n.val.1, v) }) }, pos, false)

/-- One operation (swiss_table.hpp 894-1087); iterators that are returned are dereferenced. -/
def stepWild (isa : Isa) (g : Nat) (t : Table (Nat × Nat) (K × V)) : WildOp K V → M (Table (Nat × Nat) (K × V) × Out K V)
  | .insert h p k v => do
    let (t, q, b) ← t.insertWild isa g h p k v
    let n ← t.readNode (← t.toIter isa q)
    .ok (t, .ins n.val b)
  | .assign h p k v => do
    let (t, q, b) ← t.assignWild isa g h p k v
    let n ← t.readNode (← t.toIter isa q)
    .ok (t, .ins n.val b)
  | .erase h p => do
    let pos ← t.findNodeWild isa p h
    if pos ≠ t.cap then
      let (t, _) ← t.doErase isa pos
      .ok (t, .unit)
    else do
      let _ ← t.end_ isa
      .ok (t, .unit)
  | .find h p => do
    let pos ← t.findNodeWild isa p h
    if pos = t.cap then .ok (t, .node none)
    else do
      let n ← t.readNode pos
      .ok (t, .node (some n.val))
  | .contains h p => do
    let pos ← t.findNodeWild isa p h
    .ok (t, .bool (pos != t.cap))
  | .extract h p => do
    let pos ← t.findNodeWild isa p h
    if pos ≠ t.cap then
      let (t, n) ← t.extractAt isa pos
      .ok (t, .node (some n.val))
    else .ok (t, .node none)
  | .eraseIf q => do
    let (t, n, calls) ← t.eraseIf isa fun x => q x.2
    .ok (t, .count n (calls.map Prod.snd))
  | .clear => do
    let t ← t.clear isa
    .ok (t, .unit)
  | .reserve n => do
    let t ← t.reserve isa n
    .ok (t, .unit)
  | .rehash n => do
    let t ← t.rehash isa (n + 1)
    .ok (t, .unit)
  | .size => .ok (t, .nat t.size)
  | .iterate => do
    let l ← t.iterate isa
    .ok (t, .list (l.map Prod.snd))

/-- A history (swiss_table.hpp 894-1087); the serial numbers start at `g`. -/
def runWild (isa : Isa) (g : Nat) (t : Table (Nat × Nat) (K × V)) : List (WildOp K V) → M (Table (Nat × Nat) (K × V) × List (Out K V))
  | [] => .ok (t, [])
  | op :: ops => do
    let (t, o) ← t.stepWild isa g op
    let (t, os) ← runWild isa (g + 1) t ops
    .ok (t, o :: os)

end Table

/-! ## The search -/

theorem scanWild_none {Q : Type} [DecidableEq Q] {t : Table Q (K × V)} {q : Q} (hq : ∀ i n, t.readNode i = .ok n → n.key ≠ q)
    (p : Nat → K → Bool) (pos : Nat) : ∀ {l : List Nat} {o : Option Nat}, t.scan q pos l = .ok o → o = none ∧
      (t.scanWild p pos l = .ok none ∨ ∃ i n j, t.scanWild p pos l = .ok (some i) ∧ t.readNode i = .ok n ∧ p j n.val.1 = true)
  | [], o, e => by
    cases e
    exact ⟨rfl, Or.inl rfl⟩
  | i :: l, o, e => by
    unfold Table.scan at e
    simp only at e
    obtain ⟨n, h1, e⟩ := Dense.bind_eq_ok e
    rw [if_neg (hq _ n h1)] at e
    obtain ⟨g1, g2⟩ := scanWild_none hq p pos e
    refine ⟨g1, ?_⟩
    unfold Table.scanWild
    simp only
    rw [h1, bind_ok]
    by_cases hp : p i n.val.1 = true
    · rw [if_pos hp]
      exact Or.inr ⟨_, n, i, rfl, h1, hp⟩
    · rw [if_neg hp]
      exact g2

theorem findLoopWild_cases {isa : Isa} {Q : Type} [DecidableEq Q] {t : Table Q (K × V)} {q : Q} (hq : ∀ i n, t.readNode i = .ok n → n.key ≠ q)
    (p : Answers K) {tag : Nat} : ∀ {fuel pos idx r : Nat}, t.findLoop isa q tag fuel pos idx = .ok r →
      t.findLoopWild isa p tag fuel pos idx = .ok r ∨
      ∃ i n, t.findLoopWild isa p tag fuel pos idx = .ok i ∧ t.readNode i = .ok n ∧ p.accepts n.val.1
  | 0, _, _, _, e => by cases e
  | fuel + 1, pos, idx, r, e => by
    unfold Table.findLoop at e
    obtain ⟨u, h1, e⟩ := Dense.bind_eq_ok e
    obtain ⟨o, h2, e⟩ := Dense.bind_eq_ok e
    obtain ⟨rfl, h3⟩ := scanWild_none hq (p idx) pos h2
    unfold Table.findLoopWild
    rw [h1, bind_ok]
    rcases h3 with h3 | ⟨i, n, j, h3, h4, h5⟩
    · rw [h3, bind_ok]
      dsimp only at e ⊢
      split at e
      · rename_i hm
        rw [if_pos hm]
        exact Or.inl e
      · rename_i hm
        rw [if_neg hm]
        split at e
        · rename_i hm
          rw [if_pos hm]
          exact findLoopWild_cases hq p e
        · cases e
    · rw [h3, bind_ok]
      exact Or.inr ⟨i, n, rfl, h4, idx, j, h5⟩

/-- The serial numbers in the table are below `g`. -/
def Below (g : Nat) (t : Table (Nat × Nat) (K × V)) : Prop := ∀ x ∈ t.contents, x.1.1 < g

theorem findNodeWild_cases {isa : Isa} {g : Nat} {t : Table (Nat × Nat) (K × V)} (h : Inv isa Prod.snd t) (hg : Below g t) (p : Answers K) (h0 : Nat) :
    t.findNode isa (g, h0) h0 = .ok t.cap ∧ Spec.lookup t.contents (g, h0) = none ∧
      (t.findNodeWild isa p h0 = .ok t.cap ∨
      ∃ i n, i < t.cap ∧ t.node i = some n ∧ p.accepts n.val.1 ∧ t.findNodeWild isa p h0 = .ok i ∧ t.findNode isa n.key n.key.2 = .ok i ∧
        (n.key, n.val) ∈ t.contents) := by
  have habs : ∀ i n, t.readNode i = .ok n → n.key ≠ (g, h0) := by
    intro i n hr e
    obtain ⟨h1, h2⟩ := readNode_eq hr
    have := hg (n.key, n.val) (mem_contents.mpr ⟨i, n, h1, h2, rfl, rfl⟩)
    rw [e] at this
    exact Nat.lt_irrefl _ this
  rcases find_cases h (g, h0) with ⟨i, n, hi, hn, hk, -⟩ | ⟨-, hf, hl⟩
  · refine absurd hk (habs i n ?_)
    unfold Table.readNode
    rw [if_pos hi, hn]
  · refine ⟨hf, hl, ?_⟩
    have found : ∀ i n, t.readNode i = .ok n → i < t.cap ∧ t.node i = some n ∧ t.findNode isa n.key n.key.2 = .ok i ∧ (n.key, n.val) ∈ t.contents := by
      intro i n hr
      obtain ⟨h1, h2⟩ := readNode_eq hr
      refine ⟨h1, h2, ?_, mem_contents.mpr ⟨i, n, h1, h2, rfl, rfl⟩⟩
      rcases find_cases h n.key with ⟨i', n', hi', hn', hk', hf', -⟩ | ⟨hno, -⟩
      · rw [hf', h.uniq i' hi' i h1 n' n hn' h2 hk']
      · exact absurd rfl (hno i h1 n h2)
    have hf' : t.findNode isa (g, h0) h0 = .ok t.cap := hf
    unfold Table.findNode at hf'
    unfold Table.findNodeWild
    by_cases hs : t.size ≠ 0
    · rw [if_pos hs] at hf' ⊢
      rcases findLoopWild_cases habs p hf' with e | ⟨i, n, e, hr, hp⟩
      · exact Or.inl e
      · obtain ⟨a, b, c, d⟩ := found i n hr
        exact Or.inr ⟨i, n, a, b, hp, e, c, d⟩
    · rw [if_neg hs]
      exact Or.inl rfl

/-! ## Every operation does what an ordinary one would -/

/-- What remains of an answer without the serial numbers. -/
def _root_.Tpp.Out.strip : Out (Nat × Nat) (K × V) → Out K V
  | .unit => .unit
  | .bool b => .bool b
  | .nat n => .nat n
  | .opt v => .node v
  | .ins x b => .ins x.2 b
  | .node x => .node (x.map Prod.snd)
  | .list l => .list (l.map Prod.snd)
  | .count n l => .count n (l.map Prod.snd)

/-- An ordinary operation that an arbitrary one can turn out to be, in a container with the elements `m`: about an element that a comparison
accepted, or about none. -/
inductive Turns (g : Nat) (m : List ((Nat × Nat) × (K × V))) : WildOp K V → Op (Nat × Nat) (K × V) → Prop
  | insert {h p k v} : Turns g m (.insert h p k v) (.insert (g, h) (k, v))
  | inserted {h p k v x} : x ∈ m → p.accepts x.2.1 → Turns g m (.insert h p k v) (.insert x.1 x.2)
  | assign {h p k v} : Turns g m (.assign h p k v) (.assign (g, h) (k, v))
  | assigned {h p k v x} : x ∈ m → p.accepts x.2.1 → Turns g m (.assign h p k v) (.assign x.1 (x.2.1, v))
  | erase {h p} : Turns g m (.erase h p) (.erase (g, h))
  | erased {h p x} : x ∈ m → p.accepts x.2.1 → Turns g m (.erase h p) (.erase x.1)
  | find {h p} : Turns g m (.find h p) (.find (g, h))
  | found {h p x} : x ∈ m → p.accepts x.2.1 → Turns g m (.find h p) (.find x.1)
  | contains {h p} : Turns g m (.contains h p) (.contains (g, h))
  | contained {h p x} : x ∈ m → p.accepts x.2.1 → Turns g m (.contains h p) (.contains x.1)
  | extract {h p} : Turns g m (.extract h p) (.extract (g, h))
  | extracted {h p x} : x ∈ m → p.accepts x.2.1 → Turns g m (.extract h p) (.extract x.1)
  | eraseIf {q} : Turns g m (.eraseIf q) (.eraseIf fun x => q x.2)
  | clear : Turns g m .clear .clear
  | reserve {n} : Turns g m (.reserve n) (.reserve n)
  | rehash {n} : Turns g m (.rehash n) (.rehash n)
  | size : Turns g m .size .size
  | iterate : Turns g m .iterate .iterate

theorem stepWild_plain {isa : Isa} {g : Nat} {t : Table (Nat × Nat) (K × V)} (h : Inv isa Prod.snd t) (hg : Below g t) (op : WildOp K V) :
    ∃ q, Turns g t.contents op q ∧ t.stepWild isa g op = (t.step isa Prod.snd q).map (fun r => (r.1, r.2.strip)) := by
  have ins : ∀ x : M (Table (Nat × Nat) (K × V) × Nat × Bool),
      (do
        let (t, q, b) ← x
        let n ← t.readNode (← t.toIter isa q)
        (.ok (t, .ins n.val b) : M (Table (Nat × Nat) (K × V) × Out K V))) =
      (do
        let (t, q, b) ← x
        let n ← t.readNode (← t.toIter isa q)
        (.ok (t, .ins (n.key, n.val) b) : M (Table (Nat × Nat) (K × V) × Out (Nat × Nat) (K × V)))).map
          (fun r : Table (Nat × Nat) (K × V) × Out (Nat × Nat) (K × V) => (r.1, r.2.strip)) := by
    intro x
    cases x with
    | error e => rfl
    | ok r =>
      simp only [bind_ok]
      cases r.1.toIter isa r.2.1 with
      | error e => rfl
      | ok q =>
        simp only [bind_ok]
        cases r.1.readNode q <;> rfl
  cases op with
  | insert h0 p k v =>
    obtain ⟨f1, f2, f3 | ⟨i, n, hi, hn, hp, f3, f4, f5⟩⟩ := findNodeWild_cases h hg p h0
    · refine ⟨_, .insert, ?_⟩
      have : t.insertWild isa g h0 p k v = t.insert isa Prod.snd (g, h0) (k, v) := by
        unfold Table.insertWild Table.insert
        simp only
        rw [f3, f1]
      show (do
        let (t, q, b) ← t.insertWild isa g h0 p k v
        let n ← t.readNode (← t.toIter isa q)
        (.ok (t, .ins n.val b) : M (Table (Nat × Nat) (K × V) × Out K V))) = _
      rw [this, ins]
      rfl
    · refine ⟨_, .inserted f5 hp, ?_⟩
      have : t.insertWild isa g h0 p k v = t.insert isa Prod.snd n.key n.val := by
        unfold Table.insertWild Table.insert
        simp only
        rw [f3, f4, bind_ok, bind_ok, if_neg (by omega), if_neg (by omega)]
      show (do
        let (t, q, b) ← t.insertWild isa g h0 p k v
        let n ← t.readNode (← t.toIter isa q)
        (.ok (t, .ins n.val b) : M (Table (Nat × Nat) (K × V) × Out K V))) = _
      rw [this, ins]
      rfl
  | assign h0 p k v =>
    obtain ⟨f1, f2, f3 | ⟨i, n, hi, hn, hp, f3, f4, f5⟩⟩ := findNodeWild_cases h hg p h0
    · refine ⟨_, .assign, ?_⟩
      have : t.assignWild isa g h0 p k v = t.insertOrAssign isa Prod.snd (g, h0) (k, v) := by
        unfold Table.assignWild Table.insertOrAssign Table.insertOrAssignWith
        simp only
        rw [f3, f1, bind_ok, bind_ok, if_pos rfl, if_pos rfl]
      show (do
        let (t, q, b) ← t.assignWild isa g h0 p k v
        let n ← t.readNode (← t.toIter isa q)
        (.ok (t, .ins n.val b) : M (Table (Nat × Nat) (K × V) × Out K V))) = _
      rw [this, ins]
      rfl
    · refine ⟨_, .assigned (v := v) f5 hp, ?_⟩
      have hr : t.readNode i = .ok n := by
        unfold Table.readNode
        rw [if_pos hi, hn]
      have : t.assignWild isa g h0 p k v = t.insertOrAssign isa Prod.snd n.key (n.val.1, v) := by
        unfold Table.assignWild Table.insertOrAssign Table.insertOrAssignWith
        simp only
        rw [f3, f4, bind_ok, bind_ok, if_neg (by omega), if_neg (by omega), hr]
        rfl
      show (do
        let (t, q, b) ← t.assignWild isa g h0 p k v
        let n ← t.readNode (← t.toIter isa q)
        (.ok (t, .ins n.val b) : M (Table (Nat × Nat) (K × V) × Out K V))) = _
      rw [this, ins]
      rfl
  | erase h0 p =>
    obtain ⟨f1, f2, f3 | ⟨i, n, hi, hn, hp, f3, f4, f5⟩⟩ := findNodeWild_cases h hg p h0
    · refine ⟨_, .erase, ?_⟩
      simp only [Table.stepWild, Table.step, Table.erase, f3, f1, bind_ok, ne_eq, not_true_eq_false, if_false]
      cases t.end_ isa <;> rfl
    · refine ⟨_, .erased f5 hp, ?_⟩
      have hne : i ≠ t.cap := by omega
      simp only [Table.stepWild, Table.step, Table.erase, f3, f4, bind_ok, hne, ne_eq, not_false_eq_true, if_true]
      cases t.doErase isa i <;> rfl
  | find h0 p =>
    obtain ⟨f1, f2, f3 | ⟨i, n, hi, hn, hp, f3, f4, f5⟩⟩ := findNodeWild_cases h hg p h0
    · refine ⟨_, .find, ?_⟩
      simp only [Table.stepWild, Table.step, Table.lookup, f3, f1, bind_ok, if_true]
      rfl
    · refine ⟨_, .found f5 hp, ?_⟩
      have hne : i ≠ t.cap := by omega
      simp only [Table.stepWild, Table.step, Table.lookup, f3, f4, bind_ok, hne, if_false]
      cases t.readNode i <;> rfl
  | contains h0 p =>
    obtain ⟨f1, f2, f3 | ⟨i, n, hi, hn, hp, f3, f4, f5⟩⟩ := findNodeWild_cases h hg p h0
    · refine ⟨_, .contains, ?_⟩
      simp only [Table.stepWild, Table.step, Table.contains, f3, f1, bind_ok]
      rfl
    · refine ⟨_, .contained f5 hp, ?_⟩
      simp only [Table.stepWild, Table.step, Table.contains, f3, f4, bind_ok]
      rfl
  | extract h0 p =>
    obtain ⟨f1, f2, f3 | ⟨i, n, hi, hn, hp, f3, f4, f5⟩⟩ := findNodeWild_cases h hg p h0
    · refine ⟨_, .extract, ?_⟩
      simp only [Table.stepWild, Table.step, Table.extract, f3, f1, bind_ok, ne_eq, not_true_eq_false, if_false]
      rfl
    · refine ⟨_, .extracted f5 hp, ?_⟩
      have hne : i ≠ t.cap := by omega
      simp only [Table.stepWild, Table.step, Table.extract, f3, f4, bind_ok, hne, ne_eq, not_false_eq_true, if_true]
      cases t.extractAt isa i <;> rfl
  | eraseIf q =>
    refine ⟨_, .eraseIf, ?_⟩
    simp only [Table.stepWild, Table.step]
    cases t.eraseIf isa (fun x => q x.2) <;> rfl
  | clear =>
    refine ⟨_, .clear, ?_⟩
    simp only [Table.stepWild, Table.step]
    cases t.clear isa <;> rfl
  | reserve n =>
    refine ⟨_, .reserve, ?_⟩
    simp only [Table.stepWild, Table.step]
    cases t.reserve isa n <;> rfl
  | rehash n =>
    refine ⟨_, .rehash, ?_⟩
    simp only [Table.stepWild, Table.step]
    cases t.rehash isa (n + 1) <;> rfl
  | size => exact ⟨_, .size, rfl⟩
  | iterate =>
    refine ⟨_, .iterate, ?_⟩
    simp only [Table.stepWild, Table.step]
    cases t.iterate isa <;> rfl

/-! ## An element that is always accepted -/

theorem scanWild_some {Q : Type} [DecidableEq Q] {t : Table Q (K × V)} {q : Q} {p : Nat → K → Bool}
    (hq : ∀ i n, t.readNode i = .ok n → n.key = q → ∀ j, p j n.val.1 = true) (pos : Nat) : ∀ {l : List Nat} {o : Option Nat}, t.scan q pos l = .ok o →
      ∃ o', t.scanWild p pos l = .ok o' ∧ (o' = none → o = none) ∧ ∀ i, o' = some i → ∃ n, t.readNode i = .ok n
  | [], o, e => by
    cases e
    exact ⟨none, rfl, fun _ => rfl, fun _ h => by cases h⟩
  | i :: l, o, e => by
    unfold Table.scan at e
    simp only at e
    obtain ⟨n, h1, e⟩ := Dense.bind_eq_ok e
    unfold Table.scanWild
    simp only
    rw [h1, bind_ok]
    by_cases hp : p i n.val.1 = true
    · rw [if_pos hp]
      refine ⟨some (pos + i &&& t.cap), rfl, (fun h => by cases h), fun j h => ?_⟩
      rw [← Option.some.inj h]
      exact ⟨n, h1⟩
    · rw [if_neg hp]
      have hk : n.key ≠ q := fun hk => hp (hq _ n h1 hk i)
      rw [if_neg hk] at e
      exact scanWild_some hq pos e

theorem findLoopWild_some {isa : Isa} {Q : Type} [DecidableEq Q] {t : Table Q (K × V)} {q : Q} {p : Answers K}
    (hq : ∀ i n, t.readNode i = .ok n → n.key = q → ∀ a b, p a b n.val.1 = true) {tag : Nat} : ∀ {fuel pos idx r : Nat},
      t.findLoop isa q tag fuel pos idx = .ok r → r ≠ t.cap →
      ∃ i n, t.findLoopWild isa p tag fuel pos idx = .ok i ∧ t.readNode i = .ok n
  | 0, _, _, _, e, _ => by cases e
  | fuel + 1, pos, idx, r, e, hr => by
    unfold Table.findLoop at e
    obtain ⟨u, h1, e⟩ := Dense.bind_eq_ok e
    obtain ⟨o, h2, e⟩ := Dense.bind_eq_ok e
    obtain ⟨o', h3, h4, h5⟩ := scanWild_some (p := p idx) (fun i n a b j => hq i n a b idx j) pos h2
    unfold Table.findLoopWild
    rw [h1, bind_ok, h3, bind_ok]
    cases o' with
    | some i =>
      obtain ⟨n, h6⟩ := h5 i rfl
      exact ⟨i, n, rfl, h6⟩
    | none =>
      rw [h4 rfl] at e
      dsimp only at e ⊢
      split at e
      · cases e
        exact absurd rfl hr
      · rename_i hm
        rw [if_neg hm]
        split at e
        · rename_i hm
          rw [if_pos hm]
          exact findLoopWild_some hq e hr
        · cases e

theorem findNodeWild_some {isa : Isa} {t : Table (Nat × Nat) (K × V)} (h : Inv isa Prod.snd t) {x : (Nat × Nat) × (K × V)} (hx : x ∈ t.contents)
    {p : Answers K} (hp : ∀ a b, p a b x.2.1 = true) : ∃ i n, t.findNodeWild isa p x.1.2 = .ok i ∧ t.readNode i = .ok n := by
  obtain ⟨i, n, hi, hn, hk, hv⟩ := mem_contents.mp hx
  rcases find_cases h x.1 with ⟨i', n', hi', hn', hk', hf, -⟩ | ⟨hno, -⟩
  · have huniq : ∀ j m, t.readNode j = .ok m → m.key = x.1 → ∀ a b, p a b m.val.1 = true := by
      intro j m hr hm a b
      obtain ⟨g1, g2⟩ := readNode_eq hr
      have := h.uniq j g1 i hi m n g2 hn (hm.trans hk.symm)
      subst this
      rw [hn] at g2
      cases g2
      rw [hv]
      exact hp a b
    unfold Table.findNode at hf
    unfold Table.findNodeWild
    by_cases hs : t.size ≠ 0
    · rw [if_pos hs] at hf ⊢
      exact findLoopWild_some huniq hf (by omega)
    · rw [if_neg hs] at hf
      have := Except.ok.inj hf
      omega
  · exact absurd hk (hno i hi n hn)

end Tpp.Swiss
