import Verif.Dense.Hist
import Verif.Dense.Faults

/-!
# The work of making room in a dense container

The functions that make room (`rehash`, `resize_data` and everything that calls them) once more, with what they do counted: nodes
allocated, nodes moved, buckets filled, nodes put into chains.  Dropping the counts gives back the functions of `Verif.Dense.Model`
(`runW_fst`).
-/

set_option linter.unusedSectionVars false

namespace Tpp.Dense

variable {k : Nat} {K V : Type} [DecidableEq K]

/-- What making room costs: nodes allocated (dense_table.hpp 786), nodes moved (790), buckets filled (768), nodes put into chains
(771). -/
structure Work where
  alloc : Nat
  moved : Nat
  filled : Nat
  linked : Nat
  deriving DecidableEq

/-- No work. -/
def Work.nil : Work := ⟨0, 0, 0, 0⟩

/-- One piece of work after another. -/
def Work.plus (a b : Work) : Work := ⟨a.alloc + b.alloc, a.moved + b.moved, a.filled + b.filled, a.linked + b.linked⟩

namespace Table

/-- `do_rehash` (dense_table.hpp 764-773): all buckets are filled, and every node is put into a chain for every component. -/
def doRehashW (t : Table k K V) (newCap : Nat) : M (Table k K V × Work) := do
  let t : Table k K V := { t with bc := if t.bc < newCap then newCap else t.bc, head := fun _ _ => none }
  let r ← (List.range t.size).foldlM (fun p i => (List.finRange k).foldlM (fun (p : Table k K V × Nat) j => do
    let t ← p.1.insertNode i j
    .ok (t, p.2 + 1)) p) (t, 0)
  .ok (r.1, ⟨0, 0, t.bc, r.2⟩)

/-- `rehash` (dense_table.hpp 442-451). -/
def rehashW (t : Table k K V) (n : Nat) : M (Table k K V × Work) :=
  if n = 0 ∧ t.size = 0 then .ok (t, .nil)
  else
    let newCap := max (t.lf.div t.size) n
    if n = 0 ∨ newCap ≠ t.bc then t.doRehashW newCap else .ok (t, .nil)

/-- `maybe_rehash` (dense_table.hpp 775-781). -/
def maybeRehashW (t : Table k K V) : M (Table k K V × Work) :=
  if t.bc = 0 then t.rehashW 8
  else if t.lf.full t.size t.bc then t.rehashW (t.bc * 2)
  else .ok (t, .nil)

/-- `resize_data` (dense_table.hpp 783-801). -/
def resizeDataW (t : Table k K V) (c : Nat) : M (Table k K V × Work) :=
  if c < t.size then .error .oobNode
  else do
    let ns ← (List.range t.size).mapM (fun i => t.readNode i)
    .ok ({ t with cap := c, node := fun i => if i < t.size then t.node i else none }, ⟨c, ns.length, 0, 0⟩)

/-- `maybe_resize` (dense_table.hpp 802-821). -/
def maybeResizeW (t : Table k K V) : M (Table k K V × Work) :=
  if t.cap = t.size then t.resizeDataW (if t.cap = 0 then 1 else t.cap * 2) else .ok (t, .nil)

/-- `do_insert` (dense_table.hpp 674-697), `do_try_emplace` (646-671). -/
def insertW (hash : K → Nat) (t : Table k K V) (key : Fin k → K) (v : V) : M ((Table k K V × Nat × Bool) × Work) := do
  let (t, w) ← t.maybeResizeW
  let (t, w') ← t.maybeRehashW
  let found ← t.locate hash key
  match found.findSome? (fun x => x.2.1) with
  | some i => .ok ((t, i, false), w.plus w')
  | none =>
    let (t, pos) ← t.pushNode key v
    let t ← t.commitNode pos (found.map fun x => (x.1, x.2.2)) (fun j => hash (key j))
    .ok ((t, pos, true), w.plus w')

/-- `do_emplace` (dense_table.hpp 620-644). -/
def emplaceW (hash : K → Nat) (t : Table k K V) (key : Fin k → K) (v : V) : M ((Table k K V × Nat × Bool) × Work) := do
  let (t, w) ← t.maybeResizeW
  let (t, w') ← t.maybeRehashW
  let (t, pos) ← t.pushNode key v
  let found ← t.locate hash key
  match found.findSome? (fun x => x.2.1) with
  | some i =>
    let t ← t.popNode
    .ok ((t, i, false), w.plus w')
  | none =>
    let t ← t.commitNode pos (found.map fun x => (x.1, x.2.2)) (fun j => hash (key j))
    .ok ((t, pos, true), w.plus w')

/-- `do_insert_or_assign` (dense_table.hpp 699-723). -/
def insertOrAssignW (hash : K → Nat) (t : Table 1 K V) (x : K) (v : V) : M ((Table 1 K V × Nat × Bool) × Work) := do
  let (t, w) ← t.maybeResizeW
  let (t, w') ← t.maybeRehashW
  let (i, r) ← t.findNode hash 0 x
  match i with
  | none =>
    let (t, pos) ← t.pushNode (fun _ => x) v
    let t ← t.commitNode pos [(0, r)] (fun _ => hash x)
    .ok ((t, pos, true), w.plus w')
  | some i =>
    let n ← t.readNode i
    .ok (({ t with node := upd t.node i (some { n with val := v }) }, i, false), w.plus w')

/-- `reserve` (dense_table.hpp 358-362). -/
def reserveW (t : Table k K V) (n : Nat) : M (Table k K V × Work) := do
  let (t, w) ← (if n > t.cap then t.resizeDataW n else .ok (t, .nil) : M (Table k K V × Work))
  let (t, w') ← t.rehashW (t.lf.div n)
  .ok (t, w.plus w')

/-- `insert(first, last)` (dense_table.hpp 388-394). -/
def insertRangeW (hash : K → Nat) (t : Table k K V) (ra : Bool) (xs : List (Elem k K V)) : M (Table k K V × Work) := do
  let p ← (if ra then t.reserveW (t.size + xs.length) else .ok (t, .nil) : M (Table k K V × Work))
  xs.foldlM (fun (p : Table k K V × Work) x => do
    let r ← p.1.insertW hash x.1 x.2
    .ok (r.1.1, p.2.plus r.2)) p

/-- `assign(first, last)` (dense_table.hpp 311-316). -/
def assignRangeW (hash : K → Nat) (t : Table k K V) (ra : Bool) (xs : List (Elem k K V)) : M (Table k K V × Work) := do
  let t ← t.clear
  t.insertRangeW hash ra xs

/-- `insert_or_assign` in a history (dense_table.hpp 401-408). -/
def assignStepW (hash : K → Nat) : {k : Nat} → k = 1 → Table k K V → K → V → M ((Table k K V × Nat × Bool) × Work)
  | _, rfl, t, x, v => t.insertOrAssignW hash x v

/-- One operation of a history (the functions of dense_table.hpp cited at `Table.step`). -/
def stepW (hash : K → Nat) (t : Table k K V) : Op k K V → M ((Table k K V × Out k K V) × Work)
  | .insert key v => do
    let (r, w) ← t.insertW hash key v
    .ok ((r.1, .ins r.2.1 r.2.2), w)
  | .emplace key v => do
    let (r, w) ← t.emplaceW hash key v
    .ok ((r.1, .ins r.2.1 r.2.2), w)
  | .assign hk x v => do
    let (r, w) ← assignStepW hash hk t x v
    .ok ((r.1, .ins r.2.1 r.2.2), w)
  | .insertRange ra xs => do
    let (t, w) ← t.insertRangeW hash ra xs
    .ok ((t, .unit), w)
  | .assignRange ra xs => do
    let (t, w) ← t.assignRangeW hash ra xs
    .ok ((t, .unit), w)
  | .reserve n => do
    let (t, w) ← t.reserveW n
    .ok ((t, .unit), w)
  | .rehash n => do
    let (t, w) ← t.rehashW n
    .ok ((t, .unit), w)
  | o => do
    let r ← t.step hash o
    .ok (r, .nil)

/-- A history: the work of all operations (the functions of dense_table.hpp cited at `Table.step`). -/
def runW (hash : K → Nat) (t : Table k K V) : List (Op k K V) → M ((Table k K V × List (Out k K V)) × Work)
  | [] => .ok ((t, []), .nil)
  | o :: os => do
    let (r, w) ← t.stepW hash o
    let (s, w') ← r.1.runW hash os
    .ok ((s.1, r.2 :: s.2), w.plus w')

end Table

/-! ## Dropping the counts -/

theorem map_bind {α β γ : Type} (x : M α) (f : α → M β) (g : β → γ) : (x >>= f).map g = x >>= fun a => (f a).map g := by
  cases x <;> rfl

theorem bind_map {α β γ : Type} (x : M α) (f : α → β) (g : β → M γ) : x.map f >>= g = x >>= fun a => g (f a) := by
  cases x <;> rfl

theorem bind_map_pure {α β : Type} (x : M α) (f : α → β) : (x >>= fun a => .ok (f a)) = x.map f := by
  cases x <;> rfl

theorem foldlM_fst {S α C : Type} {f : S → α → M S} {g : S × C → α → M (S × C)}
    (h : ∀ p x, (g p x).map Prod.fst = f p.1 x) : ∀ (l : List α) (p : S × C),
    (l.foldlM g p).map Prod.fst = l.foldlM f p.1 := by
  intro l
  induction l with
  | nil => intro p; rfl
  | cons a l ih =>
    intro p
    rw [List.foldlM_cons, List.foldlM_cons, map_bind, ← h p a, bind_map]
    congr 1
    funext q
    exact ih q

theorem doRehashW_fst (t : Table k K V) (c : Nat) : (t.doRehashW c).map Prod.fst = t.doRehash c := by
  unfold Table.doRehashW Table.doRehash
  simp only
  have h : ∀ (p : Table k K V × Nat) (i : Nat), ((List.finRange k).foldlM (fun (p : Table k K V × Nat) j => (do
      let t ← p.1.insertNode i j
      .ok (t, p.2 + 1) : M (Table k K V × Nat))) p).map Prod.fst = (List.finRange k).foldlM (fun t j => t.insertNode i j) p.1 := by
    intro p i
    apply foldlM_fst
    intro q j
    rw [map_bind]
    cases q.1.insertNode i j <;> rfl
  refine Eq.trans ?_ (foldlM_fst h (List.range t.size)
    (({ t with bc := if t.bc < c then c else t.bc, head := fun _ _ => none } : Table k K V), 0))
  rw [map_bind, ← bind_map_pure]
  rfl

theorem rehashW_fst (t : Table k K V) (n : Nat) : (t.rehashW n).map Prod.fst = t.rehash n := by
  unfold Table.rehashW Table.rehash
  simp only
  split
  · rfl
  · split
    · exact doRehashW_fst _ _
    · rfl

theorem maybeRehashW_fst (t : Table k K V) : t.maybeRehashW.map Prod.fst = t.maybeRehash := by
  unfold Table.maybeRehashW Table.maybeRehash
  split
  · exact rehashW_fst _ _
  · split
    · exact rehashW_fst _ _
    · rfl

theorem resizeDataW_fst (t : Table k K V) (c : Nat) : (t.resizeDataW c).map Prod.fst = t.resizeData c := by
  unfold Table.resizeDataW Table.resizeData
  split
  · rfl
  · rw [map_bind]
    rfl

theorem maybeResizeW_fst (t : Table k K V) : t.maybeResizeW.map Prod.fst = t.maybeResize := by
  unfold Table.maybeResizeW Table.maybeResize
  split
  · exact resizeDataW_fst _ _
  · rfl

theorem insertW_fst (hash : K → Nat) (t : Table k K V) (key : Fin k → K) (v : V) :
    (t.insertW hash key v).map Prod.fst = t.insert hash key v := by
  unfold Table.insertW Table.insert
  rw [← maybeResizeW_fst, map_bind, bind_map]
  congr 1; funext ⟨t1, w⟩
  simp only
  rw [← maybeRehashW_fst, map_bind, bind_map]
  congr 1; funext ⟨t2, w'⟩
  simp only
  rw [map_bind]
  congr 1; funext found
  cases List.findSome? (fun x : Fin k × Option Nat × Option Ref => x.2.1) found with
  | some i => rfl
  | none =>
    simp only
    rw [map_bind]
    congr 1; funext ⟨t3, pos⟩
    simp only
    rw [map_bind]
    rfl

theorem emplaceW_fst (hash : K → Nat) (t : Table k K V) (key : Fin k → K) (v : V) :
    (t.emplaceW hash key v).map Prod.fst = t.emplace hash key v := by
  unfold Table.emplaceW Table.emplace
  rw [← maybeResizeW_fst, map_bind, bind_map]
  congr 1; funext ⟨t1, w⟩
  simp only
  rw [← maybeRehashW_fst, map_bind, bind_map]
  congr 1; funext ⟨t2, w'⟩
  simp only
  rw [map_bind]
  congr 1; funext ⟨t3, pos⟩
  simp only
  rw [map_bind]
  congr 1; funext found
  cases List.findSome? (fun x : Fin k × Option Nat × Option Ref => x.2.1) found with
  | some i => simp only; rw [map_bind]; rfl
  | none => simp only; rw [map_bind]; rfl

theorem insertOrAssignW_fst (hash : K → Nat) (t : Table 1 K V) (x : K) (v : V) :
    (t.insertOrAssignW hash x v).map Prod.fst = t.insertOrAssign hash x v := by
  unfold Table.insertOrAssignW Table.insertOrAssign
  rw [← maybeResizeW_fst, map_bind, bind_map]
  congr 1; funext ⟨t1, w⟩
  simp only
  rw [← maybeRehashW_fst, map_bind, bind_map]
  congr 1; funext ⟨t2, w'⟩
  simp only
  rw [map_bind]
  congr 1; funext ⟨i, r⟩
  simp only
  cases i with
  | none =>
    simp only
    rw [map_bind]
    congr 1; funext ⟨t3, pos⟩
    simp only
    rw [map_bind]; rfl
  | some i =>
    simp only
    rw [map_bind]; rfl

theorem reserveW_fst (t : Table k K V) (n : Nat) : (t.reserveW n).map Prod.fst = t.reserve n := by
  unfold Table.reserveW Table.reserve
  rw [map_bind]
  have h : (if n > t.cap then t.resizeData n else .ok t : M (Table k K V)) =
      (if n > t.cap then t.resizeDataW n else .ok (t, .nil) : M (Table k K V × Work)).map Prod.fst := by
    split
    · exact (resizeDataW_fst _ _).symm
    · rfl
  rw [h, bind_map]
  congr 1; funext ⟨t1, w⟩
  simp only
  rw [← rehashW_fst, map_bind]
  cases t1.rehashW (t1.lf.div n) <;> rfl

theorem insertRangeW_fst (hash : K → Nat) (t : Table k K V) (ra : Bool) (xs : List (Elem k K V)) :
    (t.insertRangeW hash ra xs).map Prod.fst = t.insertRange hash ra xs := by
  unfold Table.insertRangeW Table.insertRange
  rw [map_bind]
  have h : (if ra then t.reserve (t.size + xs.length) else .ok t : M (Table k K V)) =
      (if ra then t.reserveW (t.size + xs.length) else .ok (t, .nil) : M (Table k K V × Work)).map Prod.fst := by
    split
    · exact (reserveW_fst _ _).symm
    · rfl
  rw [h, bind_map]
  congr 1; funext p
  apply foldlM_fst
  intro q x
  rw [map_bind, ← insertW_fst, bind_map]
  rfl

theorem assignRangeW_fst (hash : K → Nat) (t : Table k K V) (ra : Bool) (xs : List (Elem k K V)) :
    (t.assignRangeW hash ra xs).map Prod.fst = t.assignRange hash ra xs := by
  unfold Table.assignRangeW Table.assignRange
  rw [map_bind]
  congr 1; funext t1
  exact insertRangeW_fst _ _ _ _

theorem stepW_fst (hash : K → Nat) (t : Table k K V) (o : Op k K V) : (t.stepW hash o).map Prod.fst = t.step hash o := by
  have keep : ∀ x : M (Table k K V × Out k K V), (x >>= fun r => .ok (r, Work.nil) : M _).map Prod.fst = x := by
    intro x; cases x <;> rfl
  cases o with
  | insert key v =>
    simp only [Table.stepW, Table.step]
    rw [map_bind, ← insertW_fst, bind_map]; rfl
  | emplace key v =>
    simp only [Table.stepW, Table.step]
    rw [map_bind, ← emplaceW_fst, bind_map]; rfl
  | assign hk x v =>
    cases hk
    simp only [Table.stepW, Table.step, Table.assignStepW, Table.assignStep]
    rw [map_bind, ← insertOrAssignW_fst, bind_map]; rfl
  | insertRange ra xs =>
    simp only [Table.stepW, Table.step]
    rw [map_bind, ← insertRangeW_fst, bind_map]; rfl
  | assignRange ra xs =>
    simp only [Table.stepW, Table.step]
    rw [map_bind, ← assignRangeW_fst, bind_map]; rfl
  | reserve n =>
    simp only [Table.stepW, Table.step]
    rw [map_bind, ← reserveW_fst, bind_map]; rfl
  | rehash n =>
    simp only [Table.stepW, Table.step]
    rw [map_bind, ← rehashW_fst, bind_map]; rfl
  | _ => simp only [Table.stepW]; exact keep _

theorem runW_fst (hash : K → Nat) : ∀ (ops : List (Op k K V)) (t : Table k K V), (t.runW hash ops).map Prod.fst = t.run hash ops := by
  intro ops
  induction ops with
  | nil => intro t; rfl
  | cons o os ih =>
    intro t
    unfold Table.runW Table.run
    rw [map_bind, ← stepW_fst, bind_map]
    congr 1; funext ⟨r, w⟩
    simp only
    rw [map_bind, ← ih, bind_map]
    rfl

theorem map_eq_ok {α β : Type} {x : M α} {f : α → β} {b : β} (h : x.map f = .ok b) : ∃ a, x = .ok a ∧ f a = b := by
  cases x with
  | error e => cases h
  | ok a => exact ⟨a, rfl, by injection h⟩

/-! ## What the other functions leave alone -/

/-- Same room, and at most `n` elements more. -/
structure Shape (n : Nat) (t t' : Table k K V) : Prop where
  cap : t'.cap = t.cap
  bc : t'.bc = t.bc
  lf : t'.lf = t.lf
  size : t'.size ≤ t.size + n

theorem Shape.refl (t : Table k K V) : Shape 0 t t := ⟨rfl, rfl, rfl, Nat.le_refl _⟩

theorem Shape.trans {a b : Nat} {t u v : Table k K V} (h : Shape a t u) (g : Shape b u v) : Shape (a + b) t v :=
  ⟨g.cap.trans h.cap, g.bc.trans h.bc, g.lf.trans h.lf, by have := h.size; have := g.size; omega⟩

theorem Shape.mono {a b : Nat} {t u : Table k K V} (h : Shape a t u) (hb : a ≤ b) : Shape b t u :=
  ⟨h.cap, h.bc, h.lf, by have := h.size; omega⟩

theorem foldlM_shape {α : Type} {f : Table k K V → α → M (Table k K V)} (hf : ∀ t x t', f t x = .ok t' → Shape 0 t t') :
    ∀ (l : List α) {t t' : Table k K V}, l.foldlM f t = .ok t' → Shape 0 t t' := by
  intro l
  induction l with
  | nil => intro t t' e; cases e; exact .refl _
  | cons a l ih =>
    intro t t' e
    rw [List.foldlM_cons] at e
    obtain ⟨u, e1, e2⟩ := bind_eq_ok e
    exact (hf _ _ _ e1).trans (ih e2)

theorem writeRef_shape {t t' : Table k K V} {j : Fin k} {r : Ref} {v : Option Nat} (e : t.writeRef j r v = .ok t') : Shape 0 t t' := by
  unfold Table.writeRef at e
  cases r with
  | head b =>
    simp only at e
    split at e
    · cases e; exact ⟨rfl, rfl, rfl, Nat.le_refl _⟩
    · cases e
  | next i =>
    simp only at e
    obtain ⟨n, _, e⟩ := bind_eq_ok e
    cases e; exact ⟨rfl, rfl, rfl, Nat.le_refl _⟩

theorem insertNode_shape {t t' : Table k K V} {i : Nat} {j : Fin k} (e : t.insertNode i j = .ok t') : Shape 0 t t' := by
  unfold Table.insertNode at e
  obtain ⟨n, _, e⟩ := bind_eq_ok e
  obtain ⟨r, _, e⟩ := bind_eq_ok e
  obtain ⟨v, _, e⟩ := bind_eq_ok e
  obtain ⟨u, e1, e⟩ := bind_eq_ok e
  exact (writeRef_shape e1).trans (writeRef_shape e)

theorem moveChain_shape {t t' : Table k K V} {a b : Nat} {j : Fin k} (e : t.moveChain a b j = .ok t') : Shape 0 t t' := by
  unfold Table.moveChain at e
  obtain ⟨n, _, e⟩ := bind_eq_ok e
  obtain ⟨r, _, e⟩ := bind_eq_ok e
  obtain ⟨r, _, e⟩ := bind_eq_ok e
  obtain ⟨v, _, e⟩ := bind_eq_ok e
  cases v with
  | none => cases e
  | some v => exact writeRef_shape e

theorem commitNode_shape {t t' : Table k K V} {pos : Nat} {sl : List (Fin k × Option Ref)} {hs : Fin k → Nat}
    (e : t.commitNode pos sl hs = .ok t') : Shape 0 t t' := by
  unfold Table.commitNode at e
  obtain ⟨u, e1, e⟩ := bind_eq_ok e
  have h1 := foldlM_shape (fun t x t' e => by
    obtain ⟨r, _, e⟩ := bind_eq_ok e
    exact writeRef_shape e) _ e1
  unfold Table.setHashes at e
  obtain ⟨n, _, e⟩ := bind_eq_ok e
  cases e
  exact h1.trans (b := 0) ⟨rfl, rfl, rfl, Nat.le_refl _⟩

theorem pushNode_shape {t t' : Table k K V} {key : Fin k → K} {v : V} {pos : Nat} (e : t.pushNode key v = .ok (t', pos)) :
    Shape 1 t t' ∧ t'.size = t.size + 1 := by
  unfold Table.pushNode at e
  simp only at e
  split at e
  · split at e
    · cases e
    · cases e; exact ⟨⟨rfl, rfl, rfl, Nat.le_refl _⟩, rfl⟩
  · cases e

theorem popNode_shape {t t' : Table k K V} (e : t.popNode = .ok t') : Shape 0 t t' ∧ t'.size = t.size - 1 := by
  unfold Table.popNode at e
  split at e
  · cases e
  · split at e
    · cases e
    · cases e; exact ⟨⟨rfl, rfl, rfl, Nat.sub_le _ _⟩, rfl⟩

theorem eraseNode_shape {t t' : Table k K V} {pos : Nat} {sl : List (Fin k × Ref)} (e : t.eraseNode pos sl = .ok t') : Shape 0 t t' := by
  unfold Table.eraseNode at e
  obtain ⟨u, e1, e⟩ := bind_eq_ok e
  have h1 := foldlM_shape (fun t x t' e => by
    obtain ⟨r, _, e⟩ := bind_eq_ok e
    exact writeRef_shape e) _ e1
  split at e
  · cases e
  · obtain ⟨s, e2, e⟩ := bind_eq_ok e
    refine (h1.trans (b := 0) ?_).trans (popNode_shape e).1
    split at e2
    · unfold Table.fillHole at e2
      obtain ⟨x, e3, e2⟩ := bind_eq_ok e2
      obtain ⟨_, _, e2⟩ := bind_eq_ok e2
      obtain ⟨_, _, e2⟩ := bind_eq_ok e2
      cases e2
      exact (foldlM_shape (fun t x t' e => moveChain_shape e) _ e3).trans (b := 0) ⟨rfl, rfl, rfl, Nat.le_refl _⟩
    · cases e2; exact .refl _

theorem eraseAt_shape {t : Table k K V} {pos : Nat} {r : Table k K V × Nat} (e : t.eraseAt pos = .ok r) : Shape 0 t r.1 := by
  unfold Table.eraseAt at e
  split at e
  · cases e; exact .refl _
  · obtain ⟨_, _, e⟩ := bind_eq_ok e
    obtain ⟨_, _, e⟩ := bind_eq_ok e
    obtain ⟨_, e1, e⟩ := bind_eq_ok e
    cases e
    exact eraseNode_shape e1

theorem erase_shape {hash : K → Nat} {t : Table k K V} {j : Fin k} {x : K} {r : Table k K V × Nat × Bool} (e : t.erase hash j x = .ok r) :
    Shape 0 t r.1 := by
  unfold Table.erase at e
  obtain ⟨_, _, e⟩ := bind_eq_ok e
  obtain ⟨⟨i, r'⟩, _, e⟩ := bind_eq_ok e
  cases i with
  | none => cases e; exact .refl _
  | some pos =>
    simp only at e
    obtain ⟨_, _, e⟩ := bind_eq_ok e
    obtain ⟨_, _, e⟩ := bind_eq_ok e
    obtain ⟨_, e1, e⟩ := bind_eq_ok e
    cases e
    exact eraseNode_shape e1

theorem eraseRange_shape : ∀ (l : List Nat) {p r : Table k K V × Nat},
    l.foldlM (fun (tr : Table k K V × Nat) i => tr.1.eraseAt i) p = .ok r → Shape 0 p.1 r.1 := by
  intro l
  induction l with
  | nil => intro p r e; cases e; exact .refl _
  | cons a l ih =>
    intro p r e
    rw [List.foldlM_cons] at e
    obtain ⟨u, e1, e2⟩ := bind_eq_ok e
    exact (eraseAt_shape e1).trans (ih e2)

theorem clear_shape {t t' : Table k K V} (e : t.clear = .ok t') : Shape 0 t t' := by
  unfold Table.clear Table.clearData at e
  obtain ⟨u, e1, e⟩ := bind_eq_ok e
  cases e
  have h1 := foldlM_shape (fun t x t' e => by
    unfold Table.destroyNode at e
    split at e
    · cases e; exact ⟨rfl, rfl, rfl, Nat.le_refl _⟩
    · cases e) _ e1
  exact ⟨h1.cap, h1.bc, h1.lf, Nat.zero_le _⟩

/-! ## The counts -/

theorem foldlM_count {S α : Type} {f : S → α → M S} {g : S × Nat → α → M (S × Nat)} {c : Nat}
    (h : ∀ p x, g p x = (f p.1 x).map fun s => (s, p.2 + c)) : ∀ (l : List α) (p : S × Nat),
    l.foldlM g p = (l.foldlM f p.1).map fun s => (s, p.2 + l.length * c) := by
  intro l
  induction l with
  | nil => intro p; simp only [List.foldlM_nil, List.length_nil, Nat.zero_mul, Nat.add_zero]; rfl
  | cons a l ih =>
    intro p
    rw [List.foldlM_cons, List.foldlM_cons, map_bind, h p a, bind_map]
    congr 1
    funext s
    rw [ih, List.length_cons, Nat.add_mul, Nat.one_mul]
    simp only
    rw [Nat.add_assoc, Nat.add_comm c]

/-- A rehash fills all buckets and puts every element into a chain for every component. -/
theorem doRehashW_eq (t : Table k K V) (c : Nat) :
    t.doRehashW c = (t.doRehash c).map fun t' => (t', ⟨0, 0, if t.bc < c then c else t.bc, t.size * k⟩) := by
  unfold Table.doRehashW Table.doRehash
  simp only
  have h : ∀ (p : Table k K V × Nat) (i : Nat), (List.finRange k).foldlM (fun (p : Table k K V × Nat) j => (do
      let t ← p.1.insertNode i j
      .ok (t, p.2 + 1) : M (Table k K V × Nat))) p =
      ((List.finRange k).foldlM (fun (t : Table k K V) j => t.insertNode i j) p.1).map fun s => (s, p.2 + k) := by
    intro p i
    rw [foldlM_count (f := fun (t : Table k K V) j => t.insertNode i j) (c := 1), List.length_finRange, Nat.mul_one]
    intro q j
    exact bind_map_pure _ _
  rw [foldlM_count (f := fun (t : Table k K V) i => (List.finRange k).foldlM (fun t j => t.insertNode i j) t) (c := k) h, bind_map,
    List.length_range]
  simp only [Nat.zero_add]
  exact bind_map_pure _ _

theorem mapM_length {α β : Type} {f : α → M β} : ∀ {l : List α} {r : List β}, l.mapM f = .ok r → r.length = l.length := by
  intro l
  induction l with
  | nil => intro r e; cases e; rfl
  | cons a l ih =>
    intro r e
    rw [List.mapM_cons] at e
    obtain ⟨b, _, e⟩ := bind_eq_ok e
    obtain ⟨bs, e1, e⟩ := bind_eq_ok e
    cases e
    rw [List.length_cons, List.length_cons, ih e1]

theorem doRehash_shape {t t' : Table k K V} {c : Nat} (e : t.doRehash c = .ok t') :
    t'.cap = t.cap ∧ t'.bc = (if t.bc < c then c else t.bc) ∧ t'.lf = t.lf ∧ t'.size ≤ t.size := by
  unfold Table.doRehash at e
  simp only at e
  have h := foldlM_shape (fun t i t' e => foldlM_shape (fun t j t' e => insertNode_shape e) _ e) _ e
  exact ⟨h.cap, h.bc, h.lf, h.size⟩

theorem resizeDataW_eq {t t' : Table k K V} {c : Nat} {w : Work} (e : t.resizeDataW c = .ok (t', w)) :
    w = ⟨c, t.size, 0, 0⟩ ∧ t'.cap = c ∧ t'.bc = t.bc ∧ t'.lf = t.lf ∧ t'.size = t.size ∧ t.size ≤ c := by
  unfold Table.resizeDataW at e
  split at e
  · cases e
  · rename_i hc
    obtain ⟨ns, e1, e⟩ := bind_eq_ok e
    cases e
    rw [mapM_length e1, List.length_range]
    exact ⟨rfl, rfl, rfl, rfl, rfl, by omega⟩

/-! ## Paying for the room -/

/-- What a maximal load factor must satisfy: `full` says no only below `lo` elements per bucket and yes only below `hi` buckets per
element, and `div` asks for at most `2 * hi` buckets per element. -/
structure LF.Bounds (lf : LF) (lo hi : Nat) : Prop where
  low : ∀ n b, 0 < b → lf.full n b = false → n < lo * b
  high : ∀ n b, 0 < b → lf.full n b = true → b ≤ hi * n
  div : ∀ n, lf.div n ≤ 2 * hi * n

/-- The work `w` is paid for by the growth of the array and of the buckets, which is bounded by the number of elements; `a`: the number
of elements handed to insertions. -/
structure Paid (lo hi a : Nat) (t t' : Table k K V) (w : Work) : Prop where
  moved : w.moved + t.cap ≤ t'.cap
  alloc : w.alloc + 2 * t.cap ≤ 2 * t'.cap
  filled : w.filled + 2 * t.bc ≤ 2 * t'.bc
  linked : w.linked + k * lo * t.bc ≤ k * lo * t'.bc
  cap : t'.cap ≤ max t.cap (2 * (t.size + a))
  bc : t'.bc ≤ max t.bc (max 8 (2 * hi * (t.size + a)))
  size : t'.size ≤ t.size + a
  lf : t'.lf = t.lf
  load : t.size ≤ lo * t.bc → t'.size ≤ lo * t'.bc

theorem nil_plus (w : Work) : Work.nil.plus w = w := by
  simp only [Work.plus, Work.nil, Nat.zero_add]

theorem Paid.trans {lo hi a b : Nat} {t u v : Table k K V} {w w' : Work} (h : Paid lo hi a t u w) (g : Paid lo hi b u v w') :
    Paid lo hi (a + b) t v (w.plus w') := by
  obtain ⟨h1, h2, h3, h4, h5, h6, h7, h8, h9⟩ := h
  obtain ⟨g1, g2, g3, g4, g5, g6, g7, g8, g9⟩ := g
  have m1 : 2 * hi * (t.size + a) ≤ 2 * hi * (t.size + (a + b)) := Nat.mul_le_mul_left _ (by omega)
  have m2 : 2 * hi * (u.size + b) ≤ 2 * hi * (t.size + (a + b)) := Nat.mul_le_mul_left _ (by omega)
  simp only [Work.plus]
  refine ⟨by simp only; omega, by simp only; omega, by simp only; omega, by simp only; omega, by omega, ?_, by omega, g8.trans h8, fun e => g9 (h9 e)⟩
  omega

theorem Paid.of_shape {lo hi : Nat} {t t' : Table k K V} (h : Shape 0 t t') : Paid lo hi 0 t t' .nil := by
  obtain ⟨h1, h2, h3, h4⟩ := h
  simp only [Nat.add_zero] at h4
  exact ⟨by simp only [Work.nil]; omega, by simp only [Work.nil]; omega, by simp only [Work.nil]; omega, by rw [h2]; simp only [Work.nil]; omega,
    by omega, by omega, by omega, h3, fun e => by rw [h2]; omega⟩

theorem Paid.refl {lo hi : Nat} (t : Table k K V) : Paid lo hi 0 t t .nil := .of_shape (.refl t)

/-- Making room for one element. -/
structure Roomy (lo hi : Nat) (t t' : Table k K V) (w : Work) : Prop where
  moved : w.moved + t.cap ≤ t'.cap
  alloc : w.alloc + 2 * t.cap ≤ 2 * t'.cap
  filled : w.filled + 2 * t.bc ≤ 2 * t'.bc
  linked : w.linked + k * lo * t.bc ≤ k * lo * t'.bc
  cap : t'.cap ≤ max t.cap (2 * (t.size + 1))
  bc : t'.bc ≤ max t.bc (max 8 (2 * hi * (t.size + 1)))
  size : t'.size ≤ t.size
  lf : t'.lf = t.lf
  load : t'.size < lo * t'.bc

theorem maybeResizeW_roomy {t t' : Table k K V} {w : Work} (e : t.maybeResizeW = .ok (t', w)) :
    w.moved + t.cap ≤ t'.cap ∧ w.alloc + 2 * t.cap ≤ 2 * t'.cap ∧ w.filled = 0 ∧ w.linked = 0 ∧ t'.cap ≤ max t.cap (2 * (t.size + 1)) ∧
      t'.bc = t.bc ∧ t'.lf = t.lf ∧ t'.size = t.size := by
  unfold Table.maybeResizeW at e
  split at e
  · rename_i hc
    obtain ⟨rfl, h1, h2, h3, h4, h5⟩ := resizeDataW_eq e
    simp only
    by_cases h0 : t.cap = 0
    · rw [if_pos h0] at h1 ⊢
      exact ⟨by omega, by omega, trivial, trivial, by omega, h2, h3, h4⟩
    · rw [if_neg h0] at h1 ⊢
      exact ⟨by omega, by omega, trivial, trivial, by omega, h2, h3, h4⟩
  · cases e
    exact ⟨by simp [Work.nil], by simp [Work.nil], rfl, rfl, by omega, rfl, rfl, rfl⟩

theorem rehashW_grows {t t' : Table k K V} {n : Nat} {w : Work} (hn : t.bc < n) (e : t.rehashW n = .ok (t', w)) :
    w = ⟨0, 0, max (t.lf.div t.size) n, t.size * k⟩ ∧ t'.cap = t.cap ∧ t'.bc = max (t.lf.div t.size) n ∧ t'.lf = t.lf ∧ t'.size ≤ t.size := by
  unfold Table.rehashW at e
  rw [if_neg (by omega)] at e
  simp only at e
  rw [if_pos (Or.inr (by omega)), doRehashW_eq] at e
  obtain ⟨u, e1, e2⟩ := map_eq_ok e
  obtain ⟨h1, h2, h3, h4⟩ := doRehash_shape e1
  rw [if_pos (by omega)] at h2 e2
  cases e2
  exact ⟨rfl, h1, h2, h3, h4⟩

theorem maybeRehashW_roomy {lo hi : Nat} {t t' : Table k K V} {w : Work} (hlf : t.lf.Bounds lo hi) (hlo : 0 < lo) (hl : t.size ≤ lo * t.bc)
    (e : t.maybeRehashW = .ok (t', w)) :
    w.moved = 0 ∧ w.alloc = 0 ∧ w.filled + 2 * t.bc ≤ 2 * t'.bc ∧ w.linked + k * lo * t.bc ≤ k * lo * t'.bc ∧ t'.cap = t.cap ∧
      t'.bc ≤ max t.bc (max 8 (2 * hi * (t.size + 1))) ∧ t'.size ≤ t.size ∧ t'.lf = t.lf ∧ t'.size < lo * t'.bc := by
  have hd := hlf.div t.size
  have hm : 2 * hi * t.size ≤ 2 * hi * (t.size + 1) := Nat.mul_le_mul_left _ (by omega)
  unfold Table.maybeRehashW at e
  split at e
  · rename_i hb
    obtain ⟨rfl, h1, h2, h3, h4⟩ := rehashW_grows (by omega) e
    rw [hb, Nat.mul_zero] at hl
    have hs : t.size = 0 := by omega
    have hpos : 0 < lo * t'.bc := Nat.mul_pos hlo (by omega)
    exact ⟨rfl, rfl, by simp only; omega, by simp only [hs, hb, Nat.zero_mul, Nat.mul_zero]; omega, h1, by omega, h4, h3, by omega⟩
  · rename_i hb
    split at e
    · rename_i hf
      obtain ⟨rfl, h1, h2, h3, h4⟩ := rehashW_grows (by omega) e
      have hh := hlf.high t.size t.bc (by omega) hf
      have h2' : 2 * t.bc ≤ t'.bc := by omega
      have hmul : lo * (2 * t.bc) ≤ lo * t'.bc := Nat.mul_le_mul_left _ h2'
      have hpos : 0 < lo * t.bc := Nat.mul_pos hlo (by omega)
      have hk : k * (lo * (2 * t.bc)) ≤ k * (lo * t'.bc) := Nat.mul_le_mul_left _ hmul
      have hk' : t.size * k ≤ k * (lo * t.bc) := by rw [Nat.mul_comm]; exact Nat.mul_le_mul_left _ hl
      have hr : lo * (2 * t.bc) = lo * t.bc + lo * t.bc := by rw [Nat.two_mul, Nat.mul_add]
      have hr' : k * (lo * (2 * t.bc)) = k * (lo * t.bc) + k * (lo * t.bc) := by rw [hr, Nat.mul_add]
      have hh2 : 2 * t.bc ≤ 2 * hi * t.size := by rw [Nat.mul_assoc]; omega
      refine ⟨rfl, rfl, by simp only; omega, ?_, h1, by omega, h4, h3, by omega⟩
      simp only
      rw [Nat.mul_assoc, Nat.mul_assoc]
      omega
    · rename_i hf
      have := hlf.low t.size t.bc (by omega) (by simpa using hf)
      cases e
      exact ⟨rfl, rfl, by simp [Work.nil], by simp [Work.nil], rfl, by omega, Nat.le_refl _, rfl, this⟩

theorem room_roomy {lo hi : Nat} {t u v : Table k K V} {w w' : Work} (hlf : t.lf.Bounds lo hi) (hlo : 0 < lo) (hl : t.size ≤ lo * t.bc)
    (e : t.maybeResizeW = .ok (u, w)) (e' : u.maybeRehashW = .ok (v, w')) : Roomy lo hi t v (w.plus w') := by
  obtain ⟨h1, h2, h3, h4, h5, h6, h7, h8⟩ := maybeResizeW_roomy e
  obtain ⟨g1, g2, g3, g4, g5, g6, g7, g8, g9⟩ := maybeRehashW_roomy (by rw [h7]; exact hlf) hlo (by rw [h8, h6]; exact hl) e'
  rw [h6] at g3 g4 g6
  rw [h8] at g6
  simp only [Work.plus]
  exact ⟨by simp only; omega, by simp only; omega, by simp only; omega, by simp only; omega, by omega, g6, by omega, g8.trans h7, g9⟩

/-- What follows the making of room in an insertion. -/
theorem Roomy.paid {lo hi : Nat} {t u v : Table k K V} {w : Work} (h : Roomy lo hi t u w) (g : Shape 1 u v) : Paid lo hi 1 t v w := by
  obtain ⟨h1, h2, h3, h4, h5, h6, h7, h8, h9⟩ := h
  obtain ⟨g1, g2, g3, g4⟩ := g
  rw [← g1] at h1 h2 h5
  rw [← g2] at h3 h4 h6 h9
  exact ⟨h1, h2, h3, h4, h5, h6, by omega, g3.trans h8, fun _ => by omega⟩

theorem insertW_paid {lo hi : Nat} {hash : K → Nat} {t : Table k K V} {key : Fin k → K} {v : V} {r : Table k K V × Nat × Bool} {w : Work}
    (hlf : t.lf.Bounds lo hi) (hlo : 0 < lo) (hl : t.size ≤ lo * t.bc) (e : t.insertW hash key v = .ok (r, w)) : Paid lo hi 1 t r.1 w := by
  unfold Table.insertW at e
  obtain ⟨⟨t1, w1⟩, e1, e⟩ := bind_eq_ok e
  obtain ⟨⟨t2, w2⟩, e2, e⟩ := bind_eq_ok e
  have h := room_roomy hlf hlo hl e1 e2
  obtain ⟨found, _, e⟩ := bind_eq_ok e
  split at e
  · cases e
    exact h.paid ((Shape.refl _).mono (by omega))
  · obtain ⟨⟨t3, pos⟩, e3, e⟩ := bind_eq_ok e
    obtain ⟨t4, e4, e⟩ := bind_eq_ok e
    cases e
    exact h.paid ((pushNode_shape e3).1.trans (commitNode_shape e4))

theorem emplaceW_paid {lo hi : Nat} {hash : K → Nat} {t : Table k K V} {key : Fin k → K} {v : V} {r : Table k K V × Nat × Bool} {w : Work}
    (hlf : t.lf.Bounds lo hi) (hlo : 0 < lo) (hl : t.size ≤ lo * t.bc) (e : t.emplaceW hash key v = .ok (r, w)) : Paid lo hi 1 t r.1 w := by
  unfold Table.emplaceW at e
  obtain ⟨⟨t1, w1⟩, e1, e⟩ := bind_eq_ok e
  obtain ⟨⟨t2, w2⟩, e2, e⟩ := bind_eq_ok e
  have h := room_roomy hlf hlo hl e1 e2
  obtain ⟨⟨t3, pos⟩, e3, e⟩ := bind_eq_ok e
  obtain ⟨found, _, e⟩ := bind_eq_ok e
  split at e
  · obtain ⟨t4, e4, e⟩ := bind_eq_ok e
    cases e
    exact h.paid ((pushNode_shape e3).1.trans (popNode_shape e4).1)
  · obtain ⟨t4, e4, e⟩ := bind_eq_ok e
    cases e
    exact h.paid ((pushNode_shape e3).1.trans (commitNode_shape e4))

theorem insertOrAssignW_paid {lo hi : Nat} {hash : K → Nat} {t : Table 1 K V} {x : K} {v : V} {r : Table 1 K V × Nat × Bool} {w : Work}
    (hlf : t.lf.Bounds lo hi) (hlo : 0 < lo) (hl : t.size ≤ lo * t.bc) (e : t.insertOrAssignW hash x v = .ok (r, w)) :
    Paid lo hi 1 t r.1 w := by
  unfold Table.insertOrAssignW at e
  obtain ⟨⟨t1, w1⟩, e1, e⟩ := bind_eq_ok e
  obtain ⟨⟨t2, w2⟩, e2, e⟩ := bind_eq_ok e
  have h := room_roomy hlf hlo hl e1 e2
  obtain ⟨⟨i, rf⟩, _, e⟩ := bind_eq_ok e
  cases i with
  | some i =>
    simp only at e
    obtain ⟨n, _, e⟩ := bind_eq_ok e
    cases e
    exact h.paid ⟨rfl, rfl, rfl, Nat.le_succ _⟩
  | none =>
    simp only at e
    obtain ⟨⟨t3, pos⟩, e3, e⟩ := bind_eq_ok e
    obtain ⟨t4, e4, e⟩ := bind_eq_ok e
    cases e
    exact h.paid ((pushNode_shape e3).1.trans (commitNode_shape e4))

theorem inserts_paid {lo hi : Nat} {hash : K → Nat} : ∀ (xs : List (Elem k K V)) {t t' : Table k K V} {w w' : Work},
    t.lf.Bounds lo hi → 0 < lo → t.size ≤ lo * t.bc →
    xs.foldlM (fun (p : Table k K V × Work) x => (do
      let r ← p.1.insertW hash x.1 x.2
      .ok (r.1.1, p.2.plus r.2) : M (Table k K V × Work))) (t, w) = .ok (t', w') →
    ∃ w1, w' = w.plus w1 ∧ Paid lo hi xs.length t t' w1 := by
  intro xs
  induction xs with
  | nil => intro t t' w w' _ _ _ e; cases e; exact ⟨.nil, rfl, .refl t⟩
  | cons x xs ih =>
    intro t t' w w' hlf hlo hl e
    rw [List.foldlM_cons] at e
    obtain ⟨⟨u, wu⟩, e1, e⟩ := bind_eq_ok e
    obtain ⟨⟨r, w1⟩, e2, e1⟩ := bind_eq_ok e1
    cases e1
    have h1 := insertW_paid hlf hlo hl e2
    obtain ⟨w2, rfl, h2⟩ := ih (by rw [h1.lf]; exact hlf) hlo (h1.load hl) e
    refine ⟨w1.plus w2, ?_, ?_⟩
    · simp only [Work.plus, Nat.add_assoc]
    · rw [List.length_cons, Nat.add_comm]
      exact h1.trans h2

/-- Operations that neither ask for room (`reserve`, `rehash`, ranges with random access iterators) nor change the maximal load
factor. -/
def Op.plain : Op k K V → Bool
  | .reserve _ => false
  | .rehash _ => false
  | .setLoad _ => false
  | .insertRange ra _ => !ra
  | .assignRange ra _ => !ra
  | _ => true

/-- The number of elements that an operation tries to insert. -/
def Op.tries : Op k K V → Nat
  | .insert _ _ => 1
  | .emplace _ _ => 1
  | .assign _ _ _ => 1
  | .insertRange _ xs => xs.length
  | .assignRange _ xs => xs.length
  | _ => 0

theorem stepW_paid {lo hi : Nat} {hash : K → Nat} {t : Table k K V} {o : Op k K V} {r : Table k K V × Out k K V} {w : Work}
    (ho : o.plain = true) (hlf : t.lf.Bounds lo hi) (hlo : 0 < lo) (hl : t.size ≤ lo * t.bc) (e : t.stepW hash o = .ok (r, w)) :
    Paid lo hi o.tries t r.1 w := by
  cases o with
  | insert key v =>
    simp only [Table.stepW] at e
    obtain ⟨⟨r, w⟩, e1, e⟩ := bind_eq_ok e
    cases e
    exact insertW_paid hlf hlo hl e1
  | emplace key v =>
    simp only [Table.stepW] at e
    obtain ⟨⟨r, w⟩, e1, e⟩ := bind_eq_ok e
    cases e
    exact emplaceW_paid hlf hlo hl e1
  | assign hk x v =>
    cases hk
    simp only [Table.stepW, Table.assignStepW] at e
    obtain ⟨⟨r, w⟩, e1, e⟩ := bind_eq_ok e
    cases e
    exact insertOrAssignW_paid hlf hlo hl e1
  | erase j x =>
    simp only [Table.stepW, Table.step] at e
    obtain ⟨r, e1, e⟩ := bind_eq_ok e
    cases e
    obtain ⟨r, e3, e2⟩ := bind_eq_ok e1
    cases e2
    exact .of_shape (erase_shape e3)
  | eraseAt pos =>
    simp only [Table.stepW, Table.step] at e
    obtain ⟨r, e1, e⟩ := bind_eq_ok e
    cases e
    split at e1
    · obtain ⟨r, e3, e2⟩ := bind_eq_ok e1
      cases e2
      exact .of_shape (eraseAt_shape e3)
    · cases e1; exact .refl _
  | eraseRange first n =>
    simp only [Table.stepW, Table.step] at e
    obtain ⟨r, e1, e⟩ := bind_eq_ok e
    cases e
    split at e1
    · obtain ⟨r, e3, e2⟩ := bind_eq_ok e1
      cases e2
      exact .of_shape (eraseRange_shape _ e3)
    · cases e1; exact .refl _
  | insertRange ra xs =>
    simp only [Op.plain, Bool.not_eq_true'] at ho
    subst ho
    simp only [Table.stepW, Table.insertRangeW, Bool.false_eq_true, if_false, bind_ok] at e
    obtain ⟨⟨r, w⟩, e1, e⟩ := bind_eq_ok e
    cases e
    obtain ⟨w1, rfl, h⟩ := inserts_paid xs hlf hlo hl e1
    rw [nil_plus]; exact h
  | assignRange ra xs =>
    simp only [Op.plain, Bool.not_eq_true'] at ho
    subst ho
    simp only [Table.stepW, Table.assignRangeW, Table.insertRangeW, Bool.false_eq_true, if_false, bind_ok] at e
    obtain ⟨⟨r, w⟩, e1, e⟩ := bind_eq_ok e
    cases e
    obtain ⟨u, e0, e1⟩ := bind_eq_ok e1
    have h0 : Paid lo hi 0 t u .nil := .of_shape (clear_shape e0)
    obtain ⟨w1, rfl, h⟩ := inserts_paid xs (by rw [h0.lf]; exact hlf) hlo (h0.load hl) e1
    have := h0.trans h
    rw [Nat.zero_add] at this
    exact this
  | clear =>
    simp only [Table.stepW, Table.step] at e
    obtain ⟨r, e1, e⟩ := bind_eq_ok e
    cases e
    obtain ⟨r, e3, e2⟩ := bind_eq_ok e1
    cases e2
    exact .of_shape (clear_shape e3)
  | reserve n => cases ho
  | rehash n => cases ho
  | setLoad lf => cases ho
  | find j x =>
    simp only [Table.stepW, Table.step] at e
    obtain ⟨r, e1, e⟩ := bind_eq_ok e
    cases e
    obtain ⟨r, e3, e2⟩ := bind_eq_ok e1
    cases e2
    exact .refl _
  | contains j x =>
    simp only [Table.stepW, Table.step] at e
    obtain ⟨r, e1, e⟩ := bind_eq_ok e
    cases e
    obtain ⟨r, e3, e2⟩ := bind_eq_ok e1
    cases e2
    exact .refl _
  | size =>
    simp only [Table.stepW, Table.step] at e
    cases e
    exact .refl _
  | iterate =>
    simp only [Table.stepW, Table.step] at e
    obtain ⟨r, e1, e⟩ := bind_eq_ok e
    cases e
    obtain ⟨r, e3, e2⟩ := bind_eq_ok e1
    cases e2
    exact .refl _

/-- The number of elements that a history tries to insert. -/
def tries (ops : List (Op k K V)) : Nat := (ops.map Op.tries).sum

theorem runW_paid {lo hi : Nat} {hash : K → Nat} : ∀ (ops : List (Op k K V)) {t : Table k K V} {r : Table k K V × List (Out k K V)} {w : Work},
    (∀ o ∈ ops, o.plain = true) → t.lf.Bounds lo hi → 0 < lo → t.size ≤ lo * t.bc → t.runW hash ops = .ok (r, w) →
    Paid lo hi (tries ops) t r.1 w := by
  intro ops
  induction ops with
  | nil => intro t r w _ _ _ _ e; cases e; exact .refl _
  | cons o os ih =>
    intro t r w ho hlf hlo hl e
    unfold Table.runW at e
    obtain ⟨⟨r1, w1⟩, e1, e⟩ := bind_eq_ok e
    obtain ⟨⟨r2, w2⟩, e2, e⟩ := bind_eq_ok e
    cases e
    have h1 := stepW_paid (ho o List.mem_cons_self) hlf hlo hl e1
    have h2 := ih (fun o' m => ho o' (List.mem_cons_of_mem _ m)) (by rw [h1.lf]; exact hlf) hlo (h1.load hl) e2
    unfold tries
    rw [List.map_cons, List.sum_cons]
    exact h1.trans h2

end Tpp.Dense
