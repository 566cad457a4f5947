import Verif.Swiss.Wild
import Verif.Ordered.SwissIter
import Verif.Ordered.SwissStrict

/-!
# Hash functions and comparisons that answer arbitrarily (ordered swiss table)

As in `Verif.Swiss.Wild` the operations get the hash that they compute and the answers to the comparisons of their search, the element is stored in
the field `val` of a node, and the field `key` is a ghost, a serial number and the hash computed at the insertion.
-/

set_option linter.unusedSectionVars false

namespace Tpp.OSwiss

open Tpp.Swiss (Node Ev Table Inv NoTomb Answers)
open Tpp.Ordered

variable {K V : Type}

/-- The functions of the container (swiss_table.hpp 894-1087); positions count from `begin()`. -/
inductive WildOp (K V : Type)
  | insert (h : Nat) (p : Answers K) (k : K) (v : V)
  | assign (h : Nat) (p : Answers K) (k : K) (v : V)
  | erase (h : Nat) (p : Answers K)
  | find (h : Nat) (p : Answers K)
  | contains (h : Nat) (p : Answers K)
  | extract (h : Nat) (p : Answers K)
  | eraseNth (n : Nat)
  | eraseRange (i j : Nat)
  | eraseIf (pred : K × V → Bool)
  | clear
  | reserve (n : Nat)
  | rehash (n : Nat)
  | size
  | front
  | back
  | iterate
  | reverse

/-- What remains of an answer without the serial numbers (not in /repo). -/
def Out.strip : Out (Nat × Nat) (K × V) → Out K V
  | .unit => .unit
  | .bool b => .bool b
  | .nat n => .nat n
  | .ins x b => .ins x.2 b
  | .elem x => .elem (x.map Prod.snd)
  | .list l => .list (l.map Prod.snd)

namespace OTable

/-- An operation that calls neither function: the one of `OTable.step`. -/
def stepSame (c : Cfg (Nat × Nat)) (m : Mem) (t : OTable (Nat × Nat) (K × V)) (op : Op (Nat × Nat) (K × V)) :
    M (Mem × OTable (Nat × Nat) (K × V) × Out K V) :=
  (t.step c m op).map fun r => (r.1, r.2.1, r.2.2.strip)

/-- One operation (swiss_table.hpp 894-1087); iterators that are returned are dereferenced. -/
def stepWild (c : Cfg (Nat × Nat)) (g : Nat) (m : Mem) (t : OTable (Nat × Nat) (K × V)) :
    WildOp K V → M (Mem × OTable (Nat × Nat) (K × V) × Out K V)
  | .insert h p k v => do
    let r ← insertWith c m t (fun x => x.insertWild c.isa g h p k v) none
    let e ← r.2.1.elemAt c.sz r.2.2.1
    .ok (r.1, r.2.1, .ins e.2 r.2.2.2)
  | .assign h p k v => do
    let r ← insertWith c m t (fun x => x.assignWild c.isa g h p k v) none
    let e ← r.2.1.elemAt c.sz r.2.2.1
    .ok (r.1, r.2.1, .ins e.2 r.2.2.2)
  | .erase h p => do
    let pos ← t.core.findNodeWild c.isa p h
    let r ← (if pos = t.core.cap then .ok (m, t, t.hd) else t.doErase c m pos : M (Mem × OTable (Nat × Nat) (K × V) × Int))
    let e ← r.2.1.deref c.sz r.2.2
    .ok (r.1, r.2.1, .elem (e.map Prod.snd))
  | .find h p => do
    let pos ← t.core.findNodeWild c.isa p h
    let e ← t.deref c.sz (t.iterAt c.sz pos)
    .ok (m, t, .elem (e.map Prod.snd))
  | .contains h p => do
    let pos ← t.core.findNodeWild c.isa p h
    .ok (m, t, .bool (pos != t.core.cap))
  | .extract h p => do
    let pos ← t.core.findNodeWild c.isa p h
    if pos = t.core.cap then .ok (m, t, .elem none)
    else do
      let r ← t.extractAt c m pos
      .ok (r.1, r.2.1, .elem (some r.2.2.val))
  | .eraseNth n => t.stepSame c m (.eraseNth n)
  | .eraseRange i j => t.stepSame c m (.eraseRange i j)
  | .eraseIf q => t.stepSame c m (.eraseIf fun x => q x.2)
  | .clear => t.stepSame c m .clear
  | .reserve n => t.stepSame c m (.reserve n)
  | .rehash n => t.stepSame c m (.rehash n)
  | .size => t.stepSame c m .size
  | .front => t.stepSame c m .front
  | .back => t.stepSame c m .back
  | .iterate => t.stepSame c m .iterate
  | .reverse => t.stepSame c m .reverse

/-- A history (swiss_table.hpp 894-1087); `g` is the next serial number. -/
def runWild (c : Cfg (Nat × Nat)) (g : Nat) (m : Mem) (t : OTable (Nat × Nat) (K × V)) :
    List (WildOp K V) → M (Mem × OTable (Nat × Nat) (K × V) × List (Out K V))
  | [] => .ok (m, t, [])
  | op :: ops => do
    let r ← t.stepWild c g m op
    let r' ← r.2.1.runWild c (g + 1) r.1 ops
    .ok (r'.1, r'.2.1, r.2.2 :: r'.2.2)

end OTable

/-- An ordinary operation that an arbitrary one can turn out to be in a container with the sequence `s`. -/
inductive Turns (g : Nat) (s : List ((Nat × Nat) × (K × V))) : WildOp K V → Op (Nat × Nat) (K × V) → Prop
  | insert {h p k v} : Turns g s (.insert h p k v) (.insert (g, h) (k, v))
  | inserted {h p k v x} : x ∈ s → p.accepts x.2.1 → Turns g s (.insert h p k v) (.insert x.1 x.2)
  | assign {h p k v} : Turns g s (.assign h p k v) (.assign (g, h) (k, v))
  | assigned {h p k v x} : x ∈ s → p.accepts x.2.1 → Turns g s (.assign h p k v) (.assign x.1 (x.2.1, v))
  | erase {h p} : Turns g s (.erase h p) (.erase (g, h))
  | erased {h p x} : x ∈ s → p.accepts x.2.1 → Turns g s (.erase h p) (.erase x.1)
  | find {h p} : Turns g s (.find h p) (.find (g, h))
  | found {h p x} : x ∈ s → p.accepts x.2.1 → Turns g s (.find h p) (.find x.1)
  | contains {h p} : Turns g s (.contains h p) (.contains (g, h))
  | contained {h p x} : x ∈ s → p.accepts x.2.1 → Turns g s (.contains h p) (.contains x.1)
  | extract {h p} : Turns g s (.extract h p) (.extract (g, h))
  | extracted {h p x} : x ∈ s → p.accepts x.2.1 → Turns g s (.extract h p) (.extract x.1)
  | eraseNth {n} : Turns g s (.eraseNth n) (.eraseNth n)
  | eraseRange {i j} : Turns g s (.eraseRange i j) (.eraseRange i j)
  | eraseIf {q} : Turns g s (.eraseIf q) (.eraseIf fun x => q x.2)
  | clear : Turns g s .clear .clear
  | reserve {n} : Turns g s (.reserve n) (.reserve n)
  | rehash {n} : Turns g s (.rehash n) (.rehash n)
  | size : Turns g s .size .size
  | front : Turns g s .front .front
  | back : Turns g s .back .back
  | iterate : Turns g s .iterate .iterate
  | reverse : Turns g s .reverse .reverse

theorem insertWith_congr {c : Cfg (Nat × Nat)} {m : Mem} {t : OTable (Nat × Nat) (K × V)}
    {f f' : Table (Nat × Nat) (K × V) → M (Table (Nat × Nat) (K × V) × Nat × Bool)} (h : f (fresh t.core) = f' (fresh t.core)) :
    OTable.insertWith c m t f none = OTable.insertWith c m t f' none := by
  unfold OTable.insertWith
  rw [h]

/-- Each operation is an ordinary one, with the serial numbers as keys; the same one with and without the instrumentation. -/
theorem stepWild_plain {c : Cfg (Nat × Nat)} (hh : c.hash = Prod.snd) {g : Nat} {m : Mem} {t : OTable (Nat × Nat) (K × V)}
    {s : List ((Nat × Nat) × (K × V))} (h : Holds c m t s) (hg : ∀ x ∈ s, x.1.1 < g) (op : WildOp K V) :
    ∃ q, Turns g s op q ∧ ∀ b : Bool, t.stepWild { c with strict := b } g m op =
      (t.step { c with strict := b } m q).map (fun r => (r.1, r.2.1, r.2.2.strip)) := by
  obtain ⟨o, h, rfl⟩ := h
  have hI : Inv c.isa Prod.snd t.core := hh ▸ h.core
  have hB : Swiss.Below g t.core := fun x hx => hg x (h.perm.mem_iff.mpr hx)
  have hI' : Inv c.isa Prod.snd (fresh t.core) := fresh_inv hI
  have hB' : Swiss.Below g (fresh t.core) := hB
  have hm : ∀ {x}, x ∈ t.core.contents → x ∈ seqOf t.core.node o := fun hx => h.perm.mem_iff.mpr hx
  cases op with
  | insert h0 p k v =>
    obtain ⟨f1, f2, f3 | ⟨i, n, hi, hn, hp, f3, f4, f5⟩⟩ := Swiss.findNodeWild_cases hI' hB' p h0
    · refine ⟨_, .insert, fun b => ?_⟩
      have : (fresh t.core).insertWild c.isa g h0 p k v = (fresh t.core).insert c.isa c.hash (g, h0) (k, v) := by
        unfold Table.insertWild Table.insert
        simp only [hh]
        rw [f3, f1]
      simp only [OTable.stepWild, OTable.step, OTable.insert]
      rw [insertWith_congr (c := { c with strict := b }) (f' := fun x => x.insert c.isa c.hash (g, h0) (k, v)) this]
      cases OTable.insertWith { c with strict := b } m t (fun x => x.insert c.isa c.hash (g, h0) (k, v)) none with
      | error e => rfl
      | ok r =>
        simp only [bind_ok]
        cases r.2.1.elemAt c.sz r.2.2.1 <;> rfl
    · refine ⟨_, .inserted (hm f5) hp, fun b => ?_⟩
      have : (fresh t.core).insertWild c.isa g h0 p k v = (fresh t.core).insert c.isa c.hash n.key n.val := by
        unfold Table.insertWild Table.insert
        simp only [hh]
        rw [f3, f4, bind_ok, bind_ok, if_neg (by omega), if_neg (by omega)]
      simp only [OTable.stepWild, OTable.step, OTable.insert]
      rw [insertWith_congr (c := { c with strict := b }) (f' := fun x => x.insert c.isa c.hash n.key n.val) this]
      cases OTable.insertWith { c with strict := b } m t (fun x => x.insert c.isa c.hash n.key n.val) none with
      | error e => rfl
      | ok r =>
        simp only [bind_ok]
        cases r.2.1.elemAt c.sz r.2.2.1 <;> rfl
  | assign h0 p k v =>
    obtain ⟨f1, f2, f3 | ⟨i, n, hi, hn, hp, f3, f4, f5⟩⟩ := Swiss.findNodeWild_cases hI' hB' p h0
    · refine ⟨_, .assign, fun b => ?_⟩
      have : (fresh t.core).assignWild c.isa g h0 p k v = (fresh t.core).insertOrAssign c.isa c.hash (g, h0) (k, v) := by
        unfold Table.assignWild Table.insertOrAssign Table.insertOrAssignWith
        simp only [hh]
        rw [f3, f1, bind_ok, bind_ok, if_pos rfl, if_pos rfl]
      simp only [OTable.stepWild, OTable.step, OTable.assign]
      rw [insertWith_congr (c := { c with strict := b }) (f' := fun x => x.insertOrAssign c.isa c.hash (g, h0) (k, v)) this]
      cases OTable.insertWith { c with strict := b } m t (fun x => x.insertOrAssign c.isa c.hash (g, h0) (k, v)) none with
      | error e => rfl
      | ok r =>
        simp only [bind_ok]
        cases r.2.1.elemAt c.sz r.2.2.1 <;> rfl
    · refine ⟨_, .assigned (v := v) (hm f5) hp, fun b => ?_⟩
      have hr : (fresh t.core).readNode i = .ok n := by
        unfold Table.readNode
        rw [if_pos hi, hn]
      have : (fresh t.core).assignWild c.isa g h0 p k v = (fresh t.core).insertOrAssign c.isa c.hash n.key (n.val.1, v) := by
        unfold Table.assignWild Table.insertOrAssign Table.insertOrAssignWith
        simp only [hh]
        rw [f3, f4, bind_ok, bind_ok, if_neg (by omega), if_neg (by omega), hr]
        rfl
      simp only [OTable.stepWild, OTable.step, OTable.assign]
      rw [insertWith_congr (c := { c with strict := b }) (f' := fun x => x.insertOrAssign c.isa c.hash n.key (n.val.1, v)) this]
      cases OTable.insertWith { c with strict := b } m t (fun x => x.insertOrAssign c.isa c.hash n.key (n.val.1, v)) none with
      | error e => rfl
      | ok r =>
        simp only [bind_ok]
        cases r.2.1.elemAt c.sz r.2.2.1 <;> rfl
  | erase h0 p =>
    obtain ⟨f1, f2, f3 | ⟨i, n, hi, hn, hp, f3, f4, f5⟩⟩ := Swiss.findNodeWild_cases hI hB p h0
    · refine ⟨_, .erase, fun b => ?_⟩
      simp only [OTable.stepWild, OTable.step, OTable.erase, hh, f3, f1, bind_ok, if_true]
      cases t.deref c.sz t.hd <;> rfl
    · refine ⟨_, .erased (hm f5) hp, fun b => ?_⟩
      have hne : i ≠ t.core.cap := by omega
      simp only [OTable.stepWild, OTable.step, OTable.erase, hh, f3, f4, bind_ok, if_neg hne]
      generalize OTable.doErase _ m t i = y
      cases y with
      | error e => rfl
      | ok r =>
        simp only [bind_ok]
        cases r.2.1.deref c.sz r.2.2 <;> rfl
  | find h0 p =>
    obtain ⟨f1, f2, f3 | ⟨i, n, hi, hn, hp, f3, f4, f5⟩⟩ := Swiss.findNodeWild_cases hI hB p h0
    · refine ⟨_, .find, fun b => ?_⟩
      simp only [OTable.stepWild, OTable.step, hh, f3, f1, bind_ok]
      cases t.deref c.sz (t.iterAt c.sz t.core.cap) <;> rfl
    · refine ⟨_, .found (hm f5) hp, fun b => ?_⟩
      simp only [OTable.stepWild, OTable.step, hh, f3, f4, bind_ok]
      cases t.deref c.sz (t.iterAt c.sz i) <;> rfl
  | contains h0 p =>
    obtain ⟨f1, f2, f3 | ⟨i, n, hi, hn, hp, f3, f4, f5⟩⟩ := Swiss.findNodeWild_cases hI hB p h0
    · refine ⟨_, .contains, fun b => ?_⟩
      simp only [OTable.stepWild, OTable.step, Table.contains, hh, f3, f1, bind_ok]
      rfl
    · refine ⟨_, .contained (hm f5) hp, fun b => ?_⟩
      simp only [OTable.stepWild, OTable.step, Table.contains, hh, f3, f4, bind_ok]
      rfl
  | extract h0 p =>
    obtain ⟨f1, f2, f3 | ⟨i, n, hi, hn, hp, f3, f4, f5⟩⟩ := Swiss.findNodeWild_cases hI hB p h0
    · refine ⟨_, .extract, fun b => ?_⟩
      simp only [OTable.stepWild, OTable.step, OTable.extract, hh, f3, f1, bind_ok, if_true]
      rfl
    · refine ⟨_, .extracted (hm f5) hp, fun b => ?_⟩
      have hne : i ≠ t.core.cap := by omega
      simp only [OTable.stepWild, OTable.step, OTable.extract, hh, f3, f4, bind_ok, if_neg hne]
      generalize OTable.extractAt _ m t i = y
      cases y <;> rfl
  | eraseNth n => exact ⟨_, .eraseNth, fun b => rfl⟩
  | eraseRange i j => exact ⟨_, .eraseRange, fun b => rfl⟩
  | eraseIf q => exact ⟨_, .eraseIf, fun b => rfl⟩
  | clear => exact ⟨_, .clear, fun b => rfl⟩
  | reserve n => exact ⟨_, .reserve, fun b => rfl⟩
  | rehash n => exact ⟨_, .rehash, fun b => rfl⟩
  | size => exact ⟨_, .size, fun b => rfl⟩
  | front => exact ⟨_, .front, fun b => rfl⟩
  | back => exact ⟨_, .back, fun b => rfl⟩
  | iterate => exact ⟨_, .iterate, fun b => rfl⟩
  | reverse => exact ⟨_, .reverse, fun b => rfl⟩

end Tpp.OSwiss
