import Verif.Swiss.Hist

/-!
# The log is a ghost

`Table.log` records which nodes a rehash moves; no operation reads it.  So an operation on a table whose log has more entries at its old end does the same
and leaves those entries alone.
-/

set_option linter.unusedSectionVars false

namespace Tpp.Swiss

variable {K V : Type} [DecidableEq K]

/-- The same table with more entries at the old end of its log; nothing in the code corresponds to it (swiss_table.hpp 1545-1547 lists the state). -/
def Table.addLog (l : List Ev) (t : Table K V) : Table K V := { t with log := t.log ++ l }

theorem addLog_fresh (t : Table K V) : ({ t with log := [] } : Table K V).addLog t.log = t := rfl

variable {l : List Ev}

theorem readCtl_ghost (t : Table K V) (i : Nat) : (t.addLog l).readCtl i = t.readCtl i := rfl
theorem readNode_ghost (t : Table K V) (i : Nat) : (t.addLog l).readNode i = t.readNode i := rfl
theorem loadBlock_ghost (isa : Isa) (t : Table K V) (i : Nat) : (t.addLog l).loadBlock isa i = t.loadBlock isa i := rfl
theorem matches_ghost (isa : Isa) (t : Table K V) (i : Nat) (p : Ctl → Bool) : (t.addLog l).matches_ isa i p = t.matches_ isa i p := rfl
theorem matchEq_ghost (isa : Isa) (t : Table K V) (i g : Nat) : (t.addLog l).matchEq isa i g = t.matchEq isa i g := rfl

theorem writeCtl_ghost (t : Table K V) (i : Nat) (v : Ctl) : (t.addLog l).writeCtl i v = (t.writeCtl i v).map (Table.addLog l) := by
  unfold Table.writeCtl
  show (if i < t.len then _ else _) = _
  split <;> rfl

theorem construct_ghost (t : Table K V) (i : Nat) (n : Node K V) : (t.addLog l).construct i n = (t.construct i n).map (Table.addLog l) := by
  unfold Table.construct
  show (if i < t.cap then (match t.node i with | some _ => _ | none => _) else _) = _
  split
  · cases t.node i <;> rfl
  · rfl

theorem destroy_ghost (t : Table K V) (i : Nat) : (t.addLog l).destroy i = (t.destroy i).map (Table.addLog l) := by
  unfold Table.destroy
  show (if i < t.cap then (match t.node i with | some _ => _ | none => _) else _) = _
  split
  · cases t.node i <;> rfl
  · rfl

theorem map_bind_ghost {α β γ δ : Type} {x : M α} {f : α → γ} {g : γ → M δ} {h : α → M β} {k : β → δ} (e : ∀ a, g (f a) = (h a).map k) :
    ((x.map f) >>= g) = (x >>= h).map k := by
  cases x with
  | error _ => rfl
  | ok a => exact e a

theorem bind_ghost {α β δ : Type} {x : M α} {g : α → M δ} {h : α → M β} {k : β → δ} (e : ∀ a, g a = (h a).map k) :
    (x >>= g) = (x >>= h).map k := by
  cases x with
  | error _ => rfl
  | ok a => exact e a

theorem ite_ghost {β δ : Type} {c d : Prop} [Decidable c] [Decidable d] (hcd : c ↔ d) {a b : M δ} {a' b' : M β} {k : β → δ} (h1 : c → a = a'.map k)
    (h2 : ¬c → b = b'.map k) : (if c then a else b) = (if d then a' else b').map k := by
  by_cases h : c
  · rw [if_pos h, if_pos (hcd.mp h)]
    exact h1 h
  · rw [if_neg h, if_neg (fun g => h (hcd.mpr g))]
    exact h2 h

theorem setMetadata_ghost (isa : Isa) (t : Table K V) (pos : Nat) (v : Ctl) :
    (t.addLog l).setMetadata isa pos v = (t.setMetadata isa pos v).map (Table.addLog l) := by
  simp only [Table.setMetadata, writeCtl_ghost]
  exact map_bind_ghost fun a => writeCtl_ghost a pos v

theorem scan_ghost (t : Table K V) (k : K) (pos : Nat) : ∀ is, (t.addLog l).scan k pos is = t.scan k pos is
  | [] => rfl
  | i :: is => by
    unfold Table.scan
    simp only [scan_ghost t k pos is]
    rfl

theorem findLoop_ghost (isa : Isa) (t : Table K V) (k : K) (g : Nat) : ∀ f pos idx, (t.addLog l).findLoop isa k g f pos idx = t.findLoop isa k g f pos idx
  | 0, _, _ => rfl
  | f + 1, pos, idx => by
    unfold Table.findLoop
    simp only [findLoop_ghost isa t k g f, scan_ghost]
    rfl

theorem findNode_ghost (isa : Isa) (t : Table K V) (k : K) (h : Nat) : (t.addLog l).findNode isa k h = t.findNode isa k h := by
  unfold Table.findNode
  rw [findLoop_ghost]
  rfl

theorem availLoop_ghost (isa : Isa) (t : Table K V) : ∀ f pos idx, (t.addLog l).availLoop isa f pos idx = t.availLoop isa f pos idx
  | 0, _, _ => rfl
  | f + 1, pos, idx => by
    unfold Table.availLoop
    simp only [availLoop_ghost isa t f]
    rfl

theorem findAvailable_ghost (isa : Isa) (t : Table K V) (h : Nat) : (t.addLog l).findAvailable isa h = t.findAvailable isa h :=
  availLoop_ghost isa t _ _ _

theorem foldlM_map_ghost {α β γ : Type} {f : β → α → M β} {f' : γ → α → M γ} {k : β → γ} (e : ∀ b a, f' (k b) a = (f b a).map k) :
    ∀ (xs : List α) (b : β), xs.foldlM f' (k b) = (xs.foldlM f b).map k
  | [], b => rfl
  | x :: xs, b => by
    simp only [List.foldlM_cons, e]
    exact map_bind_ghost fun a => foldlM_map_ghost e xs a

theorem relocOne_ghost (isa : Isa) (l' : List Ev) (p : Table K V × Table K V) (i : Nat) :
    Table.relocOne isa (p.1.addLog l', p.2.addLog l) i = (Table.relocOne isa p i).map (fun q => (q.1.addLog l', q.2.addLog l)) := by
  unfold Table.relocOne
  simp only [readCtl_ghost, readNode_ghost, findAvailable_ghost]
  refine bind_ghost fun c => ?_
  split
  · refine bind_ghost fun n => bind_ghost fun tg => ?_
    rw [construct_ghost]
    refine map_bind_ghost fun d => ?_
    rw [destroy_ghost]
    refine map_bind_ghost fun s => ?_
    rw [setMetadata_ghost]
    exact map_bind_ghost fun d' => rfl
  · rfl

theorem doRehash_ghost (isa : Isa) (t : Table K V) (n : Nat) : (t.addLog l).doRehash isa n = (t.doRehash isa n).map (Table.addLog l) := by
  unfold Table.doRehash
  have e := foldlM_map_ghost (fun p i => relocOne_ghost (l := l) isa l p i) (List.range t.cap)
    (t, { cap := n, len := n + isa.W, ctl := fillEmpty n, node := fun _ => none, size := t.size, numEmpty := t.numEmpty, log := .grow n :: t.log })
  refine (congrArg (fun z => z >>= _) e).trans (map_bind_ghost fun q => ?_)
  have e2 : (q.1.addLog l).dropBuffer = q.1.dropBuffer.map (Table.addLog l) := by
    unfold Table.dropBuffer
    show (if (List.range q.1.cap).all (fun i => (q.1.node i).isNone) then _ else _) = _
    split <;> rfl
  show ((q.1.addLog l).dropBuffer >>= _) = _
  rw [e2]
  refine map_bind_ghost fun u => ?_
  show (if t.size ≤ maxSize isa n then _ else _) = _
  split <;> rfl

theorem resetBlock_ghost (isa : Isa) (t : Table K V) (i : Nat) : (t.addLog l).resetBlock isa i = (t.resetBlock isa i).map (Table.addLog l) := by
  unfold Table.resetBlock
  show (if i + isa.W ≤ t.len then _ else _) = _
  split <;> rfl

theorem cloneTail_ghost (isa : Isa) (t : Table K V) : (t.addLog l).cloneTail isa = (t.cloneTail isa).map (Table.addLog l) := by
  unfold Table.cloneTail
  show (if t.cap + isa.W ≤ t.len then _ else _) = _
  split <;> rfl

theorem processNode_ghost (isa : Isa) : ∀ (f : Nat) (t : Table K V) (i : Nat),
    Table.processNode isa f (t.addLog l) i = (Table.processNode isa f t i).map (Table.addLog l)
  | 0, _, _ => rfl
  | f + 1, t, i => by
    unfold Table.processNode
    simp only [readNode_ghost, readCtl_ghost, findAvailable_ghost]
    refine bind_ghost fun n => bind_ghost fun tg => ?_
    refine ite_ghost Iff.rfl (fun _ => ?_) (fun _ => ?_)
    · exact setMetadata_ghost isa t i _
    · refine bind_ghost fun c => ?_
      split
      · rw [construct_ghost]
        refine map_bind_ghost fun a => ?_
        rw [destroy_ghost]
        refine map_bind_ghost fun a => ?_
        rw [setMetadata_ghost]
        refine map_bind_ghost fun a => ?_
        rw [setMetadata_ghost]
        exact map_bind_ghost fun a => rfl
      · refine bind_ghost fun m => ?_
        have e := setMetadata_ghost (l := l) isa { t with node := upd (upd t.node i (some m)) tg (some n), log := .swp i tg :: t.log } tg (.full (hashLo n.hash))
        refine (congrArg (fun z => z >>= _) e).trans (map_bind_ghost fun a => processNode_ghost isa f a i)

theorem processSlot_ghost (isa : Isa) (t : Table K V) (i : Nat) : (t.addLog l).processSlot isa i = (t.processSlot isa i).map (Table.addLog l) := by
  unfold Table.processSlot
  rw [readCtl_ghost]
  refine bind_ghost fun c => ?_
  split
  · exact processNode_ghost isa _ t i
  · rfl

theorem rehashDeleted_ghost (isa : Isa) (t : Table K V) : (t.addLog l).rehashDeleted isa = (t.rehashDeleted isa).map (Table.addLog l) := by
  unfold Table.rehashDeleted
  have e := foldlM_map_ghost (f := fun (t : Table K V) b => t.resetBlock isa (b * isa.W)) (f' := fun (t : Table K V) b => t.resetBlock isa (b * isa.W))
    (k := Table.addLog l) (fun t b => resetBlock_ghost isa t _) (List.range ((t.cap + isa.W - 1) / isa.W)) t
  refine (congrArg (fun z => z >>= _) e).trans (map_bind_ghost fun a => ?_)
  rw [cloneTail_ghost]
  refine map_bind_ghost fun b => ?_
  have e := foldlM_map_ghost (f := Table.processSlot isa) (f' := Table.processSlot isa) (k := Table.addLog l) (fun (t : Table K V) b => processSlot_ghost isa t _) (List.range b.cap) b
  refine (congrArg (fun z => z >>= _) e).trans (map_bind_ghost fun a => ?_)
  show (if a.size ≤ maxSize isa a.cap then _ else _) = _
  split <;> rfl

theorem prepare_ghost (isa : Isa) (t : Table K V) (h : Nat) : (t.addLog l).prepare isa h = (t.prepare isa h).map (fun p => (p.1.addLog l, p.2)) := by
  unfold Table.prepare
  simp only [readCtl_ghost, findAvailable_ghost, doRehash_ghost, rehashDeleted_ghost]
  show (if t.cap = 0 then _ else _) = _
  split
  · refine map_bind_ghost fun a => ?_
    rw [findAvailable_ghost]
    exact bind_ghost fun _ => rfl
  · refine bind_ghost fun tg => bind_ghost fun c => ?_
    show (if t.numEmpty = 0 ∧ c ≠ .deleted then _ else _) = _
    split
    · show (if t.cap > isa.W ∧ t.size * 32 ≤ t.cap * 25 then _ else _) = _
      split
      · refine map_bind_ghost fun a => ?_
        rw [findAvailable_ghost]
        exact bind_ghost fun _ => rfl
      · refine map_bind_ghost fun a => ?_
        rw [findAvailable_ghost]
        exact bind_ghost fun _ => rfl
    · rfl

theorem commit_ghost (isa : Isa) (t : Table K V) (tg : Nat) (n : Node K V) :
    (t.addLog l).commit isa tg n = (t.commit isa tg n).map (fun p => (p.1.addLog l, p.2)) := by
  unfold Table.commit
  rw [construct_ghost]
  refine map_bind_ghost fun a => ?_
  rw [readCtl_ghost]
  refine bind_ghost fun c => ?_
  simp only []
  generalize (if c = .empty then 1 else 0) = dec
  show (if dec ≤ a.numEmpty then _ else _) = _
  split
  · have e := setMetadata_ghost (l := l) isa { a with numEmpty := a.numEmpty - dec } tg (.full (hashLo n.hash))
    exact (congrArg (fun z => z >>= _) e).trans (map_bind_ghost fun a => rfl)
  · rfl

theorem emplaceNode_ghost (isa : Isa) (t : Table K V) (n : Node K V) :
    (t.addLog l).emplaceNode isa n = (t.emplaceNode isa n).map (fun p => (p.1.addLog l, p.2)) := by
  unfold Table.emplaceNode
  rw [prepare_ghost]
  exact map_bind_ghost fun p => commit_ghost isa p.1 p.2 n

theorem insert_ghost (isa : Isa) (hash : K → Nat) (t : Table K V) (k : K) (v : V) :
    (t.addLog l).insert isa hash k v = (t.insert isa hash k v).map (fun p => (p.1.addLog l, p.2)) := by
  unfold Table.insert
  simp only [findNode_ghost]
  refine bind_ghost fun pos => ?_
  show (if pos = t.cap then _ else _) = _
  split
  · rw [emplaceNode_ghost]
    exact map_bind_ghost fun p => rfl
  · rfl

theorem insertOrAssign_ghost (isa : Isa) (hash : K → Nat) (t : Table K V) (k : K) (v : V) :
    (t.addLog l).insertOrAssign isa hash k v = (t.insertOrAssign isa hash k v).map (fun p => (p.1.addLog l, p.2)) := by
  unfold Table.insertOrAssign Table.insertOrAssignWith
  simp only [findNode_ghost, readNode_ghost]
  refine bind_ghost fun pos => ?_
  show (if pos = t.cap then _ else _) = _
  split
  · rw [emplaceNode_ghost]
    exact map_bind_ghost fun p => rfl
  · exact bind_ghost fun n => rfl

theorem eraseNode_ghost (isa : Isa) (t : Table K V) (pos : Nat) : (t.addLog l).eraseNode isa pos = (t.eraseNode isa pos).map (Table.addLog l) := by
  unfold Table.eraseNode
  simp only [readCtl_ghost, setMetadata_ghost]
  show (if pos < t.cap then _ else _) = _
  split
  · refine bind_ghost fun c => ?_
    split
    · refine map_bind_ghost fun a => ?_
      show (if 1 ≤ a.size then _ else _) = _
      split <;> rfl
    · rfl
  · rfl

theorem eraseNodes_ghost (t : Table K V) : (t.addLog l).eraseNodes = t.eraseNodes.map (Table.addLog l) := by
  unfold Table.eraseNodes
  have e := foldlM_map_ghost (k := Table.addLog l) (f := fun (t : Table K V) i => do
      let c ← t.readCtl i
      if c.isOccupied then t.destroy i else .ok t) (f' := fun (t : Table K V) i => do
      let c ← t.readCtl i
      if c.isOccupied then t.destroy i else .ok t) (fun t i => by
        simp only [readCtl_ghost]
        refine bind_ghost fun c => ?_
        split
        · exact destroy_ghost t i
        · rfl) (List.range t.cap) t
  exact (congrArg (fun z => z >>= _) e).trans (map_bind_ghost fun a => rfl)

theorem fill_ghost (isa : Isa) (t : Table K V) : (t.addLog l).fill isa = (t.fill isa).map (Table.addLog l) := by
  unfold Table.fill
  show (if t.cap + isa.W ≤ t.len then _ else _) = _
  split <;> rfl

theorem clear_ghost (isa : Isa) (t : Table K V) : (t.addLog l).clear isa = (t.clear isa).map (Table.addLog l) := by
  unfold Table.clear
  show (if t.size ≠ 0 then _ else _) = _
  split
  · rw [eraseNodes_ghost]
    refine map_bind_ghost fun a => ?_
    rw [fill_ghost]
    exact map_bind_ghost fun b => rfl
  · rfl

theorem reserve_ghost (isa : Isa) (t : Table K V) (n : Nat) : (t.addLog l).reserve isa n = (t.reserve isa n).map (Table.addLog l) := by
  unfold Table.reserve
  show (if n > t.size + t.numEmpty then _ else _) = _
  split
  · exact doRehash_ghost isa t _
  · rfl

theorem rehash_ghost (isa : Isa) (t : Table K V) (n : Nat) : (t.addLog l).rehash isa n = (t.rehash isa n).map (Table.addLog l) := by
  simp only [Table.rehash]
  show (if n = 0 ∧ t.size = 0 then _ else _) = _
  split
  · rfl
  · exact ite_ghost Iff.rfl (fun _ => doRehash_ghost isa t _) (fun _ => rfl)

end Tpp.Swiss
