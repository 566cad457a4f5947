import Verif.Swiss.Hist

/-!
# The 8-byte block variants compute the same tables

The NEON and the portable variant (swiss_table.hpp 184-193) both read groups of 8 control bytes, and differ only in which bytes
`match_eq` reports (282-287, 313-320): the portable one may also report bytes of another tag.  Here: the functions that do not search for
a key are the same function, and the search gives the same slot in every well-formed table.
-/

set_option linter.unusedSectionVars false

namespace Tpp.Swiss

variable {K V : Type} [DecidableEq K]

theorem maxSize_eight : maxSize .neon = maxSize .portable := rfl
theorem minCapacity_eight : minCapacity .neon = minCapacity .portable := rfl
theorem W_eight : Isa.neon.W = Isa.portable.W := rfl
theorem loadBlock_eight : @Table.loadBlock K V .neon = Table.loadBlock .portable := rfl
theorem matches_eight : @Table.matches_ K V .neon = Table.matches_ .portable := rfl
theorem setMetadata_eight : @Table.setMetadata K V .neon = Table.setMetadata .portable := rfl
theorem countAvailable_eight : @Table.countAvailable K V .neon = Table.countAvailable .portable := rfl
theorem blockIdx_eight : Table.blockIdx .neon = Table.blockIdx .portable := rfl
theorem resetBlock_eight : @Table.resetBlock K V .neon = Table.resetBlock .portable := rfl
theorem cloneTail_eight : @Table.cloneTail K V .neon = Table.cloneTail .portable := rfl
theorem fill_eight : @Table.fill K V .neon = Table.fill .portable := rfl
theorem commit_eight : @Table.commit K V .neon = Table.commit .portable := rfl
theorem eraseNode_eight : @Table.eraseNode K V .neon = Table.eraseNode .portable := rfl
theorem clear_eight : @Table.clear K V .neon = Table.clear .portable := rfl
theorem withCapacity_eight : @Table.withCapacity K V .neon = Table.withCapacity .portable := rfl
theorem reallocate_eight : @Table.reallocate K V .neon = Table.reallocate .portable := rfl

theorem availLoop_eight : @Table.availLoop K V .neon = Table.availLoop .portable := by
  funext t fuel
  induction fuel with
  | zero => rfl
  | succ fuel ih =>
    funext pos idx
    simp only [Table.availLoop, ih, loadBlock_eight, matches_eight, W_eight]

theorem findAvailable_eight : @Table.findAvailable K V .neon = Table.findAvailable .portable := by
  funext t h; simp only [Table.findAvailable, availLoop_eight]

theorem relocOne_eight : @Table.relocOne K V .neon = Table.relocOne .portable := by
  funext p i; simp only [Table.relocOne, findAvailable_eight, setMetadata_eight]

theorem doRehash_eight : @Table.doRehash K V .neon = Table.doRehash .portable := by
  funext t n; simp only [Table.doRehash, relocOne_eight, maxSize_eight, W_eight]; rfl

theorem processNode_eight : @Table.processNode K V .neon = Table.processNode .portable := by
  funext fuel
  induction fuel with
  | zero => rfl
  | succ fuel ih =>
    funext t i
    simp only [Table.processNode, ih, findAvailable_eight, setMetadata_eight, blockIdx_eight]

theorem processSlot_eight : @Table.processSlot K V .neon = Table.processSlot .portable := by
  funext t i; simp only [Table.processSlot, processNode_eight]

theorem rehashDeleted_eight : @Table.rehashDeleted K V .neon = Table.rehashDeleted .portable := by
  funext t; simp only [Table.rehashDeleted, processSlot_eight, resetBlock_eight, cloneTail_eight, maxSize_eight, W_eight]; rfl

theorem prepare_eight : @Table.prepare K V .neon = Table.prepare .portable := by
  funext t h; simp only [Table.prepare, doRehash_eight, rehashDeleted_eight, findAvailable_eight, W_eight]

theorem emplaceNode_eight : @Table.emplaceNode K V .neon = Table.emplaceNode .portable := by
  funext t n; simp only [Table.emplaceNode, prepare_eight, commit_eight]

theorem nextOccupied_eight : @Table.nextOccupied K V .neon = Table.nextOccupied .portable := by
  funext t fuel
  induction fuel with
  | zero => rfl
  | succ fuel ih => funext pos; simp only [Table.nextOccupied, ih, countAvailable_eight]

theorem toIter_eight : @Table.toIter K V .neon = Table.toIter .portable := by
  funext t pos; simp only [Table.toIter, nextOccupied_eight]

theorem end_eight : @Table.end_ K V .neon = Table.end_ .portable := by
  funext t; simp only [Table.end_, toIter_eight]

theorem begin_eight : @Table.begin_ K V .neon = Table.begin_ .portable := by
  funext t; simp only [Table.begin_, toIter_eight]

theorem walk_eight : @Table.walk K V .neon = Table.walk .portable := by
  funext t fuel
  induction fuel with
  | zero => rfl
  | succ fuel ih => funext pos last; simp only [Table.walk, ih, nextOccupied_eight]

theorem iterate_eight : @Table.iterate K V .neon = Table.iterate .portable := by
  funext t; simp only [Table.iterate, Table.iterateFrom, begin_eight, end_eight, walk_eight]

theorem doErase_eight : @Table.doErase K V .neon = Table.doErase .portable := by
  funext t pos; simp only [Table.doErase, eraseNode_eight, toIter_eight]

theorem eraseIter_eight : @Table.eraseIter K V .neon = Table.eraseIter .portable := by
  funext t pos; simp only [Table.eraseIter, doErase_eight, end_eight]

theorem reserve_eight : @Table.reserve K V .neon = Table.reserve .portable := by
  funext t n; simp only [Table.reserve, doRehash_eight, minCapacity_eight]

theorem rehash_eight : @Table.rehash K V .neon = Table.rehash .portable := by
  funext t n; simp only [Table.rehash, doRehash_eight, minCapacity_eight]

theorem extractAt_eight : @Table.extractAt K V .neon = Table.extractAt .portable := by
  funext t pos; simp only [Table.extractAt, eraseNode_eight, toIter_eight]

theorem eraseIfLoop_eight : @Table.eraseIfLoop K V .neon = Table.eraseIfLoop .portable := by
  funext pred fuel
  induction fuel with
  | zero => rfl
  | succ fuel ih => funext t pos last count calls; simp only [Table.eraseIfLoop, ih, eraseIter_eight, nextOccupied_eight]

theorem eraseIf_eight : @Table.eraseIf K V .neon = Table.eraseIf .portable := by
  funext pred t; simp only [Table.eraseIf, begin_eight, end_eight, eraseIfLoop_eight]

theorem copyOne_eight : @Table.copyOne K V .neon = Table.copyOne .portable := rfl
theorem copyData_eight : @Table.copyData K V .neon = Table.copyData .portable := by
  funext t other; simp only [Table.copyData, reallocate_eight, fill_eight, copyOne_eight, maxSize_eight]; rfl
theorem moveOne_eight : @Table.moveOne K V .neon = Table.moveOne .portable := rfl
theorem moveData_eight : @Table.moveData K V .neon = Table.moveData .portable := by
  funext t other; simp only [Table.moveData, reallocate_eight, fill_eight, moveOne_eight, maxSize_eight]; rfl
theorem moveFrom_eight : @Table.moveFrom K V .neon = Table.moveFrom .portable := by
  funext al t other; simp only [Table.moveFrom, moveData_eight]
theorem copyCtor_eight : @Table.copyCtor K V .neon = Table.copyCtor .portable := by
  funext t; simp only [Table.copyCtor, copyData_eight]
theorem copyAssign_eight : @Table.copyAssign K V .neon = Table.copyAssign .portable := by
  funext al t other; simp only [Table.copyAssign, copyData_eight]
theorem moveCtor_eight : @Table.moveCtor K V .neon = Table.moveCtor .portable := by
  funext al t; simp only [Table.moveCtor, moveFrom_eight]
theorem moveAssign_eight : @Table.moveAssign K V .neon = Table.moveAssign .portable := by
  funext al t other; simp only [Table.moveAssign, moveFrom_eight]

theorem Inv.eight {hash : K → Nat} {t : Table K V} (h : Inv .neon hash t) : Inv .portable hash t where
  shape := h.shape.imp id fun h => ⟨h.pow, h.len_eq, h.sent, h.slot, h.tail⟩
  live := h.live
  tag := h.tag
  hash_ok := h.hash_ok
  uniq := h.uniq
  reach := h.reach
  size_eq := h.size_eq
  budget := h.budget

theorem Inv.eight' {hash : K → Nat} {t : Table K V} (h : Inv .portable hash t) : Inv .neon hash t where
  shape := h.shape.imp id fun h => ⟨h.pow, h.len_eq, h.sent, h.slot, h.tail⟩
  live := h.live
  tag := h.tag
  hash_ok := h.hash_ok
  uniq := h.uniq
  reach := h.reach
  size_eq := h.size_eq
  budget := h.budget

/-- The search for a key gives the same slot. -/
theorem findNode_eight {hash : K → Nat} {t : Table K V} (h : Inv .neon hash t) (k : K) :
    t.findNode .neon k (hash k) = t.findNode .portable k (hash k) := by
  rcases findNode_spec h k with ⟨i, n, hi, hn, hk, hf⟩ | ⟨hno, hf⟩ <;>
    rcases findNode_spec h.eight k with ⟨j, m, hj, hm, hk', hf'⟩ | ⟨hno', hf'⟩
  · rw [hf, hf', h.uniq i hi j hj n m hn hm (hk.trans hk'.symm)]
  · exact absurd hk (hno' i hi n hn)
  · exact absurd hk' (hno j hj m hm)
  · rw [hf, hf']

theorem insert_eight {hash : K → Nat} {t : Table K V} (h : Inv .neon hash t) (k : K) (v : V) :
    t.insert .neon hash k v = t.insert .portable hash k v := by
  simp only [Table.insert, findNode_eight h, emplaceNode_eight]

theorem insertOrAssign_eight {hash : K → Nat} {t : Table K V} (h : Inv .neon hash t) (k : K) (v : V) :
    t.insertOrAssign .neon hash k v = t.insertOrAssign .portable hash k v := by
  simp only [Table.insertOrAssign, Table.insertOrAssignWith, findNode_eight h, emplaceNode_eight]

theorem insertList_eight {hash : K → Nat} (xs : List (K × V)) : ∀ {t : Table K V}, Inv .neon hash t →
    xs.foldlM (fun (t : Table K V) x => do
      let (t, _, _) ← t.insert .neon hash x.1 x.2
      .ok t) t =
    xs.foldlM (fun (t : Table K V) x => do
      let (t, _, _) ← t.insert .portable hash x.1 x.2
      (.ok t : M (Table K V))) t := by
  induction xs with
  | nil => intro t _; rfl
  | cons x xs ih =>
    intro t h
    obtain ⟨t', p, b, h1, h2, -⟩ := insert_spec h x.1 x.2
    rw [List.foldlM_cons, List.foldlM_cons, ← insert_eight h, h1]
    exact ih h2

theorem insertRange_eight {hash : K → Nat} {t : Table K V} (h : Inv .neon hash t) (ra : Bool) (xs : List (K × V)) :
    t.insertRange .neon hash ra xs = t.insertRange .portable hash ra xs := by
  unfold Table.insertRange
  rw [← reserve_eight]
  cases ra with
  | false => exact insertList_eight xs h
  | true =>
    simp only [if_true]
    cases hr : t.reserve .neon (t.size + xs.length) with
    | error e => rfl
    | ok t' =>
      have : Inv .neon hash t' := by
        obtain ⟨t1, h1, h2, -⟩ := reserve_spec h (t.size + xs.length)
        rw [hr] at h1; cases h1; exact h2
      exact insertList_eight xs this

theorem step_eight {hash : K → Nat} {t : Table K V} (h : Inv .neon hash t) (op : Op K V) :
    t.step .neon hash op = t.step .portable hash op := by
  cases op with
  | insert k v => simp only [Table.step, insert_eight h, toIter_eight]
  | assign k v => simp only [Table.step, Table.insertOrAssign, Table.insertOrAssignWith, findNode_eight h, emplaceNode_eight, toIter_eight]
  | erase k => simp only [Table.step, Table.erase, findNode_eight h, doErase_eight, end_eight]
  | find k => simp only [Table.step, Table.lookup, findNode_eight h]
  | contains k => simp only [Table.step, Table.contains, findNode_eight h]
  | index k d => simp only [Table.step, Table.index, insert_eight h, toIter_eight]
  | extract k => simp only [Table.step, Table.extract, findNode_eight h, extractAt_eight]
  | insertNode x => simp only [Table.step, Table.insertNode, findNode_eight h, emplaceNode_eight, toIter_eight]
  | insertThrow k => simp only [Table.step, Table.insertThrow, findNode_eight h, prepare_eight]
  | insertRange ra xs => simp only [Table.step, insertRange_eight h]
  | clear => simp only [Table.step, clear_eight]
  | reserve n => simp only [Table.step, reserve_eight]
  | rehash n => simp only [Table.step, rehash_eight]
  | size => rfl
  | iterate => simp only [Table.step, iterate_eight]
  | eraseIf p => simp only [Table.step, eraseIf_eight]

theorem run_eight {hash : K → Nat} (ops : List (Op K V)) : ∀ {t : Table K V}, Inv .neon hash t →
    t.run .neon hash ops = t.run .portable hash ops := by
  induction ops with
  | nil => intro t _; rfl
  | cons op ops ih =>
    intro t h
    simp only [Table.run]
    rw [← step_eight h]
    cases hs : t.step .neon hash op with
    | error e => rfl
    | ok r =>
      have h' : Inv .neon hash r.1 := (ends_ok (step_spec h (List.Perm.refl _) op) hs).1
      simp only [bind_ok]
      rw [ih h']

theorem mergeLoop_eight {hash hash' : K → Nat} (fuel : Nat) : ∀ {dst src : Table K V} (pos last : Nat), Inv .neon hash dst → Inv .neon hash' src →
    Table.mergeLoop .neon hash fuel dst src pos last = Table.mergeLoop .portable hash fuel dst src pos last := by
  induction fuel with
  | zero => intros; rfl
  | succ fuel ih =>
    intro dst src pos last hd hs
    simp only [Table.mergeLoop]
    by_cases he : pos = last
    · rw [if_pos he, if_pos he]
    rw [if_neg he, if_neg he, ← nextOccupied_eight, ← extractAt_eight, ← emplaceNode_eight]
    cases hr : src.readNode pos with
    | error e => rfl
    | ok n =>
      simp only [bind_ok, ← findNode_eight hd]
      have hpn : pos < src.cap ∧ src.node pos = some n := by
        unfold Table.readNode at hr
        split at hr
        · rename_i hp
          split at hr
          · cases hr; exact ⟨hp, by assumption⟩
          · cases hr
        · cases hr
      rcases find_cases hd n.key with ⟨i, m, hi, -, -, hf, -⟩ | ⟨hno, hf, -⟩
      · rw [hf]
        simp only [bind_ok, show ¬ i = dst.cap by omega, if_false]
        cases src.nextOccupied .neon (src.cap + 1) (pos + 1) with
        | error e => rfl
        | ok q => exact ih q last hd hs
      · rw [hf]
        simp only [bind_ok, if_true]
        cases hx : src.extractAt .neon pos with
        | error e => rfl
        | ok r =>
          obtain ⟨src', n'⟩ := r
          obtain ⟨x1, x2, -⟩ := ends_ok (extractAt_spec hs hpn.1 hpn.2) hx
          simp only at x1 x2
          subst x2
          obtain ⟨dst', p, e1, e2, -⟩ := emplaceNode_spec hd (n := ⟨n'.key, n'.val, hash n'.key⟩) rfl hno
          simp only [bind_ok, e1]
          cases src'.nextOccupied .neon (src'.cap + 1) (pos + 1) with
          | error e => rfl
          | ok q => exact ih q last e2 x1

theorem merge_eight {hash hash' : K → Nat} {dst src : Table K V} (hd : Inv .neon hash dst) (hs : Inv .neon hash' src) :
    Table.merge .neon hash dst src = Table.merge .portable hash dst src := by
  unfold Table.merge
  obtain ⟨t, h1, h2, -⟩ := reserve_spec hd (dst.size + src.size)
  rw [← reserve_eight, ← begin_eight, ← end_eight, h1]
  simp only [bind_ok, mergeLoop_eight _ _ _ h2 hs]

theorem at_eight {hash : K → Nat} {t : Table K V} (h : Inv .neon hash t) (k : K) : t.at_ .neon hash k = t.at_ .portable hash k := by
  simp only [Table.at_, findNode_eight h, toIter_eight, end_eight]

theorem Reachable.eight {hash : K → Nat} {t : Table K V} (h : Reachable .neon hash t) : Reachable .portable hash t := by
  induction h with
  | init hash => exact .init hash
  | ctor hn ht => exact .ctor hn ht
  | step h hs ih => exact .step ih (by rw [← step_eight h.inv]; exact hs)
  | eraseIter h hr he ih => exact .eraseIter ih hr (by rw [← eraseIter_eight]; exact he)
  | mergeDst ha hb hm iha ihb => exact .mergeDst iha ihb (by rw [← merge_eight ha.inv hb.inv]; exact hm)
  | mergeSrc ha hb hm iha ihb => exact .mergeSrc iha ihb (by rw [← merge_eight ha.inv hb.inv]; exact hm)
  | moveTo hal ha hb hm iha ihb => exact .moveTo hal iha ihb (by rw [← moveAssign_eight]; exact hm)
  | movedFrom hal ha hb hm iha ihb => exact .movedFrom hal iha ihb (by rw [← moveAssign_eight]; exact hm)
  | moveCtorTo hal hb hm ihb => exact .moveCtorTo hal ihb (by rw [← moveCtor_eight]; exact hm)
  | moveCtorFrom hal hb hm ihb => exact .moveCtorFrom hal ihb (by rw [← moveCtor_eight]; exact hm)
  | swapFst ha hb iha ihb => exact .swapFst iha ihb
  | swapSnd ha hb iha ihb => exact .swapSnd iha ihb
  | copyCtor ha hc hm iha => exact .copyCtor iha hc (by rw [← copyCtor_eight]; exact hm)
  | copyAssign ht ha hc hf hm iht iha => exact .copyAssign iht iha hc hf (by rw [← copyAssign_eight]; exact hm)

theorem Reachable.eight' {hash : K → Nat} {t : Table K V} (h : Reachable .portable hash t) : Reachable .neon hash t := by
  induction h with
  | init hash => exact .init hash
  | ctor hn ht => exact .ctor hn ht
  | step h hs ih => exact .step ih (by rw [step_eight h.inv.eight']; exact hs)
  | eraseIter h hr he ih => exact .eraseIter ih hr (by rw [eraseIter_eight]; exact he)
  | mergeDst ha hb hm iha ihb => exact .mergeDst iha ihb (by rw [merge_eight ha.inv.eight' hb.inv.eight']; exact hm)
  | mergeSrc ha hb hm iha ihb => exact .mergeSrc iha ihb (by rw [merge_eight ha.inv.eight' hb.inv.eight']; exact hm)
  | moveTo hal ha hb hm iha ihb => exact .moveTo hal iha ihb (by rw [moveAssign_eight]; exact hm)
  | movedFrom hal ha hb hm iha ihb => exact .movedFrom hal iha ihb (by rw [moveAssign_eight]; exact hm)
  | moveCtorTo hal hb hm ihb => exact .moveCtorTo hal ihb (by rw [moveCtor_eight]; exact hm)
  | moveCtorFrom hal hb hm ihb => exact .moveCtorFrom hal ihb (by rw [moveCtor_eight]; exact hm)
  | swapFst ha hb iha ihb => exact .swapFst iha ihb
  | swapSnd ha hb iha ihb => exact .swapSnd iha ihb
  | copyCtor ha hc hm iha => exact .copyCtor iha hc (by rw [copyCtor_eight]; exact hm)
  | copyAssign ht ha hc hf hm iht iha => exact .copyAssign iht iha hc hf (by rw [copyAssign_eight]; exact hm)

end Tpp.Swiss
