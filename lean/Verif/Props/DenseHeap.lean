import Verif.Dense.HeapWorld
import Verif.Dense.Faults

/-!
# C92: the arrays of dense containers
-/

set_option linter.unusedSectionVars false

namespace Tpp.Props

open Tpp.Dense Tpp.Dense.HWorld

variable {k : Nat} {K V : Type} [DecidableEq K]

/-- The program `ops`, as far as it gets. -/
def prog (cfg : ACfg) (hash : K → Nat) (ops : List (HOp k K V)) : M (HWorld k K V) :=
  ops.foldlM (fun w o => w.step cfg hash o) HWorld.init

/-- The blocks that are live. -/
def liveList (w : HWorld k K V) : List (Nat × Blk) :=
  (List.range w.h.next).filterMap fun i => (w.h.live i).map fun x => (i, x)

/-- **C92**: whatever containers were constructed, used, copied, moved, swapped and destroyed, every live block is the node array
or the bucket array of exactly one container, was obtained from its allocator, and has the size that the container will
pass to `deallocate`.  Partial: programs with an assignment that passes a null pointer to an allocator that does not accept it,
and constructors that throw, are excluded. -/
theorem C92_owner_partial {cfg : ACfg} {hash : K → Nat} {w : HWorld k K V} (h : Reached cfg hash w) {i : Nat} {x : Blk}
    (hx : w.h.live i = some x) :
    ∃ s b, w.box s = some b ∧ ((b.pd = some i ∧ x = ⟨b.al, .dense, b.t.cap⟩) ∨ (b.ps = some i ∧ x = ⟨b.al, .sparse, b.t.bc⟩)) ∧
      ∀ s' b', w.box s' = some b' → (b'.pd = some i ∨ b'.ps = some i) → s' = s := by
  obtain ⟨s, b, hb, hi⟩ := h.balanced.owner hx
  refine ⟨s, b, hb, ?_, fun s' b' hb' hi' => ?_⟩
  · unfold Box.blk at hi
    split at hi
    · rename_i hp
      cases hi
      exact .inl ⟨hp, rfl⟩
    · split at hi
      · rename_i hp
        cases hi
        exact .inr ⟨hp, rfl⟩
      · cases hi
  · refine h.balanced.uniq hb' hb (i := i) ?_ (by rw [hi]; exact fun hh => (by cases hh))
    rcases hi' with hi' | hi'
    · exact Box.blk_pd hi'
    · exact Box.blk_ps hi'

/-- The arrays of every container are live blocks of its allocator, of the size it knows; it has an array iff that size is not
0. -/
theorem C92_arrays_partial {cfg : ACfg} {hash : K → Nat} {w : HWorld k K V} (h : Reached cfg hash w) {s : Nat} {b : Box k K V}
    (hb : w.box s = some b) :
    (∀ i, b.pd = some i → w.h.live i = some ⟨b.al, .dense, b.t.cap⟩) ∧
      (∀ i, b.ps = some i → w.h.live i = some ⟨b.al, .sparse, b.t.bc⟩) ∧
      (b.pd = none ↔ b.t.cap = 0) ∧ (b.ps = none ↔ b.t.bc = 0) :=
  have ho := h.balanced.own hb
  ⟨ho.dense, ho.sparse, ho.dnull, ho.snull⟩

/-- Nothing remains allocated when all containers have been destroyed. -/
theorem C92_no_leak_partial {cfg : ACfg} {hash : K → Nat} {w : HWorld k K V} (h : Reached cfg hash w)
    (he : ∀ s, w.box s = none) (i : Nat) : w.h.live i = none := by
  cases hx : w.h.live i with
  | none => rfl
  | some x =>
    obtain ⟨s, b, hb, _⟩ := h.balanced.owner hx
    rw [he s] at hb
    cases hb

/-- No statement deallocates a block that is not live, with a wrong size, or with a wrong allocator. -/
theorem C92_no_bad_free_partial {cfg : ACfg} {hash : K → Nat} {w : HWorld k K V} (h : Reached cfg hash w) (o : HOp k K V)
    (hn : cfg.nullOk = true ∨ w.nullFree cfg o = false) : w.step cfg hash o ≠ .error .badFree := by
  intro hh
  have := h.balanced.step (hash := hash) o hn
  rw [hh] at this
  exact this rfl

/-- The elements are those of the model without memory: an operation that succeeds there succeeds here and leaves the same
container. -/
theorem C92_same_elements {cfg : ACfg} {hash : K → Nat} {w : HWorld k K V} (h : Reached cfg hash w) {s : Nat} {b : Box k K V}
    (hb : w.box s = some b) {o : Op k K V} {r : Table k K V × Out k K V} (hr : b.t.step hash o = .ok r) :
    ∃ w' b', w.step cfg hash (.op s o) = .ok w' ∧ w'.box s = some b' ∧ b'.t = r.1 := by
  have := step_sim hash (h.balanced.own hb) o
  rw [hr] at this
  simp only [HWorld.step, hb]
  cases e : HB.step hash ⟨w.h, b⟩ o with
  | error e' =>
    rw [e] at this
    exact this.elim
  | ok q =>
    rw [e] at this
    exact ⟨_, q.1.b, rfl, by simp [put], this.1.1⟩

/-- **C92 fails for propagating allocators**: an assignment to any empty container that lacks an array calls `deallocate` with
a null pointer. -/
theorem C92_null_false {cfg : ACfg} {hash : K → Nat} {w : HWorld k K V} (h : Reached cfg hash w) {dst src : Nat} {b o : Box k K V}
    (hne : dst ≠ src) (hb : w.box dst = some b) (ho : w.box src = some o) (hs : b.t.size = 0) (hp : b.t.cap = 0 ∨ b.t.bc = 0)
    (hn : cfg.nullOk = false) :
    (cfg.copyProp = true → w.step cfg hash (.copyAssign dst src) = .error .badFree) ∧
      (cfg.moveProp = true → w.step cfg hash (.moveAssign dst src) = .error .badFree) := by
  have hc : ({ b.t with lf := o.t.lf } : Table k K V).clearData = .ok { b.t with lf := o.t.lf, size := 0 } := by
    simp only [Table.clearData, hs]
    rfl
  have hw := h.balanced.own hb
  have key : HB.propagate false ⟨w.h, { b with t := { b.t with lf := o.t.lf, size := 0 } }⟩ o.al = .error .badFree := by
    cases hq : b.ps with
    | none =>
      simp only [HB.propagate, Heap.free]
      rfl
    | some a =>
      have hq' : b.pd = none := by
        refine hw.dnull.2 (hp.resolve_right fun hh => ?_)
        have := hw.snull.2 hh
        simp only at this
        rw [hq] at this
        cases this
      have hl : w.h.live a = some ⟨b.al, .sparse, b.t.bc⟩ := hw.sparse a hq
      simp only [HB.propagate, hq', Heap.free, Box.sblk, hl, if_true, bind_ok]
      rfl
  constructor
  · intro hcp
    simp only [HWorld.step, hb, ho, if_neg hne, HB.copyAssign, HB.lift, hc, hcp, hn, bind_ok, if_true, key]
    rfl
  · intro hcp
    simp only [HWorld.step, hb, ho, if_neg hne, HB.moveAssign, HB.lift, hc, hcp, hn, bind_ok, if_true, key]
    rfl

/-- **C92 fails for constructors that throw**: if the bucket array cannot be allocated, the node array is never freed. -/
theorem C92_constructor_false {cfg : ACfg} {hash : K → Nat} {w : HWorld k K V} (h : Reached cfg hash w) (al n : Nat) :
    ∃ i, (HB.withBucketsThrow w.h al n).live i = some ⟨al, .dense, n⟩ ∧
      ∀ s b, w.box s = some b → b.pd ≠ some i ∧ b.ps ≠ some i := by
  refine ⟨w.h.next, by simp [HB.withBucketsThrow, Heap.alloc], fun s b hb => ?_⟩
  have ho := h.balanced.own hb
  have hf := h.balanced.fresh _ (Nat.le_refl _)
  refine ⟨fun hh => ?_, fun hh => ?_⟩
  · have := ho.dense _ hh
    simp only at this
    rw [hf] at this
    cases this
  · have := ho.sparse _ hh
    simp only at this
    rw [hf] at this
    cases this

/-- The same for the copy constructors: if the node array cannot be allocated, the bucket array is never freed. -/
theorem C92_copy_constructor_false {cfg : ACfg} {hash : K → Nat} {w : HWorld k K V} (h : Reached cfg hash w) (al : Nat)
    {src : Nat} {o : Box k K V} (_ : w.box src = some o) (ho : o.t.bc ≠ 0) :
    ∃ m i, HB.copyCtorThrow w.h al o.t = .ok m ∧ m.live i = some ⟨al, .sparse, o.t.bc⟩ ∧
      ∀ s b, w.box s = some b → b.pd ≠ some i ∧ b.ps ≠ some i := by
  have e : HB.copyCtorThrow w.h al o.t = .ok (w.h.alloc ⟨al, .sparse, o.t.bc⟩).1 := by
    simp only [HB.copyCtorThrow, Heap.realloc]
    rw [if_pos (Nat.pos_of_ne_zero ho)]
    rfl
  refine ⟨_, w.h.next, e, by simp [Heap.alloc], fun s b hb => ?_⟩
  have ho := h.balanced.own hb
  have hf := h.balanced.fresh _ (Nat.le_refl _)
  refine ⟨fun hh => ?_, fun hh => ?_⟩
  · have := ho.dense _ hh
    simp only at this
    rw [hf] at this
    cases this
  · have := ho.sparse _ hh
    simp only at this
    rw [hf] at this
    cases this

/-- **C92 fails for `swap` of unequal allocators, even if they propagate**: the assertion that they be equal comes after their
exchange, which leaves them unequal. -/
theorem C92_swap_false {cfg : ACfg} {hash : K → Nat} {w : HWorld k K V} {a b : Nat} {x y : Box k K V} (hx : w.box a = some x)
    (hy : w.box b = some y) (hal : x.al ≠ y.al) : w.step cfg hash (.swap a b) = .error .assertFail := by
  have hne : a ≠ b := by
    rintro rfl
    rw [hx] at hy
    cases hy
    exact hal rfl
  simp only [HWorld.step, hx, hy, if_neg hne, HB.swap]
  cases cfg.swapProp with
  | true =>
    simp only [if_true]
    rw [if_pos (Ne.symm hal)]
    rfl
  | false =>
    simp only [Bool.false_eq_true, if_false]
    rw [if_pos hal]
    rfl

/-! ## Examples -/

private def h10 : Nat → Nat := (· % 10)

private def demoOps : List (HOp 1 Nat Nat) :=
  [.make 0 7 LF.initial, .op 0 (.insert (fun _ => 3) 30), .op 0 (.insert (fun _ => 13) 31), .op 0 (.insert (fun _ => 4) 32),
   .makeN 1 8 LF.initial 5, .copyAssign 1 0, .moveMake 2 1 none, .op 2 (.erase 0 3)]

/-- Three containers, of which the second has given its arrays to the third: four live blocks (nodes and buckets of 0 and 2; blocks
0 and 2 were freed when the node array grew, 5 when the copy needed more buckets). -/
example : ((prog ⟨false, true, false, false⟩ h10 demoOps).toOption.map fun w => liveList w)
    = some [(1, ⟨7, .sparse, 8⟩), (3, ⟨7, .dense, 4⟩), (4, ⟨8, .dense, 5⟩), (6, ⟨8, .sparse, 8⟩)] := by
  decide +kernel

/-- And none after their destruction. -/
example : ((prog ⟨false, true, false, false⟩ h10 (demoOps ++ [.destroy 1, .destroy 0, .destroy 2])).toOption.map fun w =>
    liveList w) = some [] := by
  decide +kernel

/-- A propagating copy assignment to a container that has no arrays. -/
example : ((prog ⟨true, true, true, false⟩ h10 (demoOps ++ [.copyAssign 1 0])).toOption.isNone,
    (prog ⟨true, true, true, true⟩ h10 (demoOps ++ [.destroy 1, .make 1 9 LF.initial, .copyAssign 1 0])).toOption.map (fun w =>
      liveList w)) =
    (true, some [(1, ⟨7, .sparse, 8⟩), (3, ⟨7, .dense, 4⟩), (6, ⟨7, .sparse, 8⟩), (7, ⟨7, .dense, 3⟩), (8, ⟨7, .sparse, 8⟩),
      (9, ⟨7, .dense, 3⟩)]) := by
  decide +kernel

end Tpp.Props
