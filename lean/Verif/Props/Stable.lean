import Verif.Swiss.Stable
import Verif.Props.SwissB
import Verif.Props.Dense

/-!
# C22: addresses of elements of stable containers; C62: every element is destroyed exactly once
-/

set_option linter.unusedSectionVars false

namespace Tpp.Swiss

variable {K V W : Type} [DecidableEq K]

/-! ## C22 -/

/-- C22: over any history (insertions that grow the table or reclaim erased slots in place, overwrites, erasures of other
elements, reserve, rehash, ...) an element that is not removed keeps its address. -/
theorem C22_address_stable {isa : Isa} {hash : K → Nat} {t t' : Table K (Nat × W)} (ht : Reachable isa hash t) {k : K}
    {a : Nat} {w : W} (h : t.lookup isa hash k = .ok (some (a, w))) {ops : List (Op K (Nat × W))}
    (hk : ∀ op ∈ ops, op.keeps k) (hr : t.stableRun isa hash ops = .ok t') :
    ∃ w', t'.lookup isa hash k = .ok (some (a, w')) :=
  (stableRun_addr ht.inv h hk hr).2

/-- C22: a history from an empty container that inserts the element at address `a` at some point. -/
theorem C22_address_from_insertion {isa : Isa} {hash : K → Nat} {before after : List (Op K (Nat × W))} {k : K} {a : Nat} {w : W}
    {t0 t1 t2 : Table K (Nat × W)} (h0 : (Table.init : Table K (Nat × W)).stableRun isa hash before = .ok t0)
    (habs : t0.contains isa hash k = .ok false) (h1 : t0.stableStep isa hash (.insert k (a, w)) = .ok t1)
    (hk : ∀ op ∈ after, op.keeps k) (h2 : t1.stableRun isa hash after = .ok t2) :
    ∃ w', t2.lookup isa hash k = .ok (some (a, w')) := by
  have i0 := (ends_ok (stableRun_spec before (Inv.init isa hash) (List.Perm.refl _)) h0).1
  obtain ⟨i1, p1⟩ := ends_ok (stableStep_spec i0 (List.Perm.refl _) (.insert k (a, w))) h1
  refine (stableRun_addr i1 (w := w) ?_ hk h2).2
  rw [contains_spec i0] at habs
  have habs' : Spec.lookup t0.contents k = none := by
    cases hx : Spec.lookup t0.contents k with
    | none => rfl
    | some v => rw [hx] at habs; cases habs
  rw [lookup_spec i1, Spec.lookup_perm p1 i1.contents_uniq]
  simp only [Spec.stableStep, Spec.step, Spec.insert, habs']
  rw [Spec.lookup_cons, if_pos rfl]

/-- C22: erasing another element through an iterator. -/
theorem C22_erase_iterator {isa : Isa} {hash : K → Nat} {t t' : Table K (Nat × W)} (ht : Reachable isa hash t) {k : K} {pos it : Nat}
    {v : Nat × W} (h : t.lookup isa hash k = .ok (some v)) {n : Node K (Nat × W)} (hn : t.readNode pos = .ok n) (hk : n.key ≠ k)
    (hr : t.eraseIter isa pos = .ok (t', it)) : t'.lookup isa hash k = .ok (some v) := by
  have hp : pos < t.cap ∧ t.node pos = some n := by
    unfold Table.readNode at hn
    split at hn
    · rename_i hlt
      refine ⟨hlt, ?_⟩
      cases hx : t.node pos with
      | none => rw [hx] at hn; cases hn
      | some x => rw [hx] at hn; cases hn; rfl
    · cases hn
  obtain ⟨i1, _, _, p1, _⟩ := ends_ok (eraseIter_spec ht.inv hp.1 hp.2) hr
  rw [lookup_spec ht.inv] at h
  rw [lookup_spec i1]
  have := Spec.lookup_perm p1 ht.inv.contents_uniq k
  rw [Spec.lookup_cons, if_neg hk] at this
  rw [← this, Except.ok.inj h]

/-- C22: merging.  The elements of the destination keep their addresses, those transferred arrive with theirs, and those left
in the source keep theirs. -/
theorem C22_merge {isa : Isa} {hash hash' : K → Nat} {dst src dst' src' : Table K (Nat × W)} (hd : Reachable isa hash dst)
    (hs : Reachable isa hash' src) (hr : Table.merge isa hash dst src = .ok (dst', src')) (k : K) (v : Nat × W) :
    (dst.lookup isa hash k = .ok (some v) → dst'.lookup isa hash k = .ok (some v)) ∧
    (dst.lookup isa hash k = .ok none → src.lookup isa hash' k = .ok (some v) → dst'.lookup isa hash k = .ok (some v)) ∧
    (∀ w, dst.lookup isa hash k = .ok (some w) → src.lookup isa hash' k = .ok (some v) →
      src'.lookup isa hash' k = .ok (some v)) := by
  have bd := hd.inv.behaves (List.Perm.refl _)
  have bs := hs.inv.behaves (List.Perm.refl _)
  obtain ⟨m', n', b1, b2, _, l1, l2⟩ := ends_ok (C20_merge hd hs bd bs) hr
  simp only at b1 b2
  refine ⟨?_, ?_, ?_⟩
  · intro h
    rw [bd.lookup] at h
    rw [b1.lookup, l1, Except.ok.inj h]; rfl
  · intro h g
    rw [bd.lookup] at h
    rw [bs.lookup] at g
    rw [b1.lookup, l1, Except.ok.inj h, Except.ok.inj g]; rfl
  · intro w h g
    rw [bd.lookup] at h
    rw [bs.lookup] at g
    rw [b2.lookup, l2, Except.ok.inj h, Except.ok.inj g]; rfl

/-- C22: moving and swapping containers transfers the elements with their addresses. -/
theorem C22_move_swap {isa : Isa} {hash hash' : K → Nat} {al : AllocP} (hal : al.moveProp = true) (heq : al.equal = true)
    {t o : Table K (Nat × W)} (ht : Reachable isa hash t) (ho : Reachable isa hash' o) {k : K} {v : Nat × W}
    (h : o.lookup isa hash' k = .ok (some v)) :
    (∃ c o', Table.moveCtor isa al o = .ok (c, o') ∧ c.lookup isa hash' k = .ok (some v)) ∧
    (∃ t' o', t.moveAssign isa al o = .ok (t', o') ∧ t'.lookup isa hash' k = .ok (some v)) ∧
    (t.swapBuffers o).1.lookup isa hash' k = .ok (some v) := by
  refine ⟨⟨_, _, moveCtor_spec al heq o, h⟩, ?_, h⟩
  obtain ⟨t', o', h1, h2, _⟩ := moveAssign_spec al hal ht.inv ho.inv
  exact ⟨t', o', h1, by rw [h2]; exact h⟩

/-- C22: an extracted element keeps its address in the handle and in the container it is inserted into. -/
theorem C22_extract {isa : Isa} {hash : K → Nat} {t t' : Table K (Nat × W)} (ht : Reachable isa hash t) {k : K} {v : Nat × W}
    {x : Option (K × Nat × W)} (h : t.lookup isa hash k = .ok (some v)) (hr : t.extract isa hash k = .ok (t', x)) :
    x = some (k, v) := by
  obtain ⟨_, _, h1, _⟩ := ends_ok (extract_spec ht.inv k) hr
  rw [lookup_spec ht.inv] at h
  simp only at h1
  rw [h1, Except.ok.inj h]
  rfl

/-- 20 insertions grow the container three times and an erasure and `rehash(100)` follow: the element of key 1 stays at
address 500. -/
def stableDemo : List (Op Nat (Nat × Nat)) :=
  (List.range 20).map (fun i => .insert i (499 + i, i)) ++ [.erase 3, .assign 1 (7, 77), .rehash 99]

example : ((Table.init : Table Nat (Nat × Nat)).stableRun .sse2 h64 stableDemo >>= fun t => t.lookup .sse2 h64 1) =
    .ok (some (500, 77)) := by
  set_option maxRecDepth 100000 in decide +kernel

/-! ## C62 -/

/-- C62: whatever happened to the container, its destructor destroys no dead element (`deadDestroy`) and frees no storage in
which an element is alive (`leak`).  The same faults are part of every operation of the model: constructing over a live element
(`liveOverwrite`), destroying a dead one, freeing a buffer with live elements. -/
theorem C62_destructor {isa : Isa} {hash : K → Nat} {t : Table K V} (h : Reachable isa hash t) : ∃ t', t.dtor = .ok t' :=
  dtor_spec h.inv

/-- C62: a history on an empty container followed by its destruction.  With 8-byte blocks it may stop at `ctz(0)` (C32). -/
theorem C62_history {isa : Isa} (hash : K → Nat) (ops : List (Op K V)) :
    Ends isa (do
      let (t, _) ← (Table.init : Table K V).run isa hash ops
      t.dtor) (fun _ => True) := by
  refine (run_spec ops (Inv.init isa hash) (List.Perm.refl _)).bind ?_
  rintro ⟨t, o⟩ ⟨h, _⟩
  obtain ⟨t', e⟩ := dtor_spec h
  exact Ends.of_ok e trivial

theorem C62_history_sse2 (hash : K → Nat) (ops : List (Op K V)) :
    ∃ t outs t', (Table.init : Table K V).run .sse2 hash ops = .ok (t, outs) ∧ t.dtor = .ok t' := by
  obtain ⟨⟨t, o⟩, h1, h2, _⟩ := (run_spec ops (Inv.init .sse2 hash) (List.Perm.refl _)).sse2
  obtain ⟨t', e⟩ := dtor_spec h2
  exact ⟨t, o, t', h1, e⟩

/-- C62: the number of live elements is `size()` at every point: what was constructed and not destroyed is what the container
holds, so nothing leaks unnoticed. -/
theorem C62_live_elements {isa : Isa} {hash : K → Nat} {t : Table K V} (h : Reachable isa hash t) :
    ((List.range t.cap).filter fun i => (t.node i).isSome).length = t.size := by
  rw [h.inv.size_eq, ← cnt_eq_length]
  refine cnt_congr ?_
  intro i hi
  exact h.inv.live i hi

example : ((Table.init : Table Nat Nat).run .sse2 h64 demoOps >>= fun r => r.1.dtor).map (fun t => (t.cap, t.size)) =
    .ok (0, 0) := by decide

end Tpp.Swiss

namespace Tpp.Dense

variable {k : Nat} {K V : Type} [DecidableEq K]

/-- C62 for the dense containers: destroying the container destroys every live element, none twice, and nothing is left. -/
theorem C62_dense_destructor {hash : K → Nat} {t : Table k K V} (h : Reachable hash t) :
    ∃ t', t.clearData = .ok t' ∧ ∀ i, t'.node i = none := by
  obtain ⟨l, hl⟩ := h.inv
  obtain ⟨t', e, hc⟩ := clearData_ok hl.toArr
  exact ⟨t', e, hc.node⟩

/-- C62 for the dense containers: the live elements are those below `size()`, so no array is ever dropped with a live element in
it (arrays are only dropped after `clear_data` or after their elements have been moved). -/
theorem C62_dense_live {hash : K → Nat} {t : Table k K V} (h : Reachable hash t) (i : Nat) :
    (t.node i).isSome = true ↔ i < t.size := by
  obtain ⟨l, hl⟩ := h.inv
  rw [hl.size]
  constructor
  · intro g
    rcases Nat.lt_or_ge i l.length with e | e
    · exact e
    · rw [hl.toArr.node_none e] at g; cases g
  · intro g
    obtain ⟨n, hn, _⟩ := hl.toArr.node_some g
    rw [hn]; rfl

/-- C62 for histories on dense containers. -/
theorem C62_dense_history (hash : K → Nat) (lf : LF) (ops : List (Op k K V)) (hg : Spec.Guarded false ops = true) :
    ∃ t outs t', (Table.init lf : Table k K V).run hash ops = .ok (t, outs) ∧ t.clearData = .ok t' ∧ ∀ i, t'.node i = none := by
  obtain ⟨t, e, h⟩ := run_ok ops (init_inv hash lf) (by intro g; cases g) hg
  obtain ⟨t', e', hc⟩ := clearData_ok h.toArr
  exact ⟨t, _, t', e, e', hc.node⟩

example : (demo.clearData).map (·.size) = .ok 0 := rfl

end Tpp.Dense
