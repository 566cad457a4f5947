import Verif.Swiss.MemWorld

/-!
# C93: the buffers of sparse containers
-/

namespace Tpp.Props

open Tpp.Swiss.Mem Tpp.Swiss.Mem.World

/-- The program `ops`, as far as it gets. -/
def memProg (cfg : ACfg) (L : Lay) (ops : List Op) : M World := ops.foldlM (fun w o => w.step cfg L o) World.init

/-- The blocks that are live. -/
def memList (w : World) : List (Nat × Blk) :=
  (List.range w.h.next).filterMap fun i => (w.h.live i).map fun x => (i, x)

/-- **C93**: whatever containers were constructed, used, copied, moved, swapped and destroyed, every live block belongs to exactly one
container, was obtained from its allocator, and has the size that the container will pass to `deallocate`.  Partial: excluded are
null pointers passed to allocators that do not accept them, assignments between combined buffers with a propagating allocator, and
assignments to containers made with bucket count 0; each of these is refuted below. -/
theorem C93_owner_partial {cfg : ACfg} {L : Lay} {w : World} (h : Reached cfg L w) {i : Nat} {x : Blk} (hx : w.h.live i = some x) :
    ∃ s c, w.box s = some c ∧
      ((L.comb = false ∧ c.buf.md = some i ∧ x = ⟨c.buf.al, .bytes, c.buf.cap + L.W⟩) ∨
        (L.comb = false ∧ c.buf.nd = some i ∧ x = ⟨c.buf.al, .nodes, c.buf.cap⟩) ∨
        (L.comb = true ∧ c.buf.md = some i ∧ x = ⟨c.buf.al, .nodes, Swiss.Buf.bufferSize L.W L.s c.buf.cap⟩)) ∧
      ∀ s' c', w.box s' = some c' → (c'.buf.md = some i ∨ c'.buf.nd = some i) → s' = s := by
  have hb := h.balanced
  obtain ⟨s, c, hc, hi⟩ := hb.owner hx
  refine ⟨s, c, hc, ?_, fun s' c' hc' hi' => ?_⟩
  · unfold Buf.blk at hi
    split at hi
    · rename_i hp
      injection hi with hi
      subst hi
      cases hL : L.comb with
      | true => exact .inr (.inr ⟨rfl, hp, by simp only [Lay.mblk, hL, if_true]⟩)
      | false => exact .inl ⟨rfl, hp, by simp only [Lay.mblk, hL, Bool.false_eq_true, if_false]⟩
    · split at hi
      · rename_i hp
        injection hi with hi
        subst hi
        refine .inr (.inl ⟨?_, hp, rfl⟩)
        cases hL : L.comb with
        | false => rfl
        | true =>
          rw [(hb.shape hc).comb hL] at hp
          cases hp
      · cases hi
  · refine hb.uniq hc' hc (i := i) ?_ (by rw [hi]; exact fun hh => (by cases hh))
    intro hh
    have := blk_none.1 hh
    exact hi'.elim this.1 this.2

/-- The pointers of every container are live blocks of its allocator, of the size its capacity implies. -/
theorem C93_buffers_partial {cfg : ACfg} {L : Lay} {w : World} (h : Reached cfg L w) {s : Nat} {c : Cont} (hc : w.box s = some c) :
    (L.comb = false → (∀ i, c.buf.md = some i → w.h.live i = some ⟨c.buf.al, .bytes, c.buf.cap + L.W⟩) ∧
      (∀ i, c.buf.nd = some i → w.h.live i = some ⟨c.buf.al, .nodes, c.buf.cap⟩) ∧ (c.buf.md = none ↔ c.buf.nd = none)) ∧
    (L.comb = true → ∀ i, c.buf.md = some i → w.h.live i = some ⟨c.buf.al, .nodes, Swiss.Buf.bufferSize L.W L.s c.buf.cap⟩) ∧
    (0 < c.buf.cap → c.buf.md ≠ none) := by
  have hb := h.balanced
  have hs := hb.shape hc
  refine ⟨fun hL => ⟨fun i hi => ?_, fun i hi => hb.live hc (blk_nd hs hi), hs.split hL⟩, fun hL i hi => ?_, fun h0 hh => ?_⟩
  · have := hb.live hc (blk_md (L := L) hi)
    simpa only [Lay.mblk, hL, Bool.false_eq_true, if_false] using this
  · have := hb.live hc (blk_md (L := L) hi)
    simpa only [Lay.mblk, hL, if_true] using this
  · have := hs.cap hh
    omega

/-- Nothing remains allocated when all containers have been destroyed. -/
theorem C93_no_leak_partial {cfg : ACfg} {L : Lay} {w : World} (h : Reached cfg L w) (he : ∀ s, w.box s = none) (i : Nat) :
    w.h.live i = none := by
  cases hx : w.h.live i with
  | none => rfl
  | some x =>
    obtain ⟨s, b, hb, _⟩ := h.balanced.owner hx
    rw [he s] at hb
    cases hb

/-- No statement deallocates a block that is not live, with a wrong size, or with a wrong allocator. -/
theorem C93_no_bad_free_partial {cfg : ACfg} {L : Lay} {w : World} (h : Reached cfg L w) (o : Op) (hn : w.Fine cfg L o) :
    w.step cfg L o ≠ .error .badFree := by
  intro hh
  have := h.balanced.step o hn
  rw [hh] at this
  exact this rfl

/-- **C93 for separate buffers and an allocator that accepts null pointers**, such as `std::allocator`, but any propagation
traits and any number of unequal allocators: a program that constructs no container with bucket count 0 never deallocates wrongly,
and has nothing allocated when its containers are gone. -/
theorem C93_separate_partial {cfg : ACfg} {L : Lay} (hL : L.comb = false) (hn : cfg.nullOk = true) (ops : List Op)
    (hz : ∀ s al, Op.makeN s al 0 ∉ ops) :
    memProg cfg L ops ≠ .error .badFree ∧
      ∀ w, memProg cfg L ops = .ok w → (∀ s, w.box s = none) → ∀ i, w.h.live i = none := by
  suffices key : ∀ (ops : List Op) (w0 : World), (∀ s al, Op.makeN s al 0 ∉ ops) → Reached cfg L w0 → w0.Tight →
      ops.foldlM (fun w o => w.step cfg L o) w0 ≠ .error .badFree ∧
        ∀ w, ops.foldlM (fun w o => w.step cfg L o) w0 = .ok w → Reached cfg L w by
    have := key ops World.init hz .init (fun s c hh => by cases hh)
    exact ⟨this.1, fun w e he => C93_no_leak_partial (this.2 w e) he⟩
  intro ops
  induction ops with
  | nil =>
    intro w0 _ hr _
    refine ⟨fun hh => (by cases hh), fun w e => ?_⟩
    cases e
    exact hr
  | cons o ops ih =>
    intro w0 hz hr ht
    have hf : w0.Fine cfg L o := ⟨.inl hn, wrongSize_split hL w0 o, ht.forgets o⟩
    rw [List.foldlM_cons]
    cases e : w0.step cfg L o with
    | error x =>
      refine ⟨fun hh => ?_, fun w hh => (by cases hh)⟩
      rw [bind_error] at hh
      cases hh
      exact C93_no_bad_free_partial hr o hf e
    | ok w1 =>
      rw [bind_ok]
      exact ih w1 (fun s al hh => hz s al (List.mem_cons_of_mem _ hh)) (.step hr hf e)
        (ht.step (fun s al hh => hz s al (by rw [hh]; exact List.mem_cons_self)) e)

/-- **C93 fails for allocators that do not accept null pointers**: the destructor and the first insertion of a container without
buffer call `deallocate` with one, and so does an assignment to it with a propagating allocator. -/
theorem C93_null_false {cfg : ACfg} {L : Lay} {w : World} {s : Nat} {c : Cont} (hc : w.box s = some c) (hmd : c.buf.md = none)
    (hn : cfg.nullOk = false) :
    w.step cfg L (.destroy s) = .error .badFree ∧ (∀ n, w.step cfg L (.rehash s n) = .error .badFree) ∧
      ∀ src o, w.box src = some o → s ≠ src →
        (cfg.copyProp = true → w.step cfg L (.copyAssign s src) = .error .badFree) ∧
        (cfg.moveProp = true → w.step cfg L (.moveAssign s src) = .error .badFree) := by
  refine ⟨?_, fun n => ?_, fun src o ho hne => ⟨fun hp => ?_, fun hp => ?_⟩⟩
  · simp only [World.step, hc, Buf.deallocate, Buf.release, hmd, hn, Heap.free]
    rfl
  · simp only [World.step, hc, Buf.resize, ne_eq, alignCapacity_ne n, not_false_eq_true, or_true, if_true, Buf.release, hmd, hn,
      Heap.free]
    rfl
  · simp only [World.step, hc, ho, if_neg hne, Buf.assign, hp, if_true, hmd, hn, Heap.free]
    cases L.comb <;> rfl
  · simp only [World.step, hc, ho, if_neg hne, Buf.assign, hp, if_true, hmd, hn, Heap.free]
    cases L.comb <;> rfl

/-- **C93 fails for combined buffers with a propagating allocator**: every assignment to a container that has a buffer passes
a wrong size to `deallocate`. -/
theorem C93_combined_false {cfg : ACfg} {L : Lay} {w : World} (h : Reached cfg L w) (hL : L.comb = true) (hW : 0 < L.W)
    {dst src : Nat} {c o : Cont} (hne : dst ≠ src) (hc : w.box dst = some c) (ho : w.box src = some o)
    (hmd : c.buf.md ≠ none) :
    (cfg.copyProp = true → w.step cfg L (.copyAssign dst src) = .error .badFree) ∧
      (cfg.moveProp = true → w.step cfg L (.moveAssign dst src) = .error .badFree) := by
  obtain ⟨a, ha⟩ := Option.ne_none_iff_exists'.1 hmd
  have hl : w.h.live a = some ⟨c.buf.al, .nodes, Swiss.Buf.bufferSize L.W L.s c.buf.cap⟩ :=
    (C93_buffers_partial h hc).2.1 hL a ha
  have hb : ∀ nullOk, w.h.free nullOk c.buf.md ⟨c.buf.al, .nodes, c.buf.cap⟩ = .error .badFree := by
    intro nullOk
    rw [ha]
    refine free_error hl fun hh => ?_
    injection hh with _ _ hh
    unfold Swiss.Buf.bufferSize Swiss.Buf.nodesStart at hh
    split at hh
    · generalize (c.buf.cap + L.W) / L.s = q at hh
      omega
    · rename_i hr
      have hr : (c.buf.cap + L.W) % L.s = 0 := by omega
      have := Nat.div_add_mod (c.buf.cap + L.W) L.s
      have h0 : (c.buf.cap + L.W) / L.s = 0 := by omega
      rw [h0, hr] at this
      omega
  refine ⟨fun hp => ?_, fun hp => ?_⟩
  · simp only [World.step, hc, ho, if_neg hne, Buf.assign, hp, hL, if_true, hb]
    rfl
  · simp only [World.step, hc, ho, if_neg hne, Buf.assign, hp, hL, if_true, hb]
    rfl

/-- `reallocate` of a buffer of capacity 0 that exists. -/
theorem reallocate_forgets {L : Lay} {nullOk : Bool} {h : Heap} {b : Buf} {a n : Nat} {x : Blk} (hs : b.Shape L) (hf : h.Fresh)
    (h0 : b.cap = 0) (hn : 0 < n) (hl : h.live a = some x) :
    ∃ r, b.reallocate L nullOk h n = .ok r ∧ r.1.live a = some x ∧ r.2.md ≠ some a ∧ r.2.nd ≠ some a := by
  refine ⟨b.allocate L h n, ?_, ?_⟩
  · unfold Buf.reallocate
    rw [if_pos (by omega), if_neg (by omega)]
    rfl
  · have hst := allocate_step hf hs n
    have hne : (b.allocate L h n).2.blk L a = none := by
      by_contra hh
      rcases hst.new a hh with e | e
      · exact e rfl
      · rw [hl] at e
        cases e
    refine ⟨?_, blk_none.1 hne⟩
    rw [hst.frame a rfl hne]
    exact hl

/-- **C93 fails for containers made with bucket count 0**: an assignment that copies or moves elements into one, and does not
replace its allocator, never frees the control bytes it had: afterwards they are live and belong to no container. -/
theorem C93_bucket_count_zero_false {cfg : ACfg} {L : Lay} {w : World} (h : Reached cfg L w) {dst src a : Nat} {c o : Cont}
    (hne : dst ≠ src) (hc : w.box dst = some c) (ho : w.box src = some o) (h0 : c.buf.cap = 0) (hmd : c.buf.md = some a)
    (h1 : o.size ≠ 0) (h2 : 0 < o.buf.cap) :
    (cfg.copyProp = false → ∃ w', w.step cfg L (.copyAssign dst src) = .ok w' ∧ (∃ x, w'.h.live a = some x) ∧
      ∀ s d, w'.box s = some d → d.buf.md ≠ some a ∧ d.buf.nd ≠ some a) ∧
    (cfg.moveProp = false → c.buf.al ≠ o.buf.al → ∃ w', w.step cfg L (.moveAssign dst src) = .ok w' ∧
      (∃ x, w'.h.live a = some x) ∧ ∀ s d, w'.box s = some d → d.buf.md ≠ some a ∧ d.buf.nd ≠ some a) := by
  have hb := h.balanced
  have hl := hb.live hc (blk_md (L := L) hmd)
  obtain ⟨r, e, e1, e2, e3⟩ := reallocate_forgets (nullOk := cfg.nullOk) (hb.shape hc) hb.fresh h0 h2 hl
  have other : ∀ s d, s ≠ dst → w.box s = some d → d.buf.md ≠ some a ∧ d.buf.nd ≠ some a := by
    intro s d hs hd
    rw [← blk_none (L := L)]
    by_contra hh
    exact hs (hb.uniq hd hc hh (by rw [blk_md hmd]; exact fun h' => (by cases h')))
  refine ⟨fun hp => ?_, fun hp hal => ?_⟩
  · refine ⟨w.put dst r.1 ⟨r.2, o.size⟩, ?_, ⟨_, e1⟩, fun s d hd => ?_⟩
    · simp only [World.step, hc, ho, if_neg hne, Buf.assign, hp, Bool.false_eq_true, if_false, bind_ok, Cont.copyData, ne_eq,
        not_true_eq_false, h1, e]
    · simp only [put, upd_apply] at hd
      split at hd
      · cases hd
        exact ⟨e2, e3⟩
      · rename_i hs
        exact other s d hs hd
  · refine ⟨⟨r.1, upd (upd w.box dst (some ⟨r.2, o.size⟩)) src (some { o with size := 0 })⟩, ?_, ⟨_, e1⟩, fun s d hd => ?_⟩
    · simp only [World.step, hc, ho, if_neg hne, Buf.assign, hp, Bool.false_eq_true, if_false, bind_ok, Cont.copyData, ne_eq,
        not_true_eq_false, h1, Cont.moveFrom, if_neg hal, e]
    · simp only [upd_apply] at hd
      split at hd
      · cases hd
        exact other src o (Ne.symm hne) ho
      · split at hd
        · cases hd
          exact ⟨e2, e3⟩
        · rename_i hs
          exact other s d hs hd

/-- **C93 fails for `swap` of unequal allocators**: they are not exchanged even if they propagate on swap, so that the assertion
that they be equal fails. -/
theorem C93_swap_false {cfg : ACfg} {L : Lay} {w : World} {a b : Nat} {x y : Cont} (hx : w.box a = some x) (hy : w.box b = some y)
    (hal : x.buf.al ≠ y.buf.al) : w.step cfg L (.swap a b) = .error .assertFail := by
  have hne : a ≠ b := by
    rintro rfl
    rw [hx] at hy
    cases hy
    exact hal rfl
  simp only [World.step, hx, hy, if_neg hne, Buf.swapData, if_neg hal]
  rfl

/-! ## Examples -/

private def sep : Lay := ⟨false, 16, 8⟩
private def com : Lay := ⟨true, 16, 24⟩
private def std' : ACfg := ⟨false, true, true, true⟩

private def ops : List Op :=
  [.make 0 7, .rehash 0 1, .resized 0 1, .rehash 0 5, .resized 0 4, .makeN 1 8 3, .copyAssign 1 0, .moveMake 2 1 none, .copyMake 3 2 9,
   .rehash 3 8, .moveAssign 2 0]

private def gone : List Op := [.destroy 0, .destroy 3, .destroy 1, .destroy 2]

/-- Four containers; those moved from have no buffer; container 2 got the buffer and the allocator of 0. -/
example : ((memProg std' sep ops).toOption.map fun w => (memList w, w.box 0, w.box 1, w.box 2)) =
    some ([(2, ⟨7, .bytes, 23⟩), (3, ⟨7, .nodes, 7⟩), (10, ⟨9, .bytes, 31⟩), (11, ⟨9, .nodes, 15⟩)], some ⟨⟨7, 0, none, none⟩, 0⟩,
      some ⟨⟨8, 0, none, none⟩, 0⟩, some ⟨⟨7, 7, some 2, some 3⟩, 4⟩) := by
  decide +kernel

/-- The same in the combined layout with an allocator that does not propagate: elements are moved one by one from 0 to 2, both keep
their buffers. -/
example : ((memProg ⟨false, false, false, true⟩ com ops).toOption.map fun w => (memList w, w.box 0, w.box 2)) =
    some ([(1, ⟨7, .nodes, 8⟩), (3, ⟨8, .nodes, 8⟩), (5, ⟨9, .nodes, 17⟩)], some ⟨⟨7, 7, some 1, none⟩, 0⟩,
      some ⟨⟨8, 7, some 3, none⟩, 4⟩) := by
  decide +kernel

/-- Nothing remains. -/
example : ((memProg std' sep (ops ++ gone)).toOption.map memList, (memProg ⟨false, false, false, true⟩ com (ops ++ gone)).toOption.map
    memList) = (some [], some []) := by
  decide +kernel

/-- The move assignment at the end of `ops` frees the combined buffer with a wrong size if the allocator propagates. -/
example : (memProg std' com ops).toOption.isNone = true := by
  decide +kernel

/-- A container made with bucket count 0 and assigned to: 16 control bytes (and an array of no nodes) remain. -/
example : ((memProg std' sep [.makeN 0 7 0, .makeN 1 7 3, .resized 1 2, .copyAssign 0 1, .destroy 0, .destroy 1]).toOption.map
    memList) = some [(0, ⟨7, .bytes, 16⟩), (1, ⟨7, .nodes, 0⟩)] := by
  decide +kernel

end Tpp.Props
