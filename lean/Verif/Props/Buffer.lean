import Verif.Swiss.Buffer
import Verif.Props.Behaves

/-!
# C29, C35: allocation failure during growth, layout and deallocation of the buffers
-/

set_option linter.unusedSectionVars false

namespace Tpp.Swiss.Buf

/-! ## C29, the buffers -/

/-- C29, separate buffers: growing to `n ≠ 0` buckets either succeeds, and the old blocks are freed with their sizes,
or throws with buffer and heap as before; whichever allocation fails, nothing else changes, leaks or is freed. -/
theorem C29_resize_split {W : Nat} {h : Heap} {b : Split} (ho : b.Owns W h) (okM okN : Bool) {n : Nat} (hn : n ≠ 0) :
    ∃ r, b.resize W okM okN h n = .ok r ∧ r.threw = !(okM && okN) ∧ r.buf.Owns W r.heap ∧
      r.buf.others r.heap = b.others h ∧ (r.threw = true → r.buf = b ∧ r.heap.live = h.live) ∧
      (r.threw = false → r.buf.cap = n) := by
  have hnext := ho.fresh h.next (Nat.le_refl _)
  unfold Split.resize
  cases okM with
  | false =>
    simp only [Bool.false_eq_true, if_false]
    exact ⟨_, rfl, rfl, ho, rfl, fun _ => ⟨rfl, rfl⟩, fun h => by cases h⟩
  | true =>
    cases okN with
    | false =>
      simp only [Bool.false_eq_true, if_false, if_true, Heap.alloc]
      have hlive : upd (upd h.live h.next (some (.bytes (n + W)))) h.next none = h.live := by
        funext a
        rw [upd_apply]
        split
        · rename_i e; rw [e, hnext]
        · rename_i e; rw [upd_ne _ _ e]
      have hfree : ({ live := upd h.live h.next (some (.bytes (n + W))), next := h.next + 1 } : Heap).free (some h.next)
          (.bytes (n + W)) = .ok { live := h.live, next := h.next + 1 } := by
        unfold Heap.free
        simp only [upd_same, if_true, hlive]
      rw [hfree, bind_ok]
      refine ⟨_, rfl, rfl, ?_, ?_, fun _ => ⟨rfl, rfl⟩, fun h => by cases h⟩
      · exact { ho with fresh := fun a ha => ho.fresh a (by simp only at ha; omega) }
      · rfl
    | true =>
      simp only [if_true, Heap.alloc, ne_eq, hn, not_false_eq_true]
      have hmd : ∀ a, b.md = some a → a < h.next := fun a ha => ho.fresh.ne (ho.md_live a ha)
      have hnd : ∀ a, b.nd = some a → a < h.next := fun a ha => ho.fresh.ne (ho.nd_live a ha)
      rw [free_ok, bind_ok, free_ok, bind_ok]
      · refine ⟨_, rfl, rfl, ?_, ?_, fun h => (by cases h), fun _ => rfl⟩
        · constructor
          · intro a ha
            simp only at ha ⊢
            have h1 : a ≠ h.next := by omega
            have h2 : a ≠ h.next + 1 := by omega
            split
            · rfl
            · split
              · rfl
              · rw [upd_ne _ _ h2, upd_ne _ _ h1]
                exact ho.fresh a (by omega)
          · intro a ha
            cases ha
            simp only
            rw [if_neg (fun e => absurd (hnd _ e) (by omega)), if_neg (fun e => absurd (hmd _ e) (by omega)),
              upd_ne _ _ (by omega), upd_same]
          · intro a ha
            cases ha
            simp only
            rw [if_neg (fun e => absurd (hnd _ e) (by omega)), if_neg (fun e => absurd (hmd _ e) (by omega)), upd_same]
          · simp
          · intro e; cases e
        · funext a
          unfold Split.others
          simp only [Option.some.injEq]
          by_cases e1 : h.next = a
          · subst e1
            rw [if_pos (Or.inl rfl), hnext]
            simp
          · by_cases e2 : h.next + 1 = a
            · subst e2
              rw [if_pos (Or.inr rfl), ho.fresh _ (by omega)]
              simp
            · rw [if_neg (fun h => h.elim e1 e2), upd_ne _ _ (fun h => e2 h.symm), upd_ne _ _ (fun h => e1 h.symm)]
              by_cases e3 : b.nd = some a
              · rw [if_pos e3, if_pos (Or.inr e3)]
              · rw [if_neg e3]
                by_cases e4 : b.md = some a
                · rw [if_pos e4, if_pos (Or.inl e4)]
                · rw [if_neg e4, if_neg (fun h => h.elim e4 e3)]
      · intro a ha
        simp only
        have h1 := hnd a ha
        have h2 : ¬ b.md = some a := by
          intro e
          have x := ho.md_live a e
          rw [ho.nd_live a ha] at x
          cases x
        rw [if_neg h2, upd_ne _ _ (by omega), upd_ne _ _ (by omega)]
        exact ho.nd_live a ha
      · intro a ha
        simp only
        have h1 := hmd a ha
        rw [upd_ne _ _ (by omega), upd_ne _ _ (by omega)]
        exact ho.md_live a ha

/-- C29, combined buffer. -/
theorem C29_resize_combined {W s : Nat} {h : Heap} {b : Comb} (ho : b.Owns W s h) (okA : Bool) (n : Nat) :
    ∃ r, b.resize W s okA h n = .ok r ∧ r.threw = !okA ∧ r.buf.Owns W s r.heap ∧
      r.buf.others r.heap = b.others h ∧ (r.threw = true → r.buf = b ∧ r.heap.live = h.live) ∧
      (r.threw = false → r.buf.cap = n) := by
  have hnext := ho.fresh h.next (Nat.le_refl _)
  unfold Comb.resize
  cases okA with
  | false =>
    simp only [Bool.false_eq_true, if_false]
    exact ⟨_, rfl, rfl, ho, rfl, fun _ => ⟨rfl, rfl⟩, fun h => by cases h⟩
  | true =>
    have hd : ∀ a, b.data = some a → a < h.next := fun a ha => ho.fresh.ne (ho.live a ha)
    simp only [if_true, Heap.alloc]
    rw [free_ok, bind_ok]
    · refine ⟨_, rfl, rfl, ?_, ?_, fun h => (by cases h), fun _ => rfl⟩
      · constructor
        · intro a ha
          simp only at ha ⊢
          split
          · rfl
          · rw [upd_ne _ _ (by omega)]
            exact ho.fresh a (by omega)
        · intro a ha
          cases ha
          simp only
          rw [if_neg (fun e => absurd (hd _ e) (by omega)), upd_same]
        · intro e; cases e
      · funext a
        unfold Comb.others
        simp only [Option.some.injEq]
        by_cases e1 : h.next = a
        · subst e1
          rw [if_pos rfl, hnext]
          simp
        · rw [if_neg e1, upd_ne _ _ (fun h => e1 h.symm)]
    · intro a ha
      simp only
      rw [upd_ne _ _ (by have := hd a ha; omega)]
      exact ho.live a ha

/-- An allocator with one foreign block, and a buffer of three buckets in it. -/
def demoHeap : Heap :=
  { live := fun a => if a = 0 then some (.bytes 5) else if a = 1 then some (.bytes 19) else if a = 2 then some (.nodes 3)
      else none, next := 3 }

example : (⟨3, some 1, some 2⟩ : Split).Owns 16 demoHeap ∧
    ((⟨3, some 1, some 2⟩ : Split).resize 16 true false demoHeap 7).map (fun r => (r.threw, r.buf.cap, r.heap.live 1,
      r.heap.live 3)) = .ok (true, 3, some (.bytes 19), none) ∧
    ((⟨3, some 1, some 2⟩ : Split).resize 16 true true demoHeap 7).map (fun r => (r.threw, r.buf.cap, r.heap.live 1,
      r.heap.live 3)) = .ok (false, 7, none, some (.bytes 23)) := by
  refine ⟨⟨?_, ?_, ?_, ?_, ?_⟩, by decide, by decide⟩
  · intro a ha
    have : 3 ≤ a := ha
    simp only [demoHeap]
    rw [if_neg (by omega), if_neg (by omega), if_neg (by omega)]
  · intro a ha; cases ha; rfl
  · intro a ha; cases ha; rfl
  · simp
  · intro e; cases e

/-! ## C35 -/

/-- C35, layout: for every bucket count, block width and node size the nodes of a combined buffer start at or after the
end of the `n + W` control bytes, less than one node later, at a multiple of the node size, and end exactly at the end
of the allocation. -/
theorem C35_layout (W : Nat) {s : Nat} (hs : 0 < s) (n : Nat) :
    n + W ≤ nodesStart W s n * s ∧ nodesStart W s n * s < n + W + s ∧ s ∣ nodesStart W s n * s ∧
    nodesStart W s n * s + n * s = bufferSize W s n * s := by
  have h1 := Nat.div_add_mod (n + W) s
  have h2 := Nat.mod_lt (n + W) hs
  rw [Nat.mul_comm] at h1
  refine ⟨?_, ?_, Nat.dvd_mul_left _ _, ?_⟩
  · unfold nodesStart
    rw [Nat.add_mul]
    split <;> omega
  · unfold nodesStart
    rw [Nat.add_mul]
    split <;> omega
  · unfold bufferSize
    rw [Nat.add_mul]

example : (nodesStart 16 24 7, bufferSize 16 24 7, nodesStart 16 4 7, nodesStart 16 23 7) = (1, 8, 6, 1) := by decide

/-- C35, deallocation sizes: false for the combined buffer, whose assignment operator (used by every move assignment
with `std::allocator`) passes the bucket count instead of the size of the allocation — for every non-empty buffer. -/
theorem C35_dealloc_false {W s : Nat} (hW : 0 < W) (hs : 0 < s) {h : Heap} {b : Comb} (ho : b.Owns W s h)
    (hb : b.data ≠ none) : b.assign h = .error .badFree := by
  obtain ⟨a, ha⟩ := Option.ne_none_iff_exists'.mp hb
  unfold Comb.assign
  rw [ha]
  unfold Heap.free
  simp only
  rw [ho.live a ha, if_neg]
  · rfl
  · intro e
    have e : bufferSize W s b.cap = b.cap := by
      injection e with e
      injection e
    have := (C35_layout W hs b.cap).1
    unfold bufferSize at e
    have h0 : nodesStart W s b.cap = 0 := by omega
    rw [h0] at this
    omega

/-- Operations on a buffer. -/
inductive BufOp
  | resize (n : Nat) (okM okN : Bool)
  | deallocate
  | assign

def Split.step (W : Nat) (h : Heap) (b : Split) : BufOp → M (Heap × Split)
  | .resize n okM okN => do
    let r ← b.resize W okM okN h n
    .ok (r.heap, r.buf)
  | .deallocate => b.deallocate W h
  | .assign => b.assign W h

def Comb.step (W s : Nat) (h : Heap) (b : Comb) : BufOp → M (Heap × Comb)
  | .resize n okA _ => do
    let r ← b.resize W s okA h n
    .ok (r.heap, r.buf)
  | .deallocate => b.deallocate W s h
  | .assign => b.assign h

def Split.run (W : Nat) (h : Heap) (b : Split) (ops : List BufOp) : M (Heap × Split) :=
  ops.foldlM (fun hb op => hb.2.step W hb.1 op) (h, b)

def Comb.run (W s : Nat) (h : Heap) (b : Comb) (ops : List BufOp) : M (Heap × Comb) :=
  ops.foldlM (fun hb op => hb.2.step W s hb.1 op) (h, b)

theorem split_deallocate {W : Nat} {h : Heap} {b : Split} (ho : b.Owns W h) :
    b.deallocate W h = .ok ({ live := b.others h, next := h.next }, Split.init) := by
  unfold Split.deallocate
  rw [free_ok ho.md_live, bind_ok, free_ok, bind_ok]
  · congr 3
    unfold Split.others
    funext a
    by_cases e3 : b.nd = some a
    · rw [if_pos e3, if_pos (Or.inr e3)]
    · rw [if_neg e3]
      simp only
      by_cases e4 : b.md = some a
      · rw [if_pos e4, if_pos (Or.inl e4)]
      · rw [if_neg e4, if_neg (fun h => h.elim e4 e3)]
  · intro a ha
    simp only
    rw [if_neg]
    · exact ho.nd_live a ha
    · intro e
      have x := ho.md_live a e
      rw [ho.nd_live a ha] at x
      cases x

theorem split_empty_owns {W : Nat} {h : Heap} {b : Split} (ho : b.Owns W h) :
    Split.init.Owns W { live := b.others h, next := h.next } where
  fresh := by
    intro a ha
    unfold Split.others
    simp only
    split
    · rfl
    · exact ho.fresh a ha
  md_live := by intro a ha; cases ha
  nd_live := by intro a ha; cases ha
  both := Iff.rfl
  empty := fun _ => rfl

theorem split_empty_others (f : Nat → Option Block) (n : Nat) : Split.init.others { live := f, next := n } = f := by
  funext a
  simp [Split.others, Split.init]

/-- C35, separate buffers: over any history every deallocation passes the size that was allocated (no `badFree`), the
buffer keeps owning exactly its blocks and no other block is touched; after a final deallocation nothing is leaked. -/
theorem C35_dealloc_split {W : Nat} (ops : List BufOp) (hn : ∀ n a b, BufOp.resize n a b ∈ ops → n ≠ 0) :
    ∀ {h : Heap} {b : Split}, b.Owns W h →
      ∃ h' b', b.run W h ops = .ok (h', b') ∧ b'.Owns W h' ∧ b'.others h' = b.others h ∧
        (b'.deallocate W h').map (fun r => r.1.live) = .ok (b.others h) := by
  induction ops with
  | nil =>
    intro h b ho
    refine ⟨h, b, rfl, ho, rfl, ?_⟩
    rw [split_deallocate ho]
    rfl
  | cons op ops ih =>
    intro h b ho
    have hstep : ∃ h1 b1, b.step W h op = .ok (h1, b1) ∧ b1.Owns W h1 ∧ b1.others h1 = b.others h := by
      cases op with
      | resize n okM okN =>
        obtain ⟨r, h1, _, h3, h4, _⟩ := C29_resize_split ho okM okN (hn n okM okN List.mem_cons_self)
        exact ⟨r.heap, r.buf, by unfold Split.step; simp only; rw [h1, bind_ok], h3, h4⟩
      | deallocate =>
        refine ⟨_, _, split_deallocate ho, split_empty_owns ho, ?_⟩
        rw [split_empty_others]
      | assign =>
        refine ⟨_, _, split_deallocate ho, split_empty_owns ho, ?_⟩
        rw [split_empty_others]
    obtain ⟨h1, b1, e1, o1, s1⟩ := hstep
    obtain ⟨h2, b2, e2, o2, s2, d2⟩ := ih (fun n a b hm => hn n a b (List.mem_cons_of_mem _ hm)) o1
    refine ⟨h2, b2, ?_, o2, s2.trans s1, s1 ▸ d2⟩
    unfold Split.run at e2 ⊢
    rw [List.foldlM_cons]
    simp only
    rw [e1, bind_ok, e2]

/-- C35, combined buffer: the same for histories without buffer assignment on a non-empty buffer, that is without
copy/move assignment of containers with propagating allocators.  Missing: those assignments (`C35_dealloc_false`). -/
theorem C35_dealloc_combined_partial {W s : Nat} (ops : List BufOp) (hn : ∀ op ∈ ops, op ≠ .assign) :
    ∀ {h : Heap} {b : Comb}, b.Owns W s h →
      ∃ h' b', b.run W s h ops = .ok (h', b') ∧ b'.Owns W s h' ∧ b'.others h' = b.others h ∧
        (b'.deallocate W s h').map (fun r => r.1.live) = .ok (b.others h) := by
  have hdel : ∀ {h : Heap} {b : Comb}, b.Owns W s h →
      b.deallocate W s h = .ok ({ live := b.others h, next := h.next }, Comb.init) := by
    intro h b ho
    unfold Comb.deallocate
    rw [free_ok ho.live, bind_ok]
    rfl
  induction ops with
  | nil =>
    intro h b ho
    refine ⟨h, b, rfl, ho, rfl, ?_⟩
    rw [hdel ho]
    rfl
  | cons op ops ih =>
    intro h b ho
    have hstep : ∃ h1 b1, b.step W s h op = .ok (h1, b1) ∧ b1.Owns W s h1 ∧ b1.others h1 = b.others h := by
      cases op with
      | resize n okM okN =>
        obtain ⟨r, h1, _, h3, h4, _⟩ := C29_resize_combined ho okM n
        exact ⟨r.heap, r.buf, by unfold Comb.step; simp only; rw [h1, bind_ok], h3, h4⟩
      | deallocate =>
        refine ⟨_, _, hdel ho, ⟨?_, ?_, fun _ => rfl⟩, ?_⟩
        · intro a ha
          unfold Comb.others
          simp only
          split
          · rfl
          · exact ho.fresh a ha
        · intro a ha; cases ha
        · funext a
          simp [Comb.others, Comb.init]
      | assign => exact absurd rfl (hn _ List.mem_cons_self)
    obtain ⟨h1, b1, e1, o1, s1⟩ := hstep
    obtain ⟨h2, b2, e2, o2, s2, d2⟩ := ih (fun op hm => hn op (List.mem_cons_of_mem _ hm)) o1
    refine ⟨h2, b2, ?_, o2, s2.trans s1, s1 ▸ d2⟩
    unfold Comb.run at e2 ⊢
    rw [List.foldlM_cons]
    simp only
    rw [e1, bind_ok, e2]

example : (Comb.run 16 24 ⟨fun _ => none, 0⟩ Comb.init
      [.resize 1 true true, .resize 3 true true, .resize 7 false true, .deallocate, .resize 3 true true]).map
      (fun r => (r.2.cap, r.2.data, r.1.live 1, r.1.live 2)) = .ok (3, some 2, none, some (.nodes 4)) ∧
    (Comb.run 16 24 ⟨fun _ => none, 0⟩ Comb.init [.resize 1 true true, .assign]).map (fun r => r.2.cap) =
      .error .badFree := by decide

/-! ## C63 -/

/-- C63, constructors: false for separate buffers.  If the second allocation of a constructor fails, the first block
stays allocated: the container under construction has no destructor yet and the buffer type has none at all. -/
theorem C63_construct_false {W : Nat} {h : Heap} (hf : h.Fresh) (n : Nat) :
    ∃ r, Split.init.allocate W true false h n = .ok r ∧ r.threw = true ∧
      h.live h.next = none ∧ r.heap.live h.next = some (.bytes (n + W)) :=
  ⟨_, rfl, rfl, hf _ (Nat.le_refl _), upd_same ..⟩

/-- C63, copy assignment: false.  If growing the target of a copy assignment fails, the target keeps the pointers to its
freed blocks, and its destructor frees a block that it does not own (or with the wrong size). -/
theorem C63_assign_false {W : Nat} {h : Heap} {b : Split} (ho : b.Owns W h) {n : Nat} (hc : b.cap < n) (h0 : b.cap ≠ 0)
    (okM okN : Bool) (hfail : (okM && okN) = false) :
    ∃ r, b.reallocate W okM okN h n = .ok r ∧ r.threw = true ∧ r.buf.deallocate W r.heap = .error .badFree := by
  obtain ⟨m, hm⟩ := Option.ne_none_iff_exists'.mp (fun e => h0 (ho.empty e))
  obtain ⟨d, hd⟩ := Option.ne_none_iff_exists'.mp (fun e => h0 (ho.empty (ho.both.mpr e)))
  have hmd : m ≠ d := by
    intro e
    have x := ho.md_live m hm
    rw [e, ho.nd_live d hd] at x
    cases x
  have hfree := split_deallocate ho
  unfold Split.deallocate at hfree
  unfold Split.reallocate
  rw [if_pos hc, if_pos h0]
  have hfree2 : ∃ h1, h.free b.md (.bytes (b.cap + W)) = .ok h1 ∧
      h1.free b.nd (.nodes b.cap) = .ok { live := b.others h, next := h.next } := by
    cases e1 : h.free b.md (.bytes (b.cap + W)) with
    | error x => rw [e1] at hfree; cases hfree
    | ok h1 =>
      rw [e1, bind_ok] at hfree
      refine ⟨h1, rfl, ?_⟩
      cases e2 : h1.free b.nd (.nodes b.cap) with
      | error x => rw [e2] at hfree; cases hfree
      | ok h2 =>
        rw [e2, bind_ok] at hfree
        injection hfree with hfree
        injection hfree with hfree
        rw [hfree]
  obtain ⟨h1, e1, e2⟩ := hfree2
  rw [e1, bind_ok, e2, bind_ok]
  cases okM with
  | false =>
    refine ⟨_, rfl, rfl, ?_⟩
    unfold Split.deallocate Heap.free Split.others
    simp [hm]
  | true =>
    cases okN with
    | true => cases hfail
    | false =>
      refine ⟨_, rfl, rfl, ?_⟩
      simp only [Heap.alloc]
      unfold Split.deallocate Heap.free
      simp only [upd_same]
      rw [if_neg]
      · rfl
      · intro e
        injection e with e
        injection e with e
        omega

/-- C63 for the combined buffer: the same failure of copy assignment. -/
theorem C63_assign_combined_false {W s : Nat} {h : Heap} {b : Comb} (ho : b.Owns W s h) {n : Nat} (hc : b.cap < n)
    (h0 : b.cap ≠ 0) :
    ∃ r, b.reallocate W s false h n = .ok r ∧ r.threw = true ∧ r.buf.deallocate W s r.heap = .error .badFree := by
  obtain ⟨m, hm⟩ := Option.ne_none_iff_exists'.mp (fun e => h0 (ho.empty e))
  unfold Comb.reallocate
  rw [if_pos hc, if_pos h0, free_ok ho.live, bind_ok]
  refine ⟨_, rfl, rfl, ?_⟩
  unfold Comb.deallocate Heap.free
  simp [hm]

/-- C63: a container constructed with bucket count 0 owns a block of control bytes; copy assignment to it leaks the
block although every allocation succeeds. -/
theorem C63_zero_false {W s : Nat} {h : Heap} (hf : h.Fresh) {n : Nat} (hn : 0 < n) :
    ∃ r r', Comb.init.allocate W s true h 0 = .ok r ∧ r.buf.Owns W s r.heap ∧
      r.buf.reallocate W s true r.heap n = .ok r' ∧ r'.threw = false ∧ h.live h.next = none ∧
      (r'.buf.deallocate W s r'.heap).map (fun x => x.1.live h.next) = .ok (some (.nodes (bufferSize W s 0))) := by
  refine ⟨_, ⟨⟨upd (upd h.live h.next (some (.nodes (bufferSize W s 0)))) (h.next + 1)
        (some (.nodes (bufferSize W s n))), h.next + 2⟩, ⟨n, some (h.next + 1)⟩, false⟩, rfl, ⟨?_, ?_, ?_⟩, ?_, rfl,
      hf _ (Nat.le_refl _), ?_⟩
  · intro a ha
    simp only at ha ⊢
    rw [upd_ne _ _ (by omega)]
    exact hf a (by omega)
  · intro a ha
    cases ha
    exact upd_same ..
  · intro e; cases e
  · unfold Comb.reallocate
    simp only
    rw [if_pos hn]
    rfl
  · unfold Comb.deallocate Heap.free
    simp only [upd_same, if_true, bind_ok]
    show Except.ok _ = _
    congr 1
    simp only
    rw [upd_ne _ _ (by omega), upd_ne _ _ (by omega), upd_same]

/-- C63 as far as it holds.  Constructors: nothing is leaked if the failing allocation is the first one (always, for the
combined buffer), and a constructed buffer owns its blocks.  Assignment: the target stays destructible if it had no
buckets, or needs no new ones, or no allocation fails.  Missing: the second allocation of a constructor with separate
buffers, and a failing assignment to a container with buckets. -/
theorem C63_alloc_failure_partial {W s : Nat} {h : Heap} (n : Nat) :
    (h.Fresh → ∀ okM, ∃ r, Split.init.allocate W okM okM h n = .ok r ∧ r.buf.Owns W r.heap ∧
      r.buf.others r.heap = h.live ∧ (r.threw = true → r.heap.live = h.live)) ∧
    (h.Fresh → ∀ okA, ∃ r, Comb.init.allocate W s okA h n = .ok r ∧ r.buf.Owns W s r.heap ∧
      r.buf.others r.heap = h.live ∧ (r.threw = true → r.heap.live = h.live)) ∧
    (∀ (b : Comb), b.Owns W s h → (b.cap = 0 → b.data = none) → ∀ okA, b.cap = 0 ∨ n ≤ b.cap ∨ okA = true →
      ∃ r, b.reallocate W s okA h n = .ok r ∧ r.buf.Owns W s r.heap ∧ r.buf.others r.heap = b.others h) := by
  refine ⟨?_, ?_, ?_⟩
  · intro hf okM
    cases okM with
    | false =>
      refine ⟨_, rfl, ⟨hf, fun a ha => (by cases ha), fun a ha => (by cases ha), Iff.rfl, fun _ => rfl⟩, ?_, fun _ => rfl⟩
      exact split_empty_others _ _
    | true =>
      refine ⟨_, rfl, ⟨?_, ?_, ?_, ?_, ?_⟩, ?_, fun e => by cases e⟩
      · intro a ha
        simp only [Heap.alloc] at ha ⊢
        rw [upd_ne _ _ (by omega), upd_ne _ _ (by omega)]
        exact hf a (by omega)
      · intro a ha
        cases ha
        simp only [Heap.alloc]
        rw [upd_ne _ _ (by omega), upd_same]
      · intro a ha
        cases ha
        simp only [Heap.alloc]
        rw [upd_same]
      · simp
      · intro e; cases e
      · funext a
        simp only [Split.others, Heap.alloc, Option.some.injEq]
        split
        · rename_i e
          rcases e with e | e
          · rw [← e, hf _ (Nat.le_refl _)]
          · rw [← e, hf _ (by omega)]
        · rename_i e
          rw [upd_ne _ _ (fun x => e (Or.inr x.symm)), upd_ne _ _ (fun x => e (Or.inl x.symm))]
  · intro hf okA
    cases okA with
    | false =>
      refine ⟨_, rfl, ⟨hf, fun a ha => (by cases ha), fun _ => rfl⟩, ?_, fun _ => rfl⟩
      funext a
      simp [Comb.others, Comb.init]
    | true =>
      refine ⟨_, rfl, ⟨?_, ?_, ?_⟩, ?_, fun e => by cases e⟩
      · intro a ha
        simp only [Heap.alloc] at ha ⊢
        rw [upd_ne _ _ (by omega)]
        exact hf a (by omega)
      · intro a ha
        cases ha
        simp only [Heap.alloc]
        rw [upd_same]
      · intro e; cases e
      · funext a
        simp only [Comb.others, Heap.alloc, Option.some.injEq]
        split
        · rename_i e
          rw [← e, hf _ (Nat.le_refl _)]
        · rename_i e
          rw [upd_ne _ _ (fun x => e x.symm)]
  · intro b ho h0 okA hok
    unfold Comb.reallocate
    by_cases hc : b.cap < n
    · rw [if_pos hc]
      have hd : ∀ a, b.data = some a → a < h.next := fun a ha => ho.fresh.ne (ho.live a ha)
      have hmain : ∀ f : Nat → Option Block, f = b.others h → (∀ a, h.next ≤ a → f a = none) →
          ∃ r, (if okA = true then
              (.ok ⟨⟨upd f h.next (some (.nodes (bufferSize W s n))), h.next + 1⟩, ⟨n, some h.next⟩, false⟩ : M (Res Comb))
            else .ok ⟨⟨f, h.next⟩, b, true⟩) = .ok r ∧
            ((okA = true ∨ b.data = none) → r.buf.Owns W s r.heap ∧ r.buf.others r.heap = b.others h) := by
        intro f hf1 hf2
        cases okA with
        | true =>
          refine ⟨_, rfl, fun _ => ⟨⟨?_, ?_, ?_⟩, ?_⟩⟩
          · intro a ha
            simp only at ha ⊢
            rw [upd_ne _ _ (by omega)]
            exact hf2 a (by omega)
          · intro a ha
            cases ha
            exact upd_same ..
          · intro e; cases e
          · rw [← hf1]
            funext a
            simp only [Comb.others, Option.some.injEq]
            split
            · rename_i e
              rw [← e, hf2 _ (Nat.le_refl _)]
            · rename_i e
              rw [upd_ne _ _ (fun x => e x.symm)]
        | false =>
          refine ⟨_, rfl, fun e => ?_⟩
          have e := e.resolve_left (by simp)
          refine ⟨⟨hf2, fun a ha => (by rw [e] at ha; cases ha), ho.empty⟩, ?_⟩
          rw [← hf1]
          funext a
          simp [Comb.others, e]
      have hoth : ∀ a, h.next ≤ a → b.others h a = none := by
        intro a ha
        unfold Comb.others
        split
        · rfl
        · exact ho.fresh a ha
      by_cases hz : b.cap = 0
      · rw [if_neg (by simpa using hz), bind_ok]
        have hn := h0 hz
        have hl : h.live = b.others h := by
          funext a
          simp [Comb.others, hn]
        obtain ⟨r, h1, h2⟩ := hmain h.live hl ho.fresh
        exact ⟨r, h1, h2 (Or.inr hn)⟩
      · rw [if_pos hz, free_ok ho.live, bind_ok]
        obtain ⟨r, h1, h2⟩ := hmain (b.others h) rfl hoth
        exact ⟨r, h1, h2 (Or.inl (hok.resolve_left hz |>.resolve_left (by omega)))⟩
    · rw [if_neg hc]
      exact ⟨_, rfl, ho, rfl⟩

example : (Split.init.allocate 16 true false ⟨fun _ => none, 0⟩ 7).map (fun r => (r.threw, r.heap.live 0)) =
      .ok (true, some (.bytes 23)) ∧
    ((⟨3, some 1, some 2⟩ : Split).reallocate 16 false true demoHeap 7 >>= fun r => r.buf.deallocate 16 r.heap).map
      (fun r => r.2.cap) = .error .badFree := by decide

end Tpp.Swiss.Buf

/-! ## C29, the containers -/

namespace Tpp.Swiss

variable {K V : Type} [DecidableEq K]

/-- `do_rehash` (swiss_table.hpp 1376-1393) with an allocation that may fail: `resize` then throws before it changes
anything (`C29_resize_split`, `C29_resize_combined`).  Returns the container and whether it threw. -/
def Table.doRehashA (isa : Isa) (fails : Bool) (t : Table K V) (n : Nat) : M (Table K V × Bool) :=
  if fails then .ok (t, true)
  else do
    let t ← t.doRehash isa n
    .ok (t, false)

/-- `emplace_node` (swiss_table.hpp 1264-1300) with allocations that may fail. -/
def Table.emplaceNodeA (isa : Isa) (fails : Bool) (t : Table K V) (n : Node K V) : M (Table K V × Option Nat) := do
  if t.cap = 0 then
    let (t, threw) ← t.doRehashA isa fails 1
    if threw then .ok (t, none)
    else
      let target ← t.findAvailable isa n.hash
      let (t, p) ← t.commit isa target n
      .ok (t, some p)
  else
    let target ← t.findAvailable isa n.hash
    let c ← t.readCtl target
    if t.numEmpty = 0 ∧ c ≠ .deleted then
      if t.cap > isa.W ∧ t.size * 32 ≤ t.cap * 25 then
        let t ← t.rehashDeleted isa
        let target ← t.findAvailable isa n.hash
        let (t, p) ← t.commit isa target n
        .ok (t, some p)
      else
        let (t, threw) ← t.doRehashA isa fails ((t.cap + 1) * 2 - 1)
        if threw then .ok (t, none)
        else
          let target ← t.findAvailable isa n.hash
          let (t, p) ← t.commit isa target n
          .ok (t, some p)
    else
      let (t, p) ← t.commit isa target n
      .ok (t, some p)

/-- `do_insert` (swiss_table.hpp 1330-1347) with allocations that may fail; `none` if it threw. -/
def Table.insertA (isa : Isa) (hash : K → Nat) (fails : Bool) (t : Table K V) (k : K) (v : V) :
    M (Table K V × Option (Nat × Bool)) := do
  let h := hash k
  let pos ← t.findNode isa k h
  if pos = t.cap then
    let (t, p) ← t.emplaceNodeA isa fails ⟨k, v, h⟩
    .ok (t, p.map fun p => (p, true))
  else .ok (t, some (pos, false))

theorem emplaceNodeA_eq {isa : Isa} (fails : Bool) (t : Table K V) (n : Node K V) :
    (fails = true ∧ t.emplaceNodeA isa fails n = .ok (t, none)) ∨
    t.emplaceNodeA isa fails n = (t.emplaceNode isa n).map fun r => (r.1, some r.2) := by
  cases fails with
  | false =>
    right
    unfold Table.emplaceNodeA Table.emplaceNode Table.prepare Table.doRehashA
    simp only [Bool.false_eq_true, if_false]
    by_cases hc : t.cap = 0
    · simp only [if_pos hc]
      cases t.doRehash isa 1 with
      | error e => rfl
      | ok t1 =>
        simp only [bind_ok, Bool.false_eq_true, if_false]
        cases t1.findAvailable isa n.hash with
        | error e => rfl
        | ok p =>
          simp only [bind_ok]
          cases t1.commit isa p n <;> rfl
    · simp only [if_neg hc]
      cases t.findAvailable isa n.hash with
      | error e => rfl
      | ok p =>
        simp only [bind_ok]
        cases t.readCtl p with
        | error e => rfl
        | ok c =>
          simp only [bind_ok]
          by_cases h1 : t.numEmpty = 0 ∧ c ≠ .deleted
          · simp only [if_pos h1]
            by_cases h2 : t.cap > isa.W ∧ t.size * 32 ≤ t.cap * 25
            · simp only [if_pos h2]
              cases t.rehashDeleted isa with
              | error e => rfl
              | ok t1 =>
                simp only [bind_ok]
                cases t1.findAvailable isa n.hash with
                | error e => rfl
                | ok p =>
                  simp only [bind_ok]
                  cases t1.commit isa p n <;> rfl
            · simp only [if_neg h2]
              cases t.doRehash isa ((t.cap + 1) * 2 - 1) with
              | error e => rfl
              | ok t1 =>
                simp only [bind_ok, Bool.false_eq_true, if_false]
                cases t1.findAvailable isa n.hash with
                | error e => rfl
                | ok p =>
                  simp only [bind_ok]
                  cases t1.commit isa p n <;> rfl
          · simp only [if_neg h1]
            simp only [bind_ok]
            cases t.commit isa p n <;> rfl
  | true =>
    unfold Table.emplaceNodeA Table.emplaceNode Table.prepare Table.doRehashA
    simp only [if_true]
    by_cases hc : t.cap = 0
    · left
      refine ⟨trivial, ?_⟩
      simp only [if_pos hc, bind_ok, if_true]
    · simp only [if_neg hc]
      cases t.findAvailable isa n.hash with
      | error e => right; rfl
      | ok p =>
        simp only [bind_ok]
        cases t.readCtl p with
        | error e => right; rfl
        | ok c =>
          simp only [bind_ok]
          by_cases h1 : t.numEmpty = 0 ∧ c ≠ .deleted
          · simp only [if_pos h1]
            by_cases h2 : t.cap > isa.W ∧ t.size * 32 ≤ t.cap * 25
            · right
              simp only [if_pos h2]
              cases t.rehashDeleted isa with
              | error e => rfl
              | ok t1 =>
                simp only [bind_ok]
                cases t1.findAvailable isa n.hash with
                | error e => rfl
                | ok p =>
                  simp only [bind_ok]
                  cases t1.commit isa p n <;> rfl
            · left
              refine ⟨trivial, ?_⟩
              simp only [if_neg h2, bind_ok, if_true]
          · right
            simp only [if_neg h1]
            simp only [bind_ok]
            cases t.commit isa p n <;> rfl

/-- `insert_or_assign` (swiss_table.hpp 989-990, 1348-1374) with allocations that may fail. -/
def Table.insertOrAssignA (isa : Isa) (hash : K → Nat) (fails : Bool) (t : Table K V) (k : K) (v : V) :
    M (Table K V × Option (Nat × Bool)) := do
  let h := hash k
  let pos ← t.findNode isa k h
  if pos = t.cap then
    let (t, p) ← t.emplaceNodeA isa fails ⟨k, v, h⟩
    .ok (t, p.map fun p => (p, true))
  else
    let n ← t.readNode pos
    .ok ({ t with node := upd t.node pos (some { n with val := v }) }, some (pos, false))

/-- `reserve` (swiss_table.hpp 926-930) with allocations that may fail. -/
def Table.reserveA (isa : Isa) (fails : Bool) (t : Table K V) (n : Nat) : M (Table K V × Bool) :=
  if n > t.size + t.numEmpty then t.doRehashA isa fails (alignCapacity (minCapacity isa n)) else .ok (t, false)

/-- `rehash` (swiss_table.hpp 1124-1131) with allocations that may fail. -/
def Table.rehashA (isa : Isa) (fails : Bool) (t : Table K V) (n : Nat) : M (Table K V × Bool) :=
  if n = 0 ∧ t.size = 0 then .ok (t, false)
  else
    let newCap := alignCapacity (n ||| minCapacity isa n)
    if n = 0 ∨ newCap > t.cap then t.doRehashA isa fails newCap else .ok (t, false)

theorem emplaceA_ok {isa : Isa} {hash : K → Nat} {t : Table K V} (h : Inv isa hash t) (fails : Bool) (k : K) (v : V)
    (hno : t.findNode isa k (hash k) = .ok t.cap) :
    (fails = true ∧ t.emplaceNodeA isa fails ⟨k, v, hash k⟩ = .ok (t, none)) ∨
    (∃ t' p, t.emplaceNodeA isa fails ⟨k, v, hash k⟩ = .ok (t', some p) ∧
      t.emplaceNode isa ⟨k, v, hash k⟩ = .ok (t', p)) := by
  rcases emplaceNodeA_eq (isa := isa) fails t ⟨k, v, hash k⟩ with e | e
  · exact Or.inl e
  · right
    obtain ⟨t1, p1, b1, h1, _⟩ := insert_spec h k v
    unfold Table.insert at h1
    simp only [hno, bind_ok, if_true] at h1
    cases he : t.emplaceNode isa ⟨k, v, hash k⟩ with
    | error x => rw [he] at h1; cases h1
    | ok r =>
      rw [he] at e
      exact ⟨r.1, r.2, e, rfl⟩

/-- C29: an insertion throws only if an allocation fails, and then the container is unchanged; an insertion that does
not throw does exactly what `C06_insert` describes, and an insertion of a present key never throws. -/
theorem C29_insert {isa : Isa} {hash : K → Nat} {t : Table K V} (h : Reachable isa hash t) {m : List (K × V)}
    (hb : Behaves isa hash t m) (fails : Bool) (k : K) (v : V) :
    (fails = true ∧ Spec.lookup m k = none ∧ t.insertA isa hash fails k v = .ok (t, none)) ∨
    (∃ t' p b, t.insertA isa hash fails k v = .ok (t', some (p, b)) ∧ t.insert isa hash k v = .ok (t', p, b)) := by
  have hm := hb.contents_perm h.inv
  have hl := Spec.lookup_perm hm h.inv.contents_uniq k
  unfold Table.insertA Table.insert
  simp only
  rcases find_cases h.inv k with ⟨i, n, hi, hn, hk, hf, hl'⟩ | ⟨hno, hf, hl'⟩
  · right
    rw [hf, bind_ok, bind_ok, if_neg (by omega), if_neg (by omega)]
    exact ⟨t, i, false, rfl, rfl⟩
  · rw [hf, bind_ok, bind_ok, if_pos rfl, if_pos rfl]
    rcases emplaceA_ok h.inv fails k v hf with ⟨e1, e2⟩ | ⟨t', p, e1, e2⟩
    · left
      rw [e2, bind_ok]
      exact ⟨e1, hl ▸ hl', rfl⟩
    · right
      rw [e1, e2, bind_ok, bind_ok]
      exact ⟨t', p, true, rfl, rfl⟩

/-- C29 for `insert_or_assign`. -/
theorem C29_insert_or_assign {isa : Isa} {hash : K → Nat} {t : Table K V} (h : Reachable isa hash t) {m : List (K × V)}
    (hb : Behaves isa hash t m) (fails : Bool) (k : K) (v : V) :
    (fails = true ∧ Spec.lookup m k = none ∧ t.insertOrAssignA isa hash fails k v = .ok (t, none)) ∨
    (∃ t' p b, t.insertOrAssignA isa hash fails k v = .ok (t', some (p, b)) ∧
      t.insertOrAssign isa hash k v = .ok (t', p, b)) := by
  have hm := hb.contents_perm h.inv
  have hl := Spec.lookup_perm hm h.inv.contents_uniq k
  unfold Table.insertOrAssignA Table.insertOrAssign Table.insertOrAssignWith
  simp only
  rcases find_cases h.inv k with ⟨i, n, hi, hn, hk, hf, hl'⟩ | ⟨hno, hf, hl'⟩
  · right
    rw [hf, bind_ok, bind_ok, if_neg (by omega), if_neg (by omega)]
    have : t.readNode i = .ok n := by
      unfold Table.readNode
      rw [if_pos hi, hn]
    rw [this]
    exact ⟨_, i, false, rfl, rfl⟩
  · rw [hf, bind_ok, bind_ok, if_pos rfl, if_pos rfl]
    rcases emplaceA_ok h.inv fails k v hf with ⟨e1, e2⟩ | ⟨t', p, e1, e2⟩
    · left
      rw [e2, bind_ok]
      exact ⟨e1, hl ▸ hl', rfl⟩
    · right
      rw [e1, e2, bind_ok, bind_ok]
      exact ⟨t', p, true, rfl, rfl⟩

/-- C29 for `reserve`: the container is unchanged if it throws, and always behaves as before. -/
theorem C29_reserve {isa : Isa} {hash : K → Nat} {t : Table K V} (h : Reachable isa hash t) {m : List (K × V)}
    (hb : Behaves isa hash t m) (fails : Bool) (n : Nat) :
    ∃ t' threw, t.reserveA isa fails n = .ok (t', threw) ∧ Behaves isa hash t' m ∧ (threw = true → fails = true ∧ t' = t) ∧
      (threw = false → t.reserve isa n = .ok t') := by
  obtain ⟨t1, h1, h2, _, h4, _⟩ := reserve_spec h.inv n
  have hb1 : Behaves isa hash t1 m := h2.behaves ((contents_perm h4).trans (hb.contents_perm h.inv))
  unfold Table.reserve at h1
  unfold Table.reserveA Table.reserve
  by_cases hn : n > t.size + t.numEmpty
  · rw [if_pos hn] at h1
    rw [if_pos hn, if_pos hn]
    unfold Table.doRehashA
    cases fails with
    | true => exact ⟨t, true, rfl, hb, fun _ => ⟨rfl, rfl⟩, fun h => by cases h⟩
    | false =>
      simp only [Bool.false_eq_true, if_false]
      rw [h1, bind_ok]
      exact ⟨t1, false, rfl, hb1, fun h => (by cases h), fun _ => rfl⟩
  · rw [if_neg hn, if_neg hn]
    exact ⟨t, false, rfl, hb, fun h => (by cases h), fun _ => rfl⟩

/-- C29 for `rehash(n)`, `n > 0`. -/
theorem C29_rehash {isa : Isa} {hash : K → Nat} {t : Table K V} (h : Reachable isa hash t) {m : List (K × V)}
    (hb : Behaves isa hash t m) (fails : Bool) {n : Nat} (hn : 0 < n) :
    ∃ t' threw, t.rehashA isa fails n = .ok (t', threw) ∧ Behaves isa hash t' m ∧ (threw = true → fails = true ∧ t' = t) ∧
      (threw = false → t.rehash isa n = .ok t') := by
  obtain ⟨t1, h1, h2, _, h4, _⟩ := rehash_spec h.inv (n := n) (by omega)
  have hb1 : Behaves isa hash t1 m := h2.behaves ((contents_perm h4).trans (hb.contents_perm h.inv))
  have h0 : ¬ (n = 0 ∧ t.size = 0) := by omega
  unfold Table.rehash at h1
  unfold Table.rehashA Table.rehash
  rw [if_neg h0] at h1
  rw [if_neg h0, if_neg h0]
  simp only at h1 ⊢
  by_cases hc : n = 0 ∨ alignCapacity (n ||| minCapacity isa n) > t.cap
  · rw [if_pos hc] at h1
    rw [if_pos hc, if_pos hc]
    unfold Table.doRehashA
    cases fails with
    | true => exact ⟨t, true, rfl, hb, fun _ => ⟨rfl, rfl⟩, fun h => by cases h⟩
    | false =>
      simp only [Bool.false_eq_true, if_false]
      rw [h1, bind_ok]
      exact ⟨t1, false, rfl, hb1, fun h => (by cases h), fun _ => rfl⟩
  · rw [if_neg hc, if_neg hc]
    exact ⟨t, false, rfl, hb, fun h => (by cases h), fun _ => rfl⟩

example : Behaves .sse2 h64 demo demoMap ∧
    (demo.insertA .sse2 h64 true 9 1).map (·.2) = .ok (some (5, true)) ∧
    ((Table.init : Table Nat Nat).insertA .sse2 h64 true 9 1).map (·.2) = .ok none ∧
    ((Table.init : Table Nat Nat).insertA .sse2 h64 false 9 1).map (·.2) = .ok (some (0, true)) ∧
    (demo.reserveA .sse2 true 20).map (fun r => (r.1.cap, r.2)) = .ok (7, true) ∧
    (demo.rehashA .sse2 true 9).map (fun r => (r.1.cap, r.2)) = .ok (7, true) := by
  refine ⟨demo_behaves, by decide, by decide, by decide, by decide, by decide⟩

end Tpp.Swiss
