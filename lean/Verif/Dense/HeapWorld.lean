import Verif.Dense.Heap

/-!
# Programs with several dense containers: the arrays

Any number of containers, with any allocators, are constructed, used, assigned, swapped and destroyed; the memory is shared.
-/

set_option linter.unusedSectionVars false

namespace Tpp.Dense

variable {k : Nat} {K V : Type} [DecidableEq K]

/-- What matters of the allocator type: the three `propagate_on_container_*` traits, and whether `deallocate` accepts a null
pointer. -/
structure ACfg where
  copyProp : Bool
  moveProp : Bool
  swapProp : Bool
  nullOk : Bool

/-- The memory and the containers (by name). -/
structure HWorld (k : Nat) (K V : Type) where
  h : Heap
  box : Nat → Option (Box k K V)

/-- Nothing allocated, no containers. -/
def HWorld.init : HWorld k K V := ⟨⟨fun _ => none, 0⟩, fun _ => none⟩

/-- The statements of a program. -/
inductive HOp (k : Nat) (K V : Type)
  /-- `dense_table(alloc)` -/
  | make (s al : Nat) (lf : LF)
  /-- `dense_table(bucket_count, hash, cmp, alloc)` -/
  | makeN (s al : Nat) (lf : LF) (n : Nat)
  /-- `dense_table(first, last, bucket_count, hash, cmp, alloc)` -/
  | makeRange (s al : Nat) (lf : LF) (ra : Bool) (n : Nat) (xs : List (Elem k K V))
  /-- `dense_table(other)` and `dense_table(other, alloc)` -/
  | copyMake (s src al : Nat)
  /-- `dense_table(std::move(other))` and `dense_table(std::move(other), alloc)` -/
  | moveMake (s src : Nat) (al : Option Nat)
  | copyAssign (dst src : Nat)
  | moveAssign (dst src : Nat)
  | swap (a b : Nat)
  | op (s : Nat) (o : Op k K V)
  | destroy (s : Nat)

namespace HWorld

/-- Replaces a container and the memory. -/
def put (w : HWorld k K V) (s : Nat) (x : HB k K V) : HWorld k K V := ⟨x.h, upd w.box s (some x.b)⟩

/-- A statement (dense_table.hpp 214-309, 460-477 and the operations of `Op`).  Statements that construct a container under a
name in use, or use a container that does not exist, have no effect. -/
def step (cfg : ACfg) (hash : K → Nat) (w : HWorld k K V) : HOp k K V → M (HWorld k K V)
  | .make s al lf =>
    match w.box s with
    | some _ => .ok w
    | none => .ok (w.put s ⟨w.h, Box.init lf al⟩)
  | .makeN s al lf n =>
    match w.box s with
    | some _ => .ok w
    | none => .ok (w.put s (HB.withBuckets w.h lf al n))
  | .makeRange s al lf ra n xs =>
    match w.box s with
    | some _ => .ok w
    | none => do
      let r ← HB.ofRange hash w.h lf al ra n xs
      .ok (w.put s r)
  | .copyMake s src al =>
    match w.box s, w.box src with
    | none, some o => do
      let r ← HB.copyData ⟨w.h, Box.init o.t.lf al⟩ o.t
      .ok (w.put s r)
    | _, _ => .ok w
  | .moveMake s src al =>
    match w.box s, w.box src with
    | none, some o => do
      let r ← HB.moveFrom ⟨w.h, Box.init o.t.lf (al.getD o.al)⟩ o
      .ok ⟨r.1.h, upd (upd w.box s (some r.1.b)) src (some r.2)⟩
    | _, _ => .ok w
  | .copyAssign dst src =>
    match w.box dst, w.box src with
    | some b, some o =>
      if dst = src then .ok w
      else do
        let r ← HB.copyAssign cfg.nullOk cfg.copyProp ⟨w.h, b⟩ o
        .ok (w.put dst r)
    | _, _ => .ok w
  | .moveAssign dst src =>
    match w.box dst, w.box src with
    | some b, some o =>
      if dst = src then .ok w
      else do
        let r ← HB.moveAssign cfg.nullOk cfg.moveProp ⟨w.h, b⟩ o
        .ok ⟨r.1.h, upd (upd w.box dst (some r.1.b)) src (some r.2)⟩
    | _, _ => .ok w
  | .swap a b =>
    match w.box a, w.box b with
    | some x, some y =>
      if a = b then .ok w
      else do
        let r ← HB.swap cfg.swapProp x y
        .ok ⟨w.h, upd (upd w.box a (some r.1)) b (some r.2)⟩
    | _, _ => .ok w
  | .op s o =>
    match w.box s with
    | none => .ok w
    | some b => do
      let r ← HB.step hash ⟨w.h, b⟩ o
      .ok (w.put s r.1)
  | .destroy s =>
    match w.box s with
    | none => .ok w
    | some b => do
      let h ← HB.destroy ⟨w.h, b⟩
      .ok ⟨h, upd w.box s none⟩

/-- The assignments that pass a null pointer to `deallocate`: the allocator propagates and the target lacks an array. -/
def nullFree (cfg : ACfg) (w : HWorld k K V) : HOp k K V → Bool
  | .copyAssign dst src =>
    match w.box dst, w.box src with
    | some b, some _ => decide (dst ≠ src) && cfg.copyProp && (b.pd.isNone || b.ps.isNone)
    | _, _ => false
  | .moveAssign dst src =>
    match w.box dst, w.box src with
    | some b, some _ => decide (dst ≠ src) && cfg.moveProp && (b.pd.isNone || b.ps.isNone)
    | _, _ => false
  | _ => false

/-- The states of programs that pass a null pointer to `deallocate` only if the allocator accepts it. -/
inductive Reached (cfg : ACfg) (hash : K → Nat) : HWorld k K V → Prop
  | init : Reached cfg hash HWorld.init
  | step {w w' : HWorld k K V} {o : HOp k K V} : Reached cfg hash w → (cfg.nullOk = true ∨ w.nullFree cfg o = false) →
      w.step cfg hash o = .ok w' → Reached cfg hash w'

/-- Memory and containers agree. -/
structure Balanced (w : HWorld k K V) : Prop where
  fresh : w.h.Fresh
  own : ∀ {s : Nat} {b : Box k K V}, w.box s = some b → Own (⟨w.h, b⟩ : HB k K V)
  owner : ∀ {i : Nat} {x : Blk}, w.h.live i = some x → ∃ s b, w.box s = some b ∧ b.blk i = some x
  uniq : ∀ {s s' : Nat} {b b' : Box k K V} {i : Nat}, w.box s = some b → w.box s' = some b' → b.blk i ≠ none → b'.blk i ≠ none →
    s = s'

end HWorld

open HWorld

theorem Box.blk_pd {b : Box k K V} {i : Nat} (h : b.pd = some i) : b.blk i ≠ none := by
  unfold Box.blk
  rw [if_pos h]
  exact fun hh => (by cases hh)

theorem Box.blk_ps {b : Box k K V} {i : Nat} (h : b.ps = some i) : b.blk i ≠ none := by
  unfold Box.blk
  rw [if_pos h]
  split <;> exact fun hh => (by cases hh)

/-- Ownership only depends on the blocks of the container. -/
theorem Own.congr {h h' : Heap} {b : Box k K V} (ho : Own (⟨h, b⟩ : HB k K V)) (hf : h'.Fresh)
    (hl : ∀ i, b.blk i ≠ none → h'.live i = h.live i) : Own (⟨h', b⟩ : HB k K V) :=
  ⟨hf, fun a ha => (hl a (Box.blk_pd ha)).trans (ho.dense a ha), fun a ha => (hl a (Box.blk_ps ha)).trans (ho.sparse a ha),
    ho.dnull, ho.snull⟩

theorem HWorld.Balanced.step1 {w : HWorld k K V} (h : Balanced w) {s : Nat} {b : Box k K V} (hb : w.box s = some b) {x : HB k K V}
    (hx : Step (⟨w.h, b⟩ : HB k K V) x) : Balanced (w.put s x) := by
  have old : ∀ {u : Nat} {c : Box k K V} {i : Nat}, u ≠ s → w.box u = some c → c.blk i ≠ none →
      b.blk i = none ∧ x.b.blk i = none := by
    intro u c i hu hc hi
    have h1 : b.blk i = none := by
      by_contra hh
      exact hu (h.uniq hc hb hi hh)
    refine ⟨h1, ?_⟩
    by_contra hh
    rcases hx.new i hh with e | e
    · exact e h1
    · obtain ⟨y, hy⟩ := Option.ne_none_iff_exists'.1 hi
      have := (h.own hc).blk hy
      simp only at this e
      rw [this] at e
      cases e
  refine ⟨hx.own.fresh, fun {u c} hc => ?_, fun {i y} hi => ?_, fun {u u' c c' i} hc hc' hi hi' => ?_⟩
  · simp only [put, upd_apply] at hc
    split at hc
    · cases hc
      exact hx.own
    · rename_i hu
      exact (h.own hc).congr hx.own.fresh (fun i hi => hx.frame i (old hu hc hi).1 (old hu hc hi).2)
  · simp only [put] at hi
    by_cases h1 : x.b.blk i = none
    · by_cases h2 : b.blk i = none
      · rw [hx.frame i h2 h1] at hi
        obtain ⟨u, c, hc, hy⟩ := h.owner hi
        refine ⟨u, c, ?_, hy⟩
        simp only [put]
        rw [upd_ne _ _ ?_]
        · exact hc
        · rintro rfl
          rw [hb] at hc
          cases hc
          rw [h2] at hy
          cases hy
      · rw [hx.gone i h2 h1] at hi
        cases hi
    · obtain ⟨z, hz⟩ := Option.ne_none_iff_exists'.1 h1
      have := hx.own.blk hz
      rw [hi] at this
      cases this
      exact ⟨s, x.b, by simp [put], hz⟩
  · simp only [put, upd_apply] at hc hc'
    split at hc
    · rename_i e
      cases hc
      split at hc'
      · rename_i e'
        rw [e, e']
      · rename_i hu
        exact absurd (old hu hc' hi').2 hi
    · rename_i hu
      split at hc'
      · cases hc'
        exact absurd (old hu hc hi).2 hi'
      · exact h.uniq hc hc' hi hi'

theorem Box.blk_empty {b : Box k K V} (h1 : b.pd = none) (h2 : b.ps = none) (i : Nat) : b.blk i = none := by
  unfold Box.blk
  rw [h1, h2]
  rfl

/-- A container without arrays may be added. -/
theorem HWorld.Balanced.add {w : HWorld k K V} (h : Balanced w) {s : Nat} (hs : w.box s = none) (lf : LF) (al : Nat) :
    Balanced (w.put s ⟨w.h, Box.init lf al⟩) := by
  have he : ∀ i, (Box.init lf al : Box k K V).blk i = none := Box.blk_empty rfl rfl
  refine ⟨h.fresh, fun {u c} hc => ?_, fun {i y} hi => ?_, fun {u u' c c' i} hc hc' hi hi' => ?_⟩
  · simp only [put, upd_apply] at hc
    split at hc
    · cases hc
      exact ⟨h.fresh, fun _ hh => (by cases hh), fun _ hh => (by cases hh), ⟨fun _ => rfl, fun _ => rfl⟩, ⟨fun _ => rfl, fun _ => rfl⟩⟩
    · exact h.own hc
  · obtain ⟨u, c, hc, hy⟩ := h.owner hi
    refine ⟨u, c, ?_, hy⟩
    simp only [put]
    rw [upd_ne _ _ ?_]
    · exact hc
    · rintro rfl
      rw [hs] at hc
      cases hc
  · simp only [put, upd_apply] at hc hc'
    split at hc
    · cases hc
      exact absurd (he i) hi
    · split at hc'
      · cases hc'
        exact absurd (he i) hi'
      · exact h.uniq hc hc' hi hi'

theorem init_own {h : Heap} (hf : h.Fresh) (lf : LF) (al : Nat) : Own (⟨h, Box.init lf al⟩ : HB k K V) :=
  ⟨hf, fun _ hh => (by cases hh), fun _ hh => (by cases hh), ⟨fun _ => rfl, fun _ => rfl⟩, ⟨fun _ => rfl, fun _ => rfl⟩⟩

theorem put_put (w : HWorld k K V) (s : Nat) (x y : HB k K V) : (w.put s x).put s y = w.put s y := by
  unfold put
  congr 1
  funext i
  simp only [upd_apply]
  split <;> rfl

/-- A new container. -/
theorem HWorld.Balanced.create {w : HWorld k K V} (h : Balanced w) {s : Nat} (hs : w.box s = none) {lf : LF} {al : Nat} {x : HB k K V}
    (hx : Step (⟨w.h, Box.init lf al⟩ : HB k K V) x) : Balanced (w.put s x) := by
  have := (h.add hs lf al).step1 (s := s) (b := Box.init lf al) (by simp [put]) hx
  rwa [put_put] at this

/-- A container without arrays may be removed. -/
theorem HWorld.Balanced.remove {w : HWorld k K V} (h : Balanced w) {s : Nat} {b : Box k K V} (hb : w.box s = some b)
    (he : ∀ i, b.blk i = none) : Balanced ⟨w.h, upd w.box s none⟩ := by
  refine ⟨h.fresh, fun {u c} hc => ?_, fun {i y} hi => ?_, fun {u u' c c' i} hc hc' hi hi' => ?_⟩
  · simp only [upd_apply] at hc
    split at hc
    · cases hc
    · exact h.own hc
  · obtain ⟨u, c, hc, hy⟩ := h.owner hi
    refine ⟨u, c, ?_, hy⟩
    simp only
    rw [upd_ne _ _ ?_]
    · exact hc
    · rintro rfl
      rw [hb] at hc
      cases hc
      rw [he i] at hy
      cases hy
  · simp only [upd_apply] at hc hc'
    split at hc
    · cases hc
    · split at hc'
      · cases hc'
      · exact h.uniq hc hc' hi hi'

/-- Two containers exchange their blocks. -/
theorem HWorld.Balanced.exchange {w : HWorld k K V} (h : Balanced w) {a b : Nat} (hab : a ≠ b) {x y x' y' : Box k K V}
    (hx : w.box a = some x) (hy : w.box b = some y) (ox : Own (⟨w.h, x'⟩ : HB k K V)) (oy : Own (⟨w.h, y'⟩ : HB k K V))
    (ex : ∀ i, x'.blk i = y.blk i) (ey : ∀ i, y'.blk i = x.blk i) :
    Balanced ⟨w.h, upd (upd w.box a (some x')) b (some y')⟩ := by
  have key : ∀ {u : Nat} {c : Box k K V}, upd (upd w.box a (some x')) b (some y') u = some c →
      (u = b ∧ c = y') ∨ (u = a ∧ c = x') ∨ (u ≠ a ∧ u ≠ b ∧ w.box u = some c) := by
    intro u c hc
    rw [upd_apply] at hc
    split at hc
    · rename_i hu
      cases hc
      exact .inl ⟨hu, rfl⟩
    · rename_i hu
      rw [upd_apply] at hc
      split at hc
      · rename_i hu'
        cases hc
        exact .inr (.inl ⟨hu', rfl⟩)
      · rename_i hu'
        exact .inr (.inr ⟨hu', hu, hc⟩)
  refine ⟨h.fresh, fun {u c} hc => ?_, fun {i z} hi => ?_, fun {u u' c c' i} hc hc' hi hi' => ?_⟩
  · rcases key hc with ⟨_, rfl⟩ | ⟨_, rfl⟩ | ⟨_, _, hc'⟩
    · exact oy
    · exact ox
    · exact h.own hc'
  · obtain ⟨u, c, hc, hz⟩ := h.owner hi
    by_cases hua : u = a
    · subst hua
      rw [hx] at hc
      cases hc
      exact ⟨b, y', by simp, by rw [ey]; exact hz⟩
    · by_cases hub : u = b
      · subst hub
        rw [hy] at hc
        cases hc
        exact ⟨a, x', by simp only; rw [upd_ne _ _ hab]; simp, by rw [ex]; exact hz⟩
      · exact ⟨u, c, by simp only; rw [upd_ne _ _ hub, upd_ne _ _ hua]; exact hc, hz⟩
  · rcases key hc with ⟨hu, rfl⟩ | ⟨hu, rfl⟩ | ⟨hu1, hu2, hc1⟩
    · rw [ey] at hi
      rcases key hc' with ⟨hv, rfl⟩ | ⟨hv, rfl⟩ | ⟨hv1, hv2, hc2⟩
      · rw [hu, hv]
      · rw [ex] at hi'
        exact absurd (h.uniq hx hy hi hi') hab
      · exact absurd (h.uniq hc2 hx hi' hi) hv1
    · rw [ex] at hi
      rcases key hc' with ⟨hv, rfl⟩ | ⟨hv, rfl⟩ | ⟨hv1, hv2, hc2⟩
      · rw [ey] at hi'
        exact absurd (h.uniq hy hx hi hi') (Ne.symm hab)
      · rw [hu, hv]
      · exact absurd (h.uniq hc2 hy hi' hi) hv2
    · rcases key hc' with ⟨hv, rfl⟩ | ⟨hv, rfl⟩ | ⟨hv1, hv2, hc2⟩
      · rw [ey] at hi'
        exact absurd (h.uniq hc1 hx hi hi') hu1
      · rw [ex] at hi'
        exact absurd (h.uniq hc1 hy hi hi') hu2
      · exact h.uniq hc1 hc2 hi hi'

/-! ## The functions of one container -/

theorem withBuckets_step {h : Heap} (hf : h.Fresh) (lf : LF) (al n : Nat) :
    Step (⟨h, Box.init lf al⟩ : HB k K V) (HB.withBuckets h lf al n) := by
  have ho : Own (⟨h, Box.init lf al⟩ : HB k K V) := init_own hf lf al
  unfold HB.withBuckets
  split
  · exact Step.refl ho
  · rename_i hn
    have h1 := Step.setDense ho hn (t := { Table.withBuckets lf n with bc := 0 }) rfl rfl
      (m := (h.alloc ⟨al, .dense, n⟩).1) (fun i => by
        simp only [Heap.alloc, upd_apply, Box.init]
        split <;> simp) rfl
    have h2 := Step.setSparse h1.own hn (t := Table.withBuckets lf n) rfl rfl
      (m := ((h.alloc ⟨al, .dense, n⟩).1.alloc ⟨al, .sparse, n⟩).1) (fun i => by
        simp only [Heap.alloc, upd_apply, Box.init]
        simp) rfl
    exact h1.trans h2

theorem ofRange_sim (hash : K → Nat) {h : Heap} (hf : h.Fresh) (lf : LF) (al : Nat) (ra : Bool) (n : Nat)
    (xs : List (Elem k K V)) :
    Sim (Rel (⟨h, Box.init lf al⟩ : HB k K V)) (HB.ofRange hash h lf al ra n xs) (Table.ofRange hash lf ra n xs) := by
  unfold HB.ofRange Table.ofRange
  have hs := withBuckets_step (k := k) (K := K) (V := V) hf lf al (if ra then max xs.length n else n)
  have ht : (HB.withBuckets h lf al (if ra then max xs.length n else n) : HB k K V).b.t
      = Table.withBuckets lf (if ra then max xs.length n else n) := by
    generalize (if ra then max xs.length n else n) = m
    unfold HB.withBuckets
    split
    · rename_i hm
      rw [hm]
    · rfl
  rw [← ht]
  exact (insertRange_sim hash hs.own ra xs).mono fun _ _ hr => Rel.trans hs hr

theorem copyData_sim {s : HB k K V} (h : Own s) (o : Table k K V) : Sim (Rel s) (s.copyData o) (s.b.t.copyData o) := by
  have hp := s.b.t.copyData_post o
  unfold HB.copyData
  split
  · rename_i hc
    refine lift_sim h ?_
    rcases hc with hc | hc
    · unfold Table.copyData
      rw [if_pos hc]
      simp [Post]
    · simpa only [if_pos hc] using hp
  · rename_i hc
    have ho : o.size ≠ 0 := fun hh => hc (.inr hh)
    simp only [if_neg ho] at hp
    obtain ⟨m, p, e, h1⟩ := reallocSparse_ok h o.bc
    have h2 := h1 { s.b.t with bc := max s.b.t.bc o.bc } rfl rfl
    obtain ⟨m', p', e', h3⟩ := reallocDense_ok h2.own o.size
    have e2 : m.realloc s.b.pd s.b.dblk o.size = .ok (m', p') := e'
    rw [e, bind_ok]
    simp only
    rw [e2, bind_ok]
    cases e3 : s.b.t.copyData o with
    | error _ =>
      rw [e3] at hp
      exact ⟨rfl, hp⟩
    | ok t =>
      rw [e3] at hp
      exact ⟨rfl, h2.trans (h3 t hp.1 hp.2)⟩

/-- What a move without exchange of the buffers does to the source. -/
def Left (o o' : Box k K V) (t : Table k K V) : Prop := o' = { o with t := t } ∧ Same o.t t

theorem moveData_sim {s : HB k K V} (h : Own s) (o : Box k K V) :
    Sim (fun a b => Rel s a.1 b.1 ∧ Left o a.2 b.2) (s.moveData o) (s.b.t.moveData o.t) := by
  have hp := copyData_sim h o.t
  unfold HB.copyData at hp
  unfold HB.moveData Table.moveData
  by_cases ho : o.t.size = 0
  · rw [if_pos (.inr ho), if_pos ho]
    rw [if_pos (.inr ho)] at hp
    cases e : s.b.t.copyData o.t with
    | error e' =>
      rw [e] at hp
      exact hp
    | ok t =>
      rw [e] at hp
      exact ⟨hp, rfl, Same.refl _⟩
  · rw [if_neg ho]
    by_cases hs : s.b.t.size ≠ 0
    · rw [if_pos (.inl hs)]
      rw [if_pos (.inl hs)] at hp
      cases e : s.b.t.copyData o.t with
      | error e' =>
        rw [e] at hp
        exact hp
      | ok t =>
        rw [e] at hp
        exact ⟨hp, rfl, rfl, rfl⟩
    · have hc : ¬ (s.b.t.size ≠ 0 ∨ o.t.size = 0) := fun hh => hh.elim hs ho
      rw [if_neg hc] at hp ⊢
      cases e1 : s.h.realloc s.b.ps s.b.sblk o.t.bc with
      | error _ =>
        rw [e1] at hp
        cases e : s.b.t.copyData o.t with
        | error e' =>
          rw [e] at hp
          exact hp
        | ok t =>
          rw [e] at hp
          exact hp.elim
      | ok r =>
        rw [e1, bind_ok] at hp
        rw [bind_ok]
        cases e2 : r.1.realloc s.b.pd s.b.dblk o.t.size with
        | error _ =>
          rw [e2] at hp
          cases e : s.b.t.copyData o.t with
          | error e' =>
            rw [e] at hp
            exact hp
          | ok t =>
            rw [e] at hp
            exact hp.elim
        | ok q =>
          rw [e2, bind_ok] at hp
          rw [bind_ok]
          cases e : s.b.t.copyData o.t with
          | error e' =>
            rw [e] at hp
            exact hp
          | ok t =>
            rw [e] at hp
            exact ⟨hp, rfl, rfl, rfl⟩

/-- The arrays are freed. -/
theorem Step.drop {s : HB k K V} (h : Own s) {m : Heap} (hn : m.next = s.h.next)
    (hl : ∀ i, m.live i = if s.b.pd = some i ∨ s.b.ps = some i then none else s.h.live i) {t : Table k K V} (al : Nat)
    (h1 : t.cap = 0) (h2 : t.bc = 0) : Step s ⟨m, ⟨t, al, none, none⟩⟩ := by
  have hf : m.Fresh := by
    intro a ha
    rw [hl]
    split
    · rfl
    · exact h.fresh a (by omega)
  refine ⟨⟨hf, fun _ hh => (by cases hh), fun _ hh => (by cases hh), ⟨fun _ => h1, fun _ => rfl⟩, ⟨fun _ => h2, fun _ => rfl⟩⟩,
    fun i h3 _ => ?_, fun i h3 _ => ?_, fun i h3 => absurd (Box.blk_empty rfl rfl i) h3⟩
  · simp only [hl]
    rw [if_neg]
    rintro (hh | hh)
    · exact Box.blk_pd hh h3
    · exact Box.blk_ps hh h3
  · simp only [hl]
    rw [if_pos]
    by_contra hh
    apply h3
    unfold Box.blk
    rw [if_neg (fun h' => hh (.inl h')), if_neg (fun h' => hh (.inr h'))]

theorem free_eq {nullOk : Bool} {h : Heap} {p : Option Nat} {x : Blk} (hp : nullOk = true ∨ p ≠ none) :
    h.free nullOk p x = h.freeIf p x := by
  cases p with
  | none =>
    rcases hp with rfl | hp
    · rfl
    · exact absurd rfl hp
  | some a => rfl

theorem propagate_ok {s : HB k K V} (h : Own s) {nullOk : Bool} (hp : nullOk = true ∨ (s.b.pd ≠ none ∧ s.b.ps ≠ none)) (al : Nat) :
    ∃ s', s.propagate nullOk al = .ok s' ∧ s'.b.al = al ∧ Rel s s' s.b.t.dropBuffers := by
  unfold HB.propagate
  rw [free_eq (hp.imp id (·.2)), freeIf_ok h.sparse, bind_ok, free_eq (hp.imp id (·.1)), freeIf_ok (fun a ha => ?_)]
  · exact ⟨_, rfl, rfl, rfl, Step.drop h (by rfl) (fun i => by
      simp only
      by_cases h1 : s.b.pd = some i
      · rw [if_pos h1, if_pos (.inl h1)]
      · rw [if_neg h1]
        by_cases h2 : s.b.ps = some i
        · rw [if_pos h2, if_pos (.inr h2)]
        · rw [if_neg h2, if_neg (fun hh => hh.elim h1 h2)]) al rfl rfl⟩
  · simp only
    rw [if_neg (fun hh => h.ne ha hh rfl)]
    exact h.dense a ha

theorem destroy_post {s : HB k K V} (h : Own s) :
    Post (fun m => ∀ t : Table k K V, t.cap = 0 → t.bc = 0 → Step s ⟨m, ⟨t, s.b.al, none, none⟩⟩) s.destroy := by
  unfold HB.destroy
  refine (Table.clearData_post s.b.t).bind fun t _ => ?_
  rw [freeIf_ok h.dense, bind_ok, freeIf_ok (fun a ha => ?_)]
  · intro t h1 h2
    refine Step.drop h (by rfl) (fun i => ?_) _ h1 h2
    simp only
    by_cases h1 : s.b.ps = some i
    · rw [if_pos h1, if_pos (.inr h1)]
    · rw [if_neg h1]
      by_cases h2 : s.b.pd = some i
      · rw [if_pos h2, if_pos (.inl h2)]
      · rw [if_neg h2, if_neg (fun hh => hh.elim h2 h1)]
  · simp only
    rw [if_neg (fun hh => h.ne hh ha rfl)]
    exact h.sparse a ha

theorem lift_b {s s' : HB k K V} {x : M (Table k K V)} (h : s.lift x = .ok s') :
    s'.b.pd = s.b.pd ∧ s'.b.ps = s.b.ps ∧ s'.b.al = s.b.al := by
  cases x with
  | error e => cases h
  | ok t =>
    cases h
    exact ⟨rfl, rfl, rfl⟩

/-- The first part of both assignments: afterwards the target is empty and, if the allocator propagates, has that of the
source. -/
theorem prepare_sim {s : HB k K V} (h : Own s) (nullOk prop : Bool) (al : Nat) (lf : LF)
    (hp : prop = false ∨ nullOk = true ∨ (s.b.pd ≠ none ∧ s.b.ps ≠ none)) :
    Sim (fun s' t => Rel s s' t ∧ (if prop then s'.b.al = al else s'.b.al = s.b.al))
      (do
        let s ← s.lift ({ s.b.t with lf := lf } : Table k K V).clearData
        (if prop then s.propagate nullOk al else .ok s : M (HB k K V)))
      (do
        let t ← ({ s.b.t with lf := lf } : Table k K V).clearData
        .ok (if prop then t.dropBuffers else t)) := by
  have hl := lift_sim h (x := ({ s.b.t with lf := lf } : Table k K V).clearData)
    ((Table.clearData_post _).mono fun _ hr => hr)
  cases e : s.lift ({ s.b.t with lf := lf } : Table k K V).clearData with
  | error e' =>
    rw [e] at hl
    cases e2 : ({ s.b.t with lf := lf } : Table k K V).clearData with
    | error e3 =>
      rw [e2] at hl
      exact hl
    | ok t =>
      rw [e2] at hl
      exact hl.elim
  | ok s1 =>
    have hb := lift_b e
    rw [e] at hl
    cases e2 : ({ s.b.t with lf := lf } : Table k K V).clearData with
    | error e3 =>
      rw [e2] at hl
      exact hl.elim
    | ok t =>
      rw [e2] at hl
      obtain ⟨rfl, hst⟩ := hl
      rw [bind_ok, bind_ok]
      cases prop with
      | false => exact ⟨⟨rfl, hst⟩, hb.2.2⟩
      | true =>
        obtain ⟨s2, e3, hal, hr⟩ := propagate_ok hst.own (nullOk := nullOk)
          (by rw [hb.1, hb.2.1]; exact hp.resolve_left (fun hh => (by cases hh))) al
        simp only [if_true, e3]
        exact ⟨⟨hr.1, hst.trans hr.2⟩, hal⟩

theorem copyAssign_sim {s : HB k K V} (h : Own s) (nullOk prop : Bool) (o : Box k K V)
    (hp : prop = false ∨ nullOk = true ∨ (s.b.pd ≠ none ∧ s.b.ps ≠ none)) :
    Sim (Rel s) (s.copyAssign nullOk prop o) (s.b.t.copyAssign prop o.t) := by
  have := (prepare_sim h nullOk prop o.al o.t.lf hp).bind (S := Rel s) (f := fun s => s.copyData o.t)
    (g := fun t => t.copyData o.t) (fun a b hr => by
      obtain ⟨⟨rfl, hs⟩, _⟩ := hr
      exact (copyData_sim hs.own o.t).mono fun _ _ hr => Rel.trans hs hr)
  simp only [bind_assoc] at this
  exact this

/-- What a move does to both containers: either the target's memory is accounted for and the source keeps its arrays, or they
exchange their arrays. -/
inductive Moved (s : HB k K V) (o : Box k K V) (a : HB k K V × Box k K V) : Prop
  | apart : Step s a.1 → (∃ t, Left o a.2 t) → Moved s o a
  | exchange (s' : HB k K V) : Step s s' → s'.b.al = o.al → a.1.h = s'.h → a.1.b.al = o.al → a.1.b.pd = o.pd → a.1.b.ps = o.ps →
      Same o.t a.1.b.t → a.2.al = o.al → a.2.pd = s'.b.pd → a.2.ps = s'.b.ps → Same s'.b.t a.2.t → Moved s o a

theorem moveFrom_sim {s s' : HB k K V} (hs : Step s s') (o : Box k K V) (eq : Bool) (he : eq = decide (s'.b.al = o.al)) :
    Sim (fun a b => (a.1.b.t = b.1 ∧ a.2.t = b.2) ∧ Moved s o a) (s'.moveFrom o) (s'.b.t.moveFrom eq o.t) := by
  unfold HB.moveFrom Table.moveFrom
  subst he
  by_cases he : s'.b.al = o.al
  · rw [if_pos he, if_pos (decide_eq_true he)]
    exact ⟨⟨rfl, rfl⟩, .exchange s' hs he rfl he rfl rfl ⟨rfl, rfl⟩ rfl rfl rfl ⟨rfl, rfl⟩⟩
  · rw [if_neg he, if_neg (by simpa using he)]
    refine (moveData_sim hs.own o).mono fun a b hr => ?_
    obtain ⟨⟨h1, h2⟩, h3, h4⟩ := hr
    refine ⟨⟨h1, by rw [h3]⟩, .apart (hs.trans h2) ⟨b.2, h3, h4⟩⟩

theorem moveAssign_sim {s : HB k K V} (h : Own s) (nullOk prop : Bool) (o : Box k K V)
    (hp : prop = false ∨ nullOk = true ∨ (s.b.pd ≠ none ∧ s.b.ps ≠ none)) :
    Sim (fun a b => (a.1.b.t = b.1 ∧ a.2.t = b.2) ∧ Moved s o a) (s.moveAssign nullOk prop o)
      (s.b.t.moveAssign prop (decide (s.b.al = o.al)) o.t) := by
  have := (prepare_sim h nullOk prop o.al o.t.lf hp).bind
    (S := fun (a : HB k K V × Box k K V) b => (a.1.b.t = b.1 ∧ a.2.t = b.2) ∧ Moved s o a) (f := fun s => s.moveFrom o)
    (g := fun t => t.moveFrom (prop || decide (s.b.al = o.al)) o.t) (fun a b hr => by
      obtain ⟨⟨rfl, hs⟩, hal⟩ := hr
      refine moveFrom_sim hs o _ ?_
      cases prop with
      | true =>
        simp only [if_true] at hal
        simp [hal]
      | false =>
        simp only [Bool.false_eq_true, if_false] at hal
        rw [hal, Bool.false_or])
  simp only [bind_assoc] at this
  exact this

theorem Sim.post {α β : Type} {R : α → β → Prop} {P : α → Prop} {x : M α} {y : M β} (h : Sim R x y) (hp : ∀ a b, R a b → P a) :
    Post P x := by
  cases x <;> cases y
  · exact h.2
  · exact h.elim
  · exact h.elim
  · exact hp _ _ h

theorem Box.blk_eq {b c : Box k K V} (h1 : b.pd = c.pd) (h2 : b.ps = c.ps) (h3 : b.al = c.al) (h4 : Same c.t b.t) (i : Nat) :
    b.blk i = c.blk i := by
  unfold Box.blk Box.dblk Box.sblk
  rw [h1, h2, h3, h4.1, h4.2]

theorem Own.eq {h : Heap} {b c : Box k K V} (ho : Own (⟨h, c⟩ : HB k K V)) (h1 : b.pd = c.pd) (h2 : b.ps = c.ps)
    (h3 : b.al = c.al) (h4 : Same c.t b.t) : Own (⟨h, b⟩ : HB k K V) := by
  refine ⟨ho.fresh, fun a ha => ?_, fun a ha => ?_, ?_, ?_⟩
  · have := ho.dense a (by rw [← h1]; exact ha)
    simp only [Box.dblk, h3, h4.1] at this ⊢
    exact this
  · have := ho.sparse a (by rw [← h2]; exact ha)
    simp only [Box.sblk, h3, h4.2] at this ⊢
    exact this
  · simp only [h1, h4.1]
    exact ho.dnull
  · simp only [h2, h4.2]
    exact ho.snull

theorem HWorld.Balanced.moved {w : HWorld k K V} (h : Balanced w) {dst src : Nat} (hds : dst ≠ src) {b o : Box k K V}
    (hb : w.box dst = some b) (ho : w.box src = some o) {a : HB k K V × Box k K V} (hm : Moved (⟨w.h, b⟩ : HB k K V) o a) :
    Balanced ⟨a.1.h, upd (upd w.box dst (some a.1.b)) src (some a.2)⟩ := by
  cases hm with
  | apart h1 h2 =>
    obtain ⟨t, h2, h3⟩ := h2
    have hw := h.step1 hb h1
    have ho' : (w.put dst a.1).box src = some o := by
      simp only [put]
      rw [upd_ne _ _ (Ne.symm hds)]
      exact ho
    have := hw.step1 ho' (Step.same (hw.own ho') h3)
    simp only [put] at this
    rw [h2]
    exact this
  | exchange s' h1 h2 h3 h4 h5 h6 h7 h8 h9 h10 h11 =>
    have hw := h.step1 hb h1
    have hb' : (w.put dst s').box dst = some s'.b := by simp [put]
    have ho' : (w.put dst s').box src = some o := by
      simp only [put]
      rw [upd_ne _ _ (Ne.symm hds)]
      exact ho
    have ox := (hw.own ho').eq (b := a.1.b) h5 h6 h4 h7
    have oy := (hw.own hb').eq (b := a.2) h9 h10 (h8.trans h2.symm) h11
    have := hw.exchange hds hb' ho' ox oy (Box.blk_eq h5 h6 h4 h7) (Box.blk_eq h9 h10 (h8.trans h2.symm) h11)
    simp only [put] at this
    rw [h3]
    have e : upd (upd w.box dst (some s'.b)) dst (some a.1.b) = upd w.box dst (some a.1.b) := by
      funext i
      simp only [upd_apply]
      split <;> rfl
    rw [e] at this
    exact this

theorem swap_post (prop : Bool) (x y : Box k K V) :
    Post (fun r => r.1.al = y.al ∧ r.1.pd = y.pd ∧ r.1.ps = y.ps ∧ Same y.t r.1.t ∧ r.2.al = x.al ∧ r.2.pd = x.pd ∧
      r.2.ps = x.ps ∧ Same x.t r.2.t) (HB.swap prop x y) := by
  unfold HB.swap
  by_cases hal : x.al = y.al
  · cases prop with
    | true =>
      simp only [if_true, hal, ne_eq, not_true_eq_false, if_false]
      exact ⟨rfl, rfl, rfl, ⟨rfl, rfl⟩, rfl, rfl, rfl, ⟨rfl, rfl⟩⟩
    | false =>
      simp only [Bool.false_eq_true, if_false, hal, ne_eq, not_true_eq_false]
      exact ⟨rfl, rfl, rfl, ⟨rfl, rfl⟩, rfl, rfl, rfl, ⟨rfl, rfl⟩⟩
  · cases prop with
    | true =>
      simp only [if_true, ne_eq]
      rw [if_pos (Ne.symm hal)]
      simp [Post]
    | false =>
      simp only [Bool.false_eq_true, if_false, ne_eq]
      rw [if_pos hal]
      simp [Post]

/-- One statement keeps memory and containers in agreement and never deallocates wrongly. -/
theorem HWorld.Balanced.step {cfg : ACfg} {hash : K → Nat} {w : HWorld k K V} (h : Balanced w) (o : HOp k K V)
    (hn : cfg.nullOk = true ∨ w.nullFree cfg o = false) : Post Balanced (w.step cfg hash o) := by
  cases o with
  | make s al lf =>
    simp only [HWorld.step]
    split
    · exact h
    · rename_i hs
      exact h.add hs lf al
  | makeN s al lf n =>
    simp only [HWorld.step]
    split
    · exact h
    · rename_i hs
      exact h.create hs (withBuckets_step h.fresh lf al n)
  | makeRange s al lf ra n xs =>
    simp only [HWorld.step]
    split
    · exact h
    · rename_i hs
      exact ((ofRange_sim hash h.fresh lf al ra n xs).post fun a b hr => hr.2).bind fun a ha => h.create hs ha
  | copyMake s src al =>
    simp only [HWorld.step]
    split
    · rename_i o hs ho
      exact ((copyData_sim (init_own h.fresh o.t.lf al) o.t).post fun a b hr => hr.2).bind fun a ha => h.create hs ha
    · exact h
  | moveMake s src al =>
    simp only [HWorld.step]
    split
    · rename_i o hs ho
      have hne : s ≠ src := by
        rintro rfl
        rw [hs] at ho
        cases ho
      have hw := h.add hs o.t.lf (al.getD o.al)
      have hb : (w.put s ⟨w.h, Box.init o.t.lf (al.getD o.al)⟩).box s = some (Box.init o.t.lf (al.getD o.al)) := by simp [put]
      have ho' : (w.put s ⟨w.h, Box.init o.t.lf (al.getD o.al)⟩).box src = some o := by
        simp only [put]
        rw [upd_ne _ _ (Ne.symm hne)]
        exact ho
      refine ((moveFrom_sim (Step.refl (hw.own hb)) o _ rfl).post fun a b hr => hr.2).bind fun a ha => ?_
      have := hw.moved hne hb ho' ha
      have e : upd (w.put s ⟨w.h, Box.init o.t.lf (al.getD o.al)⟩).box s (some a.1.b) = upd w.box s (some a.1.b) := by
        funext i
        simp only [put, upd_apply]
        split <;> rfl
      rw [e] at this
      exact this
    · exact h
  | copyAssign dst src =>
    simp only [HWorld.step]
    split
    · rename_i b o hb ho
      split
      · exact h
      · rename_i hne
        refine ((copyAssign_sim (h.own hb) cfg.nullOk cfg.copyProp o ?_).post fun a b hr => hr.2).bind fun a ha => h.step1 hb ha
        rcases hn with hn | hn
        · exact .inr (.inl hn)
        · simp only [nullFree, hb, ho] at hn
          simp only [hne, ne_eq, not_false_eq_true, decide_true, Bool.true_and, Bool.and_eq_false_iff, Bool.or_eq_false_iff] at hn
          rcases hn with hn | hn
          · exact .inl hn
          · refine .inr (.inr ⟨?_, ?_⟩)
            · intro hh
              simp only at hh
              rw [hh] at hn
              cases hn.1
            · intro hh
              simp only at hh
              rw [hh] at hn
              cases hn.2
    · exact h
  | moveAssign dst src =>
    simp only [HWorld.step]
    split
    · rename_i b o hb ho
      split
      · exact h
      · rename_i hne
        refine ((moveAssign_sim (h.own hb) cfg.nullOk cfg.moveProp o ?_).post fun a b hr => hr.2).bind fun a ha =>
          h.moved hne hb ho ha
        rcases hn with hn | hn
        · exact .inr (.inl hn)
        · simp only [nullFree, hb, ho] at hn
          simp only [hne, ne_eq, not_false_eq_true, decide_true, Bool.true_and, Bool.and_eq_false_iff, Bool.or_eq_false_iff] at hn
          rcases hn with hn | hn
          · exact .inl hn
          · refine .inr (.inr ⟨?_, ?_⟩)
            · intro hh
              simp only at hh
              rw [hh] at hn
              cases hn.1
            · intro hh
              simp only at hh
              rw [hh] at hn
              cases hn.2
    · exact h
  | swap a b =>
    simp only [HWorld.step]
    split
    · rename_i x y hx hy
      split
      · exact h
      · rename_i hne
        refine (swap_post cfg.swapProp x y).bind fun r hr => ?_
        obtain ⟨h1, h2, h3, h4, h5, h6, h7, h8⟩ := hr
        exact h.exchange hne hx hy ((h.own hy).eq h2 h3 h1 h4) ((h.own hx).eq h6 h7 h5 h8) (Box.blk_eq h2 h3 h1 h4)
          (Box.blk_eq h6 h7 h5 h8)
    · exact h
  | op s o =>
    simp only [HWorld.step]
    split
    · exact h
    · rename_i b hb
      exact ((step_sim hash (h.own hb) o).post fun a b hr => hr.1.2).bind fun a ha => h.step1 hb ha
  | destroy s =>
    simp only [HWorld.step]
    split
    · exact h
    · rename_i b hb
      refine (destroy_post (h.own hb)).bind fun m hm => ?_
      have h1 := h.step1 hb (hm (Table.init b.t.lf) rfl rfl)
      have h2 := h1.remove (s := s) (b := ⟨Table.init b.t.lf, b.al, none, none⟩) (by simp [put]) (Box.blk_empty rfl rfl)
      have e : upd (w.put s ⟨m, ⟨Table.init b.t.lf, b.al, none, none⟩⟩).box s none = upd w.box s none := by
        funext i
        simp only [put, upd_apply]
        split <;> rfl
      rw [e] at h2
      exact h2

theorem init_balanced : Balanced (HWorld.init : HWorld k K V) :=
  ⟨fun _ _ => rfl, fun h => (by cases h), fun h => (by cases h), fun h => (by cases h)⟩

theorem HWorld.Reached.balanced {cfg : ACfg} {hash : K → Nat} {w : HWorld k K V} (h : Reached cfg hash w) : Balanced w := by
  induction h with
  | init => exact init_balanced
  | step _ hn e ih =>
    have := ih.step (hash := hash) _ hn
    rw [e] at this
    exact this

end Tpp.Dense
