import Verif.Swiss.BlocksSpec
import Verif.Props.SwissA

/-!
# C67: the memory blocks of the elements of stable containers
-/

set_option linter.unusedSectionVars false

namespace Tpp.Swiss

variable {K W : Type} [DecidableEq K]

/-- C67: whatever addresses the allocators hand out, at every point of a program with any number of stable containers and node
handles (and as many allocators) the live blocks are exactly those of the elements, each owned by one container or handle with the
allocator the block came from, and no two elements share an address. -/
theorem C67_program_partial {isa : Isa} {hash : K → Nat} {pick : Pick} (hp : pick.Fresh) {ops : List (WOp K W)}
    (ha : World.start.AllowsAll isa hash pick ops) :
    Ends isa (World.start.run isa hash pick ops) (fun w =>
      w.b.live.Perm (ownAll w.rs) ∧ ((ownAll w.rs).map Prod.fst).Nodup ∧ ∀ c, Res.cont c ∈ w.rs → Inv isa hash c.t) := by
  refine (World.run_sound (R := []) hp ops (w := World.start) ⟨fun _ h => (by cases h), List.Perm.refl _, List.nodup_nil⟩ ha).mono ?_
  intro w h
  have h2 := h.held
  rw [List.append_nil] at h2
  exact ⟨h2, (h2.map _).nodup_iff.mp h.nodup, fun c hc => h.ok _ hc⟩

/-- C67: when all containers and handles have been destroyed every block has been freed, once and with its allocator. -/
theorem C67_no_leak_partial {isa : Isa} {hash : K → Nat} {pick : Pick} (hp : pick.Fresh) {ops : List (WOp K W)}
    (ha : World.start.AllowsAll isa hash pick ops) :
    Ends isa (World.start.run isa hash pick ops >>= fun w => World.finish isa hash pick w.b w.rs) (fun b => b.live = []) := by
  refine (World.run_sound (R := []) hp ops (w := World.start) ⟨fun _ h => (by cases h), List.Perm.refl _, List.nodup_nil⟩ ha).bind ?_
  intro w h
  exact (World.finish_sound hp w.rs h).mono fun b hb => List.perm_nil.mp hb

/-- What C65 assumes of the addresses of a container holds in every program. -/
theorem C67_addresses {isa : Isa} {hash : K → Nat} {pick : Pick} (hp : pick.Fresh) {ops : List (WOp K W)}
    (ha : World.start.AllowsAll isa hash pick ops) {w : World K W} (hw : World.start.run isa hash pick ops = .ok w) {c : SC K W}
    (hc : Res.cont c ∈ w.rs) :
    (c.t.contents.map fun x => x.2.1).Nodup ∧
    ∀ k' a v, c.t.lookup isa hash k' = .ok (some (a, v)) → ∀ k a',
      c.t.tryEmplaceAddr isa hash k a' a = c.t.insert isa hash k (a', v) := by
  obtain ⟨_, h2, h3⟩ := ends_ok (C67_program_partial hp ha) hw
  have hd : (c.t.contents.map fun x => x.2.1).Nodup := by
    obtain ⟨s, u, hs⟩ := List.append_of_mem hc
    rw [hs, ownAll_append, ownAll_cons, List.map_append, List.map_append] at h2
    have := (List.nodup_append.mp (List.nodup_append.mp h2).2.1).1
    have e : (Res.own (.cont c)).map Prod.fst = c.t.contents.map fun x => x.2.1 := by
      show (c.t.contents.map _).map _ = _
      rw [List.map_map]; rfl
    rwa [e] at this
  exact ⟨hd, fun k' a v hl k a' => tryEmplaceAddr_eq (h3 c hc) hd hl k a'⟩

/-- Copies are in blocks of their own and hold the same keys and values. -/
theorem C67_copy {isa : Isa} {hash : K → Nat} {pick : Pick} (hp : pick.Fresh) {b : Blocks} {c : SC K W} {R : List (Nat × Nat)}
    (h : Sound isa hash b [.cont c] R) (hc : Copyable c.t) (al : Nat) :
    ∃ b' d, c.copyCtor isa pick b al = .ok (b', d) ∧ d.al = al ∧
      d.t.contents.map (fun x => (x.1, x.2.2)) = c.t.contents.map (fun x => (x.1, x.2.2)) ∧
      b'.live.Perm (own al d.t ++ b.live) ∧ ∀ a ∈ d.t.addrs, a ∉ c.t.addrs := by
  obtain ⟨h1, h2, h3⟩ := Sound.one.mp h
  obtain ⟨t', e1, e2, e3⟩ := copyCtor_spec h1 hc
  obtain ⟨f1, f2, f3, f4⟩ := readdress_spec hp e2 h3 al
  refine ⟨_, _, by unfold SC.copyCtor; rw [e1]; rfl, rfl, by rw [f2, e3], f3, ?_⟩
  intro a ha hb
  have := (f3.map Prod.fst).nodup_iff.mp f4
  rw [List.map_append] at this
  refine (List.nodup_append.mp this).2.2 a ?_ a ?_ rfl
  · rw [own_eq_addrs, List.map_map]
    exact List.mem_map.mpr ⟨a, ha, rfl⟩
  · refine (h2.map Prod.fst).mem_iff.mpr ?_
    rw [List.map_append, own_eq_addrs, List.map_map]
    exact List.mem_append_left _ (List.mem_map.mpr ⟨a, hb, rfl⟩)

/-! ## Where C67 fails -/

section negations

variable {isa : Isa} {hash : K → Nat} {pick : Pick} {b : Blocks} {c d : SC K W} {R : List (Nat × Nat)}

/-- A live block is not live for another allocator. -/
theorem free_wrong {a al al' : Nat} (hn : (b.live.map Prod.fst).Nodup) (hm : (a, al) ∈ b.live) (hne : al ≠ al') :
    b.free al' a = .error .badFree := by
  unfold Blocks.free
  rw [if_neg]
  intro hm'
  have := eq_of_nodup_map hn hm hm' rfl
  exact hne (congrArg Prod.snd this)

theorem freeAll_wrong {t : Table K (Nat × W)} {al al' : Nat} (h2 : b.live.Perm (own al t ++ R)) (hn : (b.live.map Prod.fst).Nodup)
    (hne : al ≠ al') (hc : t.contents ≠ []) : b.freeAll al' t.addrs = .error .badFree := by
  cases hx : t.contents with
  | nil => exact absurd hx hc
  | cons x l =>
    have hm : (x.2.1, al) ∈ b.live := by
      refine h2.mem_iff.mpr (List.mem_append_left _ ?_)
      unfold own
      rw [hx]; exact List.mem_cons_self
    unfold Table.addrs
    rw [hx]
    simp only [List.map_cons, Blocks.freeAll]
    rw [free_wrong hn hm hne]
    rfl

/-- If the constructor of the element throws, the block that was allocated for it is never freed. -/
theorem C67_throw_false (h : Sound isa hash b [.cont c] R) {k : K} (hk : c.t.contains isa hash k = .ok false) :
    ∃ b' c', c.insertThrow isa hash pick b k = .ok (b', c') ∧ (own c'.al c'.t).Perm (own c.al c.t) ∧
      b'.live.length = (own c'.al c'.t).length + R.length + 1 := by
  obtain ⟨h1, h2, h3⟩ := Sound.one.mp h
  rcases find_cases h1 k with ⟨i, m, hi, hm, hk', hf, hl⟩ | ⟨hno, hf, hl⟩
  · rw [contains_spec h1, hl] at hk; cases hk
  · obtain ⟨t1, target, p1, p2, p3, _⟩ := prepare_spec h1 (hash k)
    have hp : (own c.al t1).Perm (own c.al c.t) := own_perm (contents_perm p3)
    refine ⟨(b.alloc pick c.al).1, { c with t := t1 }, ?_, hp, ?_⟩
    · unfold SC.insertThrow Table.insertThrow
      simp only [hf, bind_ok, if_true, p1]
    · rw [alloc_live, List.length_cons, h2.length_eq, List.length_append]
      show _ + 1 = (own c.al t1).length + _ + 1
      rw [hp.length_eq]

/-- If the growth, the hash function or the comparison throws in `emplace`, the block of the temporary is never freed. -/
theorem C67_emplace_throw_false (h : Sound isa hash b [.cont c] R) :
    (c.emplaceThrow pick b).2 = c ∧ (c.emplaceThrow pick b).1.live.length = (own c.al c.t).length + R.length + 1 := by
  obtain ⟨h1, h2, h3⟩ := Sound.one.mp h
  refine ⟨rfl, ?_⟩
  show ((b.alloc pick c.al).1.live).length = _
  rw [alloc_live, List.length_cons, h2.length_eq, List.length_append]

/-- Taking the element out of a handle of another allocator and destroying the handle frees the block twice. -/
theorem take_unequal (hp : pick.Fresh) {al al' : Nat} {x : K × Nat × W} (hm : (x.2.1, al) ∈ b.live)
    (hn : (b.live.map Prod.fst).Nodup) (hne : al' ≠ al) :
    ∃ b' a, Handle.take pick b al' ⟨al, some x⟩ = .ok (b', a, ⟨al, some x⟩) ∧
      Handle.drop b' ⟨al, some x⟩ = .error .badFree := by
  have hm' : (x.2.1, al) ∈ (b.alloc pick al').1.live := List.mem_cons_of_mem _ hm
  have hn' := alloc_nodup hp al' hn
  obtain ⟨b', f1, f2, f3⟩ := free_of_perm (b := (b.alloc pick al').1) (List.perm_cons_erase hm') hn'
  refine ⟨b', (b.alloc pick al').2, by simp only [Handle.take, if_neg hne, f1, bind_ok], ?_⟩
  show b'.free al x.2.1 = _
  unfold Blocks.free
  rw [if_neg]
  intro hin
  have hnn : (b.alloc pick al').1.live.Nodup := List.Nodup.of_map _ hn'
  exact ((List.Nodup.mem_erase_iff hnn).mp (f2.mem_iff.mp hin)).1 rfl

/-- Inserting a node handle of another allocator: the handle's destructor frees its block a second time. -/
theorem C67_node_unequal_false (hp : pick.Fresh) {al : Nat} {x : K × Nat × W}
    (h : Sound isa hash b [.cont c, .node ⟨al, some x⟩] R) (hk : c.t.contains isa hash x.1 = .ok false) (hne : c.al ≠ al) :
    ∃ b' c' g, c.insertNode isa hash pick b ⟨al, some x⟩ = .ok (b', c', g) ∧ g.drop b' = .error .badFree := by
  obtain ⟨h1, _, h2, h3⟩ := Sound.two.mp h
  have h1 : Inv isa hash c.t := h1
  rcases find_cases h1 x.1 with ⟨i, m, hi, hm, hk', hf, hl⟩ | ⟨hno, hf, hl⟩
  · rw [contains_spec h1, hl] at hk; cases hk
  · have h2 : b.live.Perm (own c.al c.t ++ ([(x.2.1, al)] ++ R)) := h2
    have hmem : (x.2.1, al) ∈ b.live := h2.mem_iff.mpr (List.mem_append_right _ (List.mem_append_left _ List.mem_cons_self))
    obtain ⟨b', a, f1, f2⟩ := take_unequal hp hmem h3 hne
    obtain ⟨t', p, e1, e2, _⟩ := emplaceNode_spec h1 (n := ⟨x.1, (a, x.2.2), hash x.1⟩) rfl hno
    refine ⟨b', { c with t := t' }, ⟨al, some x⟩, ?_, f2⟩
    unfold SC.insertNode
    simp only [hf, bind_ok, if_true, f1, e1]

/-- Inserting the empty handle that extracting a missing key yields dereferences a null pointer. -/
theorem C67_empty_handle_false (h : Inv isa hash c.t) {k : K} (hk : c.t.contains isa hash k = .ok false) (d : SC K W) (b : Blocks) :
    Ends isa (c.extract isa hash k) (fun r => r.2.cell = none ∧ d.insertNode isa hash pick b r.2 = .error .nullDeref ∧
      d.assignNode isa hash pick b r.2 = .error .nullDeref) := by
  unfold SC.extract
  refine (extract_spec h k).bind ?_
  rintro ⟨t, x⟩ ⟨_, _, e3, _⟩
  rw [contains_spec h] at hk
  have hl : Spec.lookup c.t.contents k = none := by
    cases hx : Spec.lookup c.t.contents k with
    | none => rfl
    | some v => rw [hx] at hk; cases hk
  have e3 : x = _ := e3
  rw [hl] at e3
  cases e3
  exact Ends.of_ok rfl ⟨rfl, rfl, rfl⟩

theorem Copied.contents_eq {t u : Table K W} (h : Inv isa hash u) (hc : Copied 0 u t) : t.contents = u.contents := by
  unfold Table.contents Table.nodes
  by_cases hz : u.size = 0
  · have h1 := hc.cap
    rw [if_pos hz] at h1
    have := h.empty_of_size hz
    unfold Table.nodes at this
    rw [this, h1]; rfl
  · have h1 := hc.cap
    rw [if_neg hz] at h1
    have h1 : t.cap = u.cap := by omega
    rw [h1, collect_congr (g := u.node)]
    intro i hi
    rw [hc.node i (by omega), if_pos ⟨hz, hi⟩]

/-- Move construction with an unequal allocator: the new container takes over blocks that it frees with the wrong allocator. -/
theorem C67_move_unequal_false (h : Sound isa hash b [.cont c] R) {al : Nat} (hne : al ≠ c.al) (hz : c.t.contents ≠ []) :
    ∃ d c', c.moveCtor isa al = .ok (d, c') ∧ d.dtor b = .error .badFree := by
  obtain ⟨h1, h2, h3⟩ := Sound.one.mp h
  obtain ⟨x, y, e1, _, e2, _⟩ := moveCtor_unequal (al := ⟨false, false, decide (al = c.al)⟩) h1 (by simpa using hne)
  refine ⟨⟨al, x⟩, { c with t := y }, by unfold SC.moveCtor; rw [e1]; rfl, ?_⟩
  have hx := Copied.contents_eq h1 e2
  unfold SC.dtor
  rw [freeAll_wrong (t := x) (al := c.al) (R := R) (by unfold own; rw [hx]; exact h2) h3 (fun e => hne e.symm)
    (by rw [hx]; exact hz)]
  rfl

/-- `swap` of containers with unequal allocators, also those that propagate on swap: the blocks change hands without their
allocators. -/
theorem C67_swap_unequal_false (h : Sound isa hash b [.cont c, .cont d] R) (hne : c.al ≠ d.al) (hz : c.t.contents ≠ []) :
    (c.swap d).2.dtor b = .error .badFree := by
  obtain ⟨h1, _, h2, h3⟩ := Sound.two.mp h
  unfold SC.dtor
  show ((b.freeAll d.al c.t.addrs) >>= _) = _
  rw [freeAll_wrong (t := c.t) (al := c.al) h2 h3 hne hz]
  rfl

theorem Ends.bind_error {α β : Type} {x : M α} {f : α → M β} {P : α → Prop} {e : Fault} (h : Ends isa x P)
    (hf : ∀ a, P a → f a = .error e ∨ (isa.W = 8 ∧ f a = .error .ctzZero)) :
    (x >>= f) = .error e ∨ (isa.W = 8 ∧ (x >>= f) = .error .ctzZero) := by
  rcases h with ⟨a, h, hp⟩ | ⟨h1, h2⟩
  · subst h; exact hf a hp
  · subst h2; exact Or.inr ⟨h1, rfl⟩

theorem mergeLoop_unequal (hp : pick.Fresh) (hn : (b.live.map Prod.fst).Nodup) {t u : Table K (Nat × W)} {al al' : Nat}
    (hne : al ≠ al') (hd : Inv isa hash t) (hs : Inv isa hash u) (hb : ∀ x ∈ u.contents, (x.2.1, al') ∈ b.live) :
    ∀ (fuel pos : Nat), pos ≤ u.cap → (pos < u.cap → (u.ctl pos).isOccupied = true) → u.cap - pos < fuel →
      Missing t.contents (u.elemsFrom pos) ≠ [] →
      SC.mergeLoop isa hash pick fuel b ⟨al, t⟩ ⟨al', u⟩ pos u.cap = .error .badFree ∨
        (isa.W = 8 ∧ SC.mergeLoop isa hash pick fuel b ⟨al, t⟩ ⟨al', u⟩ pos u.cap = .error .ctzZero) := by
  intro fuel
  induction fuel with
  | zero => intro _ _ _ h; omega
  | succ fuel ih =>
    intro pos hle hocc hf hmiss
    unfold SC.mergeLoop
    by_cases he : pos = u.cap
    · exact absurd (by rw [elemsFrom_end u (by omega)]; rfl) hmiss
    · rw [if_neg he]
      have hp' : pos < u.cap := by omega
      obtain ⟨n, hnode⟩ := node_of_occupied hs hp' (hocc hp')
      obtain ⟨hel, _⟩ := elemsFrom_occupied hs hp' hnode
      simp only [readNode_some hp' hnode, bind_ok]
      rcases find_cases hd n.key with ⟨i, n', hi, hn', hk, hfnd, hl⟩ | ⟨hno, hfnd, hl⟩
      · simp only [hfnd, bind_ok, show ¬ i = t.cap by omega, if_false]
        refine (step_iter hs hp').bind_error ?_
        rintro q ⟨q1, q2, q3, q4⟩
        refine ih q q2 q3 (by omega) ?_
        rw [hel] at hmiss
        unfold Missing at hmiss ⊢
        rw [List.filter_cons] at hmiss
        rw [q4]
        simpa [hl] using hmiss
      · simp only [hfnd, bind_ok, if_true]
        rcases extractAt_spec hs hp' hnode with ⟨⟨u', n'⟩, y1, x1, x2, _⟩ | ⟨y1, y2⟩
        · simp only at x2
          subst x2
          obtain ⟨b', a, e1, e2⟩ := take_unequal hp (x := (n'.key, n'.val)) (al' := al)
            (hb (n'.key, n'.val) (mem_contents.mpr ⟨pos, n', hp', hnode, rfl, rfl⟩)) hn hne
          obtain ⟨t', p, e3, _⟩ := emplaceNode_spec hd (n := ⟨n'.key, (a, n'.val.2), hash n'.key⟩) rfl hno
          refine Or.inl ?_
          simp only [y1, bind_ok, e1, e3, e2]
          rfl
        · refine Or.inr ⟨y1, ?_⟩
          simp only [y2]
          rfl

/-- Merging a container with an unequal allocator frees the block of the first transferred element twice. -/
theorem C67_merge_unequal_false (hp : pick.Fresh) (h : Sound isa hash b [.cont c, .cont d] R) (hne : c.al ≠ d.al) {x : K × Nat × W}
    (hx : x ∈ d.t.contents) (hk : c.t.contains isa hash x.1 = .ok false) :
    c.merge isa hash pick b d = .error .badFree ∨ (isa.W = 8 ∧ c.merge isa hash pick b d = .error .ctzZero) := by
  obtain ⟨h1, h1', h2, h3⟩ := Sound.two.mp h
  have h1 : Inv isa hash c.t := h1
  have h1' : Inv isa hash d.t := h1'
  have h2 : b.live.Perm (own c.al c.t ++ (own d.al d.t ++ R)) := h2
  obtain ⟨t, d1, d2, d3, d4, d5, _⟩ := reserve_spec h1 (c.t.size + d.t.size)
  have hc : t.contents.Perm c.t.contents := contents_perm d4
  unfold SC.merge
  rw [d1]
  simp only [bind_ok, Table.begin_]
  refine (toIter_spec h1' (Nat.zero_le _)).bind_error ?_
  intro pos hpos
  rw [end_spec h1']
  simp only [bind_ok]
  have he : d.t.elemsFrom pos = d.t.contents := by
    rw [← elemsFrom_zero]; exact (elemsFrom_next h1'.live hpos).symm
  refine mergeLoop_unequal hp h3 hne d2 h1' ?_ _ pos hpos.2.1 hpos.2.2.2 (by omega) ?_
  · intro y hy
    refine h2.mem_iff.mpr (List.mem_append_right _ (List.mem_append_left _ ?_))
    exact List.mem_map.mpr ⟨y, hy, rfl⟩
  · rw [he]
    refine List.ne_nil_of_mem (a := x) (List.mem_filter.mpr ⟨hx, ?_⟩)
    rw [contains_spec h1] at hk
    rw [Spec.lookup_perm hc d2.contents_uniq]
    cases hl : Spec.lookup c.t.contents x.1 with
    | none => rfl
    | some v => rw [hl] at hk; cases hk

/-- Exchanging two handles with unequal allocators fails the assertion, also if the allocators propagate and are exchanged. -/
theorem C67_handle_swap_false {h g : Handle K W} (hne : h.al ≠ g.al) (prop : Bool) : h.swap prop g = .error .assertFail := by
  unfold Handle.swap
  cases prop
  · simp [hne]
  · simp [Ne.symm hne]

/-- Assigning a handle to one with an unequal allocator that does not propagate fails the assertion, also if the target is empty. -/
theorem C67_handle_assign_false {h g : Handle K W} (hs : Sound isa hash b [.node h, .node g] R) (hne : h.al ≠ g.al) :
    h.assign false b g = .error .assertFail := by
  obtain ⟨_, _, h2, h3⟩ := Sound.two.mp hs
  obtain ⟨b', e1, _⟩ := Handle.drop_sound (isa := isa) (hash := hash) (b := b) (R := Res.own (.node g) ++ R) (h := h)
    ⟨fun r hr => (by rw [List.mem_singleton] at hr; subst hr; trivial), by rw [ownAll_one]; exact h2, h3⟩
  unfold Handle.assign
  rw [e1]
  simp [hne]

/-- `node_type nh; nh = c.extract(k);` fails the assertion for every element of every container whose allocator is not equal to the
default-constructed one and does not propagate. -/
theorem C67_handle_init_false (h : Sound isa hash b [.cont c] R) {k : K} (hk : c.t.contains isa hash k = .ok true) (h0 : c.al ≠ 0) :
    Ends isa (c.extract isa hash k) (fun r => r.2.cell.isSome = true ∧
      (Handle.init : Handle K W).assign false b r.2 = .error .assertFail) := by
  obtain ⟨h1, h2, h3⟩ := Sound.one.mp h
  unfold SC.extract
  refine (extract_spec h1 k).bind ?_
  rintro ⟨t, x⟩ ⟨_, _, e3, _⟩
  have e3 : x = _ := e3
  rw [contains_spec h1] at hk
  cases hl : Spec.lookup c.t.contents k with
  | none => rw [hl] at hk; cases hk
  | some v =>
    rw [hl] at e3
    subst e3
    refine Ends.of_ok rfl ⟨rfl, ?_⟩
    unfold Handle.assign
    simp only [Handle.init, Handle.drop, bind_ok, Option.map_some, Option.isSome_some, if_true, Bool.false_eq_true, if_false,
      if_neg (Ne.symm h0)]

/-- `nh = c.extract(k);` fails the assertion for every absent key if nh holds an element of the container: the handle that says that
there is no such element has a default-constructed allocator. -/
theorem C67_handle_absent_false {g : Handle K W} (h : Sound isa hash b [.cont c, .node g] R) {k : K}
    (hk : c.t.contains isa hash k = .ok false) (hg : g.al ≠ 0) :
    Ends isa (c.extract isa hash k) (fun r => r.2 = .init ∧ g.assign false b r.2 = .error .assertFail) := by
  obtain ⟨h1, _, h2, h3⟩ := Sound.two.mp h
  have h1 : Inv isa hash c.t := h1
  have hs : Sound isa hash b [.node g] (own c.al c.t ++ R) := by
    refine ⟨fun r hr => (by rw [List.mem_singleton] at hr; subst hr; trivial), ?_, h3⟩
    rw [ownAll_one]
    refine h2.trans ?_
    rw [← List.append_assoc, ← List.append_assoc]
    exact List.perm_append_comm.append_right R
  obtain ⟨b', d1, _⟩ := Handle.drop_sound hs
  unfold SC.extract
  refine (extract_spec h1 k).bind ?_
  rintro ⟨t, x⟩ ⟨_, _, e3, _⟩
  have e3 : x = _ := e3
  rw [contains_spec h1] at hk
  cases hl : Spec.lookup c.t.contents k with
  | some v => rw [hl] at hk; cases hk
  | none =>
    rw [hl] at e3
    subst e3
    refine Ends.of_ok rfl ⟨rfl, ?_⟩
    unfold Handle.assign
    rw [d1]
    simp [Handle.init, hg]

end negations

/-! ## Examples -/

/-- Addresses in the order of allocation. -/
def pickNext : Pick := fun n l => (n :: l).foldr max 0 + 1

theorem pickNext_fresh : pickNext.Fresh := by
  have key : ∀ (l : List Nat) (x : Nat), x ∈ l → x ≤ l.foldr max 0 := by
    intro l
    induction l with
    | nil => intro x h; cases h
    | cons y l ih =>
      intro x h
      simp only [List.foldr_cons]
      rcases List.mem_cons.mp h with rfl | h
      · omega
      · have := ih x h; omega
  intro n l h
  have := key (n :: l) _ (List.mem_cons_of_mem _ h)
  unfold pickNext at this
  omega

/-- Two containers, a copy, a node that changes hands, a merge, a move. -/
def blockProgram : List (WOp Nat Nat) :=
  [.create 7, .one (.insert 1 10) 0, .one (.emplace 2 20) 0, .one (.emplace 2 21) 0, .one (.assign 1 11) 0,
   .one (.copyCtor 8) 0, .create 7, .one (.insert 5 50) 0, .two .merge 0 0, .one (.extract 5) 0,
   .two .assignNode 0 0, .one (.moveCtor 7) 0, .one .clear 4]

/-- What there is: for every container or handle its allocator, then key, address and value of its elements. -/
def World.view (w : World Nat Nat) : List (List Nat) :=
  w.rs.map fun r => match r with
    | .cont c => c.al :: c.t.contents.flatMap fun x => [x.1, x.2.1, x.2.2]
    | .node h => h.al :: h.cell.toList.flatMap fun x => [x.1, x.2.1, x.2.2]

set_option maxRecDepth 100000 in
example : (World.start.run .sse2 h64 pickNext (blockProgram.take 9)).map World.view =
    .ok [[7, 1, 1, 11, 2, 2, 20, 5, 6, 50], [7], [8, 1, 4, 11, 2, 5, 20]] := by decide +kernel

set_option maxRecDepth 100000 in
example : (World.start.run .sse2 h64 pickNext blockProgram).map (fun w => (w.view, w.b.live)) =
    .ok ([[8], [7], [7, 1, 1, 11, 2, 2, 20, 5, 6, 50], [7], [7]], [(6, 7), (2, 7), (1, 7)]) := by decide +kernel

set_option maxRecDepth 100000 in
example : (World.start.run .sse2 h64 pickNext blockProgram >>= fun w => World.finish .sse2 h64 pickNext w.b w.rs).map
    (fun b => b.live) = .ok [] := by decide +kernel

set_option maxRecDepth 100000 in
/-- A handle for the elements of a container with allocator 7: default-constructed, then assigned. -/
example : (World.start.run .sse2 h64 pickNext [.create 7, .one (.insert 1 10) 0, .one (.extract 1) 0, .handle,
    .two (.moveAssign false) 0 1]).map World.view = .error .assertFail := by decide +kernel

set_option maxRecDepth 100000 in
/-- With a propagating allocator; and with the default-constructed one. -/
example : (World.start.run .sse2 h64 pickNext [.create 7, .one (.insert 1 10) 0, .one (.extract 1) 0, .handle,
      .two (.moveAssign true) 0 1]).map World.view = .ok [[7, 1, 1, 10], [7], [7]] ∧
    (World.start.run .sse2 h64 pickNext [.create 0, .one (.insert 1 10) 0, .one (.extract 1) 0, .handle,
      .two (.moveAssign false) 0 1, .two (.swap false) 0 0]).map World.view = .ok [[0], [0, 1, 1, 10], [0]] := by decide +kernel

set_option maxRecDepth 100000 in
/-- Two handles of different containers are exchanged. -/
example : (World.start.run .sse2 h64 pickNext [.create 7, .one (.insert 1 10) 0, .one (.extract 1) 0, .create 8,
    .one (.insert 2 20) 0, .one (.extract 2) 0, .two (.swap true) 1 2]).map World.view = .error .assertFail := by decide +kernel

set_option maxRecDepth 100000 in
/-- Merging with the container of the other allocator. -/
example : (World.start.run .sse2 h64 pickNext (blockProgram.take 8 ++ [.two .merge 0 1])).map World.view = .error .badFree := by
  decide +kernel

instance (t : Table K W) : Decidable (NoTomb t) := by unfold NoTomb; infer_instance

instance (t : Table K W) : Decidable (Copyable t) := by unfold Copyable; infer_instance

instance (al : AllocP) (t u : Table K W) : Decidable (CopyFits al t u) := by unfold CopyFits; infer_instance

instance (op : Op1 K W) (r : Res K W) : Decidable (op.Allowed r) := by
  cases op <;> cases r <;> unfold Op1.Allowed <;> infer_instance

instance (op : Op2) (r s : Res K W) : Decidable (op.Allowed r s) := by
  cases op <;> cases r <;> cases s <;> unfold Op2.Allowed <;> infer_instance

/-- Checks `World.Allows`. -/
def World.allowsB (w : World K W) : WOp K W → Bool
  | .create _ => true
  | .handle => true
  | .one op i => match w.rs[i]? with
    | none => true
    | some r => decide (op.Allowed r)
  | .two op i j => match w.rs[i]?, (w.rs.eraseIdx i)[j]? with
    | some r, some s => decide (op.Allowed r s)
    | _, _ => true

/-- Checks `World.AllowsAll`. -/
def World.allowsAllB (isa : Isa) (hash : K → Nat) (pick : Pick) : World K W → List (WOp K W) → Bool
  | _, [] => true
  | w, op :: ops => w.allowsB op && match w.step isa hash pick op with
    | .ok w' => World.allowsAllB isa hash pick w' ops
    | .error _ => true

theorem World.allows_of_check {w : World K W} {op : WOp K W} (h : w.allowsB op = true) : w.Allows op := by
  cases op with
  | create al => trivial
  | handle => trivial
  | one op i =>
    intro r hr
    simp only [World.allowsB, hr] at h
    exact of_decide_eq_true h
  | two op i j =>
    intro r s hr hs
    simp only [World.allowsB, hr, hs] at h
    exact of_decide_eq_true h

theorem World.allowsAll_of_check {isa : Isa} {hash : K → Nat} {pick : Pick} (ops : List (WOp K W)) :
    ∀ {w : World K W}, w.allowsAllB isa hash pick ops = true → w.AllowsAll isa hash pick ops := by
  induction ops with
  | nil => intro w _; trivial
  | cons op ops ih =>
    intro w h
    unfold World.allowsAllB at h
    rw [Bool.and_eq_true] at h
    refine ⟨World.allows_of_check h.1, ?_⟩
    intro w' hw
    have h2 := h.2
    rw [hw] at h2
    exact ih h2

set_option maxRecDepth 100000 in
/-- The program is allowed: the theorems apply to it. -/
example : World.start.AllowsAll .sse2 h64 pickNext blockProgram :=
  World.allowsAll_of_check _ (by decide +kernel)

end Tpp.Swiss
