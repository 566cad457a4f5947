import Verif.Props.SwissA

/-!
# C16–C28: copies, moves, swap, merge, nodes, accessors, construction, `erase_if`, throwing constructors
-/

set_option linter.unusedSectionVars false

namespace Tpp.Swiss

variable {K V : Type} [DecidableEq K]

/-! ## C16 -/

/-- A container of 20 elements from which one was erased. -/
def holed : Table Nat Nat :=
  after .sse2 (fun n => n % 4) (((List.range 20).map fun i => Op.insert i i) ++ [.erase 3])

set_option maxRecDepth 100000 in
/-- C16 is false: the copy of a reachable container from which an element was erased does not find elements the
original finds (the erased marks that kept the probe sequences connected are not copied). -/
theorem C16_copy_false : ∃ (t : Table Nat Nat) (k : Nat), Reachable .sse2 (fun n => n % 4) t ∧
    t.contains .sse2 (fun n => n % 4) k = .ok true ∧
    (Table.copyCtor .sse2 t >>= fun c => c.contains .sse2 (fun n => n % 4) k) = .ok false :=
  ⟨holed, 18, after_reachable _ _ _, by decide +kernel, by decide +kernel⟩

/-- C16, what holds: the copy of a container without erased slots (or without elements) behaves as the same map.
Missing: sources with erased slots, for which it is false. -/
theorem C16_copy_partial {isa : Isa} {hash : K → Nat} {t : Table K V} (h : Reachable isa hash t) {m : List (K × V)}
    (hb : Behaves isa hash t m) (hn : Copyable t) :
    ∃ c, Table.copyCtor isa t = .ok c ∧ Behaves isa hash c m := by
  obtain ⟨c, h1, h2, h3⟩ := copyCtor_spec h.inv hn
  exact ⟨c, h1, h2.behaves (h3 ▸ hb.contents_perm h.inv)⟩

/-- The guard of `C16_copy_partial` in terms of the interface: it holds after every history without `erase(...)`,
`extract` and `erase_if`. -/
theorem C16_copy_no_erase_partial {isa : Isa} {hash : K → Nat} {ops : List (Op K V)} {t : Table K V}
    {outs : List (Out K V)} (hops : ∀ op ∈ ops, op.noErase = true)
    (hrun : (Table.init : Table K V).run isa hash ops = .ok (t, outs)) :
    ∃ c, Table.copyCtor isa t = .ok c ∧ Behaves isa hash c (Spec.run [] ops).1 := by
  have hr := ends_ok (run_spec ops (Inv.init isa hash) (List.Perm.refl _)) hrun
  have hn : NoTomb t := run_noTomb ops hops (Inv.init isa hash) (fun i hi => absurd hi (Nat.not_lt_zero _)) hrun
  obtain ⟨c, h1, h2, h3⟩ := copyCtor_spec hr.1 (Or.inr hn)
  exact ⟨c, h1, h2.behaves (h3 ▸ hr.2.1)⟩

set_option maxRecDepth 100000 in
example : (after .sse2 h64 (((List.range 20).map fun i => Op.insert i i)) : Table Nat Nat).size = 20 ∧
    (Table.copyCtor .sse2 (after .sse2 h64 (((List.range 20).map fun i => Op.insert i i)) : Table Nat Nat) >>=
      fun c => c.lookup .sse2 h64 18) = .ok (some 18) ∧
    ∀ op ∈ ((List.range 20).map fun i => Op.insert i i : List (Op Nat Nat)), op.noErase = true := by decide +kernel

/-! ## C17 -/

set_option maxRecDepth 100000 in
/-- C17 is false (1): assigning to a container with more buckets leaves the elements at the positions of the smaller
table, where lookups do not find them. -/
theorem C17_copy_assign_false_larger : ∃ t a : Table Nat Nat, Reachable .sse2 (fun n => n * 128) t ∧
    Reachable .sse2 (fun n => n * 128) a ∧ a.contains .sse2 (fun n => n * 128) 100 = .ok true ∧
    (Table.copyAssign .sse2 .std t a >>= fun c => c.contains .sse2 (fun n => n * 128) 100) = .ok false :=
  ⟨after .sse2 (fun n => n * 128) [.rehash 100, .insert 1 1], after .sse2 (fun n => n * 128) [.insert 100 1],
    after_reachable _ _ _, after_reachable _ _ _, by decide +kernel, by decide +kernel⟩

/-- C17 is false (2): assigning an empty container to one with elements leaves the control bytes of the destroyed
elements; iterating then reads destroyed elements. -/
theorem C17_copy_assign_false_empty : ∃ t a : Table Nat Nat, Reachable .sse2 h64 t ∧ Reachable .sse2 h64 a ∧ a.size = 0 ∧
    (Table.copyAssign .sse2 .std t a >>= fun c => c.iterate .sse2) = .error .deadRead :=
  ⟨demo, Table.init, demo_reachable, Reachable.init _, rfl, by decide⟩

set_option maxRecDepth 100000 in
/-- C17 is false (3): as for copy construction, erased slots of the source. -/
theorem C17_copy_assign_false_erased : ∃ (t a : Table Nat Nat) (k : Nat), Reachable .sse2 (fun n => n % 4) t ∧
    Reachable .sse2 (fun n => n % 4) a ∧ a.contains .sse2 (fun n => n % 4) k = .ok true ∧
    (Table.copyAssign .sse2 .std t a >>= fun c => c.contains .sse2 (fun n => n % 4) k) = .ok false :=
  ⟨Table.init, holed, 18, Reachable.init _, after_reachable _ _ _, by decide +kernel, by decide +kernel⟩

/-- C17, what holds: if the source has no erased slots or no elements, and the allocator propagates, or the source is
not empty and has at least as many buckets as the target, or both are empty and the target has no erased slots, then
the target behaves as the source (with the source's hash function, which is assigned too).
Missing: the other cases, for which it is false. -/
theorem C17_copy_assign_partial {isa : Isa} {hash hash' : K → Nat} {al : AllocP} {t a : Table K V}
    (ht : Reachable isa hash t) (ha : Reachable isa hash' a) {m : List (K × V)} (hb : Behaves isa hash' a m)
    (hn : Copyable a) (hf : CopyFits al t a) :
    ∃ c, Table.copyAssign isa al t a = .ok c ∧ Behaves isa hash' c m := by
  obtain ⟨c, h1, h2, h3⟩ := copyAssign_spec ht.inv ha.inv hn hf
  exact ⟨c, h1, h2.behaves (h3 ▸ hb.contents_perm ha.inv)⟩

example : ∃ t a : Table Nat Nat, Reachable .sse2 h64 t ∧ t.size = 1 ∧ Reachable .sse2 h64 a ∧ a.size = 3 ∧
    Copyable a ∧ CopyFits .std t a ∧
    (Table.copyAssign .sse2 .std t a >>= fun c => c.lookup .sse2 h64 2) = .ok (some 20) := by
  refine ⟨after .sse2 h64 [.insert 5 5], after .sse2 h64 [.insert 1 10, .insert 2 20, .insert 3 30],
    after_reachable _ _ _, by decide, after_reachable _ _ _, by decide, Or.inr ?_, Or.inr (Or.inl (by decide)), by decide⟩
  have : (after .sse2 h64 [.insert 1 10, .insert 2 20, .insert 3 30] : Table Nat Nat).cap = 3 := by decide
  intro i hi
  rw [this] at hi
  have : ∀ i, i < 3 → (after .sse2 h64 [.insert 1 10, .insert 2 20, .insert 3 30] : Table Nat Nat).ctl i ≠ .deleted := by
    decide
  exact this i hi

/-! ## C18 -/

/-- C18: move construction (equal allocators, as the code's move constructor always has): the new container behaves as
the source did, the source as an empty map. -/
theorem C18_move_construct {isa : Isa} {hash : K → Nat} {al : AllocP} (hal : al.equal = true) {a : Table K V}
    {m : List (K × V)} (hb : Behaves isa hash a m) :
    ∃ c a', Table.moveCtor isa al a = .ok (c, a') ∧ Behaves isa hash c m ∧ Behaves isa hash a' [] :=
  ⟨a, Table.init, moveCtor_spec al hal a, hb, (Inv.init isa hash).behaves (List.Perm.refl _)⟩

/-- C18: move assignment with a propagating allocator, whatever the target held. -/
theorem C18_move_assign {isa : Isa} {hash hash' : K → Nat} {al : AllocP} (hal : al.moveProp = true) {t a : Table K V}
    (ht : Reachable isa hash t) (ha : Reachable isa hash' a) {m : List (K × V)} (hb : Behaves isa hash' a m) :
    ∃ t' a', t.moveAssign isa al a = .ok (t', a') ∧ Behaves isa hash' t' m ∧ ∀ hash'', Behaves isa hash'' a' [] := by
  obtain ⟨t', a', h1, h2, h3, h4, _, _, _, _, h9⟩ := moveAssign_spec al hal ht.inv ha.inv
  refine ⟨t', a', h1, by rw [h2]; exact hb, fun hash'' => (h9 hash'').behaves ?_⟩
  rw [h4]

example : AllocP.std.moveProp = true ∧ AllocP.std.equal = true ∧ Behaves .sse2 h64 demo demoMap ∧
    (Table.moveAssign .sse2 .std (after .sse2 h64 [.insert 5 5]) demo).map (fun r => (r.1.size, r.2.size)) = .ok (4, 0) :=
  ⟨rfl, rfl, demo_behaves, by decide⟩

/-! ## C19 -/

/-- C19: `swap` exchanges what the two containers behave as (hash functions are swapped too). -/
theorem C19_swap {isa : Isa} {hash hash' : K → Nat} {a b : Table K V} {m n : List (K × V)} (ha : Behaves isa hash a m)
    (hb : Behaves isa hash' b n) :
    Behaves isa hash' (a.swapBuffers b).1 n ∧ Behaves isa hash (a.swapBuffers b).2 m := by
  rw [swapBuffers_eq]
  exact ⟨hb, ha⟩

example : Behaves .sse2 h64 demo demoMap ∧ Behaves .sse2 h64 (Table.init : Table Nat Nat) [] ∧
    (demo.swapBuffers Table.init).2.lookup .sse2 h64 3 = .ok (some 33) :=
  ⟨demo_behaves, (Inv.init _ _).behaves (List.Perm.refl _), by decide⟩

/-! ## C20 -/

theorem lookup_append (a b : List (K × V)) (k : K) :
    Spec.lookup (a ++ b) k = (Spec.lookup a k).or (Spec.lookup b k) := by
  induction a with
  | nil => rfl
  | cons x a ih =>
    rw [List.cons_append, Spec.lookup_cons, Spec.lookup_cons, ih]
    split <;> rfl

theorem lookup_missing (m l : List (K × V)) (k : K) :
    Spec.lookup (Missing m l) k = if Spec.lookup m k = none then Spec.lookup l k else none := by
  induction l with
  | nil =>
    show none = _
    split <;> rfl
  | cons x l ih =>
    unfold Missing at ih ⊢
    rw [List.filter_cons]
    by_cases hx : (Spec.lookup m x.1).isNone = true
    · rw [if_pos hx, Spec.lookup_cons, Spec.lookup_cons, ih]
      by_cases e : x.1 = k
      · subst e
        rw [Option.isNone_iff_eq_none] at hx
        simp [hx]
      · simp [e]
    · rw [if_neg hx, Spec.lookup_cons, ih]
      by_cases e : x.1 = k
      · subst e
        have : Spec.lookup m x.1 ≠ none := by
          intro e; rw [e] at hx; exact hx rfl
        simp [this]
      · simp [e]

/-- C20: `dst.merge(src)` moves exactly the elements of `src` whose key is absent from `dst`; nothing else changes.
The payload (with stable containers: the element's address) moves along.  The hash functions may differ. -/
theorem C20_merge {isa : Isa} {hash hash' : K → Nat} {dst src : Table K V} (hd : Reachable isa hash dst)
    (hs : Reachable isa hash' src) {m n : List (K × V)} (bd : Behaves isa hash dst m) (bs : Behaves isa hash' src n) :
    Ends isa (Table.merge isa hash dst src) (fun r => ∃ m' n', Behaves isa hash r.1 m' ∧ Behaves isa hash' r.2 n' ∧
      (m' ++ n').Perm (m ++ n) ∧
      (∀ k, Spec.lookup m' k = (Spec.lookup m k).or (Spec.lookup n k)) ∧
      (∀ k, Spec.lookup n' k = if Spec.lookup m k = none then none else Spec.lookup n k)) := by
  have hm := bd.contents_perm hd.inv
  have hn := bs.contents_perm hs.inv
  refine (merge_spec hd.inv hs.inv).mono ?_
  rintro ⟨d', s'⟩ ⟨h1, h2, h3, h4⟩
  simp only at h1 h2 h3 h4
  refine ⟨d'.contents, s'.contents, h1.behaves (List.Perm.refl _), h2.behaves (List.Perm.refl _), ?_, ?_, ?_⟩
  · refine List.Perm.trans ?_ (hm.append hn)
    refine (h3.append_right _).trans ?_
    rw [List.append_assoc]
    refine List.Perm.trans ?_ (h4.symm.append_left _)
    refine List.perm_append_comm.trans ?_
    rw [List.append_assoc]
    exact List.Perm.append_left _ List.perm_append_comm
  · intro k
    rw [Spec.lookup_perm h3 h1.contents_uniq, lookup_append, lookup_missing, Spec.lookup_perm hm hd.inv.contents_uniq,
      Spec.lookup_perm hn hs.inv.contents_uniq]
    cases Spec.lookup m k with
    | none => simp
    | some v => simp
  · intro k
    have e1 := Spec.lookup_perm h4 hs.inv.contents_uniq k
    rw [lookup_append, lookup_missing, Spec.lookup_perm hm hd.inv.contents_uniq,
      Spec.lookup_perm hn hs.inv.contents_uniq] at e1
    by_cases e : Spec.lookup m k = none
    · rw [if_pos e] at e1 ⊢
      have hu := (hs.inv.contents_uniq).perm h4
      unfold Spec.Uniq at hu
      rw [List.map_append, List.nodup_append] at hu
      rw [Spec.lookup_none]
      intro v hv
      have h5 : Spec.lookup s'.contents k = some v := (Spec.lookup_some h2.contents_uniq).mpr hv
      cases hx : Spec.lookup n k with
      | none => rw [hx, h5] at e1; cases e1
      | some w =>
        have h6 : Spec.lookup (Missing dst.contents src.contents) k = some w := by
          rw [lookup_missing, Spec.lookup_perm hm hd.inv.contents_uniq, if_pos e,
            Spec.lookup_perm hn hs.inv.contents_uniq, hx]
        have h7 : (k, w) ∈ Missing dst.contents src.contents := by
          unfold Spec.lookup at h6
          rw [Option.map_eq_some_iff] at h6
          obtain ⟨⟨a, b⟩, g1, g2⟩ := h6
          have g3 := List.mem_of_find?_eq_some g1
          have g4 := List.find?_some g1
          simp at g2 g4
          subst g2 g4
          exact g3
        exact hu.2.2 k (List.mem_map.mpr ⟨_, h7, rfl⟩) k (List.mem_map.mpr ⟨_, hv, rfl⟩) rfl
    · rw [if_neg e] at e1 ⊢
      simpa using e1.symm

example : Behaves .sse2 h64 demo demoMap ∧
    (Table.merge .sse2 h64 demo (after .sse2 (fun n => n) [.insert 3 7, .insert 8 80, .insert 5 1]) >>= fun r => do
      let a ← r.1.iterate .sse2
      let b ← r.2.iterate .sse2
      .ok (a, b)) = .ok ([(1, 10), (3, 33), (4, 40), (5, 50), (8, 80)], [(3, 7), (5, 1)]) :=
  ⟨demo_behaves, by decide⟩

/-! ## C21 -/

/-- C21: `extract(k)` removes exactly `k` and hands over its element. -/
theorem C21_extract {isa : Isa} {hash : K → Nat} {t : Table K V} (h : Reachable isa hash t) {m : List (K × V)}
    (hb : Behaves isa hash t m) (k : K) :
    Ends isa (t.extract isa hash k) (fun r => Behaves isa hash r.1 (Spec.erase m k) ∧
      r.2 = (Spec.lookup m k).map (fun v => (k, v)) ∧ (Spec.lookup m k = none → r.1 = t)) := by
  have hm := hb.contents_perm h.inv
  have hl := Spec.lookup_perm hm h.inv.contents_uniq k
  refine (extract_spec h.inv k).mono ?_
  rintro ⟨t', x⟩ ⟨h1, h2, h3, h4, _⟩
  exact ⟨h1.behaves (h2.trans (Spec.erase_perm hm k)), hl ▸ h3, hl ▸ h4⟩

/-- C21: inserting a node inserts it iff its key is absent and leaves the handle empty; otherwise the container is
unchanged and the handle keeps the node.  The returned iterator designates the element with the key. -/
theorem C21_insert_node {isa : Isa} {hash : K → Nat} {t : Table K V} (h : Reachable isa hash t) {m : List (K × V)}
    (hb : Behaves isa hash t m) (x : K × V) :
    ∃ t' p b left, t.insertNode isa hash x = .ok (t', p, b, left) ∧
      ((Spec.lookup m x.1 = none ∧ b = true ∧ left = none ∧ Behaves isa hash t' (x :: m) ∧ t'.Designates isa p x) ∨
       (∃ w, Spec.lookup m x.1 = some w ∧ b = false ∧ left = some x ∧ t' = t ∧ t'.Designates isa p (x.1, w))) := by
  have hm := hb.contents_perm h.inv
  have hl := Spec.lookup_perm hm h.inv.contents_uniq x.1
  obtain ⟨t', p, b, l, h1, h2, _, h3⟩ := insertNode_spec h.inv x
  refine ⟨t', p, b, l, h1, ?_⟩
  rcases h3 with ⟨h4, h5, h6, h7, h8⟩ | ⟨w, h4, h5, h6, h7, h8⟩
  · exact Or.inl ⟨hl ▸ h6, h4, h5, h2.behaves (h7.trans (hm.cons _)), designates_of_at h2 h8⟩
  · subst h7
    exact Or.inr ⟨w, hl ▸ h6, h4, h5, rfl, designates_of_at h2 h8⟩

/-- C21: extracting an element and inserting the node again restores what the container behaves as. -/
theorem C21_round_trip {isa : Isa} {hash : K → Nat} {t : Table K V} (h : Reachable isa hash t) {m : List (K × V)}
    (hb : Behaves isa hash t m) {k : K} {v : V} (hk : Spec.lookup m k = some v) :
    Ends isa (do
      let (t, x) ← t.extract isa hash k
      match x with
      | some x => t.insertNode isa hash x
      | none => .error .nullDeref) (fun r => Behaves isa hash r.1 m ∧ r.2.2.1 = true ∧ r.2.2.2 = none) := by
  have hm := hb.contents_perm h.inv
  have hl := Spec.lookup_perm hm h.inv.contents_uniq k
  refine (extract_spec h.inv k).bind ?_
  rintro ⟨t', x⟩ ⟨h1, h2, h3, _, _⟩
  rw [hl, hk] at h3
  simp only at h3
  subst h3
  obtain ⟨t2, p, b, l, g1, g2, _, g3⟩ := insertNode_spec h1 (k, v)
  refine Ends.of_ok g1 ?_
  have habs : Spec.lookup t'.contents k = none := by
    rw [Spec.lookup_perm h2 h1.contents_uniq, Spec.lookup_erase, if_pos rfl]
  rcases g3 with ⟨g4, g5, _, g7, _⟩ | ⟨w, _, _, g6, _⟩
  · refine ⟨g2.behaves ?_, g4, g5⟩
    refine Spec.perm_of_lookup g2.contents_uniq hb.uniq ?_
    intro y
    rw [Spec.lookup_perm g7 g2.contents_uniq, Spec.lookup_cons]
    by_cases e : k = y
    · subst e; rw [if_pos rfl, hk]
    · rw [if_neg e, Spec.lookup_perm h2 h1.contents_uniq, Spec.lookup_erase, if_neg (fun h => e h.symm),
        Spec.lookup_perm hm h.inv.contents_uniq]
  · rw [habs] at g6; cases g6

example : Behaves .sse2 h64 demo demoMap ∧ Spec.lookup demoMap 4 = some 40 ∧
    (demo.extract .sse2 h64 4).map (fun r => (r.1.size, r.2)) = .ok (3, some (4, 40)) :=
  ⟨demo_behaves, by decide, by decide⟩

/-! ## C23 -/

/-- `operator==` (sparse_map.hpp 543-546 and the other unordered swiss containers): `std::is_permutation` over the two
element sequences. -/
def Table.eq [DecidableEq V] (isa : Isa) (a b : Table K V) : M Bool := do
  let x ← a.iterate isa
  let y ← b.iterate isa
  .ok (decide (x.Perm y))

/-- C23: `a == b` iff the two containers map the same keys to the same values. -/
theorem C23_eq [DecidableEq V] {isa : Isa} {hash hash' : K → Nat} {a b : Table K V} (ha : Reachable isa hash a)
    (hb : Reachable isa hash' b) :
    Ends isa (a.eq isa b) (fun r => r = true ↔ ∀ k, a.lookup isa hash k = b.lookup isa hash' k) := by
  unfold Table.eq
  refine (iterate_spec ha.inv).bind ?_
  rintro x rfl
  refine (iterate_spec hb.inv).bind ?_
  rintro y rfl
  refine Ends.of_ok rfl ?_
  rw [decide_eq_true_iff]
  constructor
  · intro hp k
    rw [lookup_spec ha.inv, lookup_spec hb.inv, Spec.lookup_perm hp ha.inv.contents_uniq]
  · intro hl
    refine Spec.perm_of_lookup ha.inv.contents_uniq hb.inv.contents_uniq ?_
    intro k
    have := hl k
    rw [lookup_spec ha.inv, lookup_spec hb.inv] at this
    exact Except.ok.inj this

example : demo.eq .sse2 (after .sse2 (fun n => n) [.insert 5 50, .insert 3 33, .insert 4 40, .reserve 20, .insert 1 10]) =
    .ok true := by decide

example : demo.eq .sse2 (after .sse2 (fun n => n) [.insert 5 50, .insert 3 33, .insert 4 41, .reserve 20, .insert 1 10]) =
    .ok false := by decide

/-! ## C24 -/

/-- C24: `at` returns the mapped value, or throws `std::out_of_range` iff the key is absent; the map is not changed
(`at_` returns no container). -/
theorem C24_at {isa : Isa} {hash : K → Nat} {t : Table K V} (h : Reachable isa hash t) {m : List (K × V)}
    (hb : Behaves isa hash t m) (k : K) :
    t.at_ isa hash k = .ok (match Spec.lookup m k with
      | some v => .value v
      | none => .outOfRange) := by
  rw [at_spec h.inv, Spec.lookup_perm (hb.contents_perm h.inv) h.inv.contents_uniq]
  cases Spec.lookup m k <;> rfl

/-- C24: `operator[]` inserts the default value iff the key is absent and returns the mapped value. -/
theorem C24_index {isa : Isa} {hash : K → Nat} {t : Table K V} (h : Reachable isa hash t) {m : List (K × V)}
    (hb : Behaves isa hash t m) (dflt : V) (k : K) :
    ∃ t' v, t.index isa hash dflt k = .ok (t', v) ∧
      ((∃ w, Spec.lookup m k = some w ∧ v = w ∧ Behaves isa hash t' m) ∨
       (Spec.lookup m k = none ∧ v = dflt ∧ Behaves isa hash t' ((k, dflt) :: m))) := by
  have hm := hb.contents_perm h.inv
  have hl := Spec.lookup_perm hm h.inv.contents_uniq k
  obtain ⟨t', v, h1, h2, h3, h4, h5, _⟩ := index_spec h.inv dflt k
  refine ⟨t', v, h1, ?_⟩
  rw [hl] at h5
  unfold Spec.insert at h3
  rw [hl] at h3
  cases e : Spec.lookup m k with
  | none =>
    rw [e] at h3 h5
    exact Or.inr ⟨rfl, h5, h2.behaves (h3.trans (hm.cons _))⟩
  | some w =>
    rw [e] at h3 h5
    exact Or.inl ⟨w, rfl, h5, h2.behaves (h3.trans hm)⟩

example : Behaves .sse2 h64 demo demoMap ∧ demo.at_ .sse2 h64 3 = .ok (.value 33) ∧
    demo.at_ .sse2 h64 2 = .ok .outOfRange ∧ (demo.index .sse2 h64 0 2).map (fun r => (r.2, r.1.size)) = .ok (0, 5) :=
  ⟨demo_behaves, by decide, by decide, by decide⟩

/-! ## C25 -/

/-- C25 is false: constructing from a random access range of two elements (an initializer list, say) asks for exactly
two buckets, which is not a valid bucket count. -/
theorem C25_range_ctor_false :
    Table.rangeCtor .sse2 h64 true [(1, 10), (2, 20)] 0 = .error .assertFail := by rfl

theorem foldl_insert_lookup (xs m : List (K × V)) (k : K) :
    Spec.lookup (xs.foldl (fun m x => Spec.insert m x.1 x.2) m) k = (Spec.lookup m k).or (Spec.lookup xs k) := by
  induction xs generalizing m with
  | nil => simp [Spec.lookup]
  | cons x xs ih =>
    rw [List.foldl_cons, ih, Spec.lookup_insert, Spec.lookup_cons]
    by_cases e : k = x.1
    · subst e
      rw [if_pos rfl, if_pos rfl]
      cases Spec.lookup m x.1 <;> simp
    · rw [if_neg e, if_neg (fun h => e h.symm)]

/-- C25, what holds: if the bucket count in effect (the larger of the argument and, for random access ranges, the
number of elements) is a power of two minus one, the container holds exactly the keys of the range, the first
occurrence of a key winning.  Missing: the other lengths, for which it is false. -/
theorem C25_range_ctor_partial {isa : Isa} {hash : K → Nat} {ra : Bool} {xs : List (K × V)} {n j : Nat}
    (hn : (if ra then max xs.length n else n) + 1 = 2 ^ j) :
    ∃ t m, Table.rangeCtor isa hash ra xs n = .ok t ∧ Behaves isa hash t m ∧
      ∀ k, Spec.lookup m k = Spec.lookup xs k := by
  obtain ⟨t0, h1, h2, h3, _⟩ := withCapacity_spec (isa := isa) (hash := hash) (V := V) hn
  obtain ⟨t, h4, h5, h6, _⟩ := insertRange_spec ra h2 xs
  refine ⟨t, t.contents, ?_, h5.behaves (List.Perm.refl _), ?_⟩
  · unfold Table.rangeCtor
    rw [h1, bind_ok, h4]
  · intro k
    rw [Spec.lookup_perm h6 h5.contents_uniq, foldl_insert_lookup, h3]
    simp [Spec.lookup]

example : (Table.rangeCtor .sse2 h64 true [(1, 10), (2, 20), (1, 5)] 0 >>= fun t => t.iterate .sse2) =
    .ok [(1, 10), (2, 20)] := by decide

/-! ## C26 -/

/-- C26 is false: a bucket count that is not a power of two minus one is used as it is. -/
theorem C26_bucket_count_ctor_false : (Table.withCapacity .sse2 100 : M (Table Nat Nat)) = .error .assertFail := by rfl

/-- C26, what holds: with a bucket count that is a power of two minus one the container behaves as the empty map.
Missing: the other bucket counts, for which it is false. -/
theorem C26_bucket_count_ctor_partial {isa : Isa} {hash : K → Nat} {n j : Nat} (hn : n + 1 = 2 ^ j) :
    ∃ t : Table K V, Table.withCapacity isa n = .ok t ∧ t.cap = n ∧ Behaves isa hash t [] := by
  obtain ⟨t, h1, h2, h3, h4⟩ := withCapacity_spec (isa := isa) (hash := hash) (V := V) hn
  exact ⟨t, h1, h4, h2.behaves (by rw [h3])⟩

example : 127 + 1 = 2 ^ 7 := rfl

/-! ## C27 -/

/-- C27: `erase_if` calls the predicate once on each element (in iteration order), removes exactly the elements
satisfying it and returns their number. -/
theorem C27_erase_if {isa : Isa} {hash : K → Nat} {t : Table K V} (h : Reachable isa hash t) {m : List (K × V)}
    (hb : Behaves isa hash t m) (pred : K × V → Bool) :
    Ends isa (t.eraseIf isa pred) (fun r => Behaves isa hash r.1 (m.filter fun x => !pred x) ∧
      r.2.1 = (m.filter pred).length ∧ r.2.2.Perm m ∧ Ends isa (t.iterate isa) (· = r.2.2)) := by
  have hm := hb.contents_perm h.inv
  refine (eraseIf_spec pred h.inv).mono ?_
  rintro ⟨t', n, calls⟩ ⟨h1, h2, h3, h4, _⟩
  simp only at h2 h3 h4
  refine ⟨h1.behaves (h2.trans (hm.filter _)), ?_, ?_, ?_⟩
  · show n = _
    rw [h3, (hm.filter pred).length_eq]
  · show calls.Perm m
    rw [h4]; exact hm
  · show Ends isa (t.iterate isa) (· = calls)
    rw [h4]; exact iterate_spec h.inv

example : Behaves .sse2 h64 demo demoMap ∧
    (demo.eraseIf .sse2 (fun x => x.1 % 2 == 1)).map (fun r => (r.1.size, r.2)) =
      .ok (1, 3, [(1, 10), (3, 33), (4, 40), (5, 50)]) := ⟨demo_behaves, by decide⟩

/-! ## C28 -/

/-- C28: if the element constructor throws during an insertion, what the container behaves as is unchanged (also if the
attempt had already grown or reclaimed the table).  Nothing is constructed, hence nothing thrown, iff the key is
present. -/
theorem C28_constructor_throws {isa : Isa} {hash : K → Nat} {t : Table K V} (h : Reachable isa hash t)
    {m : List (K × V)} (hb : Behaves isa hash t m) (k : K) :
    ∃ t', t.insertThrow isa hash k = .ok (t', (Spec.lookup m k).isNone) ∧ Behaves isa hash t' m := by
  have hm := hb.contents_perm h.inv
  obtain ⟨t', h1, h2, h3, _⟩ := insertThrow_spec h.inv k
  rw [Spec.lookup_perm hm h.inv.contents_uniq] at h1
  exact ⟨t', h1, h2.behaves (h3.trans hm)⟩

/-- A throwing insertion that has grown the table from 3 to 7 buckets. -/
example : (after .sse2 h64 [.insert 1 10, .insert 2 20, .insert 3 30] : Table Nat Nat).cap = 3 ∧
    (Table.insertThrow .sse2 h64 (after .sse2 h64 [.insert 1 10, .insert 2 20, .insert 3 30] : Table Nat Nat) 9).map
      (fun r => (r.2, r.1.cap, r.1.size)) = .ok (true, 7, 3) := by decide

/-! ## C49 -/

/-- C49 for sparse and stable containers: inserting (a reference to) the element at `i` finds it and changes nothing: no memory
is touched that the reference could point to. -/
theorem C49_swiss_insert_self {isa : Isa} {hash : K → Nat} {t : Table K V} (h : Reachable isa hash t) {i : Nat} {n : Node K V}
    (hi : t.readNode i = .ok n) : t.insert isa hash n.key n.val = .ok (t, i, false) := by
  have hi' : i < t.cap ∧ t.node i = some n := by
    unfold Table.readNode at hi
    split at hi
    · rename_i hlt
      refine ⟨hlt, ?_⟩
      cases hn : t.node i with
      | none => rw [hn] at hi; cases hi
      | some x => rw [hn] at hi; cases hi; rfl
    · cases hi
  obtain ⟨t', p, b, h1, h2, _, h3⟩ := insert_spec h.inv n.key n.val
  rw [h1]
  rcases h3 with ⟨_, h4, _⟩ | ⟨w, h4, h5, h6, hp, m, hm, hw⟩
  · exfalso
    rcases find_cases h.inv n.key with ⟨_, _, _, _, _, _, hl⟩ | ⟨hno, _⟩
    · rw [hl] at h4; cases h4
    · exact hno i hi'.1 n hi'.2 rfl
  · subst h4 h6
    have hk : m.key = n.key := (Prod.ext_iff.mp hw).1
    rw [h.inv.uniq p hp i hi'.1 m n hm hi'.2 hk]

example : (demo.insert .sse2 h64 3 33).map (fun r => (r.2, r.1.iterate .sse2)) =
    .ok ((2, false), .ok [(1, 10), (3, 33), (4, 40), (5, 50)]) := by decide

end Tpp.Swiss
