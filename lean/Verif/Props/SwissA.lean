import Verif.Props.Behaves

/-!
# C01–C15: single-container properties of the sparse/stable containers

`Reachable isa hash t`: the container `t` with hash function `hash` can be produced by a program.
`Behaves isa hash t m`: `t` is observably the map `m` (see `Verif.Props.Behaves`).
`Ends isa x P`: `x` ends normally with a value satisfying `P`; in builds with 8-byte blocks it may alternatively run
into the undefined `ctz(0)` of C32.  With 16-byte blocks (`sse2`) it is total correctness (`Ends.sse2`).
-/

set_option linter.unusedSectionVars false

namespace Tpp.Swiss

variable {K V : Type} [DecidableEq K]

/-! ## C01 -/

/-- C01: the answers to every history of operations on an initially empty container are those of a mathematical
map. -/
theorem C01_history_agrees (isa : Isa) (hash : K → Nat) (ops : List (Op K V)) :
    Ends isa ((Table.init : Table K V).run isa hash ops)
      (fun r => List.Forall₂ Out.Agree r.2 (Spec.run [] ops).2) :=
  ((Inv.init isa hash).behaves (List.Perm.refl _)).run ops

/-- C01 for the 16-byte blocks: the history always runs to its end. -/
theorem C01_history_agrees_sse2 (hash : K → Nat) (ops : List (Op K V)) :
    ∃ t outs, (Table.init : Table K V).run .sse2 hash ops = .ok (t, outs) ∧
      List.Forall₂ Out.Agree outs (Spec.run [] ops).2 := by
  obtain ⟨⟨t, o⟩, h1, h2⟩ := (C01_history_agrees .sse2 hash ops).sse2
  exact ⟨t, o, h1, h2⟩

/-- C01 for all block implementations: histories of operations that make no iterator by skipping free slots
(everything but erase, extract, iteration and erase_if) always run to their end. -/
theorem C01_history_agrees_direct (isa : Isa) (hash : K → Nat) (ops : List (Op K V))
    (hd : ∀ op ∈ ops, op.direct = true) :
    ∃ t outs, (Table.init : Table K V).run isa hash ops = .ok (t, outs) ∧
      List.Forall₂ Out.Agree outs (Spec.run [] ops).2 := by
  suffices h : ∀ (ops : List (Op K V)), (∀ op ∈ ops, op.direct = true) → ∀ (t : Table K V) m, Inv isa hash t →
      t.contents.Perm m → ∃ t' outs, t.run isa hash ops = .ok (t', outs) ∧
        List.Forall₂ Out.Agree outs (Spec.run m ops).2 from
    h ops hd Table.init [] (Inv.init isa hash) (List.Perm.refl _)
  intro ops
  induction ops with
  | nil => intro _ t m _ _; exact ⟨t, [], rfl, .nil⟩
  | cons op ops ih =>
    intro hd t m h hm
    obtain ⟨⟨t1, o⟩, h1, h2, h3, h4⟩ := step_direct h hm op (hd op (by simp))
    obtain ⟨t2, os, h5, h6⟩ := ih (fun x hx => hd x (by simp [hx])) t1 _ h2 h3
    refine ⟨t2, o :: os, ?_, .cons h4 h6⟩
    simp only [Table.run, h1, bind_ok, h5]

example : ((Table.init : Table Nat Nat).run .sse2 h64
    (demoOps ++ [.find 2, .find 3, .contains 5, .size, .extract 1, .insert 1 7, .eraseIf (fun x => x.2 < 40), .iterate])).map
      (fun r => r.2.drop 7) =
    .ok [.opt none, .opt (some 33), .bool true, .nat 4, .node (some (1, 10)), .ins (1, 7) true,
      .count 2 [(1, 7), (3, 33), (4, 40), (5, 50)], .list [(4, 40), (5, 50)]] := by decide

/-! ## C02 -/

/-- C02: on every reachable container every operation ends without out-of-bounds access, access to dead storage,
construction over a live element, failing assertion, underflow or endless loop. -/
theorem C02_no_fault {isa : Isa} {hash : K → Nat} {t : Table K V} (h : Reachable isa hash t) (op : Op K V) :
    (∃ r, t.step isa hash op = .ok r) ∨ (isa.W = 8 ∧ t.step isa hash op = .error .ctzZero) := by
  rcases step_spec h.inv (List.Perm.refl _) op with ⟨r, h1, _⟩ | h1
  · exact Or.inl ⟨r, h1⟩
  · exact Or.inr h1

/-- C02 with 16-byte blocks: no fault at all. -/
theorem C02_no_fault_sse2 {hash : K → Nat} {t : Table K V} (h : Reachable .sse2 hash t) (op : Op K V) :
    ∃ r, t.step .sse2 hash op = .ok r := by
  rcases C02_no_fault h op with h1 | ⟨h1, _⟩
  · exact h1
  · cases h1

/-- C02 with every block implementation: operations other than erase, extract, iteration and erase_if have no fault
at all. -/
theorem C02_no_fault_direct {isa : Isa} {hash : K → Nat} {t : Table K V} (h : Reachable isa hash t) (op : Op K V)
    (hop : op.direct = true) : ∃ r, t.step isa hash op = .ok r := by
  obtain ⟨r, h1, _⟩ := step_direct h.inv (List.Perm.refl _) op hop
  exact ⟨r, h1⟩

/-- C02 for erasing through an iterator to an element. -/
theorem C02_erase_iterator {hash : K → Nat} {t : Table K V} (h : Reachable .sse2 hash t) {pos : Nat} {n : Node K V}
    (hp : t.readNode pos = .ok n) : ∃ r, t.eraseIter .sse2 pos = .ok r := by
  have hp' : pos < t.cap ∧ t.node pos = some n := by
    unfold Table.readNode at hp
    split at hp
    · rename_i hlt
      refine ⟨hlt, ?_⟩
      cases hn : t.node pos with
      | none => rw [hn] at hp; cases hp
      | some x => rw [hn] at hp; cases hp; rfl
    · cases hp
  obtain ⟨r, h1, _⟩ := (eraseIter_spec h.inv hp'.1 hp'.2).sse2
  exact ⟨r, h1⟩

example : Reachable .sse2 h64 demo ∧ (demo.step .sse2 h64 (.erase 4)).isOk = true ∧ demo.size = 4 ∧ demo.cap = 7 :=
  ⟨demo_reachable, by decide, by decide, by decide⟩

/-! ## C03 -/

/-- C03: iteration never yields two elements with equal keys. -/
theorem C03_no_duplicate_keys {isa : Isa} {hash : K → Nat} {t : Table K V} (h : Reachable isa hash t) :
    Ends isa (t.iterate isa) (fun l => (l.map Prod.fst).Nodup) := by
  refine (iterate_spec h.inv).mono ?_
  rintro l rfl
  exact h.inv.contents_uniq

example : Reachable .sse2 h64 demo ∧ demo.iterate .sse2 = .ok [(1, 10), (3, 33), (4, 40), (5, 50)] :=
  ⟨demo_reachable, demo_iterate⟩

/-! ## C04 -/

/-- C04: `size()` is the number of elements iteration visits. -/
theorem C04_size_is_iteration_length {isa : Isa} {hash : K → Nat} {t : Table K V} (h : Reachable isa hash t) :
    Ends isa (t.iterate isa) (fun l => l.length = t.size) := by
  refine (iterate_spec h.inv).mono ?_
  rintro l rfl
  exact h.inv.contents_length

/-- C04: `size()` after a history is the cardinality of the abstract map. -/
theorem C04_size_is_cardinality (isa : Isa) (hash : K → Nat) (ops : List (Op K V)) :
    Ends isa ((Table.init : Table K V).run isa hash ops) (fun r => r.1.size = (Spec.run [] ops).1.length) := by
  refine (run_spec ops (Inv.init isa hash) (List.Perm.refl _)).mono ?_
  rintro ⟨t, o⟩ ⟨h1, h2, _⟩
  show t.size = _
  rw [← h1.contents_length]
  exact h2.length_eq

example : demo.size = 4 ∧ ((Spec.run [] demoOps).1 : List (Nat × Nat)).length = 4 := by decide

/-! ## C05 -/

/-- C05: iteration ends and visits every findable element exactly once and nothing else. -/
theorem C05_iteration_exactly_once {isa : Isa} {hash : K → Nat} {t : Table K V} (h : Reachable isa hash t) :
    Ends isa (t.iterate isa) (fun l => l.Nodup ∧ ∀ k v, (k, v) ∈ l ↔ t.lookup isa hash k = .ok (some v)) := by
  refine (iterate_spec h.inv).mono ?_
  rintro l rfl
  refine ⟨List.Nodup.of_map _ h.inv.contents_uniq, ?_⟩
  intro k v
  rw [lookup_spec h.inv, ← Spec.lookup_some h.inv.contents_uniq]
  constructor
  · intro e; rw [e]
  · intro e; exact Except.ok.inj e

example : demo.iterate .sse2 = .ok [(1, 10), (3, 33), (4, 40), (5, 50)] ∧ demo.lookup .sse2 h64 3 = .ok (some 33) ∧
    demo.lookup .sse2 h64 2 = .ok none := by decide

/-! ## C06 -/

/-- The iterator `it` designates the element `x`. -/
def Table.Designates (isa : Isa) (t : Table K V) (p : Nat) (x : K × V) : Prop :=
  ∃ n, (t.toIter isa p >>= t.readNode) = .ok n ∧ (n.key, n.val) = x

theorem designates_of_at {isa : Isa} {hash : K → Nat} {t : Table K V} (h : Inv isa hash t) {p : Nat} {x : K × V}
    (hx : t.At p x) : t.Designates isa p x := by
  obtain ⟨n, h1, h2, h3⟩ := deref_spec h hx
  exact ⟨n, by rw [h1, bind_ok, h2], h3⟩

/-- C06: `insert`/`emplace`/`try_emplace` insert iff the key is absent, otherwise change nothing; the returned
iterator designates the element with the key. -/
theorem C06_insert {isa : Isa} {hash : K → Nat} {t : Table K V} (h : Reachable isa hash t) {m : List (K × V)}
    (hb : Behaves isa hash t m) (k : K) (v : V) :
    ∃ t' p b, t.insert isa hash k v = .ok (t', p, b) ∧
      ((Spec.lookup m k = none ∧ b = true ∧ Behaves isa hash t' ((k, v) :: m) ∧ t'.Designates isa p (k, v)) ∨
       (∃ w, Spec.lookup m k = some w ∧ b = false ∧ t' = t ∧ t'.Designates isa p (k, w))) := by
  have hm := hb.contents_perm h.inv
  have hl := Spec.lookup_perm hm h.inv.contents_uniq k
  obtain ⟨t', p, b, h1, h2, _, h3⟩ := insert_spec h.inv k v
  refine ⟨t', p, b, h1, ?_⟩
  rcases h3 with ⟨h4, h5, h6, h7, _⟩ | ⟨w, h4, h5, h6, h7⟩
  · exact Or.inl ⟨hl ▸ h5, h4, h2.behaves (h6.trans (hm.cons _)), designates_of_at h2 h7⟩
  · subst h6
    exact Or.inr ⟨w, hl ▸ h5, h4, rfl, designates_of_at h2 h7⟩

example : Behaves .sse2 h64 demo demoMap ∧ Spec.lookup demoMap 3 = some 33 ∧ Spec.lookup demoMap 9 = none ∧
    (demo.insert .sse2 h64 3 1).map (fun r => r.2.2) = .ok false ∧
    (demo.insert .sse2 h64 9 1).map (fun r => r.2.2) = .ok true :=
  ⟨demo_behaves, by decide, by decide, by decide, by decide⟩

/-! ## C07 -/

/-- C07: `insert_or_assign` makes the container map `k` to `v`, leaves every other key alone, reports whether `k` was
absent and returns an iterator to the element. -/
theorem C07_insert_or_assign {isa : Isa} {hash : K → Nat} {t : Table K V} (h : Reachable isa hash t)
    {m : List (K × V)} (hb : Behaves isa hash t m) (k : K) (v : V) :
    ∃ t' p, t.insertOrAssign isa hash k v = .ok (t', p, (Spec.lookup m k).isNone) ∧
      t'.Designates isa p (k, v) ∧
      ∃ m', Behaves isa hash t' m' ∧ Spec.lookup m' k = some v ∧ ∀ x, x ≠ k → Spec.lookup m' x = Spec.lookup m x := by
  have hm := hb.contents_perm h.inv
  have hl := Spec.lookup_perm hm h.inv.contents_uniq k
  have key : ∀ x, x ≠ k → Spec.lookup (Spec.assign m k v) x = Spec.lookup m x := by
    intro x hx; rw [Spec.lookup_assign, if_neg hx]
  have key' : Spec.lookup (Spec.assign m k v) k = some v := by rw [Spec.lookup_assign, if_pos rfl]
  obtain ⟨t', p, b, h1, h2, _, h3⟩ := insertOrAssignWith_spec h.inv k v (fun _ => v)
  rcases h3 with ⟨h4, h5, h6, h7, _⟩ | ⟨w, h4, h5, h6, h7, _⟩
  · rw [hl] at h5
    refine ⟨t', p, by rw [h5]; subst h4; exact h1, designates_of_at h2 h7, Spec.assign m k v, ?_, key', key⟩
    refine h2.behaves (h6.trans ?_)
    rw [Spec.assign, Spec.erase_of_absent h5]
    exact hm.cons _
  · rw [hl] at h5
    refine ⟨t', p, by rw [h5]; subst h4; exact h1, designates_of_at h2 h7, Spec.assign m k v, ?_, key', key⟩
    exact h2.behaves (h6.trans ((Spec.erase_perm hm k).cons _))

example : Behaves .sse2 h64 demo demoMap ∧ (demo.insertOrAssign .sse2 h64 3 1).map (fun r => r.2.2) = .ok false ∧
    (demo.insertOrAssign .sse2 h64 3 1 >>= fun r => r.1.iterate .sse2) = .ok [(1, 10), (3, 1), (4, 40), (5, 50)] :=
  ⟨demo_behaves, by decide, by decide⟩

/-! ## C08 -/

theorem erase_split {isa : Isa} {hash : K → Nat} {t t' : Table K V} (h : Inv isa hash t) (h' : Inv isa hash t')
    {pos : Nat} {n : Node K V} (hp : pos < t.cap) (hn : t.node pos = some n) (hc : t'.cap = t.cap)
    (hsz : t'.size + 1 = t.size) (ho : ∀ i, i ≠ pos → t'.node i = t.node i) :
    t.contents = t.elemsBefore pos ++ (n.key, n.val) :: t.elemsFrom (pos + 1) ∧
      t'.contents = t.elemsBefore pos ++ t.elemsFrom (pos + 1) := by
  have e1 : t.contents = t.elemsBefore pos ++ (n.key, n.val) :: t.elemsFrom (pos + 1) := by
    rw [contents_split' t (Nat.le_of_lt hp), (elemsFrom_occupied h hp hn).1]
  refine ⟨e1, ?_⟩
  have eb : t'.elemsBefore pos = t.elemsBefore pos := by
    unfold Table.elemsBefore
    rw [collect_congr (fun i hi => ho i (by omega))]
  have ef : t'.elemsFrom (pos + 1) = t.elemsFrom (pos + 1) :=
    elemsFrom_congr hc (fun i hi _ => ho i (by omega))
  have e2 := contents_split' t' (pos := pos) (by omega)
  rw [elemsFrom_step t' (by omega : pos < t'.cap), eb, ef] at e2
  have l1 := h.contents_length
  have l2 := h'.contents_length
  cases hx : t'.node pos with
  | none => rw [hx] at e2; simpa using e2
  | some y =>
    rw [e1] at l1
    rw [e2, hx] at l2
    simp at l1 l2
    omega

/-- What `erase` of one element `x` at a place in the iteration order does, seen by iterating. -/
def ErasedAt (isa : Isa) (t t' : Table K V) (it : Nat) (x : K × V) : Prop :=
  ∃ pre post, Ends isa (t.iterate isa) (· = pre ++ x :: post) ∧ Ends isa (t'.iterate isa) (· = pre ++ post) ∧
    Ends isa (t'.iterateFrom isa it) (· = post)

/-- C08: `erase(iterator)` removes exactly the designated element; iteration continues behind it at the returned
iterator. -/
theorem C08_erase_iterator {isa : Isa} {hash : K → Nat} {t : Table K V} (h : Reachable isa hash t) {m : List (K × V)}
    (hb : Behaves isa hash t m) {pos : Nat} {n : Node K V} (hp : t.readNode pos = .ok n) :
    Ends isa (t.eraseIter isa pos) (fun r => Behaves isa hash r.1 (Spec.erase m n.key) ∧
      ErasedAt isa t r.1 r.2 (n.key, n.val)) := by
  have hp' : pos < t.cap ∧ t.node pos = some n := by
    unfold Table.readNode at hp
    split at hp
    · rename_i hlt
      refine ⟨hlt, ?_⟩
      cases hn : t.node pos with
      | none => rw [hn] at hp; cases hp
      | some x => rw [hn] at hp; cases hp; rfl
    · cases hp
  have hm := hb.contents_perm h.inv
  refine (eraseIter_spec h.inv hp'.1 hp'.2).mono ?_
  rintro ⟨t', it⟩ ⟨h1, h2, h3, h4, h5, h6, h7, h8, h9, h10⟩
  obtain ⟨e1, e2⟩ := erase_split h.inv h1 hp'.1 hp'.2 h2 h3 h6
  refine ⟨h1.behaves ?_, t.elemsBefore pos, t.elemsFrom (pos + 1), ?_, ?_, ?_⟩
  · have hu : Spec.Uniq ((n.key, n.val) :: t'.contents) := h.inv.contents_uniq.perm h4
    have := Spec.erase_perm (h4.symm.trans hm) n.key
    rwa [Spec.erase_cons_self hu] at this
  · exact (iterate_spec h.inv).mono (fun l hl => hl.trans e1)
  · exact (iterate_spec h1).mono (fun l hl => hl.trans e2)
  · exact (iterateFrom_spec h1 h8 h9).mono (fun l hl => hl.trans h7)

/-- C08: `erase(key)` removes exactly the element with the key, returning the position behind it; if the key is
absent nothing changes and `end()` is returned. -/
theorem C08_erase_key {isa : Isa} {hash : K → Nat} {t : Table K V} (h : Reachable isa hash t) {m : List (K × V)}
    (hb : Behaves isa hash t m) (k : K) :
    Ends isa (t.erase isa hash k) (fun r => Behaves isa hash r.1 (Spec.erase m k) ∧
      ((∃ v, Spec.lookup m k = some v ∧ ErasedAt isa t r.1 r.2 (k, v)) ∨
       (Spec.lookup m k = none ∧ r.1 = t ∧ t.end_ isa = .ok r.2))) := by
  have hm := hb.contents_perm h.inv
  have hl := Spec.lookup_perm hm h.inv.contents_uniq k
  refine (erase_spec h.inv k).mono ?_
  rintro ⟨t', it⟩ ⟨h1, h2, h3, h4, h5, h6, h7, h8⟩
  refine ⟨h1.behaves (h3.trans (Spec.erase_perm hm k)), ?_⟩
  rcases h8 with ⟨pos, v, ⟨hp, n, hn, e⟩, h9, h10, h11⟩ | ⟨h9, h10, h11⟩
  · left
    cases e
    obtain ⟨e1, e2⟩ := erase_split h.inv h1 hp hn h2 h9 h11
    refine ⟨n.val, ?_, t.elemsBefore pos, t.elemsFrom (pos + 1), ?_, ?_, ?_⟩
    · rw [← hl, Spec.lookup_some h.inv.contents_uniq, e1]; simp
    · exact (iterate_spec h.inv).mono (fun l hl => hl.trans e1)
    · exact (iterate_spec h1).mono (fun l hl => hl.trans e2)
    · exact (iterateFrom_spec h1 h6 h7).mono (fun l hl => hl.trans h10)
  · right
    simp only at h10 h11
    subst h11
    exact ⟨hl ▸ h9, h10, end_spec h.inv⟩

example : Behaves .sse2 h64 demo demoMap ∧ Spec.lookup demoMap 3 = some 33 ∧
    (demo.erase .sse2 h64 3 >>= fun r => r.1.iterateFrom .sse2 r.2) = .ok [(4, 40), (5, 50)] ∧
    (demo.erase .sse2 h64 3 >>= fun r => r.1.iterate .sse2) = .ok [(1, 10), (4, 40), (5, 50)] :=
  ⟨demo_behaves, by decide, by decide, by decide⟩

/-! ## C09 -/

/-- C09: `clear` keeps the bucket count and leaves a container that behaves as the empty map, now and later. -/
theorem C09_clear {isa : Isa} {hash : K → Nat} {t : Table K V} (h : Reachable isa hash t) :
    ∃ t', t.clear isa = .ok t' ∧ t'.cap = t.cap ∧ t'.size = 0 ∧ Ends isa (t'.iterate isa) (· = []) ∧
      Behaves isa hash t' [] := by
  obtain ⟨t', h1, h2, h3, h4, h5, _⟩ := clear_spec h.inv
  refine ⟨t', h1, h3, h4, (iterate_spec h2).mono (fun l hl => hl.trans h5), h2.behaves ?_⟩
  rw [h5]

example : Reachable .sse2 h64 demo ∧ (demo.clear .sse2).map (fun t => (t.cap, t.size)) = .ok (7, 0) ∧ demo.size = 4 :=
  ⟨demo_reachable, by decide, by decide⟩

/-! ## C10 -/

/-- C10: `reserve` does not change what the container behaves as. -/
theorem C10_reserve {isa : Isa} {hash : K → Nat} {t : Table K V} (h : Reachable isa hash t) {m : List (K × V)}
    (hb : Behaves isa hash t m) (n : Nat) : ∃ t', t.reserve isa n = .ok t' ∧ Behaves isa hash t' m := by
  obtain ⟨t', h1, h2, _, h4, _⟩ := reserve_spec h.inv n
  exact ⟨t', h1, h2.behaves ((contents_perm h4).trans (hb.contents_perm h.inv))⟩

/-- C10: `rehash(n)` with `n > 0` does not change what the container behaves as, and provides `n` buckets. -/
theorem C10_rehash {isa : Isa} {hash : K → Nat} {t : Table K V} (h : Reachable isa hash t) {m : List (K × V)}
    (hb : Behaves isa hash t m) {n : Nat} (hn : 0 < n) :
    ∃ t', t.rehash isa n = .ok t' ∧ Behaves isa hash t' m ∧ n ≤ t'.cap := by
  obtain ⟨t', h1, h2, _, h4, _, h6, _⟩ := rehash_spec h.inv (n := n) (by omega)
  exact ⟨t', h1, h2.behaves ((contents_perm h4).trans (hb.contents_perm h.inv)), h6⟩

example : Behaves .sse2 h64 demo demoMap ∧ (demo.reserve .sse2 20).map (·.cap) = .ok 31 ∧
    (demo.rehash .sse2 9).map (·.cap) = .ok 15 ∧
    (demo.rehash .sse2 9 >>= fun t => t.lookup .sse2 h64 4) = .ok (some 40) :=
  ⟨demo_behaves, by decide, by decide, by decide⟩

/-! ## C11 -/

/-- C11 is false: `rehash(0)` on a reachable container with two or more elements asks for a single bucket, and the
relocation of the elements fails (out of room; in the code an out-of-bounds access or an endless probe). -/
theorem C11_rehash_zero_false : ∃ t : Table Nat Nat, Reachable .sse2 h64 t ∧ t.size = 2 ∧
    (t.rehash .sse2 0).isOk = false :=
  ⟨after .sse2 h64 [.insert 1 10, .insert 2 20], after_reachable _ _ _, by decide, by decide⟩

/-- C11, what holds: with at most one element `rehash(0)` is safe and changes nothing observable.
Missing: containers with two or more elements, for which it is false. -/
theorem C11_rehash_zero_partial {isa : Isa} {hash : K → Nat} {t : Table K V} (h : Reachable isa hash t)
    {m : List (K × V)} (hb : Behaves isa hash t m) (hs : t.size ≤ 1) :
    ∃ t', t.rehash isa 0 = .ok t' ∧ Behaves isa hash t' m := by
  by_cases hz : t.size = 0
  · exact ⟨t, by simp [Table.rehash, hz], hb⟩
  · obtain ⟨t', h1, h2, _, _, _, h6, _⟩ := doRehash_spec (n := 1) (m := 1) h.inv rfl
      (by unfold maxSize; cases isa <;> simp [Isa.W] <;> omega)
    refine ⟨t', ?_, h2.behaves ((contents_perm h6).trans (hb.contents_perm h.inv))⟩
    have e : alignCapacity (0 ||| minCapacity isa 0) = 1 := by cases isa <;> decide
    simp only [Table.rehash, hz, and_false, if_false, e, true_or, if_true]
    exact h1

example : ∃ t : Table Nat Nat, Reachable .sse2 h64 t ∧ t.size = 1 ∧ t.cap = 7 ∧
    (t.rehash .sse2 0 >>= fun t => .ok (t.cap, t.size)) = .ok (1, 1) :=
  ⟨after .sse2 h64 [.insert 1 10, .reserve 5, .insert 2 20, .erase 1], after_reachable _ _ _, by decide, by decide,
    by decide⟩

/-! ## C12 -/

/-- Operations that insert, without asking for space. -/
def _root_.Tpp.Op.inserts {K V : Type} : Op K V → Bool
  | .insert _ _ => true
  | .assign _ _ => true
  | _ => false

theorem insertOrAssign_absent {isa : Isa} {hash : K → Nat} {t : Table K V} (h : Inv isa hash t) {k : K} {v : V}
    (hk : Spec.lookup t.contents k = none) : t.insertOrAssign isa hash k v = t.insert isa hash k v := by
  rcases find_cases h k with ⟨i, n, _, _, _, _, h2⟩ | ⟨_, h1, _⟩
  · rw [hk] at h2; cases h2
  · simp [Table.insertOrAssign, Table.insertOrAssignWith, Table.insert, h1]

theorem insert_step_ok {isa : Isa} {t' : Table K V} {o : Out K V} {x : M (Table K V × Nat × Bool)}
    (hs : (do
      let (u, p, b) ← x
      let n ← u.readNode (← u.toIter isa p)
      .ok (u, Out.ins (n.key, n.val) b)) = .ok (t', o)) : ∃ p b, x = .ok (t', p, b) := by
  cases x with
  | error f => cases hs
  | ok r =>
    obtain ⟨u, p, b⟩ := r
    rw [bind_ok] at hs
    refine ⟨p, b, ?_⟩
    simp only at hs
    cases h1 : u.toIter isa p with
    | error f => rw [h1, bind_error] at hs; cases hs
    | ok q =>
      rw [h1, bind_ok] at hs
      cases h2 : u.readNode q with
      | error f => rw [h2, bind_error] at hs; cases hs
      | ok n => rw [h2, bind_ok] at hs; cases hs; rfl

theorem reserved_step {isa : Isa} {hash : K → Nat} {t t' : Table K V} (h : Inv isa hash t) {N : Nat}
    (hN : N ≤ t.size + t.numEmpty) (hc : t.cap = 0 → N = 0) {op : Op K V} {o : Out K V} (hop : op.inserts = true)
    (hs : t.step isa hash op = .ok (t', o)) (hsz : t'.size ≤ N) :
    Inv isa hash t' ∧ N ≤ t'.size + t'.numEmpty ∧ t'.cap = t.cap ∧ t.size ≤ t'.size ∧
      ∀ i n, i < t.cap → t.node i = some n → ∃ n', t'.node i = some n' ∧ n'.key = n.key ∧
        (∀ k v, op = .insert k v → n' = n) := by
  have ins : ∀ k v x p b, t.insert isa hash k v = .ok (x, p, b) → x.size ≤ N →
      Inv isa hash x ∧ N ≤ x.size + x.numEmpty ∧ x.cap = t.cap ∧ t.size ≤ x.size ∧
        (∀ i n, i < t.cap → t.node i = some n → x.node i = some n) := by
    intro k v x p b h1 hx
    obtain ⟨t1, p1, b1, g1, g2, _, g3⟩ := insert_spec h k v
    rw [h1] at g1
    cases g1
    rcases g3 with ⟨_, _, _, hat, h6, h7⟩ | ⟨w, _, _, h5, _⟩
    · by_cases hcap : t.cap = 0
      · have := hc hcap; omega
      · obtain ⟨h8, h9, h10⟩ := h7 (by omega) (by omega)
        refine ⟨g2, by omega, h8, by omega, ?_⟩
        intro i n hi hn
        by_cases e : i = p
        · subst e
          exfalso
          have hl := h.contents_length
          have hl' := g2.contents_length
          obtain ⟨hp, y, hy, ey⟩ := hat
          -- the slot of the new element was free
          have c1 := contents_split' t (pos := i) (by omega)
          have c2 := contents_split' x (pos := i) (by omega)
          rw [elemsFrom_step t (by omega)] at c1
          rw [elemsFrom_step x (by omega)] at c2
          have eb : x.elemsBefore i = t.elemsBefore i := by
            unfold Table.elemsBefore; rw [collect_congr (fun j hj => h10 j (by omega))]
          have ef : x.elemsFrom (i + 1) = t.elemsFrom (i + 1) := elemsFrom_congr h8 (fun j hj _ => h10 j (by omega))
          rw [c1, hn] at hl
          rw [c2, eb, ef, hy] at hl'
          simp at hl hl'
          omega
        · rw [h10 i e]; exact hn
    · subst h5
      exact ⟨g2, hN, rfl, Nat.le_refl _, fun i n _ hn => hn⟩
  cases op with
  | insert k v =>
    obtain ⟨p, b, h1⟩ := insert_step_ok hs
    obtain ⟨g1, g2, g3, g4, g5⟩ := ins k v t' p b h1 hsz
    exact ⟨g1, g2, g3, g4, fun i n hi hn => ⟨n, g5 i n hi hn, rfl, fun _ _ _ => rfl⟩⟩
  | assign k v =>
    obtain ⟨p, b, h1⟩ := insert_step_ok hs
    cases hl : Spec.lookup t.contents k with
    | none =>
      rw [insertOrAssign_absent h hl] at h1
      obtain ⟨g1, g2, g3, g4, g5⟩ := ins k v t' p b h1 hsz
      exact ⟨g1, g2, g3, g4, fun i n hi hn => ⟨n, g5 i n hi hn, rfl, fun _ _ _ => rfl⟩⟩
    | some w =>
      obtain ⟨t1, p1, b1, g1, g2, _, g3⟩ := insertOrAssignWith_spec h k v (fun _ => v)
      rw [Table.insertOrAssign, g1] at h1
      cases h1
      rcases g3 with ⟨_, h5, _⟩ | ⟨w', _, h5, h6, h7, h8, h9, h10, h11⟩
      · rw [hl] at h5; cases h5
      · refine ⟨g2, by omega, h8, by omega, ?_⟩
        intro i n hi hn
        by_cases e : i = p
        · subst e
          obtain ⟨hp, y, hy, ey⟩ := h7
          refine ⟨y, hy, ?_, fun _ _ e => by cases e⟩
          cases ey
          -- both slots hold `y.key`
          rcases find_cases h y.key with ⟨j, q, j1, j2, j3, j4, _⟩ | ⟨_, _, j1⟩
          · have e2 : i = j := by
              have g1' := g1
              simp only [Table.insertOrAssignWith, j4, bind_ok] at g1'
              rw [if_neg (by omega)] at g1'
              rw [readNode_some j1 j2, bind_ok] at g1'
              cases g1'
              rfl
            subst e2
            rw [j2] at hn; cases hn; exact j3.symm
          · rw [hl] at j1; cases j1
        · exact ⟨n, by rw [h11 i e]; exact hn, rfl, fun _ _ e => by cases e⟩
  | _ => cases hop

theorem inserts_mono {isa : Isa} {hash : K → Nat} (ops : List (Op K V)) : (∀ op ∈ ops, op.inserts = true) →
    ∀ {t t' : Table K V} {o : List (Out K V)}, Inv isa hash t → t.run isa hash ops = .ok (t', o) → t.size ≤ t'.size := by
  induction ops with
  | nil => intro _ t t' o _ e; cases e; exact Nat.le_refl _
  | cons op ops ih =>
    intro hops t t' o h e
    unfold Table.run at e
    cases hs : t.step isa hash op with
    | error f => rw [hs] at e; cases e
    | ok r =>
      obtain ⟨b, o1⟩ := r
      rw [hs, bind_ok] at e
      cases hr : b.run isa hash ops with
      | error f => simp only [hr] at e; cases e
      | ok s =>
        obtain ⟨c, os⟩ := s
        simp only [hr, bind_ok] at e
        cases e
        have hb : Inv isa hash b := (ends_ok (step_spec h (List.Perm.refl _) op) hs).1
        refine Nat.le_trans ?_ (ih (fun x hx => hops x (by simp [hx])) hb hr)
        have := hops op (by simp)
        cases op with
        | insert k v =>
          obtain ⟨p, q, e⟩ := insert_step_ok hs
          obtain ⟨t1, p1, b1, g1, g2, _, g3⟩ := insert_spec h k v
          rw [g1] at e
          cases e
          rcases g3 with ⟨_, _, _, _, h6, _⟩ | ⟨w, _, _, h5, _⟩
          · omega
          · subst h5; exact Nat.le_refl _
        | assign k v =>
          obtain ⟨p, q, e⟩ := insert_step_ok hs
          obtain ⟨t1, p1, b1, g1, g2, _, g3⟩ := insertOrAssignWith_spec h k v (fun _ => v)
          rw [Table.insertOrAssign, g1] at e
          cases e
          rcases g3 with ⟨_, _, _, _, h6⟩ | ⟨w, _, _, _, _, _, h5, _⟩
          · omega
          · omega
        | _ => cases this

/-- C12, what holds: after `reserve(n)` any sequence of insertions that leaves the size at most `n` keeps the bucket
count, and every element keeps its slot.  The guard `Settled t` (a container without buckets has no budget of free
slots) holds for every container that has buckets and for every default constructed one.
Missing: containers left behind by a move assignment, for which it is false. -/
theorem C12_reserve_partial {isa : Isa} {hash : K → Nat} {t : Table K V} (h : Reachable isa hash t) (hS : Settled t)
    (n : Nat) {t1 t2 : Table K V} {outs : List (Out K V)} (ops : List (Op K V)) (hops : ∀ op ∈ ops, op.inserts = true)
    (h1 : t.reserve isa n = .ok t1) (h2 : t1.run isa hash ops = .ok (t2, outs)) (hn : t2.size ≤ n) :
    t2.cap = t1.cap ∧ ∀ i x, i < t1.cap → t1.node i = some x → ∃ y, t2.node i = some y ∧ y.key = x.key := by
  obtain ⟨u, r1, r2, r3, r4, r5, r6, _⟩ := reserve_spec h.inv n
  rw [h1] at r1
  cases r1
  obtain ⟨_, r7⟩ := r6 hS
  have hcap : t1.cap = 0 → n = 0 := by intro e; by_cases hz : n = 0 <;> [exact hz; (have := r7 (by omega); omega)]
  suffices H : ∀ (ops : List (Op K V)) (a : Table K V) (outs : List (Out K V)), (∀ op ∈ ops, op.inserts = true) →
      Inv isa hash a → n ≤ a.size + a.numEmpty → (a.cap = 0 → n = 0) → a.run isa hash ops = .ok (t2, outs) →
      a.size ≤ t2.size ∧ t2.cap = a.cap ∧
        ∀ i x, i < a.cap → a.node i = some x → ∃ y, t2.node i = some y ∧ y.key = x.key from
    (H ops t1 outs hops r2 r5 hcap h2).2
  clear h2 hops outs ops
  intro ops
  induction ops with
  | nil =>
    intro a outs _ _ _ _ e
    cases e
    exact ⟨Nat.le_refl _, rfl, fun i x _ hx => ⟨x, hx, rfl⟩⟩
  | cons op ops ih =>
    intro a outs hops ha hna hca e
    unfold Table.run at e
    cases hs : a.step isa hash op with
    | error f => rw [hs] at e; cases e
    | ok r =>
      obtain ⟨b, o⟩ := r
      rw [hs, bind_ok] at e
      cases hr : b.run isa hash ops with
      | error f => simp only [hr] at e; cases e
      | ok s =>
        obtain ⟨c, os⟩ := s
        simp only [hr, bind_ok] at e
        cases e
        have hb : Inv isa hash b := (ends_ok (step_spec ha (List.Perm.refl _) op) hs).1
        have mono : b.size ≤ t2.size := inserts_mono ops (fun x hx => hops x (by simp [hx])) hb hr
        obtain ⟨g1, g2, g3, g4, g5⟩ := reserved_step ha hna hca (hops op (by simp)) hs (Nat.le_trans mono hn)
        obtain ⟨k1, k2, k3⟩ := ih b os (fun x hx => hops x (by simp [hx])) g1 g2 (by rw [g3]; exact hca) hr
        refine ⟨Nat.le_trans g4 k1, k2.trans g3, ?_⟩
        intro i x hi hx
        obtain ⟨y, hy, ey, _⟩ := g5 i x hi hx
        obtain ⟨z, hz, ez⟩ := k3 i y (by omega) hy
        exact ⟨z, hz, ez.trans ey⟩

/-- The guard of C12 in terms of the interface: containers with buckets satisfy it. -/
theorem settled_of_buckets {t : Table K V} (h : 0 < t.cap) : Settled t := fun e => by omega

/-- The value of an outcome known to be normal. -/
def okOr {α : Type} (d : α) : M α → α
  | .ok a => a
  | .error _ => d

theorem okOr_eq {α : Type} {d : α} {x : M α} (h : x.isOk = true) : x = .ok (okOr d x) := by
  cases x with
  | ok a => rfl
  | error f => cases h

/-- C12 is false for containers left behind by a move assignment: they keep the free-slot budget of the target's old
buffer without having a buffer, so `reserve(2)` does nothing and two insertions reallocate twice. -/
theorem C12_reserve_false : ∃ t : Table Nat Nat, Reachable .sse2 h64 t ∧ t.size = 0 ∧
    ∃ t1, t.reserve .sse2 2 = .ok t1 ∧
      (t1.run .sse2 h64 [.insert 1 10, .insert 2 20]).map (fun r => (r.1.size, t1.cap, r.1.cap)) = .ok (2, 0, 3) := by
  let b := after (K := Nat) (V := Nat) .sse2 h64 [.insert 7 70]
  let r := okOr (Table.init, Table.init) (Table.moveAssign .sse2 .std demo b)
  have e : Table.moveAssign .sse2 .std demo b = .ok r := okOr_eq (by decide)
  refine ⟨r.2, ?_, by decide, okOr r.2 (r.2.reserve .sse2 2), okOr_eq (by decide), by decide⟩
  exact Reachable.movedFrom (al := .std) (hash := h64) (hash' := h64) rfl demo_reachable (after_reachable _ _ _) e

example : Reachable .sse2 h64 demo ∧ Settled demo ∧
    (demo.reserve .sse2 9 >>= fun t1 => (t1.run .sse2 h64 [.insert 7 1, .assign 3 4, .insert 8 1, .insert 9 1,
      .insert 10 1, .insert 11 1]).map (fun r => (r.1.size, t1.cap, r.1.cap))) = .ok (9, 15, 15) :=
  ⟨demo_reachable, settled_of_buckets (by decide), by decide⟩

/-! ## C13 -/

/-- C13: the bucket count is a power of two minus one (0 included), the size is bounded by the 7/8 rule, and a table of
eight or more buckets has a slot that was never used since the last rehash. -/
theorem C13_bucket_count {isa : Isa} {hash : K → Nat} {t : Table K V} (h : Reachable isa hash t) :
    (∃ m, t.cap + 1 = 2 ^ m) ∧ t.size ≤ (if isa.W = 8 ∧ t.cap = 7 then 6 else t.cap - t.cap / 8) ∧
      (8 ≤ t.cap → ∃ i, i < t.cap ∧ t.ctl i = .empty) := by
  refine ⟨h.inv.pow, h.inv.size_le, ?_⟩
  intro h8
  obtain ⟨m, hm⟩ := h.inv.pow
  have h16 : 16 ≤ t.cap + 1 := by
    have h3 : 2 ^ 3 < 2 ^ m := by omega
    have h4 := (Nat.pow_lt_pow_iff_right (by omega : 1 < 2)).mp h3
    have : 2 ^ 4 ≤ 2 ^ m := Nat.pow_le_pow_right (by omega) h4
    omega
  exact h.inv.exists_empty (by cases isa <;> simp only [Isa.W] <;> omega)

/-- The model of `capacity()` is the formula of C13. -/
example : ∀ isa n, maxSize isa n = if isa.W = 8 ∧ n = 7 then 6 else n - n / 8 := fun _ _ => rfl

example : Reachable .sse2 h64 demo ∧ demo.cap = 7 ∧ demo.size = 4 := ⟨demo_reachable, by decide, by decide⟩

/-! ## C14 -/

/-- C14: reclaiming erased slots in place ends, keeps what the container behaves as and its bucket count, and turns
every erased slot into free budget. -/
theorem C14_reclaim {isa : Isa} {hash : K → Nat} {t : Table K V} (h : Reachable isa hash t) {m : List (K × V)}
    (hb : Behaves isa hash t m) (hc : isa.W < t.cap) :
    ∃ t', t.rehashDeleted isa = .ok t' ∧ Behaves isa hash t' m ∧ t'.cap = t.cap ∧
      (∀ i, i < t'.cap → t'.ctl i ≠ .deleted) ∧ t'.numEmpty = maxSize isa t.cap - t.size := by
  obtain ⟨t', h1, h2, h3, h4, h5, h6, h7⟩ := rehashDeleted_spec h.inv (by omega)
  refine ⟨t', h1, h2.behaves ((contents_perm h6).trans (hb.contents_perm h.inv)), h3, ?_, h5⟩
  intro i hi e
  have := h7 i (by omega)
  rw [e] at this
  cases this

/-- A container at the trigger point: 31 buckets, all 28 budget slots used, 12 elements erased. -/
def churned : Table Nat Nat :=
  after .sse2 (fun n => n * 128) (((List.range 28).map fun i => Op.insert i i) ++ ((List.range 12).map fun i => Op.erase i))

set_option maxRecDepth 100000 in
example : Reachable .sse2 (fun n => n * 128) churned ∧ churned.cap = 31 ∧ churned.numEmpty = 0 ∧ churned.size = 16 ∧
    (churned.insert .sse2 (fun n => n * 128) 29 0).map (fun r => (r.1.cap, r.1.numEmpty, r.1.size)) = .ok (31, 11, 17) :=
  ⟨after_reachable _ _ _, by decide +kernel, by decide +kernel, by decide +kernel, by decide +kernel⟩

/-! ## C15 -/

theorem grow_bound {isa : Isa} {t t' : Table K V} {N : Nat} (h : GrowCap isa t t') (hs : t.size ≤ N)
    (hp : ∃ m, t.cap + 1 = 2 ^ m) (hc : t.cap ≤ max 31 (64 * N / 25 + 1)) : t'.cap ≤ max 31 (64 * N / 25 + 1) := by
  rcases h with h | ⟨_, h⟩ | ⟨_, _, h, h1⟩
  · omega
  · omega
  · rcases h1 with h1 | h1
    · obtain ⟨m, hm⟩ := hp
      have : t.cap ≤ 15 := by
        by_cases hm4 : m ≤ 4
        · have : 2 ^ m ≤ 2 ^ 4 := Nat.pow_le_pow_right (by omega) hm4
          omega
        · have : 2 ^ 5 ≤ 2 ^ m := Nat.pow_le_pow_right (by omega) (by omega)
          cases isa <;> simp only [Isa.W] at h1 <;> omega
      omega
    · omega

/-- C15: whatever the length of a history of insertions, erasures and the like, if the size never exceeds `N` before
an operation, the bucket count never exceeds `max 31 (64 N / 25 + 1)`. -/
theorem C15_churn_bound (isa : Isa) (hash : K → Nat) (N : Nat) (ops : List (Op K V))
    (hops : ∀ op ∈ ops, op.churn = true) {t : Table K V} {outs : List (Out K V)}
    (hrun : (Table.init : Table K V).run isa hash ops = .ok (t, outs))
    (hN : ∀ pre, pre <+: ops → ∀ t' outs', (Table.init : Table K V).run isa hash pre = .ok (t', outs') → t'.size ≤ N) :
    t.cap ≤ max 31 (64 * N / 25 + 1) := by
  suffices H : ∀ (ops : List (Op K V)) (a : Table K V) (outs : List (Out K V)), (∀ op ∈ ops, op.churn = true) →
      Inv isa hash a → a.cap ≤ max 31 (64 * N / 25 + 1) → a.run isa hash ops = .ok (t, outs) →
      (∀ pre, pre <+: ops → ∀ t' outs', a.run isa hash pre = .ok (t', outs') → t'.size ≤ N) →
      t.cap ≤ max 31 (64 * N / 25 + 1) from
    H ops Table.init outs hops (Inv.init isa hash) (Nat.zero_le _) hrun hN
  clear hrun hops hN outs ops
  intro ops
  induction ops with
  | nil => intro a outs _ _ hc e _; cases e; exact hc
  | cons op ops ih =>
    intro a outs hops ha hc e hN
    unfold Table.run at e
    cases hs : a.step isa hash op with
    | error f => rw [hs] at e; cases e
    | ok r =>
      obtain ⟨b, o⟩ := r
      rw [hs, bind_ok] at e
      cases hr : b.run isa hash ops with
      | error f => simp only [hr] at e; cases e
      | ok s =>
        obtain ⟨c, os⟩ := s
        simp only [hr, bind_ok] at e
        cases e
        have hb : Inv isa hash b := (ends_ok (step_spec ha (List.Perm.refl _) op) hs).1
        have hsz : a.size ≤ N := hN [] (List.nil_prefix) a [] rfl
        refine ih b os (fun x hx => hops x (by simp [hx])) hb
          (grow_bound (step_grow ha (hops op (by simp)) hs) hsz ha.pow hc) hr ?_
        intro pre hpre t' outs' ht'
        refine hN (op :: pre) (List.cons_prefix_cons.mpr ⟨rfl, hpre⟩) t' (o :: outs') ?_
        simp only [Table.run, hs, bind_ok, ht']

/-- A churning history: 40 rounds of insert and erase of fresh keys, never more than 1 element. -/
def churnOps : List (Op Nat Nat) := (List.range 40).flatMap fun i => [.insert i i, .erase i]

set_option maxRecDepth 100000 in
example : (∀ op ∈ churnOps, op.churn = true) ∧
    ((Table.init : Table Nat Nat).run .sse2 h64 churnOps).map (fun r => r.1.cap) = .ok 1 ∧
    (List.range 81).all (fun i => ((Table.init : Table Nat Nat).run .sse2 h64 (churnOps.take i)).map (fun r => decide (r.1.size ≤ 1))
      = .ok true) = true := by decide +kernel

end Tpp.Swiss
