import Verif.Dense.Faults

/-!
# C36–C50, C64: the unordered dense containers

`Reachable hash t`: the container `t` with hash function `hash` can be produced by a program (`Verif.Dense.Hist`).
`t.iterate = .ok l`: iterating over `t` yields the sequence `l`.
`Behaves hash t l`: everything the user can observe of `t`, now and after any later history, is what the sequence `l` with
append and swap-remove (`Verif.Dense.Spec`) answers.
-/

set_option linter.unusedSectionVars false

namespace Tpp.Dense

variable {k : Nat} {K V : Type} [DecidableEq K]

/-- The container `t` is observably the sequence `l`. -/
structure Behaves (hash : K → Nat) (t : Table k K V) (l : List (Elem k K V)) : Prop where
  uniq : ∀ j, (l.map (fun e => e.1 j)).Nodup
  size : t.size = l.length
  iterate : t.iterate = .ok l
  lookup : ∀ j x, t.lookup hash j x = .ok (l.find? (fun e => e.1 j = x))
  contains : ∀ j x, t.contains hash j x = .ok (l.any (fun e => e.1 j = x))
  destroy : t.destroy = .ok ()
  run : ∀ ops, Spec.Guarded (decide (0 < t.bc)) ops = true →
    ∃ t', t.run hash ops = .ok (t', (Spec.run l ops).2) ∧ t'.iterate = .ok (Spec.run l ops).1

theorem Inv.behaves {hash : K → Nat} {t : Table k K V} {l : List (Elem k K V)} (h : Inv hash t l) : Behaves hash t l where
  uniq := h.uniq
  size := h.size
  iterate := iterate_ok h.toArr
  lookup := lookup_ok h
  contains j x := by rw [contains_ok h, any_eq_elemOf]
  destroy := by
    obtain ⟨t', e, _⟩ := clearData_ok h.toArr
    unfold Table.destroy
    rw [e, bind_ok]
  run ops hg := by
    obtain ⟨t', e, h'⟩ := run_ok ops h (by intro g; simpa using g) hg
    exact ⟨t', e, iterate_ok h'.toArr⟩

/-- What iterating yields determines the state. -/
theorem Reachable.of_iterate {hash : K → Nat} {t : Table k K V} (h : Reachable hash t) {l : List (Elem k K V)}
    (hl : t.iterate = .ok l) : Inv hash t l := by
  obtain ⟨l', h'⟩ := h.inv
  rw [iterate_ok h'.toArr] at hl
  cases hl
  exact h'

theorem Guarded_true : ∀ ops : List (Op k K V), Spec.Guarded true ops = true := by
  intro ops
  induction ops with
  | nil => rfl
  | cons o os ih => cases o <;> simp [Spec.Guarded, ih]

/-! ## Containers used to illustrate the theorems -/

/-- A hash function with collisions. -/
def h3 : Nat → Nat := fun n => n % 3

/-- An element of a container with one key component. -/
def el (x v : Nat) : Elem 1 Nat Nat := (fun _ => x, v)

/-- An element of a container with two key components. -/
def el2 (x y v : Nat) : Elem 2 Nat Nat := (fun j => if j = 0 then x else y, v)

/-- Insertions that grow both arrays, an erasure from the middle, an overwrite. -/
def demoOps : List (Op 1 Nat Nat) :=
  [.insert (el 1 0).1 10, .insert (el 2 0).1 20, .emplace (el 4 0).1 40, .insert (el 7 0).1 70, .insert (el 3 0).1 30,
    .erase 0 1, .assign rfl 4 44, .insert (el 7 0).1 0]

def demo : Table 1 Nat Nat := after h3 LF.initial demoOps

theorem demo_reachable : Reachable h3 demo := after_reachable ..

theorem demo_iterate : demo.iterate = .ok [el 3 30, el 2 20, el 4 44, el 7 70] := by rfl

/-- Two key components. -/
def demoOps2 : List (Op 2 Nat Nat) :=
  [.insert (el2 1 5 0).1 10, .insert (el2 2 6 0).1 20, .insert (el2 4 9 0).1 40, .insert (el2 8 6 0).1 0, .insert (el2 7 8 0).1 70,
    .erase 1 5]

def demo2 : Table 2 Nat Nat := after h3 LF.initial demoOps2

theorem demo2_reachable : Reachable h3 demo2 := after_reachable ..

theorem demo2_iterate : demo2.iterate = .ok [el2 7 8 70, el2 2 6 20, el2 4 9 40] := by rfl

/-! ## C36 -/

/-- C36: all answers of a history on an initially empty container are those of the specification, no index is out of range.
`Guarded`: `erase(key)` is only called once there are buckets (C41). -/
theorem C36_history_agrees (hash : K → Nat) (lf : LF) (ops : List (Op k K V)) (hg : Spec.Guarded false ops = true) :
    ∃ t, (Table.init lf : Table k K V).run hash ops = .ok (t, (Spec.run [] ops).2) := by
  obtain ⟨t, e, _⟩ := (init_inv hash lf).behaves.run ops hg
  exact ⟨t, e⟩

/-- C36 for containers constructed with a bucket count: every history. -/
theorem C36_history_agrees_buckets (hash : K → Nat) (lf : LF) {n : Nat} (hn : n ≠ 0) (ops : List (Op k K V)) :
    ∃ t, (Table.withBuckets lf n : Table k K V).run hash ops = .ok (t, (Spec.run [] ops).2) := by
  obtain ⟨t, e, _⟩ := (withBuckets_inv hash lf n).behaves.run ops
    (by rw [show decide (0 < (Table.withBuckets lf n : Table k K V).bc) = true from decide_eq_true (by show 0 < n; omega)]
        exact Guarded_true ops)
  exact ⟨t, e⟩

/-- C36: every container a program can obtain answers all lookups according to its sequence, and so do all later
histories. -/
theorem C36_behaves {hash : K → Nat} {t : Table k K V} (h : Reachable hash t) : ∃ l, Behaves hash t l := by
  obtain ⟨l, hl⟩ := h.inv
  exact ⟨l, hl.behaves⟩

example : demo.lookup h3 0 7 = .ok (some (el 7 70)) ∧ demo.lookup h3 0 1 = .ok none ∧ demo.contains h3 0 4 = .ok true :=
  ⟨rfl, rfl, rfl⟩

example : Spec.Guarded false demoOps = true := rfl

/-! ## C37 -/

/-- C37: the sequence seen by iterating is that of a list with append and swap-remove. -/
theorem C37_order (hash : K → Nat) (lf : LF) (ops : List (Op k K V)) (hg : Spec.Guarded false ops = true) :
    ∃ t outs, (Table.init lf : Table k K V).run hash ops = .ok (t, outs) ∧ t.iterate = .ok (Spec.run [] ops).1 := by
  obtain ⟨t, e, h⟩ := (init_inv hash lf).behaves.run ops hg
  exact ⟨t, _, e, h⟩

example : (Spec.run [] demoOps).1 = [el 3 30, el 2 20, el 4 44, el 7 70] := rfl

/-! ## C38 -/

/-- C38: no two elements share the value of any component. -/
theorem C38_components_distinct {hash : K → Nat} {t : Table k K V} (h : Reachable hash t) {l : List (Elem k K V)}
    (hl : t.iterate = .ok l) {a b : Nat} (ha : a < l.length) (hb : b < l.length) (hab : a ≠ b) (j : Fin k) :
    l[a].1 j ≠ l[b].1 j := by
  have hu := (h.of_iterate hl).uniq j
  intro e
  apply hab
  have := (List.Nodup.getElem_inj_iff hu (i := a) (j := b) (hi := by simpa using ha) (hj := by simpa using hb)).mp
    (by simpa using e)
  exact this

/-- C38: every component of an element leads to it. -/
theorem C38_find_component {hash : K → Nat} {t : Table k K V} (h : Reachable hash t) {l : List (Elem k K V)}
    (hl : t.iterate = .ok l) {e : Elem k K V} (he : e ∈ l) (j : Fin k) : t.lookup hash j (e.1 j) = .ok (some e) := by
  have hi := h.of_iterate hl
  rw [lookup_ok hi, elemOf_eq]
  obtain ⟨i, hlt, hie⟩ := List.getElem_of_mem he
  have hge : l[i]? = some e := by rw [List.getElem?_eq_getElem hlt, hie]
  rw [idxOf_of_uniq (hi.uniq j) hge, Option.bind_some, hge]

/-- C38: and every answer of a lookup has the component asked for. -/
theorem C38_find_sound {hash : K → Nat} {t : Table k K V} (h : Reachable hash t) {l : List (Elem k K V)}
    (hl : t.iterate = .ok l) {j : Fin k} {x : K} {e : Elem k K V} (he : t.lookup hash j x = .ok (some e)) :
    e ∈ l ∧ e.1 j = x := by
  rw [lookup_ok (h.of_iterate hl)] at he
  injection he with he
  unfold elemOf at he
  exact ⟨List.mem_of_find?_eq_some he, by simpa using List.find?_some he⟩

example : demo2.lookup h3 0 7 = .ok (some (el2 7 8 70)) ∧ demo2.lookup h3 1 8 = .ok (some (el2 7 8 70)) ∧
    demo2.lookup h3 0 8 = .ok none ∧ demo2.lookup h3 1 6 = .ok (some (el2 2 6 20)) := ⟨rfl, rfl, rfl, rfl⟩

/-! ## C39 -/

/-- The two outcomes of an insertion, in terms of what can be observed. -/
def InsertSpec (hash : K → Nat) (l : List (Elem k K V)) (key : Fin k → K) (v : V) (t' : Table k K V) (pos : Nat) (b : Bool) :
    Prop :=
  (b = true ∧ (∀ e ∈ l, ∀ j, e.1 j ≠ key j) ∧ pos = l.length ∧ Behaves hash t' (l ++ [(key, v)])) ∨
  (b = false ∧ (∃ e j, l[pos]? = some e ∧ e.1 j = key j) ∧ Behaves hash t' l)

theorem InsertOk.insertSpec {hash : K → Nat} {t : Table k K V} {l : List (Elem k K V)} {key : Fin k → K} {v : V}
    {r : Table k K V × Nat × Bool} (h : InsertOk hash t l key v r) : InsertSpec hash l key v r.1 r.2.1 r.2.2 := by
  cases hc : conflict l key with
  | none =>
    obtain ⟨h1, h2⟩ := h.fresh hc
    rw [h1]
    refine Or.inl ⟨rfl, ?_, rfl, h2.behaves⟩
    intro e he j
    exact idxOf_eq_none (conflict_none hc j) e he
  | some i =>
    obtain ⟨h1, h2⟩ := h.dup i hc
    rw [h1]
    refine Or.inr ⟨rfl, ?_, h2.behaves⟩
    unfold conflict at hc
    obtain ⟨j, _, hj⟩ := List.exists_of_findSome?_eq_some hc
    obtain ⟨e, he, hx⟩ := idxOf_some hj
    exact ⟨e, j, he, hx⟩

/-- C39: `insert` (and `try_emplace`) appends the element iff it shares no component with another one, and otherwise
returns an element that does and leaves the container as it is. -/
theorem C39_insert {hash : K → Nat} {t : Table k K V} (h : Reachable hash t) {l : List (Elem k K V)} (hl : t.iterate = .ok l)
    (key : Fin k → K) (v : V) : ∃ t' pos b, t.insert hash key v = .ok (t', pos, b) ∧ InsertSpec hash l key v t' pos b := by
  obtain ⟨r, e, hr⟩ := insert_ok (h.of_iterate hl) key v
  exact ⟨r.1, r.2.1, r.2.2, e, hr.insertSpec⟩

/-- C39 for `emplace`, which constructs the element in the array before it looks for conflicts. -/
theorem C39_emplace {hash : K → Nat} {t : Table k K V} (h : Reachable hash t) {l : List (Elem k K V)} (hl : t.iterate = .ok l)
    (key : Fin k → K) (v : V) : ∃ t' pos b, t.emplace hash key v = .ok (t', pos, b) ∧ InsertSpec hash l key v t' pos b := by
  obtain ⟨r, e, hr⟩ := emplace_ok (h.of_iterate hl) key v
  exact ⟨r.1, r.2.1, r.2.2, e, hr.insertSpec⟩

/-- Conflict in the second component only. -/
example : (demo2.emplace h3 (el2 99 9 0).1 1).map (fun r => (r.2, r.1.size)) = .ok ((2, false), 3) := rfl
example : (demo2.insert h3 (el2 9 99 0).1 1).map (fun r => (r.2, r.1.size)) = .ok ((3, true), 4) := rfl

/-! ## C40 -/

/-- C40: `erase<j>(x)` removes the element whose component `j` is `x` from all indexes and no other. -/
theorem C40_erase {hash : K → Nat} {t : Table k K V} (h : Reachable hash t) {l : List (Elem k K V)} (hl : t.iterate = .ok l)
    {e : Elem k K V} (he : e ∈ l) (j : Fin k) :
    ∃ t' pos l', t.erase hash j (e.1 j) = .ok (t', pos, true) ∧ Behaves hash t' l' ∧ (e :: l').Perm l ∧
      (∀ j', t'.lookup hash j' (e.1 j') = .ok none) ∧
      ∀ e' ∈ l, e' ≠ e → ∀ j', t'.lookup hash j' (e'.1 j') = .ok (some e') := by
  have hi := h.of_iterate hl
  have hb : 0 < t.bc := by
    rcases Nat.eq_zero_or_pos t.bc with g | g
    · rw [hi.empty g] at he; cases he
    · exact g
  obtain ⟨i, hlt, hie⟩ := List.getElem_of_mem he
  have hge : l[i]? = some e := by rw [List.getElem?_eq_getElem hlt, hie]
  have hidx := idxOf_of_uniq (hi.uniq j) hge
  obtain ⟨⟨t', r⟩, e1, _, _, _, _, h2⟩ := erase_ok hi hb j (e.1 j)
  obtain ⟨h3, h4⟩ := h2 i hidx
  simp only at h3 h4
  subst h3
  have hperm : (e :: swapRemove l i).Perm l := by
    have := swapRemove_perm hlt
    rwa [hie] at this
  have hreach : Reachable hash t' := Reachable.step (o := .erase j (e.1 j)) (r := (t', .pos i)) h (by
    simp only [Table.step]
    rw [e1, bind_ok])
  refine ⟨t', i, _, e1, h4.behaves, hperm, ?_, ?_⟩
  · intro j'
    rw [lookup_ok h4]
    congr 1
    unfold elemOf
    rw [List.find?_eq_none]
    intro e' he'
    have hn := (hperm.map (fun x => x.1 j')).nodup_iff.mpr (hi.uniq j')
    rw [List.map_cons, List.nodup_cons] at hn
    simp only [decide_eq_true_eq]
    intro g
    exact hn.1 (List.mem_map.mpr ⟨e', he', g⟩)
  · intro e' he' hne j'
    refine C38_find_component hreach (iterate_ok h4.toArr) ?_ j'
    rcases List.mem_cons.mp (hperm.mem_iff.mpr he') with g | g
    · exact absurd g hne
    · exact g

/-- C40: nothing happens if there is no such element. -/
theorem C40_erase_absent {hash : K → Nat} {t : Table k K V} (h : Reachable hash t) {l : List (Elem k K V)}
    (hl : t.iterate = .ok l) (hb : 0 < t.bc) {j : Fin k} {x : K} (hx : ∀ e ∈ l, e.1 j ≠ x) :
    t.erase hash j x = .ok (t, l.length, false) := by
  obtain ⟨r, e1, _, _, _, h1, _⟩ := erase_ok (h.of_iterate hl) hb j x
  rw [e1, h1 (idxOf_none hx)]

example : (demo2.erase h3 1 8).map (fun r => (r.2, r.1.iterate)) = .ok ((0, true), .ok [el2 4 9 40, el2 2 6 20]) := rfl

/-! ## C41 -/

/-- C41 is false: on a container without buckets `erase(key)` dereferences a null pointer, whatever the key. -/
theorem C41_erase_false (hash : K → Nat) {t : Table k K V} (hb : t.bc = 0) (j : Fin k) (x : K) :
    t.erase hash j x = .error .nullDeref := erase_nobuckets hash hb j x

/-- Default-constructed containers and containers that have been moved from have no buckets. -/
theorem C41_no_buckets (hash : K → Nat) (lf : LF) (o : Table k K V) :
    (Table.init lf : Table k K V).bc = 0 ∧ ∀ t r, o.moveCtor true = .ok (t, r) → r.bc = 0 := by
  refine ⟨rfl, ?_⟩
  intro t r e
  cases e
  rfl

/-- C41 under the guard that there are buckets: erasing an absent key returns `end()` and changes nothing. -/
theorem C41_erase_absent_partial {hash : K → Nat} {t : Table k K V} (h : Reachable hash t) {l : List (Elem k K V)}
    (hl : t.iterate = .ok l) (hb : t.bc ≠ 0) {j : Fin k} {x : K} (hx : ∀ e ∈ l, e.1 j ≠ x) :
    t.erase hash j x = .ok (t, l.length, false) := C40_erase_absent h hl (by omega) hx

example : (Table.init LF.initial : Table 1 Nat Nat).erase h3 0 5 = .error .nullDeref := rfl
example : ((Table.init LF.initial : Table 1 Nat Nat).run h3 [.insert (el 1 0).1 10, .erase 0 1, .erase 0 5]).map (·.1.size) =
    .ok 0 := rfl

/-! ## C42 -/

/-- C42: `erase(iterator)` removes the element at the position; what was before it stays before it, and from the returned
iterator on one sees exactly the elements that were after it, the moved one first. -/
theorem C42_erase_iterator {hash : K → Nat} {t : Table k K V} (h : Reachable hash t) {l : List (Elem k K V)}
    (hl : t.iterate = .ok l) {pos : Nat} (hp : pos < l.length) :
    ∃ t' l', t.eraseAt pos = .ok (t', pos) ∧ Behaves hash t' l' ∧ l'.take pos = l.take pos ∧
      (l'.drop pos).Perm (l.drop (pos + 1)) ∧ (pos + 1 < l.length → l'[pos]? = l.getLast?) := by
  have hi := h.of_iterate hl
  obtain ⟨t', e, h', _⟩ := eraseAt_ok hi hp
  have hr := removeRange_perm (first := pos) (n := 1) (l := l) (by omega)
  simp only [removeRange, Nat.add_zero] at hr
  refine ⟨t', _, e, h'.behaves, hr.1, ?_, ?_⟩
  · have h2 := hr.2
    rw [← List.take_append_drop pos (swapRemove l pos), hr.1] at h2
    exact (List.perm_append_left_iff _).mp h2
  · intro hlt
    rw [swapRemove_getElem? hp, if_pos (by omega), if_pos rfl, List.getLast?_eq_getElem?]

example : (demo.eraseAt 1).map (fun r => (r.2, r.1.iterate)) = .ok (1, .ok [el 3 30, el 7 70, el 4 44]) := rfl

/-! ## C43 -/

/-- C43 is false: whenever some element satisfies the predicate, `erase_if` reads a destroyed element. -/
theorem C43_erase_if_false {hash : K → Nat} {t : Table k K V} (h : Reachable hash t) {l : List (Elem k K V)}
    (hl : t.iterate = .ok l) {pred : Elem k K V → Bool} (hp : ∃ e ∈ l, pred e = true) :
    t.eraseIf pred = .error .deadRead := by
  have hi := h.of_iterate hl
  have hsz := hi.size
  have hle := hi.le_cap
  unfold Table.eraseIf
  refine eraseIfLoop_fault hi (by omega) (by omega) hle (by omega) (Or.inr ?_)
  rw [List.drop_zero]
  exact hp

/-- C43 under the guard that no element satisfies the predicate: nothing happens. -/
theorem C43_erase_if_partial {hash : K → Nat} {t : Table k K V} (h : Reachable hash t) {l : List (Elem k K V)}
    (hl : t.iterate = .ok l) {pred : Elem k K V → Bool} (hp : ∀ e ∈ l, pred e = false) : t.eraseIf pred = .ok (t, 0) := by
  have hi := h.of_iterate hl
  unfold Table.eraseIf
  have := eraseIfLoop_none (fuel := 2 * t.size + 1) (i := 0) (c := 0) hi (by omega) (by rw [hi.size]; omega) hp
  rw [← hi.size] at this
  exact this

example : (demo.eraseIf (fun e => e.2 == 20)).map (·.2) = .error .deadRead := rfl
example : (demo.eraseIf (fun e => e.2 == 21)).map (·.2) = .ok 0 := rfl

/-! ## C44 -/

/-- C44: erasing the range `[first, first + n)` removes exactly its elements; those before it keep their positions. -/
theorem C44_erase_range {hash : K → Nat} {t : Table k K V} (h : Reachable hash t) {l : List (Elem k K V)}
    (hl : t.iterate = .ok l) {first n : Nat} (hr : first + n ≤ l.length) :
    ∃ t' l', t.eraseRange first (first + n) = .ok (t', if n = 0 then l.length else first) ∧ Behaves hash t' l' ∧
      l'.take first = l.take first ∧ (l'.drop first).Perm (l.drop (first + n)) := by
  have hi := h.of_iterate hl
  obtain ⟨t', e, h', _⟩ := eraseRange_ok (p := t.size) hi hr
  have hrem := removeRange_perm hr
  refine ⟨t', _, ?_, h'.behaves, hrem.1, ?_⟩
  · unfold Table.eraseRange
    rw [Nat.add_sub_cancel_left, e, hi.size]
  · have h2 := hrem.2
    rw [← List.take_append_drop first (removeRange l first n), hrem.1] at h2
    exact (List.perm_append_left_iff _).mp h2

example : (demo.eraseRange 1 3).map (fun r => (r.2, r.1.iterate)) = .ok (1, .ok [el 3 30, el 7 70]) := rfl

/-! ## C45 -/

/-- C45: the copy constructor. -/
theorem C45_copy_constructor {hash : K → Nat} {t : Table k K V} (h : Reachable hash t) {l : List (Elem k K V)}
    (hl : t.iterate = .ok l) : ∃ t', t.copyCtor = .ok t' ∧ Behaves hash t' l := by
  obtain ⟨t', e, h', _⟩ := copyCtor_ok (h.of_iterate hl)
  exact ⟨t', e, h'.behaves⟩

/-- C45 is false for copy assignment: with an allocator that does not propagate (as `std::allocator`), after assigning an
empty container to one that had elements, looking up any of the old elements by any component reads a destroyed element. -/
theorem C45_copy_assign_false {hash : K → Nat} {t o : Table k K V} (ht : Reachable hash t) (ho : Reachable hash o)
    {l : List (Elem k K V)} (hl : t.iterate = .ok l) (hlo : o.iterate = .ok []) :
    ∃ t', t.copyAssign false o = .ok t' ∧ t'.size = 0 ∧ ∀ e ∈ l, ∀ j, t'.lookup hash j (e.1 j) = .error .deadRead := by
  have hi := ht.of_iterate hl
  have hio := ho.of_iterate hlo
  obtain ⟨t1, e1, c1⟩ := clearData_ok (hi.setLoad o.lf).toArr
  unfold Table.copyAssign
  rw [show ({ t with lf := o.lf } : Table k K V) = t.setLoad o.lf from rfl, e1, bind_ok]
  simp only [Bool.false_eq_true, if_false]
  unfold Table.copyData
  rw [if_neg (by simpa using c1.size), if_pos (show o.size = 0 from hio.size)]
  refine ⟨_, rfl, rfl, fun e he j => ?_⟩
  refine stale_lookup hi ?_ ?_ ?_ ?_ he j
  · exact c1.cap
  · exact c1.bc
  · exact c1.head
  · exact c1.node

/-- C45 for copy assignment under the needed guard: the source is not empty, or the destination is, or the allocator
propagates. -/
theorem C45_copy_assign_partial {hash : K → Nat} {prop : Bool} {t o : Table k K V} (ht : Reachable hash t)
    (ho : Reachable hash o) {l : List (Elem k K V)} (hl : o.iterate = .ok l)
    (hg : prop = true ∨ l ≠ [] ∨ t.iterate = .ok []) : ∃ t', t.copyAssign prop o = .ok t' ∧ Behaves hash t' l := by
  obtain ⟨l', hi⟩ := ht.inv
  obtain ⟨t', e, h', _⟩ := copyAssign_ok hi (ho.of_iterate hl) (hg.imp_right (Or.imp_right (by
    intro g
    rw [iterate_ok hi.toArr] at g
    cases g
    rfl)))
  exact ⟨t', e, h'.behaves⟩

example : (demo.copyAssign false (Table.init LF.initial)).map (fun t => (t.size, t.lookup h3 0 2)) =
    .ok (0, .error .deadRead) := rfl
example : ((after h3 LF.initial [.insert (el 9 0).1 90]).copyAssign false demo).map (fun t => (t.iterate, t.lookup h3 0 9)) =
    .ok (.ok [el 3 30, el 2 20, el 4 44, el 7 70], .ok none) := rfl

/-! ## C46 -/

/-- C46: the move constructor. -/
theorem C46_move_constructor {hash : K → Nat} {o : Table k K V} (h : Reachable hash o) {l : List (Elem k K V)}
    (hl : o.iterate = .ok l) : ∃ t' o', o.moveCtor true = .ok (t', o') ∧ Behaves hash t' l ∧ Behaves hash o' [] := by
  obtain ⟨t', o', e, h1, _, h2, _⟩ := moveCtor_ok (hash₁ := hash) (h.of_iterate hl)
  exact ⟨t', o', e, h1.behaves, h2.behaves⟩

/-- C46: move assignment with an allocator that propagates, as `std::allocator` does. -/
theorem C46_move_assign {hash : K → Nat} (eq : Bool) {t o : Table k K V} (ht : Reachable hash t) (h : Reachable hash o)
    {l : List (Elem k K V)} (hl : o.iterate = .ok l) :
    ∃ t' o', t.moveAssign true eq o = .ok (t', o') ∧ Behaves hash t' l ∧ Behaves hash o' [] := by
  obtain ⟨l', hi⟩ := ht.inv
  obtain ⟨t', o', e, h1, _, h2, _⟩ := moveAssign_ok (hash₁ := hash) (eq := eq) hi (h.of_iterate hl)
  exact ⟨t', o', e, h1.behaves, h2.behaves⟩

/-- C46: `swap`. -/
theorem C46_swap {hash : K → Nat} {t o : Table k K V} (ht : Reachable hash t) (h : Reachable hash o)
    {l lo : List (Elem k K V)} (hl : t.iterate = .ok l) (hlo : o.iterate = .ok lo) :
    Behaves hash (t.swap o).1 lo ∧ Behaves hash (t.swap o).2 l := by
  obtain ⟨h1, h2, _⟩ := swap_ok (ht.of_iterate hl) (h.of_iterate hlo)
  exact ⟨h1.behaves, h2.behaves⟩

/-- Outside C46: with an equal allocator that does not propagate, the source receives the buckets of the destination, which
still lead to destroyed elements. -/
theorem C46_nonpropagating_stale {hash : K → Nat} {t o : Table k K V} (ht : Reachable hash t) {l : List (Elem k K V)}
    (hl : t.iterate = .ok l) : ∃ t' o', t.moveAssign false true o = .ok (t', o') ∧ o'.size = 0 ∧
      ∀ e ∈ l, ∀ j, o'.lookup hash j (e.1 j) = .error .deadRead := by
  have hi := ht.of_iterate hl
  obtain ⟨t1, e1, c1⟩ := clearData_ok (hi.setLoad o.lf).toArr
  unfold Table.moveAssign
  rw [show ({ t with lf := o.lf } : Table k K V) = t.setLoad o.lf from rfl, e1, bind_ok]
  refine ⟨_, _, rfl, c1.size, fun e he j => ?_⟩
  refine stale_lookup hi ?_ ?_ ?_ ?_ he j
  · exact c1.cap
  · exact c1.bc
  · exact c1.head
  · exact c1.node

/-- Outside C46: with unequal allocators the source keeps buckets that lead to destroyed elements. -/
theorem C46_unequal_stale {hash : K → Nat} {o : Table k K V} (h : Reachable hash o) {l : List (Elem k K V)}
    (hl : o.iterate = .ok l) (hne : l ≠ []) : ∃ t' o', o.moveCtor false = .ok (t', o') ∧ Behaves hash t' l ∧ o'.size = 0 ∧
      ∀ e ∈ l, ∀ j, o'.lookup hash j (e.1 j) = .error .deadRead := by
  have hi := h.of_iterate hl
  obtain ⟨t', e, h', _⟩ := copyData_ok hi hne (t := Table.init o.lf) rfl (fun _ => rfl)
  have hsz : o.size ≠ 0 := by
    rw [hi.size]
    exact fun g => hne (List.length_eq_zero_iff.mp g)
  unfold Table.moveCtor Table.moveFrom Table.moveData
  simp only [Bool.false_eq_true, if_false]
  rw [if_neg hsz, e, bind_ok]
  refine ⟨_, _, rfl, h'.behaves, rfl, fun x hx j => ?_⟩
  refine stale_lookup hi ?_ ?_ ?_ ?_ hx j
  · rfl
  · rfl
  · rfl
  intro i
  show (if i < o.size then none else o.node i) = none
  split
  · rfl
  · exact hi.toArr.node_none (by rw [← hi.size]; omega)

example : (demo.moveCtor true).map (fun r => (r.1.iterate, r.2.iterate)) =
    .ok (.ok [el 3 30, el 2 20, el 4 44, el 7 70], .ok []) := rfl
example : (demo.swap (after h3 LF.initial [.insert (el 9 0).1 90])).1.lookup h3 0 9 = .ok (some (el 9 90)) := rfl

/-! ## C47 -/

/-- C47 is false: if the constructor throws for a new element, the container counts an element it does not have:
iterating and destroying the container are undefined. -/
theorem C47_insert_throw_false {hash : K → Nat} {t : Table k K V} (h : Reachable hash t) {l : List (Elem k K V)}
    (hl : t.iterate = .ok l) {key : Fin k → K} (hk : ∀ e ∈ l, ∀ j, e.1 j ≠ key j) :
    ∃ t', t.insertThrow hash key = .ok (t', true) ∧ t'.size = l.length + 1 ∧ t'.iterate = .error .deadRead ∧
      t'.destroy = .error .deadDestroy := by
  have hi := h.of_iterate hl
  obtain ⟨t1, e1, i1, c1, f1, b1, s1⟩ := maybeResize_ok hi
  obtain ⟨t2, e2, i2, c2, f2, b2, p2⟩ := maybeRehash_ok i1
  obtain ⟨r, e3, hr⟩ := locate_ok i2.toArr i2.uniq i2.chained p2 key
  have hcap : t2.size < t2.cap := by rw [i2.size, ← i1.size, c2]; exact s1
  have hc : conflict l key = none := by
    unfold conflict
    rw [List.findSome?_eq_none_iff]
    intro j _
    exact idxOf_none (fun e he => hk e he j)
  unfold Table.insertThrow
  rw [e1, bind_ok, e2, bind_ok, e3, bind_ok, findSome_map]
  rw [show List.findSome? (fun a => (a, idxOf l a (key a), some (r a)).2.1) (List.finRange k) = conflict l key from rfl, hc]
  simp only
  unfold Table.pushThrow
  rw [if_pos hcap, bind_ok]
  exact ⟨_, rfl, by simp only; rw [i2.size], iterate_hole i2 hcap, destroy_hole i2⟩

/-- C47 is false for `emplace`, whether or not the element is present. -/
theorem C47_emplace_throw_false {hash : K → Nat} {t : Table k K V} (h : Reachable hash t) {l : List (Elem k K V)}
    (hl : t.iterate = .ok l) :
    ∃ t', t.emplaceThrow = .ok t' ∧ t'.size = l.length + 1 ∧ t'.iterate = .error .deadRead ∧
      t'.destroy = .error .deadDestroy := by
  have hi := h.of_iterate hl
  obtain ⟨t1, e1, i1, c1, f1, b1, s1⟩ := maybeResize_ok hi
  obtain ⟨t2, e2, i2, c2, f2, b2, p2⟩ := maybeRehash_ok i1
  have hcap : t2.size < t2.cap := by rw [i2.size, ← i1.size, c2]; exact s1
  unfold Table.emplaceThrow
  rw [e1, bind_ok, e2, bind_ok]
  unfold Table.pushThrow
  rw [if_pos hcap]
  exact ⟨_, rfl, by simp only; rw [i2.size], iterate_hole i2 hcap, destroy_hole i2⟩

/-- C47 for `insert` under the guard that the element is present: nothing is constructed. -/
theorem C47_insert_throw_partial {hash : K → Nat} {t : Table k K V} (h : Reachable hash t) {l : List (Elem k K V)}
    (hl : t.iterate = .ok l) {key : Fin k → K} (hk : ∃ e ∈ l, ∃ j, e.1 j = key j) :
    ∃ t', t.insertThrow hash key = .ok (t', false) ∧ Behaves hash t' l := by
  have hi := h.of_iterate hl
  obtain ⟨t1, e1, i1, c1, f1, b1, s1⟩ := maybeResize_ok hi
  obtain ⟨t2, e2, i2, c2, f2, b2, p2⟩ := maybeRehash_ok i1
  obtain ⟨r, e3, hr⟩ := locate_ok i2.toArr i2.uniq i2.chained p2 key
  unfold Table.insertThrow
  rw [e1, bind_ok, e2, bind_ok, e3, bind_ok, findSome_map]
  rw [show List.findSome? (fun a => (a, idxOf l a (key a), some (r a)).2.1) (List.finRange k) = conflict l key from rfl]
  cases hc : conflict l key with
  | none =>
    obtain ⟨e, he, j, hx⟩ := hk
    exact absurd hx (idxOf_eq_none (conflict_none hc j) e he)
  | some i => exact ⟨t2, rfl, i2.behaves⟩

example : (demo.insertThrow h3 (el 5 0).1).map (fun r => (r.1.size, r.1.iterate, r.2)) = .ok (5, .error .deadRead, true) := rfl

/-! ## C48 -/

/-- C48 is false: if a container with buckets must grow them in `rehash` and the allocation fails, the old buckets are
already freed: every later lookup and the destructor are undefined. -/
theorem C48_rehash_false {hash : K → Nat} {t : Table k K V} (h : Reachable hash t) (hb : t.bc ≠ 0) {n : Nat} (hn : t.bc < n) :
    ∃ a, t.rehashA true n = .ok (a, true) ∧ (∀ j x, a.lookup hash j x = .error .dangling) ∧ a.destroy = .error .badFree := by
  obtain ⟨l, hi⟩ := h.inv
  unfold Table.rehashA
  rw [if_neg (by omega)]
  simp only
  rw [if_pos (by omega)]
  unfold Table.doRehashA
  rw [if_pos ⟨by omega, rfl⟩]
  refine ⟨_, rfl, ?_, ?_⟩
  · intro j x
    unfold Table.A.lookup
    rw [if_pos (by simpa using hb)]
  · obtain ⟨t', e, _⟩ := clearData_ok hi.toArr
    unfold Table.A.destroy
    simp only
    rw [e, bind_ok, if_pos (by simpa using hb)]

/-- C48 is false for insertions: a full container that has buckets. -/
theorem C48_insert_false {hash : K → Nat} {t : Table k K V} (h : Reachable hash t) (hb : t.bc ≠ 0)
    (hf : t.lf.full t.size t.bc = true) (key : Fin k → K) (v : V) :
    ∃ a, t.insertA hash false true key v = .ok (a, true) ∧ (∀ j x, a.lookup hash j x = .error .dangling) ∧
      a.destroy = .error .badFree := by
  obtain ⟨l, hi⟩ := h.inv
  obtain ⟨t1, e1, i1, c1, f1, b1, s1⟩ := maybeResize_ok hi
  have hr : (if t.cap = t.size then t.resizeDataA false (if t.cap = 0 then 1 else t.cap * 2)
      else .ok (⟨t, false⟩, false) : M (Table.A k K V × Bool)) = .ok (⟨t1, false⟩, false) := by
    unfold Table.maybeResize at e1
    by_cases hc : t.cap = t.size
    · rw [if_pos hc] at e1 ⊢
      unfold Table.resizeDataA
      simp only [Bool.false_eq_true, if_false]
      rw [e1, bind_ok]
    · rw [if_neg hc] at e1 ⊢
      cases e1
      rfl
  unfold Table.insertA
  rw [hr, bind_ok]
  simp only [Bool.false_eq_true, if_false]
  have hf1 : t1.lf.full t1.size t1.bc = true := by rw [f1, b1, i1.size, ← hi.size]; exact hf
  rw [if_neg (by rw [b1]; exact hb), if_pos hf1]
  unfold Table.rehashA
  rw [if_neg (by omega)]
  simp only
  rw [if_pos (by omega)]
  unfold Table.doRehashA
  rw [if_pos ⟨by omega, rfl⟩, bind_ok]
  simp only [if_true]
  refine ⟨_, rfl, ?_, ?_⟩
  · intro j x
    unfold Table.A.lookup
    rw [if_pos (by simp only [decide_eq_true_eq]; rw [b1]; exact hb)]
  · obtain ⟨t', e, _⟩ := clearData_ok i1.toArr
    unfold Table.A.destroy
    simp only
    rw [e, bind_ok, if_pos (by simp only [decide_eq_true_eq]; rw [b1]; exact hb)]

/-- C48 under the guard that there are no buckets yet: a failing `rehash` changes nothing. -/
theorem C48_rehash_partial {hash : K → Nat} {t : Table k K V} (h : Reachable hash t) {l : List (Elem k K V)}
    (hl : t.iterate = .ok l) (hb : t.bc = 0) (n : Nat) :
    ∃ a b, t.rehashA true n = .ok (a, b) ∧ a.freed = false ∧ Behaves hash a.t l := by
  have hi := h.of_iterate hl
  unfold Table.rehashA
  by_cases h0 : n = 0 ∧ t.size = 0
  · rw [if_pos h0]
    exact ⟨_, _, rfl, rfl, hi.behaves⟩
  · rw [if_neg h0]
    simp only
    have hl0 := hi.empty hb
    subst hl0
    have hsz : t.size = 0 := hi.size
    rw [if_pos (by omega)]
    unfold Table.doRehashA
    rw [if_pos ⟨by omega, rfl⟩]
    exact ⟨_, _, rfl, by simp [hb], hi.behaves⟩

/-- C48 for the array of elements: if its allocation fails, `insert` and `reserve` change nothing. -/
theorem C48_elements_partial {hash : K → Nat} {t : Table k K V} (h : Reachable hash t) {l : List (Elem k K V)}
    (hl : t.iterate = .ok l) (fails2 : Bool) (key : Fin k → K) (v : V) (n : Nat) :
    (t.cap = t.size → t.insertA hash true fails2 key v = .ok (⟨t, false⟩, true)) ∧
    (t.cap < n → t.reserveA true fails2 n = .ok (⟨t, false⟩, true)) ∧ Behaves hash t l := by
  refine ⟨?_, ?_, (h.of_iterate hl).behaves⟩
  · intro hc
    unfold Table.insertA
    rw [if_pos hc]
    rfl
  · intro hc
    unfold Table.reserveA
    rw [if_pos hc]
    rfl

example : (demo.rehashA true 100).map (fun r => (r.1.lookup h3 0 7, r.2)) = .ok (.error .dangling, true) := rfl

/-! ## C49 -/

/-- C49 is false for dense containers: if the array of elements is exactly full, the argument dangles. -/
theorem C49_dense_false (hash : K → Nat) {t : Table k K V} (hf : t.cap = t.size) (i : Nat) :
    t.insertSelf hash i = .error .dangling := by
  unfold Table.insertSelf
  rw [if_pos hf]

/-- C49 for dense containers with room for another element. -/
theorem C49_dense_partial {hash : K → Nat} {t : Table k K V} (h : Reachable hash t) {l : List (Elem k K V)}
    (hl : t.iterate = .ok l) (hf : t.cap ≠ t.size) (hk : 0 < k) {i : Nat} (hi : i < l.length) :
    ∃ t', t.insertSelf hash i = .ok (t', i, false) ∧ Behaves hash t' l := by
  have hin := h.of_iterate hl
  obtain ⟨n, hr, hn, hne⟩ := hin.toArr.read hi
  unfold Table.insertSelf
  rw [if_neg hf, hr, bind_ok]
  obtain ⟨r, e, hrr⟩ := insert_ok hin n.key n.val
  have hge := hin.toArr.node_elem hn
  have hc : conflict l n.key = some i := by
    unfold conflict
    obtain ⟨k, rfl⟩ : ∃ k', k = k' + 1 := ⟨k - 1, by omega⟩
    rw [List.finRange_succ, List.findSome?_cons]
    have := idxOf_of_uniq (hin.uniq 0) hge
    simp only at this
    rw [this]
  obtain ⟨h1, h2⟩ := hrr.dup i hc
  rw [e]
  exact ⟨r.1, by rw [← h1], h2.behaves⟩

/-- Four elements fill the array. -/
example : ((after h3 LF.initial demoOps).eraseAt 0).map (fun r => (r.1.cap, r.1.size)) = .ok (8, 3) ∧
    ((after h3 LF.initial [.insert (el 1 0).1 10]).insertSelf h3 0).map (·.2) = .error .dangling ∧
    (demo.insertSelf h3 2).map (·.2) = .ok (2, false) := ⟨rfl, rfl, rfl⟩

/-! ## C50 -/

/-- C50 is false: nine elements in ten buckets with the initial maximal load factor 0.875. -/
theorem C50_load_false :
    ∃ (ops : List (Op 1 Nat Nat)) (t : Table 1 Nat Nat) (outs : List (Out 1 Nat Nat)),
      (Table.init LF.initial : Table 1 Nat Nat).run id ops = .ok (t, outs) ∧ t.lf = LF.ratio 7 8 ∧ 7 * t.bc < t.size * 8 := by
  refine ⟨.rehash 10 :: (List.range 9).map (fun i => .insert (fun _ => i) 0), _, _, rfl, rfl, ?_⟩
  decide

/-- C50, what holds: after the insertion of a new element with maximal load factor `p / q` (computed exactly), the load without
the new element is below that of one more bucket: `(size - 1) / (buckets + 1) < p / q`. -/
theorem C50_load_bound_partial {hash : K → Nat} {t t' : Table k K V} {pos p q : Nat} (h : Reachable hash t) (hp : 0 < p)
    (hlf : t.lf = LF.ratio p q) {key : Fin k → K} {v : V} (e : t.insert hash key v = .ok (t', pos, true)) :
    (t'.size - 1) * q < p * (t'.bc + 1) := by
  obtain ⟨l, hi⟩ := h.inv
  have hbc := insert_bc hi e
  obtain ⟨r, e', hr⟩ := insert_ok hi key v
  rw [e] at e'
  cases e'
  have hsz : t'.size - 1 = t.size := by
    cases hc : conflict l key with
    | some i => have := (hr.dup i hc).1; cases this
    | none =>
      have := (hr.fresh hc).2.size
      simp only [List.length_append, List.length_cons, List.length_nil] at this
      rw [this, hi.size]; omega
  simp only at hbc
  rw [hsz]
  rw [hlf] at hbc
  have hdiv : ∀ c, t.size * q / p ≤ c → t.size * q < p * (c + 1) := by
    intro c hc
    have := (Nat.div_lt_iff_lt_mul hp (x := t.size * q) (y := c + 1)).mp (by omega)
    rwa [Nat.mul_comm (c + 1)] at this
  by_cases h0 : t.bc = 0
  · rw [if_pos h0] at hbc
    refine hdiv _ ?_
    rw [hbc]
    exact Nat.le_max_left ..
  · rw [if_neg h0] at hbc
    by_cases hf : (LF.ratio p q).full t.size t.bc = true
    · rw [if_pos hf] at hbc
      refine hdiv _ ?_
      rw [hbc]
      exact Nat.le_max_left ..
    · rw [if_neg hf] at hbc
      unfold LF.ratio at hf
      simp only [decide_eq_true_eq, Nat.not_le] at hf
      rw [hbc, Nat.mul_add]
      omega

/-- C50 where it holds: if the bucket count is divisible by the denominator of the maximal load factor (all bucket counts that
insertions alone produce from an empty container with the initial factor 7/8) and the load was not above the maximum, an
insertion keeps it so. -/
theorem C50_load_divisible_partial {hash : K → Nat} {t t' : Table k K V} {pos p q : Nat} {b : Bool} (h : Reachable hash t)
    (hp : 0 < p) (hlf : t.lf = LF.ratio p q) (h8 : q ∣ 8) (hd : q ∣ t.bc) (hld : t.size * q ≤ p * t.bc) {key : Fin k → K} {v : V}
    (e : t.insert hash key v = .ok (t', pos, b)) : q ∣ t'.bc ∧ t'.size * q ≤ p * t'.bc := by
  obtain ⟨l, hi⟩ := h.inv
  have hbc := insert_bc hi e
  obtain ⟨r, e', hr⟩ := insert_ok hi key v
  rw [e] at e'
  cases e'
  have hsz : t'.size ≤ t.size + 1 := by
    cases hc : conflict l key with
    | some i =>
      have := (hr.dup i hc).2.size
      simp only at this
      rw [this, hi.size]; omega
    | none =>
      have := (hr.fresh hc).2.size
      simp only [List.length_append, List.length_cons, List.length_nil] at this
      have := hi.size
      omega
  simp only at hbc
  rw [hlf] at hbc
  have hdiv : t.size * q / p ≤ t.bc := by
    have := Nat.div_le_div_right (c := p) hld
    rwa [Nat.mul_div_cancel_left _ hp] at this
  have key2 : ∀ c, q ∣ c → t.size * q < p * c → t'.size * q ≤ p * c := by
    intro c hc hlt
    obtain ⟨d, rfl⟩ := hc
    have h1 : p * (q * d) = p * d * q := by rw [Nat.mul_comm q d, Nat.mul_assoc]
    rw [h1] at hlt ⊢
    have h2 : t.size < p * d := Nat.lt_of_mul_lt_mul_right hlt
    exact Nat.mul_le_mul_right q (by omega)
  by_cases h0 : t.bc = 0
  · rw [if_pos h0] at hbc
    have : t'.bc = 8 := by
      rw [hbc]
      show max (t.size * q / p) 8 = 8
      omega
    rw [this]
    refine ⟨h8, key2 8 h8 ?_⟩
    rw [h0] at hld
    omega
  · rw [if_neg h0] at hbc
    by_cases hf : (LF.ratio p q).full t.size t.bc = true
    · rw [if_pos hf] at hbc
      have : t'.bc = t.bc * 2 := by
        rw [hbc]
        show max (t.size * q / p) (t.bc * 2) = t.bc * 2
        omega
      rw [this]
      refine ⟨Nat.dvd_mul_right_of_dvd hd 2, key2 _ (Nat.dvd_mul_right_of_dvd hd 2) ?_⟩
      have : 0 < p * t.bc := Nat.mul_pos hp (by omega)
      rw [← Nat.mul_assoc]
      omega
    · rw [if_neg hf] at hbc
      unfold LF.ratio at hf
      simp only [decide_eq_true_eq, Nat.not_le] at hf
      rw [hbc]
      exact ⟨hd, key2 _ hd hf⟩

example : demo.lf = LF.ratio 7 8 ∧ demo.bc = 8 ∧ demo.size = 4 := ⟨rfl, rfl, rfl⟩

/-! ## C64 -/

/-- C64: range insertion, range construction and `assign` equal insertion one by one, with and without the `reserve` for random
access iterators. -/
theorem C64_insert_range {hash : K → Nat} {t : Table k K V} (h : Reachable hash t) {l : List (Elem k K V)}
    (hl : t.iterate = .ok l) (ra : Bool) (xs : List (Elem k K V)) :
    ∃ t', t.insertRange hash ra xs = .ok t' ∧ Behaves hash t' (xs.foldl (fun l x => (Spec.insert l x.1 x.2).1) l) := by
  obtain ⟨t', e, h', _⟩ := insertRange_ok (h.of_iterate hl) ra xs
  exact ⟨t', e, h'.behaves⟩

theorem C64_construct_range (hash : K → Nat) (lf : LF) (ra : Bool) (n : Nat) (xs : List (Elem k K V)) :
    ∃ t', Table.ofRange hash lf ra n xs = .ok t' ∧ Behaves hash t' (xs.foldl (fun l x => (Spec.insert l x.1 x.2).1) []) := by
  obtain ⟨t', e, h', _⟩ := insertRange_ok (withBuckets_inv hash lf (if ra then max xs.length n else n)) ra xs
  exact ⟨t', e, h'.behaves⟩

theorem C64_assign_range {hash : K → Nat} {t : Table k K V} (h : Reachable hash t) (ra : Bool) (xs : List (Elem k K V)) :
    ∃ t', t.assignRange hash ra xs = .ok t' ∧ Behaves hash t' (xs.foldl (fun l x => (Spec.insert l x.1 x.2).1) []) := by
  obtain ⟨l, hi⟩ := h.inv
  obtain ⟨t0, e0, h0, _⟩ := clear_ok hi.toArr
  obtain ⟨t', e, h', _⟩ := insertRange_ok h0 ra xs
  unfold Table.assignRange
  rw [e0, bind_ok, e]
  exact ⟨t', rfl, h'.behaves⟩

/-- C64: for elements with pairwise distinct components the result is the range itself. -/
theorem C64_range_distinct {l xs : List (Elem k K V)} (h : ∀ j, ((l ++ xs).map (fun e => e.1 j)).Nodup) :
    xs.foldl (fun l x => (Spec.insert l x.1 x.2).1) l = l ++ xs := by
  induction xs generalizing l with
  | nil => simp
  | cons x xs ih =>
    have hc : Spec.clash l x.1 = none := by
      unfold Spec.clash
      rw [List.findSome?_eq_none_iff]
      intro j _
      refine idxOf_none ?_
      intro e he g
      have := h j
      rw [List.map_append, List.nodup_append] at this
      exact this.2.2 (e.1 j) (List.mem_map.mpr ⟨e, he, rfl⟩) (x.1 j) (List.mem_map.mpr ⟨x, List.mem_cons_self, rfl⟩) g
    have hins : (Spec.insert l x.1 x.2).1 = l ++ [x] := by
      unfold Spec.insert
      rw [hc]
    rw [List.foldl_cons, hins, ih]
    · rw [List.append_assoc]; rfl
    · intro j
      have := h j
      rwa [List.append_assoc]

example : (Table.ofRange h3 LF.initial true 0 [el 1 10, el 4 40, el 1 11]).map (·.iterate) = .ok (.ok [el 1 10, el 4 40]) := rfl

end Tpp.Dense
