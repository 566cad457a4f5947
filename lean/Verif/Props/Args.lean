import Verif.Swiss.Args
import Verif.Props.SwissA
import Verif.Props.Dense

/-!
# C101: insertions and the arguments of the caller
-/

set_option linter.unusedSectionVars false

namespace Tpp.Swiss

variable {K V : Type} [DecidableEq K]

/-! The functions are `insert` or `insert_or_assign`, plus what happens to the argument. -/

theorem insertArg_eq {isa : Isa} {hash : K → Nat} (mv : MovedFrom K V) (t : Table K V) (rv : Bool) (x : K × V) :
    t.insertArg isa hash mv rv x = (t.insert isa hash x.1 x.2).bind (fun r => .ok (r.1, r.2, if rv = true ∧ r.2.2 = true then mv.pair x else x)) := by
  simp only [Table.insertArg, Table.insert]
  cases t.findNode isa x.1 (hash x.1) with
  | error e => rfl
  | ok pos =>
    simp only [bind_ok]
    by_cases hp : pos = t.cap
    · rw [if_pos hp, if_pos hp]
      cases t.emplaceNode isa ⟨x.1, x.2, hash x.1⟩ with
      | error e => rfl
      | ok r => cases rv <;> rfl
    · rw [if_neg hp, if_neg hp]
      cases rv <;> rfl

theorem tryEmplaceArg_eq {isa : Isa} {hash : K → Nat} (mv : MovedFrom K V) (t : Table K V) (rv : Bool) (x : K × V) :
    t.tryEmplaceArg isa hash mv rv x = (t.insert isa hash x.1 x.2).bind (fun r => .ok (r.1, r.2, (x.1, if rv = true ∧ r.2.2 = true then mv.val x.2 else x.2))) := by
  simp only [Table.tryEmplaceArg, Table.insert]
  cases t.findNode isa x.1 (hash x.1) with
  | error e => rfl
  | ok pos =>
    simp only [bind_ok]
    by_cases hp : pos = t.cap
    · rw [if_pos hp, if_pos hp]
      cases t.emplaceNode isa ⟨x.1, x.2, hash x.1⟩ with
      | error e => rfl
      | ok r => cases rv <;> rfl
    · rw [if_neg hp, if_neg hp]
      cases rv <;> rfl

theorem assignArg_eq {isa : Isa} {hash : K → Nat} (mv : MovedFrom K V) (t : Table K V) (rv : Bool) (x : K × V) :
    t.assignArg isa hash mv rv x = (t.insertOrAssign isa hash x.1 x.2).bind (fun r => .ok (r.1, r.2, (x.1, if rv then mv.val x.2 else x.2))) := by
  simp only [Table.assignArg, Table.insertOrAssign, Table.insertOrAssignWith]
  cases t.findNode isa x.1 (hash x.1) with
  | error e => rfl
  | ok pos =>
    simp only [bind_ok]
    by_cases hp : pos = t.cap
    · rw [if_pos hp, if_pos hp]
      cases t.emplaceNode isa ⟨x.1, x.2, hash x.1⟩ with
      | error e => rfl
      | ok r => cases rv <;> rfl
    · rw [if_neg hp, if_neg hp]
      cases t.readNode pos <;> rfl

/-- C101 for `insert`: the caller's value is moved from exactly if it is passed as an rvalue and its key was absent; then the element
has the value the caller had.  Otherwise the variable and (if the key is present) the container are unchanged. -/
theorem C101_insert {isa : Isa} {hash : K → Nat} {t : Table K V} (h : Reachable isa hash t) {m : List (K × V)}
    (hb : Behaves isa hash t m) (mv : MovedFrom K V) (rv : Bool) (x : K × V) :
    ∃ t' p b x', t.insertArg isa hash mv rv x = .ok (t', (p, b), x') ∧
      ((Spec.lookup m x.1 = none ∧ b = true ∧ Behaves isa hash t' (x :: m) ∧ x' = if rv then (mv.key x.1, mv.val x.2) else x) ∨
       (∃ w, Spec.lookup m x.1 = some w ∧ b = false ∧ t' = t ∧ x' = x)) := by
  obtain ⟨t', p, b, e, hr⟩ := C06_insert h hb x.1 x.2
  refine ⟨t', p, b, _, by rw [insertArg_eq, e]; rfl, ?_⟩
  rcases hr with ⟨h1, rfl, h2, _⟩ | ⟨w, h1, rfl, h2, _⟩
  · exact Or.inl ⟨h1, rfl, h2, by cases rv <;> simp [MovedFrom.pair]⟩
  · exact Or.inr ⟨w, h1, rfl, h2, by simp⟩

/-- C101 for `try_emplace`: the key is never moved from, the mapped value exactly if it is passed as an rvalue and the key was
absent. -/
theorem C101_try_emplace {isa : Isa} {hash : K → Nat} {t : Table K V} (h : Reachable isa hash t) {m : List (K × V)}
    (hb : Behaves isa hash t m) (mv : MovedFrom K V) (rv : Bool) (x : K × V) :
    ∃ t' p b x', t.tryEmplaceArg isa hash mv rv x = .ok (t', (p, b), x') ∧ x'.1 = x.1 ∧
      ((Spec.lookup m x.1 = none ∧ b = true ∧ Behaves isa hash t' (x :: m) ∧ x'.2 = if rv then mv.val x.2 else x.2) ∨
       (∃ w, Spec.lookup m x.1 = some w ∧ b = false ∧ t' = t ∧ x'.2 = x.2)) := by
  obtain ⟨t', p, b, e, hr⟩ := C06_insert h hb x.1 x.2
  refine ⟨t', p, b, (x.1, if rv = true ∧ b = true then mv.val x.2 else x.2), by rw [tryEmplaceArg_eq, e]; rfl, rfl, ?_⟩
  rcases hr with ⟨h1, rfl, h2, _⟩ | ⟨w, h1, rfl, h2, _⟩
  · exact Or.inl ⟨h1, rfl, h2, by cases rv <;> simp⟩
  · exact Or.inr ⟨w, h1, rfl, h2, by simp⟩

/-- C101 for `insert_or_assign`: the key is never moved from; an rvalue is, and it is then the value of its key. -/
theorem C101_insert_or_assign {isa : Isa} {hash : K → Nat} {t : Table K V} (h : Reachable isa hash t) {m : List (K × V)}
    (hb : Behaves isa hash t m) (mv : MovedFrom K V) (rv : Bool) (x : K × V) :
    ∃ t' p b m', t.assignArg isa hash mv rv x = .ok (t', (p, b), (x.1, if rv then mv.val x.2 else x.2)) ∧
      Behaves isa hash t' m' ∧ Spec.lookup m' x.1 = some x.2 ∧ ∀ y, y ≠ x.1 → Spec.lookup m' y = Spec.lookup m y := by
  obtain ⟨t', p, e, _, m', h1, h2, h3⟩ := C07_insert_or_assign h hb x.1 x.2
  exact ⟨t', p, _, m', by rw [assignArg_eq, e]; rfl, h1, h2, h3⟩

/-- C101 for `operator[]` with a variable as key: the variable keeps its value (unlike in dense containers, C77). -/
theorem C101_index {isa : Isa} {hash : K → Nat} {t : Table K V} (h : Reachable isa hash t) {m : List (K × V)}
    (hb : Behaves isa hash t m) (mv : MovedFrom K V) (dflt : V) (x : K) :
    ∃ t' m', t.indexArg isa hash mv dflt x = .ok (t', (Spec.lookup m x).getD dflt, x) ∧ Behaves isa hash t' m' ∧
      Spec.lookup m' x = some ((Spec.lookup m x).getD dflt) ∧ ∀ y, y ≠ x → Spec.lookup m' y = Spec.lookup m y := by
  obtain ⟨t', p, b, e, hr⟩ := C06_insert h hb x dflt
  have key : ∀ v, t'.Designates isa p (x, v) → t.indexArg isa hash mv dflt x = .ok (t', v, x) := by
    rintro v ⟨n, d1, d2⟩
    cases d2
    unfold Table.indexArg
    rw [tryEmplaceArg_eq, e]
    show (do
      let it ← t'.toIter isa p
      let n' ← t'.readNode it
      Except.ok (t', n'.val, n.key)) = _
    cases hi : t'.toIter isa p with
    | error f => rw [hi] at d1; cases d1
    | ok it =>
      rw [hi, bind_ok] at d1
      rw [bind_ok, d1]
      rfl
  rcases hr with ⟨h1, rfl, h2, d⟩ | ⟨w, h1, rfl, rfl, d⟩
  · refine ⟨t', _, by rw [key _ d, h1]; rfl, h2, by rw [h1]; simp [Spec.lookup], fun y hy => ?_⟩
    unfold Spec.lookup
    rw [List.find?_cons_of_neg (by simpa using fun g : x = y => hy g.symm)]
  · exact ⟨t', m, by rw [key _ d, h1]; rfl, hb, by rw [h1]; rfl, fun _ _ => rfl⟩

/-- C101 is false for `emplace`, all containers: if the key is present nothing is inserted, yet the caller's value is gone.  (The
standard containers may do the same.) -/
theorem C101_emplace_false {isa : Isa} {hash : K → Nat} {t : Table K V} (h : Reachable isa hash t) {m : List (K × V)}
    (hb : Behaves isa hash t m) (mv : MovedFrom K V) (x : K × V) {w : V} (hx : Spec.lookup m x.1 = some w) :
    ∃ p, t.emplaceArg isa hash mv true x = .ok (t, (p, false), (mv.key x.1, mv.val x.2)) := by
  obtain ⟨t', p, b, e, hr⟩ := C06_insert h hb x.1 x.2
  rcases hr with ⟨h1, _⟩ | ⟨_, _, rfl, rfl, _⟩
  · rw [h1] at hx; cases hx
  · refine ⟨p, ?_⟩
    unfold Table.emplaceArg
    rw [e]
    rfl

/-- The calls `emplace(std::move(x))` are left out of a program. -/
def ArgOp.keeps : ArgOp → Bool
  | .emplace rv _ => !rv
  | _ => true

/-- Somebody has the pair `y`: it is an element of the container or the value of a variable. -/
def Held (m : List (K × V)) (vars : Nat → K × V) (y : K × V) : Prop := y ∈ m ∨ ∃ i, vars i = y

/-- One call: the container afterwards, and the pairs kept. -/
theorem argStep_keeps {isa : Isa} {hash : K → Nat} {t : Table K V} (h : Inv isa hash t) (mv : MovedFrom K V) (vars : Nat → K × V)
    {o : ArgOp} (ho : o.keeps = true) :
    ∃ t' vars', argStep isa hash mv (t, vars) o = .ok (t', vars') ∧ Inv isa hash t' ∧ (∀ y ∈ t.contents, y ∈ t'.contents) ∧
      ∀ y, Held t.contents vars y → Held t'.contents vars' y := by
  have main : ∀ i, ∃ t' p b, t.insert isa hash (vars i).1 (vars i).2 = .ok (t', p, b) ∧ Inv isa hash t' ∧
      (∀ y ∈ t.contents, y ∈ t'.contents) ∧
      ∀ x', (b = false → x' = vars i) → ∀ y, Held t.contents vars y → Held t'.contents (upd vars i x') y := by
    intro i
    obtain ⟨t', p, b, e, h', _, hr⟩ := insert_spec h (vars i).1 (vars i).2
    refine ⟨t', p, b, e, h', ?_⟩
    rcases hr with ⟨rfl, _, h2, _⟩ | ⟨w, rfl, h1, rfl, _⟩
    · refine ⟨fun y hy => h2.mem_iff.mpr (List.mem_cons_of_mem _ hy), ?_⟩
      rintro x' - y (g | ⟨j, g⟩)
      · exact Or.inl (h2.mem_iff.mpr (List.mem_cons_of_mem _ g))
      · by_cases hj : j = i
        · subst hj; exact Or.inl (h2.mem_iff.mpr (g ▸ List.mem_cons_self))
        · exact Or.inr ⟨j, by rw [upd_ne _ _ hj]; exact g⟩
    · refine ⟨fun _ g => g, ?_⟩
      rintro x' hx y (g | ⟨j, g⟩)
      · exact Or.inl g
      · refine Or.inr ⟨j, ?_⟩
        by_cases hj : j = i
        · subst hj; rw [upd_same, hx rfl, g]
        · rw [upd_ne _ _ hj]; exact g
  cases o with
  | insert rv i =>
    obtain ⟨t', p, b, e, h', h1, h2⟩ := main i
    refine ⟨t', _, by unfold argStep; simp only [insertArg_eq, e]; rfl, h', h1, h2 _ ?_⟩
    intro hb
    simp [hb]
  | tryEmplace rv i =>
    obtain ⟨t', p, b, e, h', h1, h2⟩ := main i
    refine ⟨t', _, by unfold argStep; simp only [tryEmplaceArg_eq, e]; rfl, h', h1, h2 _ ?_⟩
    intro hb
    simp [hb]
  | emplace rv i =>
    obtain ⟨t', p, b, e, h', h1, h2⟩ := main i
    have hrv : rv = false := by simpa [ArgOp.keeps] using ho
    refine ⟨t', _, by unfold argStep Table.emplaceArg; simp only [e]; rfl, h', h1, h2 _ ?_⟩
    intro _
    simp [hrv]

/-- Any number of calls. -/
theorem argRun_keeps {isa : Isa} {hash : K → Nat} (mv : MovedFrom K V) {ops : List ArgOp} (ho : ∀ o ∈ ops, o.keeps = true) :
    ∀ {t : Table K V} (_ : Inv isa hash t) (vars : Nat → K × V),
      ∃ t' vars', argRun isa hash mv (t, vars) ops = .ok (t', vars') ∧ Inv isa hash t' ∧ (∀ y ∈ t.contents, y ∈ t'.contents) ∧
        ∀ y, Held t.contents vars y → Held t'.contents vars' y := by
  induction ops with
  | nil => intro t h vars; exact ⟨t, vars, rfl, h, fun _ g => g, fun _ g => g⟩
  | cons o os ih =>
    intro t h vars
    obtain ⟨t1, vars1, e1, h1, s1, k1⟩ := argStep_keeps h mv vars (ho o List.mem_cons_self)
    obtain ⟨t2, vars2, e2, b2, s2, k2⟩ := ih (fun o g => ho o (List.mem_cons_of_mem _ g)) h1 vars1
    exact ⟨t2, vars2, by unfold argRun; rw [e1]; exact e2, b2, fun y g => s2 y (s1 y g), fun y g => k2 y (k1 y g)⟩

/-- C101 over whole programs: no sequence of `insert`, `try_emplace` (with or without `std::move`) and `emplace` of copies loses a
pair: each pair that was an element or the value of a variable still is one or the other. -/
theorem C101_program {isa : Isa} {hash : K → Nat} {t : Table K V} (h : Reachable isa hash t) {m : List (K × V)}
    (hb : Behaves isa hash t m) (mv : MovedFrom K V) (vars : Nat → K × V) {ops : List ArgOp} (ho : ∀ o ∈ ops, o.keeps = true) :
    ∃ t' vars' m', argRun isa hash mv (t, vars) ops = .ok (t', vars') ∧ Behaves isa hash t' m' ∧ (∀ y ∈ m, y ∈ m') ∧
      ∀ y, (y ∈ m ∨ ∃ i, vars i = y) → y ∈ m' ∨ ∃ i, vars' i = y := by
  obtain ⟨t', vars', e, h', hs, hk⟩ := argRun_keeps mv ho h.inv vars
  have hm := hb.contents_perm h.inv
  refine ⟨t', vars', t'.contents, e, h'.behaves (List.Perm.refl _), fun y hy => hs y (hm.mem_iff.mpr hy), fun y hy => hk y ?_⟩
  exact hy.imp_left hm.mem_iff.mpr

/-- A move leaves 0 behind. -/
def zero : MovedFrom Nat Nat := ⟨fun _ => 0, fun _ => 0⟩

/-- Variables holding (7, 70), (1, 11), (8, 80), (9, 90), (9, 90), ... -/
def fourVars : Nat → Nat × Nat := fun i => [(7, 70), (1, 11), (8, 80)].getD i (9, 90)

/-- `insert(std::move(a))` takes the first, rejects the second; `try_emplace(c.first, std::move(c.second))` leaves the key. -/
example : (argRun .sse2 h64 zero (demo, fourVars) [.insert true 0, .insert true 1, .tryEmplace true 2, .emplace false 3]).map
    (fun s => ((List.range 4).map s.2, s.1.contents)) =
    .ok ([(0, 0), (1, 11), (8, 0), (9, 90)], [(1, 10), (9, 90), (3, 33), (4, 40), (5, 50), (7, 70), (8, 80)]) := by decide +kernel

/-- `emplace(std::move(b))` loses the pair (1, 11). -/
example : (argRun .sse2 h64 zero (demo, fourVars) [.emplace true 1]).map (fun s => ((List.range 3).map s.2, s.1.size)) =
    .ok ([(7, 70), (0, 0), (8, 80)], 4) := by decide +kernel

example : (demo.indexArg .sse2 h64 zero 5 8).map (fun r => r.2) = .ok (5, 8) ∧
    (demo.indexArg .sse2 h64 zero 5 3).map (fun r => r.2) = .ok (33, 3) := by decide +kernel

example : (demo.assignArg .sse2 h64 zero true (3, 34)).map (fun r => (r.2, r.1.size)) = .ok (((2, false), (3, 0)), 4) := by
  decide +kernel

end Tpp.Swiss

namespace Tpp.Dense

variable {k : Nat} {K V : Type} [DecidableEq K]

theorem insertArg_eq {hash : K → Nat} (mv : MovedFrom K V) (t : Table k K V) (rv : Bool) (x : Elem k K V) :
    t.insertArg hash mv rv x = (t.insert hash x.1 x.2).bind
      (fun r => .ok (r.1, r.2, if rv = true ∧ r.2.2 = true then Table.movedElem mv x else x)) := by
  simp only [Table.insertArg, Table.insert]
  cases t.maybeResize with
  | error e => rfl
  | ok t1 =>
    simp only [bind_ok]
    cases t1.maybeRehash with
    | error e => rfl
    | ok t2 =>
      simp only [bind_ok]
      cases t2.locate hash x.1 with
      | error e => rfl
      | ok found =>
        simp only [bind_ok]
        cases found.findSome? (fun y => y.2.1) with
        | some i => cases rv <;> rfl
        | none =>
          simp only
          cases t2.pushNode x.1 x.2 with
          | error e => rfl
          | ok r =>
            simp only [bind_ok]
            cases r.1.commitNode r.2 (found.map fun y => (y.1, y.2.2)) (fun j => hash (x.1 j)) with
            | error e => rfl
            | ok t3 => cases rv <;> rfl

/-- C101 for dense containers: `insert(std::move(x))` moves from `x` exactly if no component of its key is taken. -/
theorem C101_dense_insert {hash : K → Nat} {t : Table k K V} (h : Reachable hash t) {l : List (Elem k K V)} (hl : t.iterate = .ok l)
    (mv : MovedFrom K V) (rv : Bool) (x : Elem k K V) :
    ∃ t' p b x', t.insertArg hash mv rv x = .ok (t', (p, b), x') ∧
      (((∀ e ∈ l, ∀ j, e.1 j ≠ x.1 j) ∧ b = true ∧ Behaves hash t' (l ++ [x]) ∧
          x' = if rv then ((fun j => mv.key (x.1 j)), mv.val x.2) else x) ∨
       ((∃ e ∈ l, ∃ j, e.1 j = x.1 j) ∧ b = false ∧ Behaves hash t' l ∧ x' = x)) := by
  have hi := h.of_iterate hl
  obtain ⟨⟨t', p, b⟩, e, hr⟩ := insert_ok hi x.1 x.2
  refine ⟨t', p, b, _, by rw [insertArg_eq, e]; rfl, ?_⟩
  cases hc : conflict l x.1 with
  | none =>
    obtain ⟨h1, h2⟩ := hr.fresh hc
    simp only [Prod.mk.injEq] at h1
    refine Or.inl ⟨fun a ha j => idxOf_eq_none (conflict_none hc j) a ha, h1.2, h2.behaves, ?_⟩
    rw [h1.2]
    cases rv <;> simp [Table.movedElem]
  | some i =>
    obtain ⟨h1, h2⟩ := hr.dup i hc
    simp only [Prod.mk.injEq] at h1
    refine Or.inr ⟨?_, h1.2, h2.behaves, by simp [h1.2]⟩
    obtain ⟨j, _, hj⟩ := List.exists_of_findSome?_eq_some hc
    obtain ⟨a, ha, hx⟩ := idxOf_some hj
    exact ⟨a, List.mem_of_getElem? ha, j, hx⟩

/-- C101 is false for `emplace` of dense containers: if any component of the key is taken nothing is inserted, yet the caller's value
is gone. -/
theorem C101_dense_emplace_false {hash : K → Nat} {t : Table k K V} (h : Reachable hash t) {l : List (Elem k K V)}
    (hl : t.iterate = .ok l) (mv : MovedFrom K V) (x : Elem k K V) (hc : ∃ e ∈ l, ∃ j, e.1 j = x.1 j) :
    ∃ t' p, t.emplaceArg hash mv true x = .ok (t', (p, false), ((fun j => mv.key (x.1 j)), mv.val x.2)) ∧ Behaves hash t' l := by
  have hi := h.of_iterate hl
  obtain ⟨⟨t', r⟩, e, hr⟩ := emplace_ok hi x.1 x.2
  cases hcf : conflict l x.1 with
  | none =>
    obtain ⟨a, ha, j, hj⟩ := hc
    exact absurd hj (idxOf_eq_none (conflict_none hcf j) a ha)
  | some i =>
    obtain ⟨h1, h2⟩ := hr.dup i hcf
    simp only at h1
    refine ⟨t', i, ?_, h2.behaves⟩
    unfold Table.emplaceArg
    rw [e, h1]
    rfl

/-- (2, 9) conflicts, (5, 50) does not. -/
example : (demo.insertArg h3 Tpp.Swiss.zero true (el 2 9)).map (fun r => (r.2.1, r.2.2.1 0, r.2.2.2)) = .ok ((1, false), 2, 9) ∧
    (demo.insertArg h3 Tpp.Swiss.zero true (el 5 50)).map (fun r => (r.2.1, r.2.2.1 0, r.2.2.2)) = .ok ((4, true), 0, 0) ∧
    (demo.emplaceArg h3 Tpp.Swiss.zero true (el 2 9)).map (fun r => (r.2.1, r.2.2.1 0, r.2.2.2)) = .ok ((1, false), 0, 0) := by
  decide +kernel

end Tpp.Dense
