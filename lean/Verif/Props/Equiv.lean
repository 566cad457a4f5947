import Verif.Dense.Equiv
import Verif.Props.Behaves

/-!
# C83: user-defined key equality and transparent lookup

`E : KeyEq K` is a comparison of keys (an equivalence) and a hash function that respects it.  `Key E p h`: a value `x` of another
type with `cmp(x, ·) = p` and `hash(x) = h` designates a class of equivalent keys, or none.
-/

set_option linter.unusedSectionVars false

namespace Tpp

/-- Keys are compared by their last digit: the illustration of the theorems below (swiss_table.hpp 1149-1152). -/
def lastDigit : KeyEq Nat where
  cmp a b := a % 10 == b % 10
  hash a := a % 10 * 64
  refl a := by simp
  symm h := by simp at h ⊢; exact h.symm
  trans h g := by simp at h g ⊢; exact h.trans g
  hash_eq h := by simp at h ⊢; exact h

namespace Swiss

variable {K V : Type} {E : KeyEq K}

open ESpec (tag)

theorem runE_inv {isa : Isa} {ops : List (Op K V)} {r : Table E.Cls (K × V) × List (Out K V)}
    (e : (Table.init : Table E.Cls (K × V)).runE E isa ops = .ok r) :
    Inv isa E.hashC r.1 ∧ r.1.contents.Perm (tag E (ESpec.run E [] ops).1) := by
  rcases runE_spec (E := E) ops (Inv.init isa E.hashC) (m := []) (List.Perm.refl _) with ⟨r', e', h1, h2, _⟩ | ⟨_, e'⟩
  · rw [e] at e'
    cases e'
    exact ⟨h1, h2⟩
  · rw [e] at e'
    cases e'

/-- C83: the answers to every history are those of a map whose keys are compared by `cmp`. -/
theorem C83_swiss_history (E : KeyEq K) (isa : Isa) (ops : List (Op K V)) :
    Ends isa ((Table.init : Table E.Cls (K × V)).runE E isa ops)
      (fun r => List.Forall₂ Out.Agree r.2 (ESpec.run E [] ops).2) :=
  (runE_spec ops (Inv.init isa E.hashC) (List.Perm.refl _)).mono fun _ h => h.2.2

/-- C83: no two elements have equivalent keys. -/
theorem C83_swiss_unique {isa : Isa} {ops : List (Op K V)} {r : Table E.Cls (K × V) × List (Out K V)}
    (e : (Table.init : Table E.Cls (K × V)).runE E isa ops = .ok r) :
    Ends isa (r.1.stepE E isa .iterate) (fun s => ∃ l, s.2 = .list l ∧ l.Pairwise (fun x y => E.cmp x.1 y.1 = false)) := by
  obtain ⟨h1, h2⟩ := runE_inv e
  rcases stepE_spec h1 h2 .iterate with ⟨s, es, g1, g2, g3⟩ | g
  · refine Or.inl ⟨s, es, ?_⟩
    have hu := (h1.contents_uniq).perm h2
    obtain ⟨t', o⟩ := s
    cases o with
    | list l =>
      refine ⟨l, rfl, ?_⟩
      have hl : l.Perm (ESpec.run E [] ops).1 := g3
      refine (List.Perm.pairwise_iff ?_ hl).mpr ?_
      · intro x y hxy
        cases c : E.cmp y.1 x.1 with
        | false => rfl
        | true => rw [E.symm c] at hxy; cases hxy
      · unfold Spec.Uniq tag at hu
        rw [List.map_map] at hu
        refine (List.pairwise_map.mp hu).imp ?_
        intro a b hab
        cases c : E.cmp a.1 b.1 with
        | false => rfl
        | true => exact absurd (E.cls_eq.mpr c) hab
    | _ => exact absurd g3 (by simp [ESpec.step, Out.Agree])
  · exact Or.inr g

/-- C83: lookup by values of another type finds the element they designate. -/
theorem C83_swiss_transparent {isa : Isa} {ops : List (Op K V)} {r : Table E.Cls (K × V) × List (Out K V)}
    (e : (Table.init : Table E.Cls (K × V)).runE E isa ops = .ok r) {p : K → Bool} {h : Nat} (hk : Key E p h) :
    r.1.findE E isa p h = .ok (ESpec.find p (ESpec.run E [] ops).1) ∧
      r.1.containsE E isa p h = .ok (ESpec.find p (ESpec.run E [] ops).1).isSome := by
  obtain ⟨h1, h2⟩ := runE_inv e
  exact findE_spec h1 h2 hk

/-- C83: erasure and extraction by values of another type: exactly the designated element leaves the container, and extraction
yields it. -/
theorem C83_swiss_transparent_erase {isa : Isa} {ops : List (Op K V)} {r : Table E.Cls (K × V) × List (Out K V)}
    (e : (Table.init : Table E.Cls (K × V)).runE E isa ops = .ok r) {p : K → Bool} {h : Nat} (hk : Key E p h) (ops' : List (Op K V)) :
    Ends isa (r.1.eraseE E isa p h) (fun s => Ends isa (s.1.runE E isa ops') (fun u =>
      List.Forall₂ Out.Agree u.2 (ESpec.run E ((ESpec.run E [] ops).1.filter fun x => !p x.1) ops').2)) ∧
    Ends isa (r.1.extractE E isa p h) (fun s => s.2 = ESpec.find p (ESpec.run E [] ops).1 ∧
      Ends isa (s.1.runE E isa ops') (fun u =>
        List.Forall₂ Out.Agree u.2 (ESpec.run E ((ESpec.run E [] ops).1.filter fun x => !p x.1) ops').2)) := by
  obtain ⟨h1, h2⟩ := runE_inv e
  refine ⟨(eraseE_spec h1 h2 hk).mono ?_, (extractE_spec h1 h2 hk).mono ?_⟩
  · rintro s ⟨g1, g2⟩
    exact (runE_spec ops' g1 g2).mono fun _ h => h.2.2
  · rintro s ⟨g1, g2, g3⟩
    exact ⟨g3, (runE_spec ops' g1 g2).mono fun _ h => h.2.2⟩

/-- C83: insertion and assignment with an equivalent key keep the stored key; assignment replaces the mapped value only. -/
theorem C83_swiss_key_stays {isa : Isa} {ops : List (Op K V)} {r : Table E.Cls (K × V) × List (Out K V)}
    (e : (Table.init : Table E.Cls (K × V)).runE E isa ops = .ok r) {k k' k0 : K} {v v0 : V} (hk : E.cmp k k' = true)
    (hf : r.1.findE E isa (E.cmp · k) (E.hash k) = .ok (some (k0, v0))) :
    (∃ s, r.1.stepE E isa (.insert k v) = .ok s ∧ s.2 = .ins (k0, v0) false ∧
      s.1.findE E isa (E.cmp · k') (E.hash k') = .ok (some (k0, v0))) ∧
    (∃ s, r.1.stepE E isa (.assign k v) = .ok s ∧ s.2 = .ins (k0, v) false ∧
      s.1.findE E isa (E.cmp · k') (E.hash k') = .ok (some (k0, v))) := by
  obtain ⟨h1, h2⟩ := runE_inv e
  have hkey : ∀ k : K, Key E (E.cmp · k) (E.hash k) := fun k =>
    ⟨fun a b => E.trans (E.symm a) b, fun a b => E.trans a (E.symm b), fun a => E.hash_eq a⟩
  have hs := (findE_spec h1 h2 (hkey k)).1
  rw [hf] at hs
  have hs := (Except.ok.inj hs).symm
  have hp : (fun a => E.cmp a k') = fun a => E.cmp a k := by
    funext a
    exact (E.cmp_congr hk).symm
  have key : ∀ op : Op K V, (∃ t' p b, op = .insert k v ∧ r.1.insertE E isa k v = .ok (t', p, b)) ∨
      (∃ t' p b, op = .assign k v ∧ r.1.assignE E isa k v = .ok (t', p, b)) → (∀ f, r.1.stepE E isa op ≠ .error f) := by
    intro op hop f ef
    rcases stepE_spec h1 h2 op with ⟨s, es, _⟩ | ⟨g1, g2⟩
    · rw [es] at ef; cases ef
    · rcases hop with ⟨t', p, b, rfl, ei⟩ | ⟨t', p, b, rfl, ei⟩
      · rw [insertE_eq h2] at ei
        obtain ⟨s, es, _⟩ := step_direct h1 (List.Perm.refl _) (.insert (E.cls k) (k, v)) rfl
        simp only [Table.step, ei, bind_ok] at es
        simp only [Table.stepE, insertE_eq h2, ei, bind_ok] at g2
        cases e1 : t'.toIter isa p with
        | error f => rw [e1] at es; cases es
        | ok q =>
          rw [e1, bind_ok] at es g2
          cases e2 : t'.readNode q with
          | error f => rw [e2] at es; cases es
          | ok n => rw [e2] at g2; cases g2
      · rw [assignE_eq h2] at ei
        obtain ⟨t'', p', b', h3, h4, _, h5⟩ := insertOrAssignWith_spec h1 (E.cls k) (k, v) (fun w => (w.1, v))
        rw [ei] at h3
        cases h3
        simp only [Table.stepE, assignE_eq h2, ei, bind_ok] at g2
        rcases h5 with ⟨_, _, _, h6, _⟩ | ⟨w, _, _, _, h6, _⟩
        · obtain ⟨n, d1, d2, _⟩ := deref_spec h4 h6
          simp only [d1, bind_ok, d2] at g2
          cases g2
        · obtain ⟨n, d1, d2, _⟩ := deref_spec h4 h6
          simp only [d1, bind_ok, d2] at g2
          cases g2
  have h0 := List.find?_some hs
  refine ⟨?_, ?_⟩
  · obtain ⟨t', p, b, ei, _⟩ := insert_spec h1 (E.cls k) (k, v)
    have hne := key (.insert k v) (Or.inl ⟨t', p, b, rfl, (insertE_eq h2 k v).trans ei⟩)
    rcases stepE_spec h1 h2 (.insert k v) with ⟨s, es, g1, g2, g3⟩ | ⟨_, g⟩
    · refine ⟨s, es, ?_, ?_⟩
      · obtain ⟨s1, o⟩ := s
        simp only [ESpec.step, hs] at g3
        cases o <;> simp_all [Out.Agree]
      · rw [(findE_spec g1 g2 (hkey k')).1, hp]
        simp only [ESpec.step, ESpec.insert, hs]
    · exact absurd g (hne _)
  · obtain ⟨t', p, b, ei, _⟩ := insertOrAssignWith_spec h1 (E.cls k) (k, v) (fun w => (w.1, v))
    have hne := key (.assign k v) (Or.inr ⟨t', p, b, rfl, (assignE_eq h2 k v).trans ei⟩)
    rcases stepE_spec h1 h2 (.assign k v) with ⟨s, es, g1, g2, g3⟩ | ⟨_, g⟩
    · refine ⟨s, es, ?_, ?_⟩
      · obtain ⟨s1, o⟩ := s
        simp only [ESpec.step, hs] at g3
        cases o <;> simp_all [Out.Agree]
      · rw [(findE_spec g1 g2 (hkey k')).1, hp]
        congr 1
        simp only [ESpec.step, ESpec.assign, hs]
        unfold ESpec.find
        rw [List.find?_map]
        have : ((fun x : K × V => E.cmp x.1 k) ∘ fun x : K × V => if E.cmp x.1 k = true then (x.1, v) else x) =
            fun x => E.cmp x.1 k := by
          funext x
          simp only [Function.comp]
          split <;> rfl
        rw [this]
        have hs' : (ESpec.run E [] ops).1.find? (fun x => E.cmp x.1 k) = some (k0, v0) := hs
        rw [hs', Option.map_some, if_pos h0]
    · exact absurd g (hne _)

/-- A history with equivalent keys. -/
def lastDigitOps : List (Op Nat Nat) :=
  [.insert 1 10, .insert 12 20, .insert 21 30, .assign 2 40, .insert 3 50, .erase 13, .index 7 5, .index 17 6]

example : ((Table.init : Table lastDigit.Cls (Nat × Nat)).runE lastDigit .sse2 (lastDigitOps ++ [.iterate, .find 91])).map (·.2) =
    .ok [.ins (1, 10) true, .ins (12, 20) true, .ins (1, 10) false, .ins (12, 40) false, .ins (3, 50) true, .unit,
      .node (some (7, 5)), .node (some (7, 5)), .list [(1, 10), (12, 40), (7, 5)], .node (some (1, 10))] := by
  decide +kernel

/-- A digit designates the keys that end with it (`find(const K &)`, sparse_map.hpp 482-486). -/
theorem digitKey (d : Nat) : Key lastDigit (fun a => a % 10 == d) (d * 64) where
  congr h g := by simp [lastDigit] at h g ⊢; omega
  one h g := by simp [lastDigit] at h g ⊢; omega
  hash h := by simp [lastDigit] at h ⊢; omega

example : (do
    let (t, _) ← (Table.init : Table lastDigit.Cls (Nat × Nat)).runE lastDigit .sse2 lastDigitOps
    let a ← t.findE lastDigit .sse2 (fun a => a % 10 == 2) (2 * 64)
    let b ← t.findE lastDigit .sse2 (fun a => a % 10 == 4) (4 * 64)
    let (t, x) ← t.extractE lastDigit .sse2 (fun a => a % 10 == 2) (2 * 64)
    let l ← t.iterate .sse2
    (.ok (a, b, x, l.map Prod.snd) : M (Option (Nat × Nat) × Option (Nat × Nat) × Option (Nat × Nat) × List (Nat × Nat)))) =
    .ok (some (12, 40), none, some (12, 40), [(1, 10), (7, 5)]) := by
  decide +kernel

end Swiss

namespace Dense

variable {k : Nat} {K V : Type} {E : KeyEq K}

/-- C83: the answers to every history of a dense container are those of a sequence whose key components are compared by `cmp`. -/
theorem C83_dense_history_partial (E : KeyEq K) (lf : LF) (ops : List (Op k K V)) (hg : Spec.Guarded false ops = true) :
    ∃ t, Table.runE E (Table.init lf) ops = .ok (t, (ESpec.run E [] ops).2) ∧
      t.iterate.map (List.map Prod.snd) = .ok (ESpec.run E [] ops).1 := by
  obtain ⟨t, e, h⟩ := runE_ok (E := E) ops (t := Table.init lf) (l := []) (b := false) (init_inv _ lf) (fun h => by cases h) hg
  refine ⟨t, e, ?_⟩
  rw [iterate_ok h.toArr]
  simp only [Except.map, etag, List.map_map]
  exact congrArg Except.ok (List.map_id _)

theorem stepE_inv {lf : LF} (ops : List (Op k K V)) : ∀ {t : ETable k E V} {l : List (Elem k K V)}
    {r : ETable k E V × List (Out k K V)}, Inv E.hashC t (etag E l) → Table.runE E t ops = .ok r →
    Inv E.hashC r.1 (etag E (ESpec.run E l ops).1) := by
  induction ops with
  | nil => intro t l r h e; cases e; exact h
  | cons o ops ih =>
    intro t l r h e
    unfold Table.runE at e
    have hg : ∀ j x, o = .erase j x → 0 < t.bc := by
      rintro j x rfl
      refine Nat.pos_of_ne_zero fun hb => ?_
      simp only [Table.stepE, Table.eraseE, Table.getChain, hb, if_true] at e
      cases e
    obtain ⟨t', e', h', _⟩ := stepE_ok h o hg
    rw [e', bind_ok] at e
    cases e2 : Table.runE E t' ops with
    | error f => simp only [e2] at e; cases e
    | ok s =>
      simp only [e2, bind_ok] at e
      cases e
      have := ih h' e2
      exact this

/-- C83: in a dense container no two elements have equivalent keys in the same component. -/
theorem C83_dense_unique {lf : LF} {ops : List (Op k K V)} {r : ETable k E V × List (Out k K V)}
    (e : Table.runE E (Table.init lf) ops = .ok r) (j : Fin k) :
    ∃ l, Table.stepE E r.1 .iterate = .ok (r.1, .list l) ∧ l.Pairwise (fun x y => E.cmp (x.1 j) (y.1 j) = false) := by
  have h := stepE_inv (lf := lf) (l := []) ops (init_inv _ lf) e
  obtain ⟨t', e', _⟩ := stepE_ok h .iterate (fun _ _ h => by cases h)
  have ht : t' = r.1 := by
    simp only [Table.stepE, iterate_ok h.toArr, bind_ok] at e'
    injection e' with e'
    exact (Prod.mk.inj e').1.symm
  subst ht
  refine ⟨_, e', ?_⟩
  have hu := h.uniq j
  unfold etag at hu
  rw [List.map_map] at hu
  refine (List.pairwise_map.mp hu).imp ?_
  intro a b hab
  cases c : E.cmp (a.1 j) (b.1 j) with
  | false => rfl
  | true => exact absurd (E.cls_eq.mpr c) hab

/-- C83: lookup in a dense container by values of another type finds the element they designate. -/
theorem C83_dense_transparent {lf : LF} {ops : List (Op k K V)} {r : ETable k E V × List (Out k K V)}
    (e : Table.runE E (Table.init lf) ops = .ok r) (j : Fin k) {p : K → Bool} {h : Nat} (hk : Key E p h) :
    Table.findE E p h r.1 j = .ok ((ESpec.run E [] ops).1.find? fun x => p (x.1 j)) ∧
      Table.containsE E p h r.1 j = .ok ((ESpec.run E [] ops).1.any fun x => p (x.1 j)) :=
  findE_spec (stepE_inv (lf := lf) (l := []) ops (init_inv _ lf) e) j hk

/-- C83: erasure from a dense container by a value of another type; as with all keys, there must be buckets (C41). -/
theorem C83_dense_transparent_erase_partial {lf : LF} {ops : List (Op k K V)} {r : ETable k E V × List (Out k K V)}
    (e : Table.runE E (Table.init lf) ops = .ok r) (hb : 0 < r.1.bc) (j : Fin k) {p : K → Bool} {h : Nat} (hk : Key E p h) :
    ∃ t', Table.eraseE E p h r.1 j = .ok (t', (((ESpec.run E [] ops).1.findIdx? fun x => p (x.1 j)).getD (ESpec.run E [] ops).1.length),
        ((ESpec.run E [] ops).1.findIdx? fun x => p (x.1 j)).isSome) ∧
      t'.iterate.map (List.map Prod.snd) = .ok (match (ESpec.run E [] ops).1.findIdx? fun x => p (x.1 j) with
        | some i => swapRemove (ESpec.run E [] ops).1 i
        | none => (ESpec.run E [] ops).1) := by
  obtain ⟨t', e', h'⟩ := eraseE_spec (stepE_inv (lf := lf) (l := []) ops (init_inv _ lf) e) hb j hk
  refine ⟨t', e', ?_⟩
  rw [iterate_ok h'.toArr]
  simp only [Except.map, etag, List.map_map]
  exact congrArg Except.ok (List.map_id _)

/-- C83: without buckets erasure by a key of any type dereferences a null pointer. -/
theorem C83_dense_transparent_erase_false (E : KeyEq K) (lf : LF) (p : K → Bool) (h : Nat) (j : Fin k) :
    Table.eraseE E p h (Table.init lf : ETable k E V) j = .error .nullDeref := rfl

/-- A history with equivalent keys. -/
def lastDigitOps : List (Op 1 Nat Nat) :=
  [.insert (fun _ => 1) 10, .insert (fun _ => 12) 20, .insert (fun _ => 21) 30, .assign rfl 2 40, .emplace (fun _ => 33) 50,
    .erase 0 11]

example : ((Table.runE lastDigit (Table.init ⟨fun n => n, fun n m => decide (m ≤ n)⟩)
    (lastDigitOps ++ [.iterate, .find 0 91, .find 0 42])).map fun r => r.2.map fun o => match o with
      | .ins n b => (n, b, [])
      | .pos n => (n, true, [])
      | .list l => (0, true, l.map fun e => (e.1 0, e.2))
      | .elem e => (0, true, e.toList.map fun e => (e.1 0, e.2))
      | _ => (0, false, [])) =
    .ok [(0, true, []), (1, true, []), (0, false, []), (1, false, []), (2, true, []), (0, true, []),
      (0, true, [(33, 50), (12, 40)]), (0, true, []), (0, true, [(12, 40)])] := by
  decide +kernel

end Dense
end Tpp
