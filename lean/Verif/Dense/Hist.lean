import Verif.Dense.Copy

/-!
# Histories of dense tables refine the specification
-/

set_option linter.unusedSectionVars false

namespace Tpp.Dense

variable {k : Nat} {K V : Type} [DecidableEq K]

theorem any_eq_elemOf (l : List (Elem k K V)) (j : Fin k) (x : K) :
    (elemOf l j x).isSome = l.any (fun e => e.1 j = x) := by
  unfold elemOf
  rw [Bool.eq_iff_iff, List.find?_isSome, List.any_eq_true]

/-- Whether there are buckets after an operation, given whether there are before. -/
def Op.buckets : Op k K V → Bool → Bool
  | .insert _ _, _ => true
  | .emplace _ _, _ => true
  | .assign _ _ _, _ => true
  | .insertRange _ xs, b => b || !xs.isEmpty
  | .assignRange _ xs, b => b || !xs.isEmpty
  | .rehash n, b => b || n ≠ 0
  | _, b => b

theorem insertOk_spec {hash : K → Nat} {t : Table k K V} {l : List (Elem k K V)} {key : Fin k → K} {v : V}
    {r : Table k K V × Nat × Bool} (h : InsertOk hash t l key v r) :
    r.2 = (Spec.insert l key v).2 ∧ Inv hash r.1 (Spec.insert l key v).1 := by
  unfold Spec.insert
  rw [show Spec.clash l key = conflict l key from rfl]
  cases hc : conflict l key with
  | none => exact h.fresh hc
  | some i => exact h.dup i hc

theorem insertAll_ok {hash : K → Nat} : ∀ (xs : List (Elem k K V)) {t : Table k K V} {l : List (Elem k K V)}, Inv hash t l →
    ∃ t', xs.foldlM (fun (t : Table k K V) x => do
      let r ← t.insert hash x.1 x.2
      .ok r.1) t = (.ok t' : M (Table k K V)) ∧ Inv hash t' (xs.foldl (fun l x => (Spec.insert l x.1 x.2).1) l) ∧
      (0 < t.bc ∨ xs ≠ [] → 0 < t'.bc) ∧ t'.lf = t.lf := by
  intro xs
  induction xs with
  | nil => intro t l h; exact ⟨t, rfl, h, fun g => g.resolve_right (fun g => g rfl), rfl⟩
  | cons x xs ih =>
    intro t l h
    obtain ⟨r, e, hr⟩ := insert_ok h x.1 x.2
    obtain ⟨t', e', h', hb, hlf⟩ := ih (insertOk_spec hr).2
    refine ⟨t', ?_, h', fun _ => hb (Or.inl hr.bc), hlf.trans hr.lf⟩
    rw [List.foldlM_cons, e, bind_ok, bind_ok]
    exact e'

theorem insertRange_ok {hash : K → Nat} {t : Table k K V} {l : List (Elem k K V)} (h : Inv hash t l) (ra : Bool)
    (xs : List (Elem k K V)) :
    ∃ t', t.insertRange hash ra xs = .ok t' ∧ Inv hash t' (xs.foldl (fun l x => (Spec.insert l x.1 x.2).1) l) ∧
      (0 < t.bc ∨ xs ≠ [] → 0 < t'.bc) ∧ t'.lf = t.lf := by
  unfold Table.insertRange
  cases ra with
  | false =>
    simp only [Bool.false_eq_true, if_false, bind_ok]
    exact insertAll_ok xs h
  | true =>
    simp only [if_true]
    obtain ⟨t1, e1, h1, _, _, f1, b1, _⟩ := reserve_ok h (t.size + xs.length)
    rw [e1, bind_ok]
    obtain ⟨t2, e2, h2, b2, f2⟩ := insertAll_ok xs h1
    exact ⟨t2, e2, h2, fun g => b2 (g.imp_left (fun g => by omega)), f2.trans f1⟩

/-- One operation: the table and its answer are those of the specification.  `erase(key)` needs buckets. -/
theorem step_ok {hash : K → Nat} {t : Table k K V} {l : List (Elem k K V)} (h : Inv hash t l) (o : Op k K V)
    (hg : ∀ j x, o = .erase j x → 0 < t.bc) :
    ∃ t', t.step hash o = .ok (t', (Spec.step l o).2) ∧ Inv hash t' (Spec.step l o).1 ∧
      ∀ b, (b = true → 0 < t.bc) → o.buckets b = true → 0 < t'.bc := by
  cases o with
  | insert key v =>
    obtain ⟨r, e, hr⟩ := insert_ok h key v
    simp only [Table.step, Spec.step, Spec.insert]
    rw [e, bind_ok, show Spec.clash l key = conflict l key from rfl]
    cases hc : conflict l key with
    | none =>
      obtain ⟨h1, h2⟩ := hr.fresh hc
      rw [h1]
      exact ⟨_, rfl, h2, fun _ _ _ => hr.bc⟩
    | some i =>
      obtain ⟨h1, h2⟩ := hr.dup i hc
      rw [h1]
      exact ⟨_, rfl, h2, fun _ _ _ => hr.bc⟩
  | emplace key v =>
    obtain ⟨r, e, hr⟩ := emplace_ok h key v
    simp only [Table.step, Spec.step, Spec.insert]
    rw [e, bind_ok, show Spec.clash l key = conflict l key from rfl]
    cases hc : conflict l key with
    | none =>
      obtain ⟨h1, h2⟩ := hr.fresh hc
      rw [h1]
      exact ⟨_, rfl, h2, fun _ _ _ => hr.bc⟩
    | some i =>
      obtain ⟨h1, h2⟩ := hr.dup i hc
      rw [h1]
      exact ⟨_, rfl, h2, fun _ _ _ => hr.bc⟩
  | assign hk x v =>
    clear hg
    cases hk
    obtain ⟨r, e, hr⟩ := insertOrAssign_ok h x v
    simp only [Table.step, Spec.step, Table.assignStep]
    rw [e, bind_ok, show Spec.index l ⟨0, _⟩ x = idxOf l 0 x from rfl]
    cases hc : idxOf l 0 x with
    | none =>
      obtain ⟨h1, h2⟩ := hr.fresh hc
      rw [h1]
      exact ⟨_, rfl, h2, fun _ _ _ => hr.bc⟩
    | some i =>
      obtain ⟨h1, h2⟩ := hr.dup i hc
      rw [h1]
      exact ⟨_, rfl, h2, fun _ _ _ => hr.bc⟩
  | erase j x =>
    obtain ⟨r, e, hb, _, _, h1, h2⟩ := erase_ok h (hg j x rfl) j x
    simp only [Table.step, Spec.step]
    rw [e, bind_ok, show Spec.index l j x = idxOf l j x from rfl]
    cases hc : idxOf l j x with
    | none =>
      rw [h1 hc]
      exact ⟨_, rfl, h, fun b hb' hb'' => hb' hb''⟩
    | some i =>
      obtain ⟨h3, h4⟩ := h2 i hc
      rw [h3]
      exact ⟨_, rfl, h4, fun b hb' hb'' => hb ▸ hb' hb''⟩
  | eraseAt pos =>
    simp only [Table.step, Spec.step]
    rw [h.size]
    by_cases hp : pos < l.length
    · obtain ⟨t', e, h1, h2, _⟩ := eraseAt_ok h hp
      rw [if_pos hp, if_pos hp, e, bind_ok]
      exact ⟨t', rfl, h1, fun b hb' hb'' => h2 ▸ hb' hb''⟩
    · rw [if_neg hp, if_neg hp]
      exact ⟨t, rfl, h, fun b hb' hb'' => hb' hb''⟩
  | eraseRange first n =>
    simp only [Table.step, Spec.step]
    rw [h.size]
    by_cases hp : first + n ≤ l.length
    · obtain ⟨t', e, h1, h2, _⟩ := eraseRange_ok (p := t.size) h hp
      rw [if_pos hp, if_pos hp]
      unfold Table.eraseRange
      rw [Nat.add_sub_cancel_left, e, bind_ok, h.size]
      exact ⟨t', rfl, h1, fun b hb' hb'' => h2 ▸ hb' hb''⟩
    · rw [if_neg hp, if_neg hp]
      exact ⟨t, rfl, h, fun b hb' hb'' => hb' hb''⟩
  | insertRange ra xs =>
    obtain ⟨t', e, h1, h2, _⟩ := insertRange_ok h ra xs
    simp only [Table.step, Spec.step]
    rw [e, bind_ok]
    refine ⟨t', rfl, h1, fun b hb' hb'' => h2 ?_⟩
    simp only [Op.buckets, Bool.or_eq_true, Bool.not_eq_true', List.isEmpty_eq_false_iff] at hb''
    exact hb''.imp_left hb'
  | assignRange ra xs =>
    obtain ⟨t0, e0, h0, h3, _⟩ := clear_ok h.toArr
    obtain ⟨t', e, h1, h2, _⟩ := insertRange_ok h0 ra xs
    simp only [Table.step, Spec.step, Table.assignRange]
    rw [e0, bind_ok, e, bind_ok]
    refine ⟨t', rfl, h1, fun b hb' hb'' => h2 ?_⟩
    simp only [Op.buckets, Bool.or_eq_true, Bool.not_eq_true', List.isEmpty_eq_false_iff] at hb''
    exact hb''.imp_left (fun g => h3 ▸ hb' g)
  | clear =>
    obtain ⟨t', e, h1, h2, _⟩ := clear_ok h.toArr
    simp only [Table.step, Spec.step]
    rw [e, bind_ok]
    exact ⟨t', rfl, h1, fun b hb' hb'' => h2 ▸ hb' hb''⟩
  | reserve n =>
    obtain ⟨t', e, h1, _, _, _, h2, _⟩ := reserve_ok h n
    simp only [Table.step, Spec.step]
    rw [e, bind_ok]
    exact ⟨t', rfl, h1, fun b hb' hb'' => Nat.lt_of_lt_of_le (hb' hb'') h2⟩
  | rehash n =>
    obtain ⟨t', e, h1, _, _, h2, h3⟩ := rehash_ok h n
    simp only [Table.step, Spec.step]
    rw [e, bind_ok]
    refine ⟨t', rfl, h1, fun b hb' hb'' => ?_⟩
    simp only [Op.buckets, Bool.or_eq_true, decide_eq_true_eq] at hb''
    rcases hb'' with g | g
    · exact Nat.lt_of_lt_of_le (hb' g) h2
    · omega
  | setLoad lf => exact ⟨_, rfl, h.setLoad lf, fun b hb' hb'' => hb' hb''⟩
  | find j x =>
    simp only [Table.step, Spec.step]
    rw [lookup_ok h, bind_ok]
    exact ⟨t, rfl, h, fun b hb' hb'' => hb' hb''⟩
  | contains j x =>
    simp only [Table.step, Spec.step]
    rw [contains_ok h, bind_ok, any_eq_elemOf]
    exact ⟨t, rfl, h, fun b hb' hb'' => hb' hb''⟩
  | size =>
    simp only [Table.step, Spec.step]
    rw [h.size]
    exact ⟨t, rfl, h, fun b hb' hb'' => hb' hb''⟩
  | iterate =>
    simp only [Table.step, Spec.step]
    rw [iterate_ok h.toArr, bind_ok]
    exact ⟨t, rfl, h, fun b hb' hb'' => hb' hb''⟩

theorem Guarded_cons {b : Bool} {o : Op k K V} {os : List (Op k K V)} (h : Spec.Guarded b (o :: os) = true) :
    (∀ j x, o = .erase j x → b = true) ∧ Spec.Guarded (o.buckets b) os = true := by
  cases o with
  | erase j x =>
    simp only [Spec.Guarded, Bool.and_eq_true] at h
    exact ⟨fun _ _ _ => h.1, h.2⟩
  | _ => exact ⟨fun _ _ e => (by cases e), h⟩

/-- Any guarded history: no fault, the answers and the final contents are those of the specification. -/
theorem run_ok {hash : K → Nat} : ∀ (os : List (Op k K V)) {t : Table k K V} {l : List (Elem k K V)} {b : Bool},
    Inv hash t l → (b = true → 0 < t.bc) → Spec.Guarded b os = true →
    ∃ t', t.run hash os = .ok (t', (Spec.run l os).2) ∧ Inv hash t' (Spec.run l os).1 := by
  intro os
  induction os with
  | nil => intro t l b h _ _; exact ⟨t, rfl, h⟩
  | cons o os ih =>
    intro t l b h hb hg
    obtain ⟨g1, g2⟩ := Guarded_cons hg
    obtain ⟨t1, e1, h1, hb1⟩ := step_ok h o (fun j x e => hb (g1 j x e))
    obtain ⟨t2, e2, h2⟩ := ih h1 (hb1 b hb) g2
    refine ⟨t2, ?_, h2⟩
    unfold Table.run
    rw [e1, bind_ok]
    simp only
    rw [e2, bind_ok]
    rfl

/-! ## Containers a program can obtain -/

/-- The tables reached by histories, copies, moves and swaps that do not run into one of the defects C41 and C45. -/
inductive Reachable (hash : K → Nat) : Table k K V → Prop
  | init (lf : LF) : Reachable hash (Table.init lf)
  | withBuckets (lf : LF) (n : Nat) : Reachable hash (Table.withBuckets lf n)
  | ofRange {lf : LF} {ra : Bool} {n : Nat} {xs : List (Elem k K V)} {r : Table k K V} :
      Table.ofRange hash lf ra n xs = .ok r → Reachable hash r
  | step {t : Table k K V} {o : Op k K V} {r : Table k K V × Out k K V} : Reachable hash t → t.step hash o = .ok r →
      Reachable hash r.1
  | copyCtor {t r : Table k K V} : Reachable hash t → t.copyCtor = .ok r → Reachable hash r
  | copyAssign {prop : Bool} {t o r : Table k K V} : Reachable hash t → Reachable hash o →
      (prop = true ∨ o.size ≠ 0 ∨ t.size = 0) → t.copyAssign prop o = .ok r → Reachable hash r
  | moveCtor {o : Table k K V} {r : Table k K V × Table k K V} : Reachable hash o → o.moveCtor true = .ok r →
      Reachable hash r.1
  | movedCtor {o : Table k K V} {r : Table k K V × Table k K V} : Reachable hash o → o.moveCtor true = .ok r →
      Reachable hash r.2
  | moveAssign {eq : Bool} {t o : Table k K V} {r : Table k K V × Table k K V} : Reachable hash t → Reachable hash o →
      t.moveAssign true eq o = .ok r → Reachable hash r.1
  | movedAssign {eq : Bool} {t o : Table k K V} {r : Table k K V × Table k K V} : Reachable hash t → Reachable hash o →
      t.moveAssign true eq o = .ok r → Reachable hash r.2
  | swap1 {t o : Table k K V} : Reachable hash t → Reachable hash o → Reachable hash (t.swap o).1
  | swap2 {t o : Table k K V} : Reachable hash t → Reachable hash o → Reachable hash (t.swap o).2

theorem erase_nobuckets (hash : K → Nat) {t : Table k K V} (hb : t.bc = 0) (j : Fin k) (x : K) :
    t.erase hash j x = .error .nullDeref := by
  unfold Table.erase Table.getChain
  rw [if_pos hb]
  rfl

theorem Reachable.inv {hash : K → Nat} {t : Table k K V} (h : Reachable hash t) : ∃ l, Inv hash t l := by
  induction h with
  | init lf => exact ⟨[], init_inv hash lf⟩
  | withBuckets lf n => exact ⟨[], withBuckets_inv hash lf n⟩
  | @ofRange lf ra n xs r hs =>
    obtain ⟨t', e, h', _⟩ := insertRange_ok (withBuckets_inv hash lf (if ra then max xs.length n else n)) ra xs
    unfold Table.ofRange at hs
    rw [hs] at e
    cases e
    exact ⟨_, h'⟩
  | @step t o r _ hs ih =>
    obtain ⟨l, hl⟩ := ih
    by_cases hb : 0 < t.bc
    · obtain ⟨t', e, h', _⟩ := step_ok hl o (fun _ _ _ => hb)
      rw [hs] at e
      cases e
      exact ⟨_, h'⟩
    · have hne : ∀ j x, o ≠ .erase j x := by
        rintro j x rfl
        simp only [Table.step] at hs
        rw [erase_nobuckets hash (by omega)] at hs
        cases hs
      obtain ⟨t', e, h', _⟩ := step_ok hl o (fun j x e => absurd e (hne j x))
      rw [hs] at e
      cases e
      exact ⟨_, h'⟩
  | copyCtor _ hs ih =>
    obtain ⟨l, hl⟩ := ih
    obtain ⟨t', e, h', _⟩ := copyCtor_ok hl
    rw [hs] at e
    cases e
    exact ⟨l, h'⟩
  | copyAssign _ _ hp hs ih1 ih2 =>
    obtain ⟨l1, h1⟩ := ih1
    obtain ⟨l2, h2⟩ := ih2
    have hp' : _ ∨ l2 ≠ [] ∨ l1 = [] := hp.imp_right (Or.imp
      (fun g e => g (by rw [h2.size, e]; rfl)) (fun g => List.length_eq_zero_iff.mp (by rw [← h1.size]; exact g)))
    obtain ⟨t', e, h', _⟩ := copyAssign_ok h1 h2 hp'
    rw [hs] at e
    cases e
    exact ⟨l2, h'⟩
  | moveCtor _ hs ih =>
    obtain ⟨l, hl⟩ := ih
    obtain ⟨t', o', e, h', _⟩ := moveCtor_ok (hash₁ := hash) hl
    rw [hs] at e
    cases e
    exact ⟨l, h'⟩
  | movedCtor _ hs ih =>
    obtain ⟨l, hl⟩ := ih
    obtain ⟨t', o', e, _, _, h', _⟩ := moveCtor_ok (hash₁ := hash) hl
    rw [hs] at e
    cases e
    exact ⟨[], h'⟩
  | @moveAssign eq _ _ _ _ _ hs ih1 ih2 =>
    obtain ⟨l1, h1⟩ := ih1
    obtain ⟨l2, h2⟩ := ih2
    obtain ⟨t', o', e, h', _⟩ := moveAssign_ok (hash₁ := hash) (eq := eq) h1 h2
    rw [hs] at e
    cases e
    exact ⟨l2, h'⟩
  | @movedAssign eq _ _ _ _ _ hs ih1 ih2 =>
    obtain ⟨l1, h1⟩ := ih1
    obtain ⟨l2, h2⟩ := ih2
    obtain ⟨t', o', e, _, _, h', _⟩ := moveAssign_ok (hash₁ := hash) (eq := eq) h1 h2
    rw [hs] at e
    cases e
    exact ⟨[], h'⟩
  | swap1 _ _ ih1 ih2 =>
    obtain ⟨l1, h1⟩ := ih1
    obtain ⟨l2, h2⟩ := ih2
    exact ⟨l2, (swap_ok h1 h2).1⟩
  | swap2 _ _ ih1 ih2 =>
    obtain ⟨l1, h1⟩ := ih1
    obtain ⟨l2, h2⟩ := ih2
    exact ⟨l1, (swap_ok h1 h2).2.1⟩

/-- The table after a history, for examples. -/
def after (hash : K → Nat) (lf : LF) (ops : List (Op k K V)) : Table k K V :=
  match (Table.init lf).run hash ops with
  | .ok r => r.1
  | .error _ => Table.init lf

theorem Reachable.run {hash : K → Nat} : ∀ {os : List (Op k K V)} {t : Table k K V} {r : Table k K V × List (Out k K V)},
    Reachable hash t → t.run hash os = .ok r → Reachable hash r.1 := by
  intro os
  induction os with
  | nil => intro t r h e; cases e; exact h
  | cons o os ih =>
    intro t r h e
    unfold Table.run at e
    obtain ⟨s, hs, e⟩ := bind_eq_ok e
    obtain ⟨u, hu, e⟩ := bind_eq_ok e
    cases e
    exact ih (r := u) (Reachable.step h hs) hu

theorem after_reachable (hash : K → Nat) (lf : LF) (ops : List (Op k K V)) : Reachable hash (after hash lf ops) := by
  unfold after
  split
  · rename_i r e
    exact Reachable.run (.init lf) e
  · exact .init lf

end Tpp.Dense
