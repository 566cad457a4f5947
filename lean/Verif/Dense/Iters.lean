import Verif.Dense.Hist

/-!
# How long iterators and references into dense containers stay valid

An iterator is a position in the array of nodes (`node_iterator`, dense_table.hpp 114; table_common.hpp 629-696).  It stays valid as long as the array is not replaced
and its element is neither erased nor moved into the place of an erased one.
-/

set_option linter.unusedSectionVars false

namespace Tpp.Dense

variable {k : Nat} {K V : Type} [DecidableEq K]

/-- The array of `c` nodes has room for what the operation may add to the elements `l`; insertion functions ask for room before
they look for the key. -/
def Op.hasRoom (c : Nat) (l : List (Elem k K V)) : Op k K V → Prop
  | .insert _ _ | .emplace _ _ | .assign _ _ _ => l.length < c
  | .insertRange _ xs => l.length + xs.length ≤ c
  | .assignRange _ xs => xs.length ≤ c
  | .reserve n => n ≤ c
  | _ => True

/-- All operations of a history find room. -/
def Spec.Fits (c : Nat) : List (Elem k K V) → List (Op k K V) → Prop
  | _, [] => True
  | l, o :: os => o.hasRoom c l ∧ Spec.Fits c (Spec.step l o).1 os

/-- The operation does not erase the element at position `p`, nor is this the last element when another is erased. -/
def Op.spares (p : Nat) (l : List (Elem k K V)) : Op k K V → Prop
  | .erase j x => ∀ i, Spec.index l j x = some i → i ≠ p ∧ p + 1 < l.length
  | .eraseAt pos => pos < l.length → pos ≠ p ∧ p + 1 < l.length
  | .eraseRange first n => first + n ≤ l.length → (p < first ∨ first + n ≤ p) ∧ p + n < l.length
  | .assignRange _ _ => False
  | .clear => False
  | _ => True

/-- All operations of a history spare the element at position `p`. -/
def Spec.Spares (p : Nat) : List (Elem k K V) → List (Op k K V) → Prop
  | _, [] => True
  | l, o :: os => o.spares p l ∧ Spec.Spares p (Spec.step l o).1 os

theorem Op.hasRoom_mono {c c' : Nat} (h : c ≤ c') {l : List (Elem k K V)} {o : Op k K V} (hf : o.hasRoom c l) : o.hasRoom c' l := by
  cases o <;> simp only [Op.hasRoom] at hf ⊢ <;> omega

theorem Spec.Fits.mono {c c' : Nat} (h : c ≤ c') : ∀ {os : List (Op k K V)} {l : List (Elem k K V)}, Spec.Fits c l os →
    Spec.Fits c' l os
  | [], _, _ => trivial
  | _ :: _, _, hf => ⟨Op.hasRoom_mono h hf.1, Spec.Fits.mono h hf.2⟩

theorem swapRemove_spare {α : Type} {l : List α} {i p : Nat} (hi : i < l.length) (hne : i ≠ p) (hp : p + 1 < l.length) :
    (swapRemove l i)[p]? = l[p]? := by
  rw [swapRemove_getElem? hi, if_pos (by omega), if_neg (by omega)]

theorem removeRange_spare {α : Type} {first p : Nat} : ∀ (n : Nat) {l : List α}, first + n ≤ l.length →
    (p < first ∨ first + n ≤ p) → p + n < l.length → (removeRange l first n)[p]? = l[p]? := by
  intro n
  induction n with
  | zero => intro l _ _ _; rfl
  | succ n ih =>
    intro l h1 h2 h3
    simp only [removeRange]
    rw [ih (by rw [swapRemove_length]; omega) (by omega) (by rw [swapRemove_length]; omega),
      swapRemove_spare (by omega) (by omega) (by omega)]

theorem specInsert_spare {l : List (Elem k K V)} {p : Nat} (hp : p < l.length) (key : Fin k → K) (v : V) :
    (Spec.insert l key v).1[p]? = l[p]? ∧ l.length ≤ (Spec.insert l key v).1.length ∧
      (Spec.insert l key v).1.length ≤ l.length + 1 := by
  unfold Spec.insert
  split
  · exact ⟨rfl, Nat.le_refl _, Nat.le_succ _⟩
  · exact ⟨List.getElem?_append_left hp, by simp, by simp⟩

theorem specInsert_length (l : List (Elem k K V)) (key : Fin k → K) (v : V) :
    (Spec.insert l key v).1.length ≤ l.length + 1 := by
  unfold Spec.insert
  split
  · exact Nat.le_succ _
  · simp

theorem specRange_spare {p : Nat} : ∀ (xs : List (Elem k K V)) {l : List (Elem k K V)}, p < l.length →
    (xs.foldl (fun l x => (Spec.insert l x.1 x.2).1) l)[p]? = l[p]? := by
  intro xs
  induction xs with
  | nil => intro l _; rfl
  | cons x xs ih =>
    intro l hp
    obtain ⟨h1, h2, _⟩ := specInsert_spare hp x.1 x.2
    rw [List.foldl_cons, ih (by omega), h1]

/-- A spared element keeps its position and its keys. -/
theorem spec_spare {l : List (Elem k K V)} {p : Nat} {o : Op k K V} {e : Elem k K V} (he : l[p]? = some e) (hs : o.spares p l) :
    ∃ e', (Spec.step l o).1[p]? = some e' ∧ e'.1 = e.1 := by
  have hp : p < l.length := (List.getElem?_eq_some_iff.mp he).1
  have same : ∀ {l' : List (Elem k K V)}, l'[p]? = l[p]? → ∃ e', l'[p]? = some e' ∧ e'.1 = e.1 :=
    fun h => ⟨e, h.trans he, rfl⟩
  cases o with
  | insert key v => exact same (specInsert_spare hp key v).1
  | emplace key v => exact same (specInsert_spare hp key v).1
  | assign hk x v =>
    simp only [Spec.step]
    cases hc : Spec.index l ⟨0, by omega⟩ x with
    | none => exact same (List.getElem?_append_left hp)
    | some i =>
      by_cases hi : i = p
      · subst hi
        refine ⟨(fun _ => x, v), by simp [hp], ?_⟩
        cases hk
        obtain ⟨_, h1, _⟩ := List.findIdx?_eq_some_iff_getElem.mp hc
        have h2 : l[i].1 0 = x := by simpa using h1
        rw [(List.getElem?_eq_some_iff.mp he).2] at h2
        funext j
        rw [Subsingleton.elim j 0]
        exact h2.symm
      · exact same (by simp only; rw [List.getElem?_set_ne hi])
  | erase j x =>
    simp only [Spec.step]
    cases hc : Spec.index l j x with
    | none => exact same rfl
    | some i =>
      obtain ⟨h1, h2⟩ := hs i hc
      obtain ⟨h3, _⟩ := List.findIdx?_eq_some_iff_getElem.mp hc
      exact same (swapRemove_spare h3 h1 h2)
  | eraseAt pos =>
    simp only [Spec.step]
    split
    · rename_i h
      exact same (swapRemove_spare h (hs h).1 (hs h).2)
    · exact same rfl
  | eraseRange first n =>
    simp only [Spec.step]
    split
    · rename_i h
      exact same (removeRange_spare n h (hs h).1 (hs h).2)
    · exact same rfl
  | insertRange ra xs => exact same (specRange_spare xs hp)
  | assignRange ra xs => cases hs
  | clear => cases hs
  | _ => exact same rfl

theorem maybeResize_stay {t t' : Table k K V} (h : t.size < t.cap) (e : t.maybeResize = .ok t') : t' = t := by
  unfold Table.maybeResize at e
  rw [if_neg (by omega)] at e
  cases e
  rfl

theorem insert_room {hash : K → Nat} {t : Table k K V} {l : List (Elem k K V)} (h : Inv hash t l) {key : Fin k → K} {v : V}
    {r : Table k K V × Nat × Bool} (hr : InsertOk hash t l key v r) (hl : l.length < t.cap) : r.1.cap = t.cap := by
  obtain ⟨t1, e1, _⟩ := maybeResize_ok h
  have := maybeResize_stay (by rw [h.size]; exact hl) e1
  rw [hr.cap t1 e1, this]

theorem insertAll_room {hash : K → Nat} : ∀ (xs : List (Elem k K V)) {t t' : Table k K V} {l : List (Elem k K V)}, Inv hash t l →
    l.length + xs.length ≤ t.cap → xs.foldlM (fun (t : Table k K V) x => do
      let r ← t.insert hash x.1 x.2
      .ok r.1) t = (.ok t' : M (Table k K V)) → t'.cap = t.cap := by
  intro xs
  induction xs with
  | nil => intro t t' l _ _ e; cases e; rfl
  | cons x xs ih =>
    intro t t' l h hl e
    simp only [List.length_cons] at hl
    obtain ⟨r, e1, hr⟩ := insert_ok h x.1 x.2
    simp only [List.foldlM_cons, e1, bind_ok] at e
    have hc := insert_room h hr (by omega)
    have := specInsert_length l x.1 x.2
    rw [ih (insertOk_spec hr).2 (by omega) e, hc]

theorem reserve_room {hash : K → Nat} {t t' : Table k K V} {l : List (Elem k K V)} (h : Inv hash t l) {n : Nat} (hn : n ≤ t.cap)
    (e : t.reserve n = .ok t') : t'.cap = t.cap ∧ Inv hash t' l := by
  simp only [Table.reserve, show ¬ n > t.cap by omega, if_false, bind_ok] at e
  obtain ⟨t1, e1, h1, h2, _⟩ := rehash_ok h (t.lf.div n)
  rw [e] at e1
  cases e1
  exact ⟨h2, h1⟩

theorem insertRange_room {hash : K → Nat} {t t' : Table k K V} {l : List (Elem k K V)} (h : Inv hash t l) {ra : Bool}
    {xs : List (Elem k K V)} (hl : l.length + xs.length ≤ t.cap) (e : t.insertRange hash ra xs = .ok t') : t'.cap = t.cap := by
  unfold Table.insertRange at e
  obtain ⟨t1, e1, e2⟩ := bind_eq_ok e
  have : t1.cap = t.cap ∧ Inv hash t1 l := by
    cases ra with
    | true =>
      simp only [if_true] at e1
      exact reserve_room h (by rw [h.size]; exact hl) e1
    | false =>
      simp only [Bool.false_eq_true, if_false] at e1
      cases e1
      exact ⟨rfl, h⟩
  rw [insertAll_room xs this.2 (by rw [this.1]; exact hl) e2, this.1]

/-- While there is room the array is not replaced. -/
theorem step_room {hash : K → Nat} {t t' : Table k K V} {l : List (Elem k K V)} (h : Inv hash t l) {o : Op k K V} {out : Out k K V}
    (hf : o.hasRoom t.cap l) (hs : t.step hash o = .ok (t', out)) : t'.cap = t.cap := by
  cases o with
  | insert key v =>
    obtain ⟨r, e, hr⟩ := insert_ok h key v
    simp only [Table.step, e, bind_ok] at hs
    cases hs
    exact insert_room h hr hf
  | emplace key v =>
    obtain ⟨r, e, hr⟩ := emplace_ok h key v
    simp only [Table.step, e, bind_ok] at hs
    cases hs
    exact insert_room h hr hf
  | assign hk x v =>
    cases hk
    obtain ⟨r, e, hr⟩ := insertOrAssign_ok h x v
    simp only [Table.step, Table.assignStep, e, bind_ok] at hs
    cases hs
    obtain ⟨t1, e1, _⟩ := maybeResize_ok h
    have := maybeResize_stay (by rw [h.size]; exact hf) e1
    rw [hr.cap t1 e1, this]
  | erase j x =>
    simp only [Table.step] at hs
    obtain ⟨r, e, hs⟩ := bind_eq_ok hs
    cases hs
    by_cases hb : t.bc = 0
    · rw [erase_nobuckets hash hb] at e; cases e
    · obtain ⟨r', e', _, hc, _⟩ := erase_ok h (by omega) j x
      rw [e] at e'
      cases e'
      exact hc
  | eraseAt pos =>
    simp only [Table.step] at hs
    split at hs
    · rename_i hp
      rw [h.size] at hp
      obtain ⟨u, e, _, _, hc, _⟩ := eraseAt_ok h hp
      rw [e, bind_ok] at hs
      cases hs
      exact hc
    · cases hs; rfl
  | eraseRange first n =>
    simp only [Table.step] at hs
    split at hs
    · rename_i hp
      rw [h.size] at hp
      obtain ⟨u, e, _, _, hc, _⟩ := eraseRange_ok (p := t.size) h hp
      unfold Table.eraseRange at hs
      rw [Nat.add_sub_cancel_left, e, bind_ok] at hs
      cases hs
      exact hc
    · cases hs; rfl
  | insertRange ra xs =>
    simp only [Table.step] at hs
    obtain ⟨u, e, hs⟩ := bind_eq_ok hs
    cases hs
    exact insertRange_room h hf e
  | assignRange ra xs =>
    simp only [Table.step, Table.assignRange] at hs
    obtain ⟨u, e, hs⟩ := bind_eq_ok hs
    cases hs
    obtain ⟨w, e1, h1, _, hc, _⟩ := clear_ok h.toArr
    rw [e1, bind_ok] at e
    rw [insertRange_room h1 (by rw [hc]; simpa [Op.hasRoom] using hf) e, hc]
  | clear =>
    simp only [Table.step] at hs
    obtain ⟨u, e, _, _, hc, _⟩ := clear_ok h.toArr
    rw [e, bind_ok] at hs
    cases hs
    exact hc
  | reserve n =>
    simp only [Table.step] at hs
    obtain ⟨u, e, hs⟩ := bind_eq_ok hs
    cases hs
    exact (reserve_room h hf e).1
  | rehash n =>
    simp only [Table.step] at hs
    obtain ⟨u, e, _, hc, _⟩ := rehash_ok h n
    rw [e, bind_ok] at hs
    cases hs
    exact hc
  | setLoad lf => cases hs; rfl
  | find j x =>
    simp only [Table.step] at hs
    obtain ⟨_, _, hs⟩ := bind_eq_ok hs
    cases hs; rfl
  | contains j x =>
    simp only [Table.step] at hs
    obtain ⟨_, _, hs⟩ := bind_eq_ok hs
    cases hs; rfl
  | size => cases hs; rfl
  | iterate =>
    simp only [Table.step] at hs
    obtain ⟨_, _, hs⟩ := bind_eq_ok hs
    cases hs; rfl

/-- After any operation that ends, the table holds what the specification says. -/
theorem step_holds_spec {hash : K → Nat} {t t' : Table k K V} {l : List (Elem k K V)} (h : Inv hash t l) {o : Op k K V} {out : Out k K V}
    (hs : t.step hash o = .ok (t', out)) : Inv hash t' (Spec.step l o).1 := by
  by_cases hg : ∀ j x, o = .erase j x → 0 < t.bc
  · obtain ⟨u, e, hu, _⟩ := step_ok h o hg
    rw [hs] at e
    cases e
    exact hu
  · exfalso
    apply hg
    rintro j x rfl
    rcases Nat.eq_zero_or_pos t.bc with hb | hb
    · simp only [Table.step] at hs
      rw [erase_nobuckets hash hb] at hs
      cases hs
    · exact hb

theorem run_room {hash : K → Nat} : ∀ (os : List (Op k K V)) {t t' : Table k K V} {l : List (Elem k K V)} {outs : List (Out k K V)},
    Inv hash t l → Spec.Fits t.cap l os → t.run hash os = .ok (t', outs) → t'.cap = t.cap ∧ Inv hash t' (Spec.run l os).1 := by
  intro os
  induction os with
  | nil => intro t t' l outs h _ e; cases e; exact ⟨rfl, h⟩
  | cons o os ih =>
    intro t t' l outs h hf e
    simp only [Table.run] at e
    obtain ⟨⟨u, out⟩, e1, e⟩ := bind_eq_ok e
    obtain ⟨⟨w, outs'⟩, e2, e⟩ := bind_eq_ok e
    cases e
    have hc := step_room h hf.1 e1
    obtain ⟨a1, a2⟩ := ih (step_holds_spec h e1) (by rw [hc]; exact hf.2) e2
    exact ⟨a1.trans hc, a2⟩

theorem specRun_spare {p : Nat} : ∀ (os : List (Op k K V)) {l : List (Elem k K V)} {e : Elem k K V}, l[p]? = some e →
    Spec.Spares p l os → ∃ e', (Spec.run l os).1[p]? = some e' ∧ e'.1 = e.1 := by
  intro os
  induction os with
  | nil => intro l e h _; exact ⟨e, h, rfl⟩
  | cons o os ih =>
    intro l e h hs
    obtain ⟨e1, h1, h2⟩ := spec_spare h hs.1
    obtain ⟨e2, h3, h4⟩ := ih h1 hs.2
    exact ⟨e2, h3, h4.trans h2⟩

end Tpp.Dense
