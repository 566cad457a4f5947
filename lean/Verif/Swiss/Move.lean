import Verif.Swiss.Hist
import Verif.Swiss.Log

/-!
# Moves between unequal allocators

`move_data` leaves the destination as `copy_data` would, and the source empty.
-/

set_option linter.unusedSectionVars false

namespace Tpp.Swiss

variable {K V : Type} [DecidableEq K]

/-- The source without the elements in the slots `l`. -/
def Table.without (o : Table K V) (l : List Nat) : Table K V :=
  { o with node := fun i => if i ∈ l ∧ (o.ctl i).isOccupied = true then none else o.node i }

theorem moveOne_fold {isa : Isa} {other : Table K V} : ∀ {l : List Nat} {t t' o : Table K V}, l.Nodup → o.cap = other.cap →
    o.len = other.len → o.ctl = other.ctl → (∀ i ∈ l, o.node i = other.node i) →
    l.foldlM (Table.copyOne isa other) t = .ok t' → l.foldlM (Table.moveOne isa) (t, o) = .ok (t', o.without l)
  | [], t, t', o, _, _, _, _, _, h => by
    cases h
    refine congrArg Except.ok (Prod.ext rfl ?_)
    simp [Table.without]
  | i :: l, t, t', o, hn, hc, hl, hk, hnode, h => by
    rw [List.nodup_cons] at hn
    rw [List.foldlM_cons] at h ⊢
    obtain ⟨t1, h1, h⟩ := Dense.bind_eq_ok h
    unfold Table.copyOne at h1
    obtain ⟨d, e1, h1⟩ := Dense.bind_eq_ok h1
    have hr : o.readCtl i = .ok d := by
      rw [← e1]
      unfold Table.readCtl
      rw [hl, hk]
    have hd : o.ctl i = d := by
      unfold Table.readCtl at hr
      split at hr
      · cases hr; rfl
      · cases hr
    unfold Table.moveOne
    simp only
    rw [hr, bind_ok]
    split at h1
    · rename_i hocc
      rw [if_pos hocc]
      obtain ⟨n, e2, h1⟩ := Dense.bind_eq_ok h1
      obtain ⟨t2, e3, h1⟩ := Dense.bind_eq_ok h1
      have hi : i < o.cap ∧ o.node i = some n := by
        unfold Table.readNode at e2
        rw [hc, hnode i (by simp)]
        split at e2
        · rename_i q
          split at e2
          · rename_i g
            cases e2
            exact ⟨q, g⟩
          · cases e2
        · cases e2
      have e2' : o.readNode i = .ok n := readNode_some hi.1 hi.2
      have ed : o.destroy i = .ok { o with node := upd o.node i none } := by
        unfold Table.destroy
        rw [if_pos hi.1, hi.2]
      rw [e2', bind_ok, e3, bind_ok, ed, bind_ok, h1, bind_ok, bind_ok]
      have := moveOne_fold (o := { o with node := upd o.node i none }) hn.2 hc hl hk (fun j hj => by
        show upd o.node i none j = _
        rw [upd_ne _ _ (show j ≠ i from fun q => hn.1 (q ▸ hj))]
        exact hnode j (List.mem_cons_of_mem _ hj)) h
      refine this.trans ?_
      refine congrArg Except.ok (Prod.ext rfl ?_)
      unfold Table.without
      simp only [Table.mk.injEq, true_and, and_true]
      funext j
      by_cases e : j = i
      · subst e
        rw [upd_same, if_pos (show j ∈ j :: l ∧ _ from ⟨by simp, by rw [hd]; exact hocc⟩)]
        simp
      · rw [upd_ne _ _ e]
        simp [e]
    · rename_i hocc
      rw [if_neg hocc, bind_ok]
      cases h1
      have := moveOne_fold (o := o) hn.2 hc hl hk (fun j hj => hnode j (List.mem_cons_of_mem _ hj)) h
      refine this.trans ?_
      refine congrArg Except.ok (Prod.ext rfl ?_)
      unfold Table.without
      simp only [Table.mk.injEq, true_and, and_true]
      funext j
      by_cases e : j = i
      · subst e
        rw [hd]
        simp [hocc]
      · simp [e]

/-- The source after its elements were moved away. -/
def Table.emptied (isa : Isa) (o : Table K V) : Table K V :=
  { o.without (List.range o.cap) with size := 0, numEmpty := maxSize isa o.cap, ctl := fillEmpty o.cap }

theorem emptied_none {isa : Isa} {hash : K → Nat} {o : Table K V} (h : Inv isa hash o) {i : Nat} (hi : i < o.cap) :
    (o.emptied isa).node i = none := by
  show (if i ∈ List.range o.cap ∧ (o.ctl i).isOccupied = true then none else o.node i) = none
  split
  · rfl
  · rename_i q
    have := h.live i hi
    cases hn : o.node i with
    | none => rfl
    | some n =>
      rw [hn] at this
      exact absurd ⟨List.mem_range.mpr hi, this.symm⟩ q

theorem emptied_inv {isa : Isa} {hash hash' : K → Nat} {o : Table K V} (h : Inv isa hash o) (hc : 0 < o.cap) :
    Inv isa hash' (o.emptied isa) ∧ (o.emptied isa).contents = [] := by
  have hm := h.meta_ok hc
  obtain ⟨m, hpow⟩ := hm.pow
  refine ⟨fresh_inv (t := o.emptied isa) (m := m) hpow hm.len_eq rfl (fun i hi => emptied_none h hi) rfl rfl, ?_⟩
  show List.map _ (collect (o.emptied isa).node o.cap) = []
  rw [collect_none (fun i hi => emptied_none h hi)]
  rfl

/-- `move_data` copies and empties the source. -/
theorem moveData_eq {isa : Isa} {hash : K → Nat} {t t' other : Table K V} (h : Inv isa hash other) (hz : other.size ≠ 0)
    (e : t.copyData isa other = .ok t') : t.moveData isa other = .ok (t', other.emptied isa) := by
  have hm := h.meta_ok (h.cap_pos hz)
  unfold Table.copyData at e
  unfold Table.moveData
  by_cases q : t.size ≠ 0
  · rw [if_pos q] at e
    cases e
  · rw [if_neg q, if_neg hz] at e ⊢
    obtain ⟨t1, e1, e⟩ := Dense.bind_eq_ok e
    obtain ⟨t2, e2, e⟩ := Dense.bind_eq_ok e
    obtain ⟨t3, e3, e⟩ := Dense.bind_eq_ok e
    rw [e1, bind_ok, e2, bind_ok, moveOne_fold List.nodup_range rfl rfl rfl (fun _ _ => rfl) e3, bind_ok]
    simp only
    change (if other.size ≤ maxSize isa t3.cap then _ else _) = _
    split at e
    · rename_i g
      rw [if_pos g]
      cases e
      have hfit : other.cap + isa.W ≤ other.len := by rw [hm.len_eq]
      have ef : Table.fill isa { other.without (List.range other.cap) with size := 0, numEmpty := maxSize isa other.cap } =
          .ok (other.emptied isa) := by
        unfold Table.fill
        exact if_pos hfit
      change (do
        let o ← Table.fill isa { other.without (List.range other.cap) with size := 0, numEmpty := maxSize isa other.cap }
        Except.ok (_, o)) = _
      rw [ef, bind_ok]
      rfl
    · cases e

/-- `move_data` from an empty container. -/
theorem moveData_empty {isa : Isa} {t other : Table K V} (hz : other.size = 0) (ht : t.size = 0) :
    t.moveData isa other = .ok ({ t with size := 0, numEmpty := if t.cap ≠ 0 then maxSize isa t.cap else 0 }, other) := by
  unfold Table.moveData
  rw [if_neg (by simp [ht]), if_pos hz]

/-! ## What copies and moves do to the elements, in all cases -/

/-- `x` has the elements of `u` in the same slots; the buffer had `n` slots before. -/
structure Copied (n : Nat) (u x : Table K V) : Prop where
  cap : x.cap = if u.size = 0 then n else max n u.cap
  size : x.size = u.size
  node : ∀ i, i < x.cap → x.node i = if u.size ≠ 0 ∧ i < u.cap then u.node i else none

/-- `x` has `n` slots and no elements. -/
structure Blank (n : Nat) (x : Table K V) : Prop where
  cap : x.cap = n
  size : x.size = 0
  node : ∀ i, i < n → x.node i = none

theorem copyData_copied {isa : Isa} {hash : K → Nat} {t u : Table K V} (h : Inv isa hash u) (ht : t.size = 0) (hraw : Raw t)
    (hshape : t.cap = 0 ∨ ((∃ m, t.cap + 1 = 2 ^ m) ∧ t.len = t.cap + isa.W)) : ∃ x, t.copyData isa u = .ok x ∧ Copied t.cap u x := by
  by_cases hz : u.size = 0
  · unfold Table.copyData
    rw [if_neg (by simp [ht]), if_pos hz]
    refine ⟨_, rfl, ?_, ?_, ?_⟩
    · rw [if_pos hz]
    · show t.size = _
      rw [ht, hz]
    · intro i hi
      show t.node i = _
      rw [if_neg (by simp [hz])]
      exact hraw i hi
  · obtain ⟨x, e, e1, e2, _, _, _, e3⟩ := copyData_raw h hz ht hraw hshape
    refine ⟨x, e, ?_, e2, ?_⟩
    · rw [if_neg hz, e1]
    · intro i hi
      rw [e3 i hi]
      simp [hz]

theorem Inv.copyShape {isa : Isa} {hash : K → Nat} {t : Table K V} (h : Inv isa hash t) :
    t.cap = 0 ∨ ((∃ m, t.cap + 1 = 2 ^ m) ∧ t.len = t.cap + isa.W) := by
  rcases h.shape with h | h
  · exact Or.inl h.2
  · exact Or.inr ⟨h.pow, h.len_eq⟩

theorem Inv.erased {isa : Isa} {hash : K → Nat} {t : Table K V} (h : Inv isa hash t) :
    ∃ f, t.eraseNodes = .ok { t with node := f, size := 0 } ∧ ∀ i, i < t.cap → f i = none :=
  eraseNodes_spec (isa := isa) (t := t) (by
    rcases h.shape with h | h
    · exact Or.inl h.2
    · exact Or.inr h) h.live

theorem copyCtor_copied {isa : Isa} {hash : K → Nat} {u : Table K V} (h : Inv isa hash u) :
    ∃ x, Table.copyCtor isa u = .ok x ∧ Copied 0 u x :=
  copyData_copied (t := Table.init) h rfl (fun i hi => absurd hi (Nat.not_lt_zero _)) (Or.inl rfl)

theorem copyAssign_copied {isa : Isa} {hash hash' : K → Nat} {al : AllocP} {t u : Table K V} (ht : Inv isa hash t) (h : Inv isa hash' u) :
    ∃ x, t.copyAssign isa al u = .ok x ∧ Copied (if al.copyProp then 0 else t.cap) u x := by
  obtain ⟨f, h1, h2⟩ := ht.erased
  unfold Table.copyAssign
  rw [h1, bind_ok]
  unfold Table.bufAssign
  cases al.copyProp with
  | true =>
    simp only [if_true]
    rw [dropBuffer_spec (t := { t with node := f, size := 0 }) h2, bind_ok]
    exact copyData_copied h rfl (fun i hi => absurd hi (Nat.not_lt_zero _)) (Or.inl rfl)
  | false =>
    simp only [Bool.false_eq_true, if_false, bind_ok]
    exact copyData_copied (t := { t with node := f, size := 0 }) h rfl h2 ht.copyShape

theorem moveFrom_unequal {isa : Isa} {hash : K → Nat} {al : AllocP} {t u : Table K V} (h : Inv isa hash u) (he : al.equal = false)
    (ht : t.size = 0) (hraw : Raw t) (hshape : t.cap = 0 ∨ ((∃ m, t.cap + 1 = 2 ^ m) ∧ t.len = t.cap + isa.W)) :
    ∃ x y, Table.moveFrom isa al t u = .ok (x, y) ∧ t.copyData isa u = .ok x ∧ Copied t.cap u x ∧ Blank u.cap y ∧ Inv isa hash y := by
  unfold Table.moveFrom
  rw [he]
  simp only [Bool.false_eq_true, if_false]
  obtain ⟨x, e, hx⟩ := copyData_copied h ht hraw hshape
  by_cases hz : u.size = 0
  · refine ⟨x, u, ?_, e, hx, ⟨rfl, hz, h.raw_of_size hz⟩, h⟩
    rw [moveData_empty hz ht]
    unfold Table.copyData at e
    rw [if_neg (by simp [ht]), if_pos hz] at e
    cases e
    rw [← ht]
  · exact ⟨x, _, moveData_eq h hz e, e, hx, ⟨rfl, rfl, fun i hi => emptied_none h hi⟩, (emptied_inv h (h.cap_pos hz)).1⟩

/-- Move construction with unequal allocators. -/
theorem moveCtor_unequal {isa : Isa} {hash : K → Nat} {al : AllocP} {u : Table K V} (h : Inv isa hash u) (he : al.equal = false) :
    ∃ x y, Table.moveCtor isa al u = .ok (x, y) ∧ Table.copyCtor isa u = .ok x ∧ Copied 0 u x ∧ Blank u.cap y ∧ Inv isa hash y :=
  moveFrom_unequal (t := Table.init) h he rfl (fun i hi => absurd hi (Nat.not_lt_zero _)) (Or.inl rfl)

/-- Move assignment with unequal allocators that are not propagated. -/
theorem moveAssign_unequal {isa : Isa} {hash hash' : K → Nat} {al : AllocP} {t u : Table K V} (ht : Inv isa hash t) (h : Inv isa hash' u)
    (he : al.equal = false) (hp : al.moveProp = false) :
    ∃ x y, t.moveAssign isa al u = .ok (x, y) ∧ t.copyAssign isa { al with copyProp := false } u = .ok x ∧ Copied t.cap u x ∧
      Blank u.cap y ∧ Inv isa hash' y := by
  obtain ⟨f, h1, h2⟩ := ht.erased
  unfold Table.moveAssign Table.copyAssign
  rw [h1, bind_ok, bind_ok, hp, he]
  simp only [Table.bufAssign, Bool.false_eq_true, if_false, bind_ok, Bool.or_false]
  exact moveFrom_unequal (t := { t with node := f, size := 0 }) h rfl rfl h2 ht.copyShape

/-- Move assignment with equal allocators or propagated ones. -/
theorem moveAssign_equal {isa : Isa} {hash hash' : K → Nat} {al : AllocP} {t u : Table K V} (ht : Inv isa hash t) (h : Inv isa hash' u)
    (he : (al.equal || al.moveProp) = true) :
    ∃ y, t.moveAssign isa al u = .ok (u, y) ∧ Blank (if al.moveProp then 0 else t.cap) y ∧
      (al.moveProp = true ∨ t.size = 0 → ∀ hash'', Inv isa hash'' y) := by
  obtain ⟨f, h1, h2⟩ := ht.erased
  cases hp : al.moveProp with
  | true =>
    obtain ⟨t', y, e, rfl, _, _, e1, e2, e3, e4, e5⟩ := moveAssign_spec al hp ht h
    exact ⟨y, e, ⟨e2, e1, fun i hi => absurd hi (Nat.not_lt_zero _)⟩, fun _ => e5⟩
  | false =>
    unfold Table.moveAssign
    rw [h1, bind_ok, hp]
    rw [hp] at he
    simp only [Table.bufAssign, Bool.false_eq_true, if_false, bind_ok, Table.moveFrom, he, if_true, swapBuffers_eq]
    refine ⟨_, rfl, ⟨rfl, rfl, h2⟩, ?_⟩
    rintro (q | hz)
    · cases q
    · intro hash''
      have hocc : ∀ i, i < t.cap → (t.ctl i).isOccupied = false := by
        intro i hi
        rw [← ht.live i hi, ht.raw_of_size hz i hi]
        rfl
      refine ⟨ht.shape, ?_, ?_, ?_, ?_, ?_, ?_, ?_⟩
      · intro i hi
        show (f i).isSome = (t.ctl i).isOccupied
        rw [h2 i hi, hocc i hi]; rfl
      · intro i hi n hn'
        have : f i = some n := hn'
        rw [h2 i hi] at this; cases this
      · intro i hi n hn'
        have : f i = some n := hn'
        rw [h2 i hi] at this; cases this
      · intro i hi j hj x y hx
        have : f i = some x := hx
        rw [h2 i hi] at this; cases this
      · intro i hi n hn'
        have : f i = some n := hn'
        rw [h2 i hi] at this; cases this
      · show 0 = cnt (fun i => (t.ctl i).isOccupied) t.cap
        rw [← ht.size_eq, hz]
      · intro hc
        have := ht.budget hc
        rw [hz] at this
        exact this

end Tpp.Swiss
