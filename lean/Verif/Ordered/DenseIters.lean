import Verif.Ordered.DenseOps
import Verif.Dense.Iters

/-!
# Iterators of the ordered dense containers while there is room (dense_table.hpp 349-440, 783-821)

An iterator of an ordered container is the address of a linked node (table_common.hpp 498-600).  An erasure moves the last node of the
array into the place of the erased one (dense_table.hpp 600-617), which is not the last one in insertion order.
-/

set_option linter.unusedSectionVars false

namespace Tpp.ODense

open Tpp.Dense (Elem LF Table Inv swapRemove conflict idxOf elemOf)
open Tpp.Ordered

variable {k : Nat} {K V : Type} [DecidableEq K]

/-- An array of `c` nodes has room for what the operation may add to `n` elements; insertion functions ask for room before they look
for the key. -/
def Op.hasRoom (c n : Nat) : Op k K V → Prop
  | .insert _ _ | .emplace _ _ | .assign _ _ _ => n < c
  | .insertRange _ xs => n + xs.length ≤ c
  | .reserve r => r ≤ c
  | .assignRange _ _ => False
  | _ => True

/-- All operations of the history find room in an array of `c` nodes; there always is an element with key `x`, and always are more
than `p` elements. -/
def Spec.Stays (c p : Nat) (j : Fin k) (x : K) : List (Elem k K V) → List (Op k K V) → Prop
  | _, [] => True
  | s, op :: ops => op.hasRoom c s.length ∧ (∃ e ∈ (Spec.step s op).1, e.1 j = x) ∧ p < (Spec.step s op).1.length ∧
      Spec.Stays c p j x (Spec.step s op).1 ops

instance (c n : Nat) (op : Op k K V) : Decidable (op.hasRoom c n) := by
  cases op <;> simp only [Op.hasRoom] <;> infer_instance

instance Spec.staysDec (c p : Nat) (j : Fin k) (x : K) : (s : List (Elem k K V)) → (ops : List (Op k K V)) → Decidable (Spec.Stays c p j x s ops)
  | _, [] => .isTrue trivial
  | s, op :: ops => @instDecidableAnd _ _ _ (@instDecidableAnd _ _ _ (@instDecidableAnd _ _ _ (Spec.staysDec c p j x (Spec.step s op).1 ops)))

theorem Op.hasRoom_mono {c c' n : Nat} (h : c ≤ c') {op : Op k K V} (hf : op.hasRoom c n) : op.hasRoom c' n := by
  cases op <;> simp only [Op.hasRoom] at hf ⊢ <;> omega

variable {hash : K → Nat} {sz : Int} {A : Alloc} {m : Mem} {t : OTable k K V} {l : List (Elem k K V)} {o : List Nat}

/-- The array and the header are the same objects. -/
structure Fixed (t t' : OTable k K V) : Prop where
  hd : t'.hd = t.hd
  base : t'.base = t.base
  cap : t'.core.cap = t.core.cap

theorem Fixed.refl (t : OTable k K V) : Fixed t t := ⟨rfl, rfl, rfl⟩

theorem Fixed.trans {t t' t'' : OTable k K V} (h : Fixed t t') (h' : Fixed t' t'') : Fixed t t'' :=
  ⟨h'.hd.trans h.hd, h'.base.trans h.base, h'.cap.trans h.cap⟩

theorem insertWith_core {op : Table k K V → M (Table k K V × Nat × Bool)} {hint : Option Int} {r : Mem × OTable k K V × Int × Bool}
    (h : t.insertWith sz A m op hint = .ok r) (hroom : t.core.size < t.core.cap) :
    ∃ p, op t.core = .ok (r.2.1.core, p) ∧ r.2.1.base = t.base ∧ r.2.1.hd = t.hd := by
  unfold OTable.insertWith OTable.maybeGrow at h
  rw [if_neg (by omega), bind_ok] at h
  obtain ⟨x, h1, h⟩ := Dense.bind_eq_ok h
  obtain ⟨m', _, h⟩ := Dense.bind_eq_ok h
  cases h
  exact ⟨x.2, h1, rfl, rfl⟩

theorem reserve_core {n : Nat} {r : Mem × OTable k K V} (h : t.reserve sz A m n = .ok r) (hn : n ≤ t.core.cap) :
    t.core.reserve n = .ok r.2.core ∧ r.2.base = t.base ∧ r.2.hd = t.hd := by
  unfold OTable.reserve at h
  rw [if_neg (by omega), bind_ok] at h
  obtain ⟨x, h1, h⟩ := Dense.bind_eq_ok h
  cases h
  exact ⟨h1, rfl, rfl⟩

theorem insertAll_core : ∀ (xs : List (Elem k K V)) {m : Mem} {t : OTable k K V} {l : List (Elem k K V)} {r : Mem × OTable k K V},
    Inv hash t.core l → l.length + xs.length ≤ t.core.cap →
    (xs.foldlM (fun (s : Mem × OTable k K V) (x : Elem k K V) => do
        let r ← s.2.insert hash sz A s.1 x.1 x.2
        Except.ok (r.1, r.2.1)) (m, t) : M (Mem × OTable k K V)) = .ok r →
    xs.foldlM (fun (t : Table k K V) x => do
        let r ← t.insert hash x.1 x.2
        Except.ok r.1) t.core = (.ok r.2.core : M (Table k K V)) ∧ r.2.base = t.base ∧ r.2.hd = t.hd
  | [], m, t, l, r, h, hb, he => by
    cases he
    exact ⟨rfl, rfl, rfl⟩
  | x :: xs, m, t, l, r, h, hb, he => by
    rw [List.foldlM_cons] at he
    obtain ⟨q, e1, he⟩ := Dense.bind_eq_ok he
    obtain ⟨p, e2, e1⟩ := Dense.bind_eq_ok e1
    cases e1
    simp only [List.length_cons] at hb
    have hs := h.size
    obtain ⟨p', a1, a2, a3⟩ := insertWith_core e2 (show t.core.size < t.core.cap by omega)
    simp only at a1
    obtain ⟨u, e3, hu⟩ := Dense.insert_ok h x.1 x.2
    rw [a1] at e3
    cases e3
    have hc := Dense.insert_room h hu (by omega)
    simp only at hc
    have hlen := Dense.specInsert_length l x.1 x.2
    obtain ⟨d1, d2, d3⟩ := insertAll_core xs (Dense.insertOk_spec hu).2 (by omega) he
    refine ⟨?_, d2.trans a2, d3.trans a3⟩
    rw [List.foldlM_cons, a1, bind_ok, bind_ok]
    exact d1

/-- What an operation does to the array, as an operation of an unordered container. -/
theorem step_core (h : Rep hash sz m t l o) {op : Op k K V} (hfit : op.hasRoom t.core.cap l.length) (hcl : op ≠ .clear)
    {r : Mem × OTable k K V × Out k K V} (he : t.step hash sz A m op = .ok r) :
    ∃ d out, t.core.step hash d = .ok (r.2.1.core, out) ∧ r.2.1.base = t.base ∧ r.2.1.hd = t.hd ∧ d.hasRoom t.core.cap l ∧
      ((∃ j x, d = .erase j x) ∨ (∃ pos, d = .eraseAt pos) ∨ ∀ p, d.spares p l) := by
  have hs := h.core.size
  have read : r.2.1 = t → ∃ d out, t.core.step hash d = .ok (r.2.1.core, out) ∧ r.2.1.base = t.base ∧ r.2.1.hd = t.hd ∧
      d.hasRoom t.core.cap l ∧ ((∃ j x, d = .erase j x) ∨ (∃ pos, d = .eraseAt pos) ∨ ∀ p, d.spares p l) := by
    intro e
    rw [e]
    exact ⟨.size, _, rfl, rfl, rfl, trivial, Or.inr (Or.inr fun _ => trivial)⟩
  cases op with
  | insert key v =>
    simp only [OTable.step] at he
    obtain ⟨q, e1, he⟩ := Dense.bind_eq_ok he
    obtain ⟨_, _, he⟩ := Dense.bind_eq_ok he
    cases he
    have hf : l.length < t.core.cap := hfit
    obtain ⟨p, a1, a2, a3⟩ := insertWith_core e1 (by omega)
    exact ⟨.insert key v, _, by simp only [Table.step]; rw [a1, bind_ok], a2, a3, hf, Or.inr (Or.inr fun _ => trivial)⟩
  | emplace key v =>
    simp only [OTable.step] at he
    obtain ⟨q, e1, he⟩ := Dense.bind_eq_ok he
    obtain ⟨_, _, he⟩ := Dense.bind_eq_ok he
    cases he
    have hf : l.length < t.core.cap := hfit
    obtain ⟨p, a1, a2, a3⟩ := insertWith_core e1 (by omega)
    exact ⟨.emplace key v, _, by simp only [Table.step]; rw [a1, bind_ok], a2, a3, hf, Or.inr (Or.inr fun _ => trivial)⟩
  | assign hk x v =>
    simp only [OTable.step] at he
    obtain ⟨q, e1, he⟩ := Dense.bind_eq_ok he
    obtain ⟨_, _, he⟩ := Dense.bind_eq_ok he
    cases he
    have hf : l.length < t.core.cap := hfit
    obtain ⟨p, a1, a2, a3⟩ := insertWith_core e1 (by omega)
    exact ⟨.assign hk x v, _, by simp only [Table.step]; rw [a1, bind_ok], a2, a3, hf, Or.inr (Or.inr fun _ => trivial)⟩
  | erase j x =>
    simp only [OTable.step, OTable.erase] at he
    obtain ⟨q, e1, he⟩ := Dense.bind_eq_ok he
    cases he
    obtain ⟨c, e2, e1⟩ := Dense.bind_eq_ok e1
    refine ⟨.erase j x, .pos c.2.1, ?_, ?_, ?_, trivial, Or.inl ⟨j, x, rfl⟩⟩
    all_goals
      split at e1
      · obtain ⟨_, _, e1⟩ := Dense.bind_eq_ok e1
        cases e1
        first | rfl | (simp only [Table.step]; rw [e2, bind_ok])
      · cases e1
        first | rfl | (simp only [Table.step]; rw [e2, bind_ok])
  | eraseNth n =>
    simp only [OTable.step] at he
    split at he
    · obtain ⟨_, _, he⟩ := Dense.bind_eq_ok he
      obtain ⟨a, _, he⟩ := Dense.bind_eq_ok he
      obtain ⟨q, e1, he⟩ := Dense.bind_eq_ok he
      cases he
      unfold OTable.eraseIter at e1
      split at e1
      · cases e1
      · rename_i pos _
        split at e1
        · rename_i hp
          obtain ⟨_, _, e1⟩ := Dense.bind_eq_ok e1
          obtain ⟨c, e2, e1⟩ := Dense.bind_eq_ok e1
          cases e1
          exact ⟨.eraseAt pos, .pos c.2, by simp only [Table.step]; rw [if_pos hp, e2, bind_ok], rfl, rfl, trivial, Or.inr (Or.inl ⟨pos, rfl⟩)⟩
        · cases e1
    · cases he
      exact read rfl
  | insertRange ra xs =>
    simp only [OTable.step] at he
    obtain ⟨q, e1, he⟩ := Dense.bind_eq_ok he
    cases he
    have hf : l.length + xs.length ≤ t.core.cap := hfit
    unfold OTable.insertRange at e1
    obtain ⟨⟨m1, t1⟩, e2, e1⟩ := Dense.bind_eq_ok e1
    have hres : (if ra then t.core.reserve (t.core.size + xs.length) else .ok t.core : M (Table k K V)) = .ok t1.core ∧
        t1.base = t.base ∧ t1.hd = t.hd ∧ t1.core.cap = t.core.cap ∧ Inv hash t1.core l := by
      cases ra with
      | false =>
        cases e2
        exact ⟨rfl, rfl, rfl, rfl, h.core⟩
      | true =>
        simp only [if_true] at e2 ⊢
        obtain ⟨f1, f2, f3⟩ := reserve_core e2 (by omega)
        obtain ⟨g1, g2⟩ := Dense.reserve_room h.core (by omega) f1
        exact ⟨f1, f2, f3, g1, g2⟩
    obtain ⟨f1, f2, f3, f4, f5⟩ := hres
    obtain ⟨d1, d2, d3⟩ := insertAll_core xs f5 (by omega) e1
    refine ⟨.insertRange ra xs, .unit, ?_, d2.trans f2, d3.trans f3, hf, Or.inr (Or.inr fun _ => trivial)⟩
    simp only [Table.step, Table.insertRange]
    rw [f1, bind_ok, d1, bind_ok]
  | assignRange ra xs => cases hfit
  | clear => exact absurd rfl hcl
  | reserve n =>
    simp only [OTable.step] at he
    obtain ⟨q, e1, he⟩ := Dense.bind_eq_ok he
    cases he
    have hf : n ≤ t.core.cap := hfit
    obtain ⟨f1, f2, f3⟩ := reserve_core e1 hf
    exact ⟨.reserve n, .unit, by simp only [Table.step]; rw [f1, bind_ok], f2, f3, hf, Or.inr (Or.inr fun _ => trivial)⟩
  | rehash n =>
    simp only [OTable.step] at he
    obtain ⟨q, e1, he⟩ := Dense.bind_eq_ok he
    cases he
    exact ⟨.rehash n, .unit, by simp only [Table.step]; rw [e1, bind_ok], rfl, rfl, trivial, Or.inr (Or.inr fun _ => trivial)⟩
  | setLoad lf =>
    cases he
    exact ⟨.setLoad lf, .unit, rfl, rfl, rfl, trivial, Or.inr (Or.inr fun _ => trivial)⟩
  | find j x =>
    simp only [OTable.step] at he
    obtain ⟨_, _, he⟩ := Dense.bind_eq_ok he
    cases he; exact read rfl
  | contains j x =>
    simp only [OTable.step] at he
    obtain ⟨_, _, he⟩ := Dense.bind_eq_ok he
    cases he; exact read rfl
  | size => cases he; exact read rfl
  | front =>
    simp only [OTable.step] at he
    split at he
    · cases he; exact read rfl
    · obtain ⟨_, _, he⟩ := Dense.bind_eq_ok he
      obtain ⟨_, _, he⟩ := Dense.bind_eq_ok he
      cases he; exact read rfl
  | back =>
    simp only [OTable.step] at he
    split at he
    · cases he; exact read rfl
    · obtain ⟨_, _, he⟩ := Dense.bind_eq_ok he
      obtain ⟨_, _, he⟩ := Dense.bind_eq_ok he
      cases he; exact read rfl
  | iterate =>
    simp only [OTable.step] at he
    obtain ⟨_, _, he⟩ := Dense.bind_eq_ok he
    obtain ⟨_, _, he⟩ := Dense.bind_eq_ok he
    cases he; exact read rfl
  | reverse =>
    simp only [OTable.step] at he
    obtain ⟨_, _, he⟩ := Dense.bind_eq_ok he
    obtain ⟨_, _, he⟩ := Dense.bind_eq_ok he
    cases he; exact read rfl

theorem inv_list {c : Table k K V} {l l' : List (Elem k K V)} (h : Inv hash c l) (h' : Inv hash c l') : l = l' := by
  have e := Dense.iterate_ok h.toArr
  rw [Dense.iterate_ok h'.toArr] at e
  cases e
  rfl

/-- Erasing the element at `p` removes its key. -/
theorem swapRemove_gone {l : List (Elem k K V)} (hu : Uniq l) {p : Nat} {e : Elem k K V} (he : l[p]? = some e) {j : Fin k}
    (hin : ∃ e' ∈ swapRemove l p, e'.1 j = e.1 j) : False := by
  obtain ⟨hp, he⟩ := List.getElem?_eq_some_iff.mp he
  obtain ⟨e', hm, hj⟩ := hin
  obtain ⟨i, hi⟩ := List.mem_iff_getElem?.mp hm
  rw [Dense.swapRemove_getElem? hp] at hi
  have key : ∀ q, l[q]? = some e' → q ≠ p → False := by
    intro q hq hne
    obtain ⟨hq', hq⟩ := List.getElem?_eq_some_iff.mp hq
    have hnd := hu j
    rw [List.nodup_iff_injective_getElem] at hnd
    have := @hnd ⟨q, by simpa using hq'⟩ ⟨p, by simpa using hp⟩ (by simp [hq, he, hj])
    exact hne (by simpa using this)
  split at hi
  · split at hi
    · exact key _ hi (by omega)
    · exact key _ hi (by omega)
  · cases hi

/-- One operation: while there is room, it gives what the specification says, the array is kept, and an element that is neither erased
nor the last one of the array when another is erased keeps its position. -/
theorem step_at (hsz : 0 < sz) (hA : A.Sound sz) (h : Rep hash sz m t l o) {op : Op k K V} (hg : ∀ j x, op = .erase j x → 0 < t.core.bc)
    (hfit : op.hasRoom t.core.cap (seq l o).length) {p : Nat} {e : Elem k K V} (he : l[p]? = some e) {j : Fin k}
    (hin : ∃ e' ∈ (Spec.step (seq l o) op).1, e'.1 j = e.1 j) (hp : p < (Spec.step (seq l o) op).1.length) :
    ∃ m' t' l' o', t.step hash sz A m op = .ok (m', t', (Spec.step (seq l o) op).2) ∧ Rep hash sz m' t' l' o' ∧
      seq l' o' = (Spec.step (seq l o) op).1 ∧ Fixed t t' ∧ (∃ e', l'[p]? = some e' ∧ e'.1 = e.1) ∧
      ∀ b, (b = true → 0 < t.core.bc) → op.buckets b = true → 0 < t'.core.bc := by
  obtain ⟨m', t', e1, h1, h2⟩ := step_ok hsz hA ⟨l, o, h, rfl⟩ op hg
  obtain ⟨l', o', hr, hs⟩ := h1.holds
  have hlen : (seq l o).length = l.length := (seq_perm h.perm).length_eq
  rw [hlen] at hfit
  have hcl : op ≠ .clear := by
    rintro rfl
    simp [Spec.step] at hp
  obtain ⟨d, out, d1, d2, d3, d4, d5⟩ := step_core h hfit hcl e1
  have hcap := Dense.step_room h.core d4 d1
  have hl' := inv_list hr.core (Dense.step_holds_spec h.core d1)
  have hp' : p < l'.length := by rw [← (seq_perm hr.perm).length_eq, hs]; exact hp
  have hin' : ∃ e' ∈ l', e'.1 j = e.1 j := by
    obtain ⟨e', a, b⟩ := hin
    rw [← hs] at a
    exact ⟨e', (seq_perm hr.perm).mem_iff.mp a, b⟩
  have hsp : d.spares p l := by
    rcases d5 with ⟨i, x, rfl⟩ | ⟨pos, rfl⟩ | d5
    · intro q hq
      simp only [Dense.Spec.step, hq] at hl'
      rw [hl'] at hp' hin'
      have hql : q < l.length := (List.findIdx?_eq_some_iff_getElem.mp hq).1
      rw [Dense.swapRemove_length] at hp'
      refine ⟨?_, by omega⟩
      rintro rfl
      exact swapRemove_gone h.uniq he hin'
    · intro hq
      simp only [Dense.Spec.step, if_pos hq] at hl'
      rw [hl'] at hp' hin'
      rw [Dense.swapRemove_length] at hp'
      refine ⟨?_, by omega⟩
      rintro rfl
      exact swapRemove_gone h.uniq he hin'
    · exact d5 p
  obtain ⟨e', s1, s2⟩ := Dense.spec_spare he hsp
  rw [← hl'] at s1
  exact ⟨m', t', l', o', e1, hr, hs, ⟨d3, d2, hcap⟩, ⟨e', s1, s2⟩, h2⟩

end Tpp.ODense
