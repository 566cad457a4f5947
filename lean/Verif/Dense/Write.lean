import Verif.Dense.Access

/-!
# Writing mapped values in place (dense maps and multi-key maps)

References to the mapped values are obtained from `at`, from iterators and in loops; the table does not learn of a write
through one of them.  (`m[x] = v` of the single-key map is C76.)
-/

set_option linter.unusedSectionVars false

namespace Tpp.Dense

variable {k : Nat} {K V : Type} [DecidableEq K]

namespace Table

/-- `it->second = v` for the iterator at position `i` (table_common.hpp 679-680: the address of `m_iter->value()`;
dense_table.hpp 318-321). -/
def write (t : Table k K V) (i : Nat) (v : V) : M (Table k K V) := do
  let n ← t.readNode i
  .ok { t with node := upd t.node i (some { n with val := v }) }

/-- `m.at<j>(x) = v` (dense_map.hpp 532, 612-619; dense_multimap.hpp 378, 446-453): `find`, compare with `end()`, write; `false`
means that `std::out_of_range` was thrown. -/
def atWrite (hash : K → Nat) (t : Table k K V) (j : Fin k) (x : K) (v : V) : M (Table k K V × Bool) := do
  let (i, _) ← t.findNode hash j x
  if i.getD t.size = t.size then .ok (t, false)
  else do
    let t ← t.write (i.getD t.size) v
    .ok (t, true)

/-- The loop `for (; it != end(); ++it) it->second = f(it->first, it->second)`; dense iterators are positions, `n` of them are
left. -/
def eachFrom (f : (Fin k → K) → V → V) : (n : Nat) → Table k K V → (i : Nat) → M (Table k K V)
  | 0, t, _ => .ok t
  | n + 1, t, i => do
    let e ← t.readNode i
    let t ← t.write i (f e.key e.val)
    eachFrom f n t (i + 1)

/-- `for (auto it = begin(); it != end(); ++it) it->second = f(it->first, it->second)` (dense_table.hpp 318-321, 490-515). -/
def each (f : (Fin k → K) → V → V) (t : Table k K V) : M (Table k K V) := eachFrom f t.size t 0

end Table

/-- Operations including writes through references. -/
inductive WrOp (k : Nat) (K V : Type)
  | op (o : Op k K V)
  | atSet (j : Fin k) (x : K) (v : V)
  /-- write through the iterator at a position; ignored past the end -/
  | posSet (i : Nat) (v : V)
  | each (f : (Fin k → K) → V → V)

/-- One operation (the definitions above and `Table.step`). -/
def Table.wstep (hash : K → Nat) (t : Table k K V) : WrOp k K V → M (Table k K V × Out k K V)
  | .op o => t.step hash o
  | .atSet j x v => do let (t, b) ← t.atWrite hash j x v; .ok (t, .bool b)
  | .posSet i v => if i < t.size then do let t ← t.write i v; .ok (t, .unit) else .ok (t, .unit)
  | .each f => do let t ← t.each f; .ok (t, .unit)

/-- A program. -/
def Table.wrun (hash : K → Nat) (t : Table k K V) : List (WrOp k K V) → M (Table k K V × List (Out k K V))
  | [] => .ok (t, [])
  | o :: os => do
    let (t, a) ← t.wstep hash o
    let (t, as) ← t.wrun hash os
    .ok (t, a :: as)

namespace Spec

/-- The answer of a sequence. -/
def wstep (l : List (Elem k K V)) : WrOp k K V → List (Elem k K V) × Out k K V
  | .op o => step l o
  | .atSet j x v => (l.map fun e => if e.1 j = x then (e.1, v) else e, .bool (l.any fun e => e.1 j = x))
  | .posSet i v => (l.modify i fun e => (e.1, v), .unit)
  | .each f => (l.map fun e => (e.1, f e.1 e.2), .unit)

/-- The answers to a program. -/
def wrun (l : List (Elem k K V)) : List (WrOp k K V) → List (Elem k K V) × List (Out k K V)
  | [] => (l, [])
  | o :: os =>
    let r := wstep l o
    let r' := wrun r.1 os
    (r'.1, r.2 :: r'.2)

/-- The operations of a program that are not writes. -/
def plain (os : List (WrOp k K V)) : List (Op k K V) := os.filterMap fun
  | .op o => some o
  | _ => none

end Spec

/-! ### Proofs -/

theorem write_ok {hash : K → Nat} {t : Table k K V} {l : List (Elem k K V)} (h : Inv hash t l) {i : Nat} (hi : i < l.length) (v : V) :
    ∃ t', t.write i v = .ok t' ∧ Inv hash t' (l.set i (l[i].1, v)) ∧ t'.bc = t.bc ∧ (∀ j, j ≠ i → t'.node j = t.node j) := by
  obtain ⟨n, hr, hn, hn'⟩ := h.toArr.read hi
  unfold Table.write
  rw [hr, bind_ok]
  refine ⟨_, rfl, ?_, rfl, fun j hj => upd_ne _ _ hj⟩
  rw [← hn']
  exact h.setVal hn v

theorem atWrite_ok {hash : K → Nat} {t : Table k K V} {l : List (Elem k K V)} (h : Inv hash t l) (j : Fin k) (x : K) (v : V) :
    ∃ t', t.atWrite hash j x v = .ok (t', l.any fun e => e.1 j = x) ∧
      Inv hash t' (l.map fun e => if e.1 j = x then (e.1, v) else e) ∧ t'.bc = t.bc := by
  unfold Table.atWrite
  obtain ⟨r, e⟩ := findNode_ok h j x
  rw [e, bind_ok]
  cases hi : idxOf l j x with
  | none =>
    refine ⟨t, ?_, ?_, rfl⟩
    · have : (l.any fun e => e.1 j = x) = false := by
        rw [List.any_eq_false]
        intro e he
        simpa using idxOf_eq_none hi e he
      simp [this]
    · have : (l.map fun e => if e.1 j = x then (e.1, v) else e) = l := by
        conv_rhs => rw [← List.map_id l]
        exact List.map_congr_left fun e he => by simp [idxOf_eq_none hi e he]
      rw [this]; exact h
  | some i =>
    obtain ⟨a, ha, hx⟩ := idxOf_some hi
    obtain ⟨hlt, hla⟩ := List.getElem?_eq_some_iff.mp ha
    have hsz := h.size
    obtain ⟨t', e1, i1, b1, _⟩ := write_ok h hlt v
    simp only [Option.getD_some]
    rw [if_neg (by omega), e1, bind_ok]
    have hany : (l.any fun e => e.1 j = x) = true := by
      rw [List.any_eq_true]
      exact ⟨a, List.mem_of_getElem? ha, by simpa using hx⟩
    refine ⟨t', by rw [hany], ?_, b1⟩
    have : (l.map fun e => if e.1 j = x then (e.1, v) else e) = l.set i (l[i].1, v) := by
      apply List.ext_getElem?
      intro y
      rw [List.getElem?_map, List.getElem?_set]
      by_cases hy : i = y
      · subst hy
        rw [if_pos rfl, if_pos hlt, ha, hla]
        simp [hx]
      · rw [if_neg hy]
        cases hly : l[y]? with
        | none => rfl
        | some b =>
          have : b.1 j ≠ x := by
            intro hb
            have h2 := idxOf_of_uniq (h.uniq j) hly
            rw [hb, hi] at h2
            exact hy (Option.some.inj h2)
          simp [this]
    rw [this]; exact i1

theorem eachFrom_ok {hash : K → Nat} (f : (Fin k → K) → V → V) (b : List (Elem k K V)) :
    ∀ {t : Table k K V} (a : List (Elem k K V)), Inv hash t (a ++ b) →
    ∃ t', Table.eachFrom f b.length t a.length = .ok t' ∧ Inv hash t' (a ++ b.map fun e => (e.1, f e.1 e.2)) ∧ t'.bc = t.bc := by
  induction b with
  | nil => intro t a h; exact ⟨t, rfl, h, rfl⟩
  | cons e b ih =>
    intro t a h
    have hlt : a.length < (a ++ e :: b).length := by simp
    obtain ⟨n, hr, hn, hn'⟩ := h.toArr.read hlt
    have he : (a ++ e :: b)[a.length] = e := by simp
    rw [he] at hn'
    obtain ⟨t1, e1, i1, b1, _⟩ := write_ok h hlt (f n.key n.val)
    have hl : (a ++ e :: b).set a.length ((a ++ e :: b)[a.length].1, f n.key n.val) = (a ++ [(e.1, f e.1 e.2)]) ++ b := by
      rw [he, ← hn', List.set_append_right _ _ (Nat.le_refl _), Nat.sub_self]
      simp
    rw [hl] at i1
    obtain ⟨t2, e2, i2, b2⟩ := ih (a ++ [(e.1, f e.1 e.2)]) i1
    refine ⟨t2, ?_, ?_, b2.trans b1⟩
    · rw [List.length_cons]
      unfold Table.eachFrom
      rw [hr, bind_ok, e1, bind_ok]
      rw [List.length_append] at e2
      exact e2
    · simpa using i2

theorem each_ok {hash : K → Nat} {t : Table k K V} {l : List (Elem k K V)} (h : Inv hash t l) (f : (Fin k → K) → V → V) :
    ∃ t', t.each f = .ok t' ∧ Inv hash t' (l.map fun e => (e.1, f e.1 e.2)) ∧ t'.bc = t.bc := by
  unfold Table.each
  rw [h.size]
  exact eachFrom_ok f l [] h

theorem wstep_ok {hash : K → Nat} {t : Table k K V} {l : List (Elem k K V)} (h : Inv hash t l) (o : WrOp k K V) (ho : ∀ o', o ≠ .op o') :
    ∃ t', t.wstep hash o = .ok (t', (Spec.wstep l o).2) ∧ Inv hash t' (Spec.wstep l o).1 ∧ t'.bc = t.bc := by
  cases o with
  | op o => exact absurd rfl (ho o)
  | atSet j x v =>
    obtain ⟨t', e, i, b⟩ := atWrite_ok h j x v
    exact ⟨t', by simp only [Table.wstep]; rw [e, bind_ok]; rfl, i, b⟩
  | posSet i v =>
    have hs := h.size
    by_cases hi : i < t.size
    · obtain ⟨t', e, i1, b, _⟩ := write_ok h (i := i) (by omega) v
      refine ⟨t', by simp only [Table.wstep]; rw [if_pos hi, e, bind_ok]; rfl, ?_, b⟩
      simp only [Spec.wstep]
      have : l.modify i (fun e => (e.1, v)) = l.set i (l[i].1, v) := by
        apply List.ext_getElem?
        intro y
        rw [List.getElem?_modify, List.getElem?_set]
        by_cases hy : i = y
        · subst hy
          simp [show i < l.length by omega]
        · simp [hy]
      rw [this]
      exact i1
    · refine ⟨t, by simp only [Table.wstep]; rw [if_neg hi]; rfl, ?_, rfl⟩
      simp only [Spec.wstep]
      rw [List.modify_eq_self (by omega)]
      exact h
  | each f =>
    obtain ⟨t', e, i, b⟩ := each_ok h f
    exact ⟨t', by simp only [Table.wstep]; rw [e, bind_ok]; rfl, i, b⟩

theorem wrun_ok {hash : K → Nat} : ∀ (os : List (WrOp k K V)) {t : Table k K V} {l : List (Elem k K V)} {b : Bool},
    Inv hash t l → (b = true → 0 < t.bc) → Spec.Guarded b (Spec.plain os) = true →
    ∃ t', t.wrun hash os = .ok (t', (Spec.wrun l os).2) ∧ Inv hash t' (Spec.wrun l os).1 := by
  intro os
  induction os with
  | nil => intro t l b h _ _; exact ⟨t, rfl, h⟩
  | cons o os ih =>
    intro t l b h hb hg
    have fin : ∀ {t1 : Table k K V} {b' : Bool}, t.wstep hash o = .ok (t1, (Spec.wstep l o).2) → Inv hash t1 (Spec.wstep l o).1 →
        (b' = true → 0 < t1.bc) → Spec.Guarded b' (Spec.plain os) = true →
        ∃ t', t.wrun hash (o :: os) = .ok (t', (Spec.wrun l (o :: os)).2) ∧ Inv hash t' (Spec.wrun l (o :: os)).1 := by
      intro t1 b' e1 h1 hb1 g
      obtain ⟨t2, e2, h2⟩ := ih h1 hb1 g
      refine ⟨t2, ?_, h2⟩
      unfold Table.wrun
      rw [e1, bind_ok]
      simp only
      rw [e2, bind_ok]
      rfl
    by_cases ho : ∃ o', o = .op o'
    · obtain ⟨o', rfl⟩ := ho
      obtain ⟨g1, g2⟩ := Guarded_cons (o := o') (os := Spec.plain os) hg
      obtain ⟨t1, e1, h1, hb1⟩ := step_ok h o' (fun j x e => hb (g1 j x e))
      exact fin e1 h1 (hb1 b hb) g2
    · obtain ⟨t1, e1, h1, hb1⟩ := wstep_ok h o (fun o' e => ho ⟨o', e⟩)
      refine fin e1 h1 (b' := b) (by rw [hb1]; exact hb) ?_
      cases o with
      | op o' => exact absurd ⟨o', rfl⟩ ho
      | atSet j x v => exact hg
      | posSet i v => exact hg
      | each f => exact hg

end Tpp.Dense
