import Verif.Swiss.Grow

/-!
# Stable containers: the address of an element

A node of a `stable_*` container holds a pointer to the element (table_common.hpp 307-502 `stable_node`).  The payload of a key
is here the pair of that address and the mapped value.  The addresses of new elements are chosen by the allocator, so they are
part of the operations; nothing is assumed about them.
-/

set_option linter.unusedSectionVars false

namespace Tpp

namespace Spec

variable {K W : Type} [DecidableEq K]

/-- One operation on a map with addresses: overwriting a mapped value keeps the address (table_common.hpp 447-459). -/
def stableStep (m : List (K × Nat × W)) : Op K (Nat × W) → List (K × Nat × W)
  | .assign k v => assign m k ((lookup m k).elim v (fun old => (old.1, v.2)))
  | op => (step m op).1

/-- A history. -/
def stableRun (m : List (K × Nat × W)) (ops : List (Op K (Nat × W))) : List (K × Nat × W) := ops.foldl stableStep m

end Spec

/-- The operation does not remove the key `k`, whatever its mapped value is. -/
def Op.keeps {K V : Type} (k : K) : Op K V → Prop
  | .erase k' => k' ≠ k
  | .extract k' => k' ≠ k
  | .clear => False
  | .eraseIf p => ∀ v, p (k, v) = false
  | _ => True

namespace Swiss

variable {K V W : Type} [DecidableEq K]

/-- One operation on a stable container: as `Table.step`, but `insert_or_assign` of a present key overwrites the mapped value at
its address (swiss_table.hpp 1348-1359, table_common.hpp 447-459). -/
def Table.stableStep (isa : Isa) (hash : K → Nat) (t : Table K (Nat × W)) : Op K (Nat × W) → M (Table K (Nat × W))
  | .assign k v => do
    let (t, _, _) ← t.insertOrAssignWith isa hash k v (fun old => (old.1, v.2))
    .ok t
  | op => do
    let (t, _) ← t.step isa hash op
    .ok t

/-- A history of operations on a stable container. -/
def Table.stableRun (isa : Isa) (hash : K → Nat) (t : Table K (Nat × W)) : List (Op K (Nat × W)) → M (Table K (Nat × W))
  | [] => .ok t
  | op :: ops => do
    let t ← t.stableStep isa hash op
    Table.stableRun isa hash t ops

theorem stableStep_spec {isa : Isa} {hash : K → Nat} {t : Table K (Nat × W)} (h : Inv isa hash t) {m : List (K × Nat × W)}
    (hm : t.contents.Perm m) (op : Op K (Nat × W)) :
    Ends isa (t.stableStep isa hash op) (fun t' => Inv isa hash t' ∧ t'.contents.Perm (Spec.stableStep m op)) := by
  have hl := fun k => Spec.lookup_perm hm h.contents_uniq k
  have other : ∀ op, Ends isa (do
      let (t, _) ← t.step isa hash op
      Except.ok t) (fun t' => Inv isa hash t' ∧ t'.contents.Perm (Spec.step m op).1) := by
    intro op
    refine (step_spec h hm op).bind ?_
    rintro ⟨t', o⟩ ⟨h1, h2, _⟩
    exact Ends.of_ok rfl ⟨h1, h2⟩
  cases op with
  | assign k v =>
    obtain ⟨t', p, b, h1, h2, _, h3⟩ := insertOrAssignWith_spec h k v (fun old => (old.1, v.2))
    refine Ends.of_ok (a := t') (by simp only [Table.stableStep, h1, bind_ok]) ⟨h2, ?_⟩
    simp only [Spec.stableStep]
    rcases h3 with ⟨_, h4, h5, _⟩ | ⟨w, _, h4, h5, _⟩
    · rw [hl] at h4
      rw [h4]
      unfold Spec.assign
      rw [Spec.erase_of_absent h4]
      exact h5.trans (hm.cons _)
    · rw [hl] at h4
      rw [h4]
      exact h5.trans ((Spec.erase_perm hm k).cons _)
  | _ => exact other _

theorem stableRun_spec {isa : Isa} {hash : K → Nat} (ops : List (Op K (Nat × W))) :
    ∀ {t : Table K (Nat × W)}, Inv isa hash t → ∀ {m : List (K × Nat × W)}, t.contents.Perm m →
      Ends isa (t.stableRun isa hash ops) (fun t' => Inv isa hash t' ∧ t'.contents.Perm (Spec.stableRun m ops)) := by
  induction ops with
  | nil => intro t h m hm; exact Ends.of_ok rfl ⟨h, hm⟩
  | cons op ops ih =>
    intro t h m hm
    unfold Table.stableRun
    refine (stableStep_spec h hm op).bind ?_
    intro t' ⟨h1, h2⟩
    exact ih h1 h2

theorem lookup_insert_present {m : List (K × V)} {k k' : K} {v w : V} (h : Spec.lookup m k = some v) :
    Spec.lookup (Spec.insert m k' w) k = some v := by
  unfold Spec.insert
  cases hx : Spec.lookup m k' with
  | some _ => exact h
  | none =>
    simp only
    rw [Spec.lookup_cons]
    by_cases e : k' = k
    · subst e; rw [h] at hx; cases hx
    · rw [if_neg e, h]

theorem lookup_filter_keep {m : List (K × V)} (hu : Spec.Uniq m) {p : K × V → Bool} {k : K} {v : V}
    (h : Spec.lookup m k = some v) (hp : p (k, v) = true) : Spec.lookup (m.filter p) k = some v := by
  have hu' : Spec.Uniq (m.filter p) := by
    unfold Spec.Uniq at hu ⊢
    exact List.Nodup.sublist (List.Sublist.map _ List.filter_sublist) hu
  rw [Spec.lookup_some hu', List.mem_filter]
  exact ⟨(Spec.lookup_some hu).mp h, hp⟩

theorem lookup_foldl_insert {m : List (K × V)} {k : K} {v : V} (h : Spec.lookup m k = some v) (xs : List (K × V)) :
    Spec.lookup (xs.foldl (fun m x => Spec.insert m x.1 x.2) m) k = some v := by
  induction xs generalizing m with
  | nil => exact h
  | cons x xs ih => exact ih (lookup_insert_present h)

/-- An operation that does not remove `k` keeps its address. -/
theorem stableStep_addr {m : List (K × Nat × W)} (hu : Spec.Uniq m) {k : K} {a : Nat} {w : W}
    (h : Spec.lookup m k = some (a, w)) {op : Op K (Nat × W)} (hk : op.keeps k) :
    ∃ w', Spec.lookup (Spec.stableStep m op) k = some (a, w') := by
  cases op with
  | insert k' v => exact ⟨w, lookup_insert_present h⟩
  | assign k' v =>
    simp only [Spec.stableStep, Spec.assign]
    by_cases e : k' = k
    · subst e
      rw [h]
      exact ⟨v.2, by rw [Spec.lookup_cons, if_pos rfl]; rfl⟩
    · refine ⟨w, ?_⟩
      rw [Spec.lookup_cons, if_neg e]
      exact lookup_filter_keep hu h (by simpa using fun g => e g.symm)
  | erase k' => exact ⟨w, lookup_filter_keep hu h (by simpa using fun g => hk g.symm)⟩
  | clear => exact absurd hk id
  | extract k' => exact ⟨w, lookup_filter_keep hu h (by simpa using fun g => hk g.symm)⟩
  | index k' d => exact ⟨w, lookup_insert_present h⟩
  | insertNode x => exact ⟨w, lookup_insert_present h⟩
  | eraseIf p => exact ⟨w, lookup_filter_keep hu h (by rw [hk]; rfl)⟩
  | insertRange ra xs => exact ⟨w, lookup_foldl_insert h xs⟩
  | _ => exact ⟨w, h⟩

/-- A history of such operations keeps the address. -/
theorem stableRun_addr {isa : Isa} {hash : K → Nat} {t t' : Table K (Nat × W)} (ht : Inv isa hash t) {k : K} {a : Nat} {w : W}
    (h : t.lookup isa hash k = .ok (some (a, w))) {ops : List (Op K (Nat × W))} (hk : ∀ op ∈ ops, op.keeps k)
    (hr : t.stableRun isa hash ops = .ok t') :
    Inv isa hash t' ∧ ∃ w', t'.lookup isa hash k = .ok (some (a, w')) := by
  induction ops generalizing t w with
  | nil => cases hr; exact ⟨ht, w, h⟩
  | cons op ops ih =>
    unfold Table.stableRun at hr
    rcases stableStep_spec ht (List.Perm.refl _) op with ⟨t1, h1, h2, h3⟩ | ⟨_, h1⟩
    · rw [h1, bind_ok] at hr
      rw [lookup_spec ht] at h
      obtain ⟨w1, hw1⟩ := stableStep_addr ht.contents_uniq (Except.ok.inj h) (hk op List.mem_cons_self)
      refine ih h2 (w := w1) ?_ (fun o ho => hk o (List.mem_cons_of_mem _ ho)) hr
      rw [lookup_spec h2, Spec.lookup_perm h3 h2.contents_uniq, hw1]
    · rw [h1] at hr; cases hr

end Swiss
end Tpp
