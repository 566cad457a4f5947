import Verif.Swiss.Bulk

/-!
# `merge` of a sparse container with itself, and of a temporary
-/

set_option linter.unusedSectionVars false

namespace Tpp.Swiss

variable {K V : Type} [DecidableEq K]

namespace Table

/-- The loop of the unordered `merge` (swiss_table.hpp 1103-1110) if `other` is the container itself. -/
def mergeSelfLoop (isa : Isa) (hash : K → Nat) : (fuel : Nat) → (t : Table K V) → (pos last : Nat) → M (Table K V)
  | 0, _, _, _ => .error .diverge
  | fuel + 1, t, pos, last =>
    if pos = last then .ok t
    else do
      let n ← t.readNode pos
      let h := hash n.key
      let p ← t.findNode isa n.key h
      let t ←
        if p = t.cap then do
          let (t, n) ← t.extractAt isa pos
          let (t, _) ← t.emplaceNode isa ⟨n.key, n.val, h⟩
          Except.ok t
        else Except.ok t
      let pos ← t.nextOccupied isa (t.cap + 1) (pos + 1)
      mergeSelfLoop isa hash fuel t pos last

/-- `t.merge(t)` for unordered tables (swiss_table.hpp 1096-1113). -/
def mergeSelf (isa : Isa) (hash : K → Nat) (t : Table K V) : M (Table K V) := do
  let t ← t.reserve isa (t.size + t.size)
  let pos ← t.begin_ isa
  let last ← t.end_ isa
  mergeSelfLoop isa hash (t.cap + 1) t pos last

/-- `dst.merge(std::move(src))` (swiss_table.hpp 1116-1122) of distinct containers: an empty `dst` is assigned to, which also moves the
hash function; `hash` is that of `dst`. -/
def mergeMove (isa : Isa) (al : AllocP) (hash : K → Nat) (dst src : Table K V) : M (Table K V × Table K V) :=
  if dst.size = 0 then dst.moveAssign isa al src else dst.merge isa hash src

/-- `t.merge(std::move(t))` (swiss_table.hpp 1116-1122): assigning `t` to itself does nothing (line 872). -/
def mergeMoveSelf (isa : Isa) (hash : K → Nat) (t : Table K V) : M (Table K V) :=
  if t.size = 0 then .ok t else t.mergeSelf isa hash

end Table

theorem mergeSelfLoop_spec {isa : Isa} {hash : K → Nat} {t : Table K V} (h : Inv isa hash t) :
    ∀ (fuel pos : Nat), pos ≤ t.cap → (pos < t.cap → (t.ctl pos).isOccupied = true) → t.cap - pos < fuel →
      Ends isa (Table.mergeSelfLoop isa hash fuel t pos t.cap) (fun r => r = t) := by
  intro fuel
  induction fuel with
  | zero => intro _ _ _ hf; omega
  | succ fuel ih =>
    intro pos hle hocc hf
    unfold Table.mergeSelfLoop
    by_cases he : pos = t.cap
    · rw [if_pos he]
      exact Ends.of_ok rfl rfl
    · rw [if_neg he]
      have hp : pos < t.cap := by omega
      obtain ⟨n, hn⟩ := node_of_occupied h hp (hocc hp)
      rw [readNode_some hp hn]
      simp only [bind_ok]
      rcases find_cases h n.key with ⟨i, n', hi, _, _, hf', _⟩ | ⟨hno, _, _⟩
      · rw [hf']
        simp only [bind_ok, show ¬ i = t.cap by omega, if_false]
        refine (step_iter h hp).bind ?_
        rintro q ⟨q1, q2, q3, _⟩
        exact ih q q2 q3 (by omega)
      · exact absurd rfl (hno pos hp n hn)

/-- Merging a container with itself does what `reserve` does. -/
theorem mergeSelf_spec {isa : Isa} {hash : K → Nat} {t : Table K V} (h : Inv isa hash t) :
    Ends isa (t.mergeSelf isa hash) (fun r => t.reserve isa (t.size + t.size) = .ok r ∧ Inv isa hash r ∧ r.contents.Perm t.contents) := by
  obtain ⟨d, d1, d2, d3, d4, d5, _⟩ := reserve_spec h (t.size + t.size)
  unfold Table.mergeSelf
  rw [d1]
  simp only [bind_ok, Table.begin_]
  refine (toIter_spec d2 (Nat.zero_le _)).bind ?_
  intro pos hpos
  rw [end_spec d2]
  simp only [bind_ok]
  refine (mergeSelfLoop_spec d2 (d.cap + 1) pos hpos.2.1 hpos.2.2.2 (by omega)).mono ?_
  rintro r rfl
  exact ⟨rfl, d2, contents_perm d4⟩

end Tpp.Swiss
