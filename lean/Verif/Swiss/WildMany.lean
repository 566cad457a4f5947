import Verif.Swiss.Wild
import Verif.Swiss.Bulk
import Verif.Swiss.SelfOps
import Verif.Swiss.Hist

/-!
# Hash functions and comparisons that answer arbitrarily (several swiss tables, `merge` and `swap`)

As in `Verif.Swiss.Wild`.  `merge` computes a hash and searches the target once for each element of the source; the answers are given by the number
of the element in the order of iteration.  An element that is moved to the target gets a new serial number there.
-/

set_option linter.unusedSectionVars false

namespace Tpp.Swiss

variable {K V : Type}

/-- Operations on several containers (swiss_table.hpp 894-1146). -/
inductive ManyWild (K V : Type)
  | op (i : Nat) (o : WildOp K V)
  | merge (i j : Nat) (ans : Nat → Nat × Answers K)
  | swap (i j : Nat)
  | move (i j : Nat)
  | copy (i j : Nat)
  | copyAssign (i j : Nat)
  | mergeMove (i j : Nat) (ans : Nat → Nat × Answers K)

namespace Table

/-- The loop of the unordered `merge` (swiss_table.hpp 1103-1110) over the positions of `src`; `k` elements have been visited. -/
def mergeLoopWild (isa : Isa) (g : Nat) (ans : Nat → Nat × Answers K) : (fuel k : Nat) → (dst src : Table (Nat × Nat) (K × V)) → (pos last : Nat) →
    M (Table (Nat × Nat) (K × V) × Table (Nat × Nat) (K × V))
  | 0, _, _, _, _, _ => .error .diverge
  | fuel + 1, k, dst, src, pos, last =>
    if pos = last then .ok (dst, src)
    else do
      let _ ← src.readNode pos
      let p ← dst.findNodeWild isa (ans k).2 (ans k).1
      let (dst, src) ←
        if p = dst.cap then do
          let (src, n) ← src.extractAt isa pos
          let (dst, _) ← dst.emplaceNode isa ⟨(g + pos, (ans k).1), n.val, (ans k).1⟩
          Except.ok (dst, src)
        else Except.ok (dst, src)
      let pos ← src.nextOccupied isa (src.cap + 1) (pos + 1)
      mergeLoopWild isa g ans fuel (k + 1) dst src pos last

/-- `dst.merge(src)` for different unordered tables (swiss_table.hpp 1096-1113). -/
def mergeWild (isa : Isa) (g : Nat) (ans : Nat → Nat × Answers K) (dst src : Table (Nat × Nat) (K × V)) :
    M (Table (Nat × Nat) (K × V) × Table (Nat × Nat) (K × V)) := do
  let dst ← dst.reserve isa (dst.size + src.size)
  let pos ← src.begin_ isa
  let last ← src.end_ isa
  mergeLoopWild isa g ans (src.cap + 1) 0 dst src pos last

/-- `dst.merge(std::move(src))` for different unordered tables of the same type with `std::allocator` (swiss_table.hpp 1116-1122). -/
def mergeMoveWild (isa : Isa) (g : Nat) (ans : Nat → Nat × Answers K) (dst src : Table (Nat × Nat) (K × V)) :
    M (Table (Nat × Nat) (K × V) × Table (Nat × Nat) (K × V)) :=
  if dst.size = 0 then dst.moveAssign isa .std src else dst.mergeWild isa g ans src

end Table

/-- One operation (swiss_table.hpp 894-1146) and the next serial number; merging a container into itself is left out, assigning it to itself
does nothing (swiss_table.hpp 858, 872); `copy i j` gives the number `i` to a copy of container `j` (swiss_table.hpp 848). -/
def wildStep (isa : Isa) (g : Nat) (w : Nat → Table (Nat × Nat) (K × V)) : ManyWild K V → M ((Nat → Table (Nat × Nat) (K × V)) × Out K V × Nat)
  | .op i o => do
    let r ← (w i).stepWild isa g o
    .ok (upd w i r.1, r.2, g + 1)
  | .merge i j ans =>
    if i = j then .ok (w, .unit, g)
    else do
      let r ← (w i).mergeWild isa g ans (w j)
      .ok (upd (upd w i r.1) j r.2, .unit, g + (w j).cap)
  | .swap i j =>
    let r := (w i).swapBuffers (w j)
    .ok (upd (upd w i r.1) j r.2, .unit, g)
  | .move i j =>
    if i = j then .ok (w, .unit, g)
    else do
      let r ← (w i).moveAssign isa .std (w j)
      .ok (upd (upd w i r.1) j r.2, .unit, g)
  | .copy i j => do
    let t ← (w j).copyCtor isa
    .ok (upd w i t, .unit, g)
  | .copyAssign i j =>
    if i = j then .ok (w, .unit, g)
    else do
      let t ← (w i).copyAssign isa .std (w j)
      .ok (upd w i t, .unit, g)
  | .mergeMove i j ans =>
    if i = j then .ok (w, .unit, g)
    else do
      let r ← (w i).mergeMoveWild isa g ans (w j)
      .ok (upd (upd w i r.1) j r.2, .unit, g + (w j).cap)

/-- A program with several containers (swiss_table.hpp 894-1146). -/
def wildRun (isa : Isa) (g : Nat) (w : Nat → Table (Nat × Nat) (K × V)) : List (ManyWild K V) → M ((Nat → Table (Nat × Nat) (K × V)) × List (Out K V))
  | [] => .ok (w, [])
  | o :: os => do
    let r ← wildStep isa g w o
    let s ← wildRun isa r.2.2 r.1 os
    .ok (s.1, r.2.1 :: s.2)

theorem Below.up {g g' : Nat} {t : Table (Nat × Nat) (K × V)} (h : Below g t) (hg : g ≤ g') : Below g' t :=
  fun x hx => Nat.lt_of_lt_of_le (h x hx) hg

/-- How a merge divides the source `l`, in the order of iteration, into the elements that are moved and those that stay, where `d` are the elements of
the target afterwards: element number `k` stays only if the comparison in the search for it accepts an element of the target
(swiss_table.hpp 1103-1108). -/
inductive Divided (ans : Nat → Nat × Answers K) (d : List (K × V)) : (k : Nat) → (l moved stay : List (K × V)) → Prop
  | nil {k} : Divided ans d k [] [] []
  | move {k e l mv st} : Divided ans d (k + 1) l mv st → Divided ans d k (e :: l) (e :: mv) st
  | stay {k e l mv st} : (∃ x ∈ d, (ans k).2.accepts x.1) → Divided ans d (k + 1) l mv st → Divided ans d k (e :: l) mv (e :: st)

theorem Divided.perm {ans : Nat → Nat × Answers K} {d : List (K × V)} {k : Nat} {l mv st : List (K × V)} (h : Divided ans d k l mv st) :
    l.Perm (mv ++ st) := by
  induction h with
  | nil => exact List.Perm.refl _
  | move _ ih => exact ih.cons _
  | stay _ _ ih => exact (ih.cons _).trans List.perm_middle.symm

theorem mergeLoopWild_spec {isa : Isa} {g : Nat} {ans : Nat → Nat × Answers K} : ∀ (fuel k : Nat) (dst src : Table (Nat × Nat) (K × V)) (pos : Nat),
    Inv isa Prod.snd dst → Inv isa Prod.snd src → Below (g + pos) dst → pos ≤ src.cap → (pos < src.cap → (src.ctl pos).isOccupied = true) →
    src.cap - pos < fuel →
    Ends isa (Table.mergeLoopWild isa g ans fuel k dst src pos src.cap) (fun r => Inv isa Prod.snd r.1 ∧ Inv isa Prod.snd r.2 ∧ Below (g + src.cap) r.1 ∧
      (∀ x ∈ r.2.contents, x ∈ src.contents) ∧ ∃ moved stay : List (K × V), Divided ans (r.1.contents.map Prod.snd) k ((src.elemsFrom pos).map Prod.snd) moved stay ∧
        (r.1.contents.map Prod.snd).Perm (moved ++ dst.contents.map Prod.snd) ∧
        (src.contents.map Prod.snd).Perm (moved ++ r.2.contents.map Prod.snd)) := by
  intro fuel
  induction fuel with
  | zero => intro _ _ _ _ _ _ _ _ _ h; omega
  | succ fuel ih =>
    intro k dst src pos hd hs hb hle hocc hf
    unfold Table.mergeLoopWild
    by_cases he : pos = src.cap
    · rw [if_pos he]
      have : src.elemsFrom pos = [] := elemsFrom_end src (by omega)
      rw [this]
      exact Ends.of_ok rfl ⟨hd, hs, he ▸ hb, fun x hx => hx, [], [], .nil, List.Perm.refl _, List.Perm.refl _⟩
    · rw [if_neg he]
      have hp : pos < src.cap := by omega
      obtain ⟨n, hn⟩ := node_of_occupied hs hp (hocc hp)
      obtain ⟨hel, -⟩ := elemsFrom_occupied hs hp hn
      rw [readNode_some hp hn]
      simp only [bind_ok]
      obtain ⟨-, hl, hc⟩ := findNodeWild_cases hd hb (ans k).2 (ans k).1
      rcases hc with hfnd | ⟨i, d, hi, -, hacc, hfnd, -, hmem⟩
      · rw [hfnd]
        simp only [bind_ok, if_true]
        refine (extractAt_spec hs hp hn).bind ?_
        rintro ⟨src', n'⟩ ⟨x1, x2, x3, x4, x5, x6, x7, x8⟩
        simp only at x1 x2 x3 x4 x5 x6 x7 x8
        subst x2
        have hno : ∀ i, i < dst.cap → ∀ m, dst.node i = some m → m.key ≠ (g + pos, (ans k).1) := by
          intro i hi m hm e
          have := hb (m.key, m.val) (mem_contents.mpr ⟨i, m, hi, hm, rfl, rfl⟩)
          rw [e] at this
          exact Nat.lt_irrefl _ this
        obtain ⟨dst', p, e1, e2, e3, e4, e5, e6, e7, e8⟩ :=
          emplaceNode_spec hd (n := ⟨(g + pos, (ans k).1), n'.val, (ans k).1⟩) rfl hno
        rw [e1]
        simp only [bind_ok]
        refine (step_iter x1 (pos := pos) (by omega)).bind ?_
        rintro q ⟨q1, q2, q3, q4⟩
        have hcont : dst'.contents.Perm (((g + pos, (ans k).1), n'.val) :: dst.contents) := e5.map _
        have hb' : Below (g + q) dst' := by
          intro x hx
          rcases List.mem_cons.mp (hcont.mem_iff.mp hx) with e | e
          · rw [e]
            simp only
            omega
          · have := hb x e
            omega
        rw [show src.cap = src'.cap by omega]
        refine (ih (k + 1) dst' src' q e2 x1 hb' q2 q3 (by omega)).mono ?_
        rintro r ⟨r1, r2, r3, r4, moved, stay, r5, r6, r7⟩
        have htail : src'.elemsFrom q = src.elemsFrom (pos + 1) := by
          rw [q4]
          exact elemsFrom_congr x3 (fun i hi _ => x6 i (by omega))
        refine ⟨r1, r2, r3, ?_, n'.val :: moved, stay, ?_, ?_, ?_⟩
        · exact fun x hx => x8.mem_iff.mpr (List.mem_cons_of_mem _ (r4 x hx))
        · rw [hel, ← htail, List.map_cons]
          exact .move r5
        · refine r6.trans ?_
          refine ((hcont.map Prod.snd).append_left _).trans ?_
          simpa using List.perm_middle
        · exact (x8.map Prod.snd).trans (r7.cons _)
      · rw [hfnd]
        simp only [bind_ok, show ¬ i = dst.cap by omega, if_false]
        refine (step_iter hs hp).bind ?_
        rintro q ⟨q1, q2, q3, q4⟩
        refine (ih (k + 1) dst src q hd hs (hb.up (by omega)) q2 q3 (by omega)).mono ?_
        rintro r ⟨r1, r2, r3, r4, moved, stay, r5, r6, r7⟩
        refine ⟨r1, r2, r3, r4, moved, n.val :: stay, ?_, r6, r7⟩
        rw [hel, ← q4, List.map_cons]
        exact .stay ⟨d.val, r6.mem_iff.mpr (List.mem_append_right _ (List.mem_map.mpr ⟨_, hmem, rfl⟩)), hacc⟩ r5

/-- What `merge` with arbitrary answers does: each element of the source is moved or stays, and stays only if the comparison in the search for it
accepts an element of the target. -/
theorem mergeWild_spec {isa : Isa} {g : Nat} {ans : Nat → Nat × Answers K} {dst src : Table (Nat × Nat) (K × V)} (hd : Inv isa Prod.snd dst)
    (hs : Inv isa Prod.snd src) (hb : Below g dst) (hb' : Below g src) :
    Ends isa (dst.mergeWild isa g ans src) (fun r => Inv isa Prod.snd r.1 ∧ Inv isa Prod.snd r.2 ∧ Below (g + src.cap) r.1 ∧ Below (g + src.cap) r.2 ∧
      ∃ moved stay : List (K × V), Divided ans (r.1.contents.map Prod.snd) 0 (src.contents.map Prod.snd) moved stay ∧
        (r.1.contents.map Prod.snd).Perm (moved ++ dst.contents.map Prod.snd) ∧
        (r.2.contents.map Prod.snd).Perm stay) := by
  obtain ⟨d, d1, d2, d3, d4, d5, _⟩ := reserve_spec hd (dst.size + src.size)
  unfold Table.mergeWild
  rw [d1]
  simp only [bind_ok, Table.begin_]
  refine (toIter_spec hs (Nat.zero_le _)).bind ?_
  intro pos hpos
  rw [end_spec hs]
  simp only [bind_ok]
  have hc : d.contents.Perm dst.contents := contents_perm d4
  have hbd : Below (g + pos) d := fun x hx => by
    have := hb x (hc.mem_iff.mp hx)
    omega
  refine (mergeLoopWild_spec (src.cap + 1) 0 d src pos d2 hs hbd hpos.2.1 hpos.2.2.2 (by omega)).mono ?_
  rintro r ⟨r1, r2, r3, r4, moved, stay, r5, r6, r7⟩
  have he : src.elemsFrom pos = src.contents := by rw [← elemsFrom_zero]; exact (elemsFrom_next hs.live hpos).symm
  rw [he] at r5
  refine ⟨r1, r2, r3, fun x hx => Nat.lt_of_lt_of_le (hb' x (r4 x hx)) (by omega), moved, stay, r5, r6.trans ((hc.map _).append_left _), ?_⟩
  exact (List.perm_append_left_iff moved).mp (r7.symm.trans r5.perm)

end Tpp.Swiss
