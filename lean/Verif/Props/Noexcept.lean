import Verif.Props.SparseMem
import Verif.Props.DenseHeap

/-!
# C94: allocations in functions declared `noexcept`

Every allocation takes the next fresh address, so the addresses used by a statement are its allocations.  One that fails inside a
function declared `noexcept` calls `std::terminate`.
-/

set_option linter.unusedSectionVars false

namespace Tpp.Props

section Sparse

open Tpp.Swiss.Mem Tpp.Swiss.Mem.World

/-- The statements declared `noexcept` if moves of the allocator, of the hash function and of the comparison are: move assignment
(swiss_table.hpp 870) and the destructor (882; destructors are by default).  The move constructors are not: those of the buffer
(474, 642; 510, 668) lack the declaration (851-854). -/
def sparseNoexcept : Op → Bool
  | .moveAssign .. | .destroy .. => true
  | _ => false

/-- What a statement declared `noexcept` allocates: `move_data` (swiss_table.hpp 1484-1521) takes a new buffer if the old one has
fewer slots. -/
def sparseAllocs (cfg : ACfg) (L : Lay) (w : World) : Op → Nat
  | .moveAssign dst src =>
    match w.box dst, w.box src with
    | some c, some o =>
      if dst = src ∨ cfg.moveProp = true ∨ c.buf.al = o.buf.al ∨ o.size = 0 ∨ o.buf.cap ≤ c.buf.cap then 0
      else if L.comb then 1 else 2
    | _, _ => 0
  | _ => 0

theorem sparse_free_next {nullOk : Bool} {h h' : Heap} {p : Option Nat} {x : Blk} (e : h.free nullOk p x = .ok h') :
    h'.next = h.next := by
  unfold Heap.free at e
  split at e <;> split at e <;> cases e <;> rfl

theorem sparse_release_next {L : Lay} {nullOk : Bool} {h h' : Heap} {b : Buf} (e : b.release L nullOk h = .ok h') :
    h'.next = h.next := by
  unfold Buf.release at e
  obtain ⟨h1, e1, e⟩ := Tpp.Dense.bind_eq_ok e
  have := sparse_free_next e1
  split at e
  · cases e; exact this
  · rw [sparse_free_next e, this]

theorem sparse_assign_next {L : Lay} {nullOk prop : Bool} {h : Heap} {b : Buf} {al : Nat} {r : Heap × Buf}
    (e : b.assign L nullOk prop h al = .ok r) : r.1.next = h.next ∧ r.2 = if prop then ⟨al, 0, none, none⟩ else b := by
  unfold Buf.assign at e
  split at e
  · rename_i hp
    split at e
    · obtain ⟨h1, e1, e⟩ := Tpp.Dense.bind_eq_ok e
      cases e
      exact ⟨sparse_free_next e1, (if_pos hp).symm⟩
    · obtain ⟨h1, e1, e⟩ := Tpp.Dense.bind_eq_ok e
      obtain ⟨h2, e2, e⟩ := Tpp.Dense.bind_eq_ok e
      cases e
      exact ⟨by rw [sparse_free_next e2, sparse_free_next e1], (if_pos hp).symm⟩
  · rename_i hp
    cases e
    exact ⟨rfl, (if_neg hp).symm⟩

theorem sparse_allocate_next (L : Lay) (h : Heap) (b : Buf) (n : Nat) :
    (b.allocate L h n).1.next = h.next + if L.comb then 1 else 2 := by
  unfold Buf.allocate
  split <;> rfl

theorem sparse_copyData_next {L : Lay} {nullOk : Bool} {h : Heap} {c o : Cont} {r : Heap × Cont}
    (e : c.copyData L nullOk h o = .ok r) :
    r.1.next = h.next + if o.size ≠ 0 ∧ c.buf.cap < o.buf.cap then (if L.comb then 1 else 2) else 0 := by
  unfold Cont.copyData at e
  split at e
  · cases e
  · split at e
    · rename_i h0
      cases e
      rw [if_neg (fun hh => hh.1 h0)]
      rfl
    · rename_i h0
      obtain ⟨q, e1, e⟩ := Tpp.Dense.bind_eq_ok e
      cases e
      unfold Buf.reallocate at e1
      split at e1
      · rename_i hc
        rw [if_pos ⟨h0, hc⟩]
        obtain ⟨h1, e2, e1⟩ := Tpp.Dense.bind_eq_ok e1
        cases e1
        have : h1.next = h.next := by
          split at e2
          · exact sparse_release_next e2
          · cases e2; rfl
        rw [← this]
        exact sparse_allocate_next ..
      · rename_i hc
        cases e1
        rw [if_neg (fun hh => hc hh.2)]
        rfl

/-- C94, sparse containers: exactly how much a statement declared `noexcept` allocates. -/
theorem C94_sparse_count {cfg : ACfg} {L : Lay} {w w' : World} {o : Op} (hn : sparseNoexcept o = true) (e : w.step cfg L o = .ok w') :
    w'.h.next = w.h.next + sparseAllocs cfg L w o := by
  cases o with
  | moveAssign dst src =>
    simp only [World.step] at e
    simp only [sparseAllocs]
    cases hd : w.box dst with
    | none => rw [hd] at e; cases e; rfl
    | some c =>
      cases hs : w.box src with
      | none => rw [hd, hs] at e; cases e; rfl
      | some o =>
        rw [hd, hs] at e
        simp only at e ⊢
        by_cases hne : dst = src
        · rw [if_pos hne] at e
          cases e
          rw [if_pos (.inl hne)]
          rfl
        · rw [if_neg hne] at e
          obtain ⟨r, e1, e⟩ := Tpp.Dense.bind_eq_ok e
          obtain ⟨q, e2, e⟩ := Tpp.Dense.bind_eq_ok e
          cases e
          obtain ⟨h1, h2⟩ := sparse_assign_next e1
          unfold Cont.moveFrom at e2
          simp only at e2 ⊢
          by_cases hp : cfg.moveProp = true
          · rw [if_pos hp] at h2
            rw [h2] at e2
            simp only [if_true] at e2
            obtain ⟨u, e3, e2⟩ := Tpp.Dense.bind_eq_ok e2
            cases e2
            rw [if_pos (.inr (.inl hp))]
            exact h1
          · rw [if_neg hp] at h2
            rw [h2] at e2
            split at e2
            · rename_i ha
              obtain ⟨u, e3, e2⟩ := Tpp.Dense.bind_eq_ok e2
              cases e2
              rw [if_pos (.inr (.inr (.inl ha)))]
              exact h1
            · rename_i ha
              obtain ⟨u, e3, e2⟩ := Tpp.Dense.bind_eq_ok e2
              cases e2
              have := sparse_copyData_next e3
              simp only at this ⊢
              rw [this, h1]
              by_cases hz : o.size ≠ 0 ∧ c.buf.cap < o.buf.cap
              · have hx : ¬(dst = src ∨ cfg.moveProp = true ∨ c.buf.al = o.buf.al ∨ o.size = 0 ∨ o.buf.cap ≤ c.buf.cap) := by
                  rintro (g | g | g | g | g)
                  · exact hne g
                  · exact hp g
                  · exact ha g
                  · exact hz.1 g
                  · omega
                rw [if_pos hz, if_neg hx]
              · rw [if_neg hz, if_pos]
                by_cases h0 : o.size = 0
                · exact .inr (.inr (.inr (.inl h0)))
                · exact .inr (.inr (.inr (.inr (by
                    have := fun g => hz ⟨h0, g⟩
                    omega))))
  | destroy s =>
    simp only [World.step] at e
    cases hd : w.box s with
    | none => rw [hd] at e; cases e; rfl
    | some c =>
      rw [hd] at e
      simp only at e
      obtain ⟨r, e1, e⟩ := Tpp.Dense.bind_eq_ok e
      cases e
      unfold Buf.deallocate at e1
      obtain ⟨h1, e2, e3⟩ := Tpp.Dense.bind_eq_ok e1
      cases e3
      exact sparse_release_next e2
  | _ => cases hn

/-- **C94 for sparse containers**: no allocation if all containers have equal allocators, or the allocator propagates. -/
theorem C94_sparse_partial {cfg : ACfg} {L : Lay} {w w' : World} {o : Op} (hn : sparseNoexcept o = true)
    (hm : (∀ s s' c c', w.box s = some c → w.box s' = some c' → c.buf.al = c'.buf.al) ∨ cfg.moveProp = true)
    (e : w.step cfg L o = .ok w') : w'.h.next = w.h.next := by
  rw [C94_sparse_count hn e]
  suffices sparseAllocs cfg L w o = 0 by omega
  cases o with
  | moveAssign dst src =>
    simp only [sparseAllocs]
    split
    · rename_i c o hc ho
      refine if_pos (.inr ?_)
      rcases hm with hm | hm
      · exact .inr (.inl (hm _ _ _ _ hc ho))
      · exact .inl hm
    · rfl
  | _ => rfl

/-- **C94 is false for sparse containers**: whatever the program did before, a move assignment from a container with elements and
an unequal allocator that does not propagate allocates if the target has fewer slots. -/
theorem C94_sparse_false {cfg : ACfg} {L : Lay} {w w' : World} (hp : cfg.moveProp = false) {dst src : Nat} {c o : Cont}
    (hc : w.box dst = some c) (ho : w.box src = some o) (ha : c.buf.al ≠ o.buf.al) (h0 : o.size ≠ 0) (hl : c.buf.cap < o.buf.cap)
    (e : w.step cfg L (.moveAssign dst src) = .ok w') : sparseNoexcept (.moveAssign dst src) = true ∧ w.h.next < w'.h.next := by
  refine ⟨rfl, ?_⟩
  have hne : dst ≠ src := by
    rintro rfl
    rw [hc] at ho
    cases ho
    exact ha rfl
  rw [C94_sparse_count rfl e]
  simp only [sparseAllocs, hc, ho]
  rw [if_neg]
  · split <;> omega
  · rintro (g | g | g | g | g)
    · exact hne g
    · rw [hp] at g; cases g
    · exact ha g
    · exact h0 g
    · omega

/-- Container 0 has four elements in eight slots and allocator 1, container 1 has allocator 2: moving 0 to 1 allocates twice with separate
buffers, once with a combined one; not at all if the allocator propagates, or the second time. -/
example : (([⟨false, 16, 8⟩, ⟨true, 16, 8⟩] : List Lay).map fun L => ([false, true] : List Bool).map fun p =>
    (memProg ⟨true, p, true, true⟩ L [.make 0 1, .rehash 0 7, .resized 0 4, .make 1 2]).toOption.bind fun w =>
      (w.step ⟨true, p, true, true⟩ L (.moveAssign 1 0)).toOption.map fun w' => w'.h.next - w.h.next) =
    [[some 2, some 0], [some 1, some 0]] := by decide +kernel

end Sparse

section Dense

open Tpp.Dense Tpp.Dense.HWorld

variable {k : Nat} {K V : Type} [DecidableEq K]

/-- The statements declared `noexcept` under the same conditions (dense_table.hpp 239, 244, 276, 304, 460). -/
def denseNoexcept : HOp k K V → Bool
  | .moveMake .. | .moveAssign .. | .swap .. | .destroy .. => true
  | _ => false

/-- The allocations of `move_data` (dense_table.hpp 860-885) for a target with `bc` buckets and room for `cap` elements. -/
def moveAllocs (bc cap : Nat) (o : Box k K V) : Nat :=
  if o.t.size = 0 then 0 else (if bc < o.t.bc then 1 else 0) + if cap < o.t.size then 1 else 0

/-- What a statement declared `noexcept` allocates. -/
def denseAllocs (cfg : ACfg) (w : HWorld k K V) : HOp k K V → Nat
  | .moveMake s src al =>
    match w.box s, w.box src with
    | none, some o => if al.getD o.al = o.al then 0 else moveAllocs 0 0 o
    | _, _ => 0
  | .moveAssign dst src =>
    match w.box dst, w.box src with
    | some b, some o => if dst = src ∨ cfg.moveProp = true ∨ b.al = o.al then 0 else moveAllocs b.t.bc b.t.cap o
    | _, _ => 0
  | _ => 0

theorem dense_free_next {nullOk : Bool} {h h' : Heap} {p : Option Nat} {x : Blk} (e : h.free nullOk p x = .ok h') :
    h'.next = h.next := by
  unfold Heap.free at e
  split at e <;> split at e <;> cases e <;> rfl

theorem dense_freeIf_next {h h' : Heap} {p : Option Nat} {x : Blk} (e : h.freeIf p x = .ok h') : h'.next = h.next := by
  unfold Heap.freeIf at e
  split at e
  · cases e; rfl
  · exact dense_free_next e

theorem dense_realloc_next {h : Heap} {p : Option Nat} {x : Blk} {n : Nat} {r : Heap × Option Nat} (e : h.realloc p x n = .ok r) :
    r.1.next = h.next + if x.n < n then 1 else 0 := by
  unfold Heap.realloc at e
  split at e
  · rename_i hn
    obtain ⟨h1, e1, e⟩ := bind_eq_ok e
    cases e
    rw [if_pos hn, ← dense_freeIf_next e1]
    rfl
  · rename_i hn
    cases e
    rw [if_neg hn]
    rfl

theorem dense_moveData_next {s : HB k K V} {o : Box k K V} {r : HB k K V × Box k K V} (e : s.moveData o = .ok r) :
    r.1.h.next = s.h.next + moveAllocs s.b.t.bc s.b.t.cap o := by
  unfold HB.moveData at e
  unfold moveAllocs
  by_cases h0 : o.t.size = 0
  · rw [if_pos (.inr h0)] at e
    obtain ⟨u, _, e⟩ := bind_eq_ok e
    cases e
    rw [if_pos h0]
    rfl
  · by_cases h1 : s.b.t.size = 0
    · rw [if_neg (fun hh => hh.elim (fun g => g h1) h0)] at e
      obtain ⟨r1, e1, e⟩ := bind_eq_ok e
      obtain ⟨r2, e2, e⟩ := bind_eq_ok e
      obtain ⟨u, _, e⟩ := bind_eq_ok e
      cases e
      rw [if_neg h0, ← Nat.add_assoc]
      simp only
      rw [dense_realloc_next e2, dense_realloc_next e1]
      rfl
    · rw [if_pos (.inl h1)] at e
      obtain ⟨u, e1, e⟩ := bind_eq_ok e
      unfold Table.moveData at e1
      rw [if_neg h0] at e1
      obtain ⟨t, e2, _⟩ := bind_eq_ok e1
      unfold Table.copyData at e2
      rw [if_pos h1] at e2
      cases e2

theorem dense_moveFrom_next {s : HB k K V} {o : Box k K V} {r : HB k K V × Box k K V} (e : s.moveFrom o = .ok r) :
    r.1.h.next = s.h.next + if s.b.al = o.al then 0 else moveAllocs s.b.t.bc s.b.t.cap o := by
  unfold HB.moveFrom at e
  split at e
  · rename_i ha
    cases e
    rw [if_pos ha]
    rfl
  · rename_i ha
    rw [if_neg ha]
    exact dense_moveData_next e

theorem dense_moveAssign_next {nullOk prop : Bool} {s : HB k K V} {o : Box k K V} {r : HB k K V × Box k K V}
    (e : s.moveAssign nullOk prop o = .ok r) :
    r.1.h.next = s.h.next + if prop = true ∨ s.b.al = o.al then 0 else moveAllocs s.b.t.bc s.b.t.cap o := by
  unfold HB.moveAssign at e
  obtain ⟨s1, e1, e0⟩ := bind_eq_ok e
  unfold HB.lift at e1
  obtain ⟨t, et, e3⟩ := bind_eq_ok e1
  injection e3 with e3
  subst e3
  obtain ⟨s2, e2, e4⟩ := bind_eq_ok e0
  have hp := Table.clearData_post ({ s.b.t with lf := o.t.lf } : Table k K V)
  rw [et] at hp
  have h1 : t.cap = s.b.t.cap := hp.1
  have h2 : t.bc = s.b.t.bc := hp.2
  rw [dense_moveFrom_next e4]
  cases prop with
  | true =>
    have hx : (true = true ∨ s.b.al = o.al) := .inl rfl
    rw [if_pos hx]
    simp only [if_true] at e2
    unfold HB.propagate at e2
    obtain ⟨m1, e5, e6⟩ := bind_eq_ok e2
    obtain ⟨m2, e7, e8⟩ := bind_eq_ok e6
    cases e8
    have hy : o.al = o.al := rfl
    rw [if_pos hy]
    simp only
    rw [dense_free_next e7, dense_free_next e5]
  | false =>
    cases e2
    simp [h1, h2]

/-- C94, dense containers: exactly how much a statement declared `noexcept` allocates. -/
theorem C94_dense_count {cfg : ACfg} {hash : K → Nat} {w w' : HWorld k K V} {o : HOp k K V} (hn : denseNoexcept o = true)
    (e : w.step cfg hash o = .ok w') : w'.h.next = w.h.next + denseAllocs cfg w o := by
  cases o with
  | moveMake s src al =>
    simp only [HWorld.step] at e
    simp only [denseAllocs]
    cases hd : w.box s with
    | some c => rw [hd] at e; cases e; rfl
    | none =>
      cases hs : w.box src with
      | none => rw [hd, hs] at e; cases e; rfl
      | some o =>
        rw [hd, hs] at e
        simp only at e ⊢
        obtain ⟨r, e1, e⟩ := bind_eq_ok e
        cases e
        exact dense_moveFrom_next e1
  | moveAssign dst src =>
    simp only [HWorld.step] at e
    simp only [denseAllocs]
    cases hd : w.box dst with
    | none => rw [hd] at e; cases e; rfl
    | some b =>
      cases hs : w.box src with
      | none => rw [hd, hs] at e; cases e; rfl
      | some o =>
        rw [hd, hs] at e
        simp only at e ⊢
        by_cases hne : dst = src
        · rw [if_pos hne] at e
          cases e
          rw [if_pos (.inl hne)]
          rfl
        · rw [if_neg hne] at e
          obtain ⟨r, e1, e⟩ := bind_eq_ok e
          cases e
          simp only
          rw [dense_moveAssign_next e1]
          simp [hne]
  | swap a b =>
    simp only [HWorld.step] at e
    cases ha : w.box a with
    | none => rw [ha] at e; cases e; rfl
    | some x =>
      cases hb : w.box b with
      | none => rw [ha, hb] at e; cases e; rfl
      | some y =>
        rw [ha, hb] at e
        simp only at e
        split at e
        · cases e; rfl
        · obtain ⟨r, _, e⟩ := bind_eq_ok e
          cases e
          rfl
  | destroy s =>
    simp only [HWorld.step] at e
    cases hd : w.box s with
    | none => rw [hd] at e; cases e; rfl
    | some c =>
      rw [hd] at e
      simp only at e
      obtain ⟨r, e1, e⟩ := bind_eq_ok e
      cases e
      unfold HB.destroy at e1
      obtain ⟨_, _, e1⟩ := bind_eq_ok e1
      obtain ⟨h1, e2, e1⟩ := bind_eq_ok e1
      simp only [denseAllocs]
      rw [dense_freeIf_next e1, dense_freeIf_next e2]
      rfl
  | _ => cases hn

/-- **C94 for dense containers**: no allocation if all containers have equal allocators, or the allocator propagates and no
container is constructed with another container's elements and an allocator of its own. -/
theorem C94_dense_partial {cfg : ACfg} {hash : K → Nat} {w w' : HWorld k K V} {o : HOp k K V} (hn : denseNoexcept o = true)
    (hm : (∀ s s' b b', w.box s = some b → w.box s' = some b' → b.al = b'.al) ∨ cfg.moveProp = true)
    (hk : ∀ s src al, o = .moveMake s src (some al) → ∀ b, w.box src = some b → b.al = al)
    (e : w.step cfg hash o = .ok w') : w'.h.next = w.h.next := by
  rw [C94_dense_count hn e]
  suffices denseAllocs cfg w o = 0 by omega
  cases o with
  | moveMake s src al =>
    simp only [denseAllocs]
    split
    · rename_i o hs ho
      refine if_pos ?_
      cases al with
      | none => rfl
      | some a => exact (hk s src a rfl o ho).symm
    · rfl
  | moveAssign dst src =>
    simp only [denseAllocs]
    split
    · rename_i b o hb ho
      refine if_pos (.inr ?_)
      rcases hm with hm | hm
      · exact .inr (hm _ _ _ _ hb ho)
      · exact .inl hm
    · rfl
  | _ => rfl

/-- **C94 is false for dense containers**: whatever the program did before, a container constructed by a move from one with
elements and an unequal allocator allocates both arrays (the source of a reached program has buckets), and a move assignment
allocates if the target has less room and its allocator is unequal and does not propagate. -/
theorem C94_dense_false {cfg : ACfg} {hash : K → Nat} {w w' : HWorld k K V} {src : Nat} {o : Box k K V}
    (ho : w.box src = some o) (h0 : o.t.size ≠ 0) :
    (∀ s al, w.box s = none → al ≠ o.al → w.step cfg hash (.moveMake s src (some al)) = .ok w' →
      denseNoexcept (.moveMake s src (some al) : HOp k K V) = true ∧ w.h.next < w'.h.next) ∧
    (∀ dst b, w.box dst = some b → cfg.moveProp = false → b.al ≠ o.al → b.t.cap < o.t.size →
      w.step cfg hash (.moveAssign dst src) = .ok w' →
      denseNoexcept (.moveAssign dst src : HOp k K V) = true ∧ w.h.next < w'.h.next) := by
  refine ⟨fun s al hs ha e => ⟨rfl, ?_⟩, fun dst b hb hp ha hl e => ⟨rfl, ?_⟩⟩
  · rw [C94_dense_count rfl e]
    simp only [denseAllocs, hs, ho, Option.getD_some, if_neg ha, moveAllocs, if_neg h0,
      if_pos (show 0 < o.t.size by omega)]
    omega
  · have hne : dst ≠ src := by
      rintro rfl
      rw [hb] at ho
      cases ho
      exact ha rfl
    rw [C94_dense_count rfl e]
    simp only [denseAllocs, hb, ho, hne, hp, ha, moveAllocs, if_neg h0, if_pos hl, Bool.false_eq_true, or_self, if_false]
    omega

/-- Container 0 has three elements and allocator 7: a container constructed from it with allocator 8 allocates both arrays, one
with its own allocator none. -/
example : ([none, some 8, some 7] : List (Option Nat)).map (fun al =>
    (prog (k := 1) (K := Nat) (V := Nat) ⟨true, true, true, true⟩ (fun n => n % 10) [.make 0 7 LF.initial, .op 0 (.insert (fun _ => 1) 1), .op 0 (.insert (fun _ => 2) 2),
      .op 0 (.insert (fun _ => 3) 3)]).toOption.bind fun w =>
      (w.step ⟨true, true, true, true⟩ (fun n => n % 10) (.moveMake 1 0 al)).toOption.map fun w' => w'.h.next - w.h.next) =
    [some 0, some 2, some 0] := by decide +kernel

end Dense

end Tpp.Props
