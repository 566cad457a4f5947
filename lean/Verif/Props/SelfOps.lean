import Verif.Props.Copies
import Verif.Props.OrderedSwiss
import Verif.Swiss.SelfOps

/-!
# C90, C91: operations of a container with itself, and `merge` of a temporary
-/

set_option linter.unusedSectionVars false

namespace Tpp.Swiss

variable {K V : Type} [DecidableEq K]

/-! ## C90 -/

/-- C90: `t.merge(t)` and `t.merge(std::move(t))` leave the elements alone; storage changes as by `t.reserve(2 * t.size())` at most. -/
theorem C90_swiss_merge {isa : Isa} {hash : K → Nat} {t : Table K V} (h : Reachable isa hash t) {m : List (K × V)}
    (hb : Behaves isa hash t m) :
    Ends isa (t.mergeSelf isa hash) (fun r => Behaves isa hash r m ∧ t.reserve isa (2 * t.size) = .ok r) ∧
    Ends isa (t.mergeMoveSelf isa hash) (fun r => Behaves isa hash r m ∧ (r = t ∨ t.reserve isa (2 * t.size) = .ok r)) := by
  have h1 : Ends isa (t.mergeSelf isa hash) (fun r => Behaves isa hash r m ∧ t.reserve isa (2 * t.size) = .ok r) := by
    refine (mergeSelf_spec h.inv).mono ?_
    rintro r ⟨e, h1, h2⟩
    rw [Nat.two_mul]
    exact ⟨h1.behaves (h2.trans (hb.contents_perm h.inv)), e⟩
  refine ⟨h1, ?_⟩
  unfold Table.mergeMoveSelf
  split
  · exact Ends.of_ok rfl ⟨hb, Or.inl rfl⟩
  · exact h1.mono fun r q => ⟨q.1, Or.inr q.2⟩

example : Behaves .sse2 h64 demo demoMap ∧
    (demo.mergeSelf .sse2 h64 >>= fun r => r.iterate .sse2) = .ok [(1, 10), (3, 33), (4, 40), (5, 50)] ∧
    (demo.mergeMoveSelf .sse2 h64 >>= fun r => r.lookup .sse2 h64 3) = .ok (some 33) :=
  ⟨demo_behaves, by decide, by decide⟩

/-! ## C91 -/

/-- C91 for a destination with elements, or equal or propagated allocators: exactly the elements whose keys the destination lacks go over.
An empty destination takes over the source's hash function as well.  Missing: an empty destination whose allocator is not equal and stays
(`C91_swiss_unequal_partial`). -/
theorem C91_swiss_partial {isa : Isa} {hash hash' : K → Nat} {al : AllocP} {dst src : Table K V} (hd : Reachable isa hash dst)
    (hs : Reachable isa hash' src) {m n : List (K × V)} (bd : Behaves isa hash dst m) (bs : Behaves isa hash' src n)
    (hal : dst.size = 0 → (al.equal || al.moveProp) = true) :
    Ends isa (dst.mergeMove isa al hash src) (fun r => ∃ m' n', Behaves isa (if m = [] then hash' else hash) r.1 m' ∧ Behaves isa hash' r.2 n' ∧
      (m' ++ n').Perm (m ++ n) ∧
      (∀ k, Spec.lookup m' k = (Spec.lookup m k).or (Spec.lookup n k)) ∧
      (∀ k, Spec.lookup n' k = if Spec.lookup m k = none then none else Spec.lookup n k)) := by
  have hm := bd.contents_perm hd.inv
  unfold Table.mergeMove
  split
  · rename_i hz
    have hc : dst.contents = [] := by rw [Table.contents, hd.inv.empty_of_size hz]; rfl
    rw [hc] at hm
    have hnil : m = [] := List.nil_perm.mp hm
    subst hnil
    obtain ⟨y, e, hy, hI⟩ := moveAssign_equal (al := al) hd.inv hs.inv (hal hz)
    refine Ends.of_ok e ⟨n, [], ?_, ?_, ?_, ?_, ?_⟩
    · rw [if_pos rfl]; exact bs
    · refine (hI (Or.inr hz) hash').behaves ?_
      rw [Table.contents, (hI (Or.inr hz) hash').empty_of_size hy.size]
      exact List.Perm.refl _
    · simp
    · intro k; simp [Spec.lookup]
    · intro k; simp [Spec.lookup]
  · rename_i hz
    have hne : m ≠ [] := by
      rintro rfl
      have := hm.length_eq
      rw [Table.contents, List.length_map, hd.inv.nodes_length] at this
      exact hz this
    rw [if_neg hne]
    exact C20_merge hd hs bd bs

example : Behaves .sse2 h64 demo demoMap ∧ (AllocP.std.equal || AllocP.std.moveProp) = true ∧
    (Table.mergeMove .sse2 .std h64 demo (after .sse2 (fun n => n) [.insert 3 7, .insert 8 80, .insert 5 1]) >>= fun r => do
      let a ← r.1.iterate .sse2
      let b ← r.2.iterate .sse2
      .ok (a, b)) = .ok ([(1, 10), (3, 33), (4, 40), (5, 50), (8, 80)], [(3, 7), (5, 1)]) ∧
    (Table.mergeMove .sse2 .std (fun n => n) (after .sse2 (fun n => n) [.insert 3 7, .erase 3]) demo >>= fun r => do
      let a ← r.1.iterate .sse2
      let b ← r.2.iterate .sse2
      .ok (a, b)) = .ok ([(1, 10), (3, 33), (4, 40), (5, 50)], []) :=
  ⟨demo_behaves, rfl, by decide, by decide⟩

/-- C91, an empty destination whose allocator is not equal and stays: no more buckets than the source, then the elements can all be found
afterwards exactly if no element of the source depends on an erased slot. -/
theorem C91_swiss_unequal_partial {isa : Isa} {hash hash' : K → Nat} {al : AllocP} (he : al.equal = false) (hp : al.moveProp = false)
    {dst src : Table K V} (hd : Reachable isa hash dst) (hs : Reachable isa hash' src) {n : List (K × V)} (bs : Behaves isa hash' src n)
    (hz : dst.size = 0) (hz' : src.size ≠ 0) (hc : dst.cap ≤ src.cap) :
    ∃ d s, dst.mergeMove isa al hash src = .ok (d, s) ∧ Behaves isa hash' s [] ∧ (Behaves isa hash' d n ↔ src.Connected isa) := by
  obtain ⟨d, s, h1, _, h2, h3⟩ := C68_move_assign_unequal_partial he hp hd hs bs hz'
  refine ⟨d, s, ?_, h2, h3 hc⟩
  unfold Table.mergeMove
  rw [if_pos hz]
  exact h1

set_option maxRecDepth 100000 in
/-- C91 is false: merging a temporary into a new container that uses another memory resource may lose elements, which
`merge` of the same container as an lvalue does not (C20). -/
theorem C91_swiss_false : ∃ (src : Table Nat Nat) (k : Nat), Reachable .sse2 (fun n => n % 4) src ∧
    src.contains .sse2 (fun n => n % 4) k = .ok true ∧
    (Table.mergeMove .sse2 ⟨false, false, false⟩ (fun n => n % 4) Table.init src >>= fun r => do
      let a ← r.1.contains .sse2 (fun n => n % 4) k
      let b ← r.2.contains .sse2 (fun n => n % 4) k
      .ok (a, b)) = .ok (false, false) ∧
    (Table.merge .sse2 (fun n => n % 4) Table.init src >>= fun r => r.1.contains .sse2 (fun n => n % 4) k) = .ok true :=
  ⟨holed, 18, after_reachable _ _ _, by decide +kernel, by decide +kernel, by decide +kernel⟩

end Tpp.Swiss

namespace Tpp.OSwiss

open Tpp.Swiss (Node Ev Table Inv NoTomb AllocP Copyable CopyFits)
open Tpp.Ordered
open Tpp.ODense (bump bump_sound mem0)

variable {K V : Type} [DecidableEq K] {c : Cfg K}

/-! ## C90 -/

/-- C90 for ordered sparse containers: assignment, swap and `merge` of a container with itself change no sequence; only `merge` changes
anything at all, and this as `reserve` would. -/
theorem C90_ordered_swiss_partial (hsz : 0 < c.sz) (hA : c.A.Sound c.sz) {w : World K V} {s : Seqs K V} (h : Reached c w s) (i : Nat)
    (al : AllocP) :
    (∀ op ∈ [WOp.copyAssign al i i, .moveAssign al i i, .swap i i], w.step c op = .ok (w, .unit)) ∧
    (∀ op ∈ [WOp.merge i i, .mergeMove al i i], ∃ w', w.step c op = .ok (w', .unit) ∧
      (∀ j t, w.tab j = some t → ∃ t', w'.tab j = some t' ∧ t'.elements c.sz w'.mem = t.elements c.sz w.mem) ∧
      (w' = w ∨ ∃ t m' t', w.tab i = some t ∧ t.reserve c w.mem (2 * t.core.size) = .ok (m', t') ∧ w' = ⟨m', upd w.tab i (some t')⟩)) := by
  have hI := h.inv hsz hA
  have hmerge : ∃ w', w.mergeInto c i i = .ok (w', .unit) ∧
      (∀ j t, w.tab j = some t → ∃ t', w'.tab j = some t' ∧ t'.elements c.sz w'.mem = t.elements c.sz w.mem) ∧
      (w' = w ∨ ∃ t m' t', w.tab i = some t ∧ t.reserve c w.mem (2 * t.core.size) = .ok (m', t') ∧ w' = ⟨m', upd w.tab i (some t')⟩) := by
    unfold World.mergeInto
    rw [if_pos rfl]
    cases ht : w.tab i with
    | none => exact ⟨w, rfl, fun j t hj => ⟨t, hj, rfl⟩, Or.inl rfl⟩
    | some t =>
      obtain ⟨l, hl, hh⟩ := hI.holds i t ht
      obtain ⟨o, hr, hq⟩ := hh.restop
      obtain ⟨m', t', e1, e2, b⟩ := mergeSelf_ok (c := c.stop) hsz hA rfl hr
      have e3 := (OTable.mergeSelf_le c w.mem t).ok e2
      simp only
      rw [e3, bind_ok]
      refine ⟨_, rfl, ?_, Or.inr ⟨t, m', t', rfl, ?_, rfl⟩⟩
      · intro j u hj
        by_cases q : j = i
        · subst q
          rw [ht] at hj
          cases hj
          refine ⟨t', upd_same .., ?_⟩
          rw [hh.elements hsz, b.holds.unstop.elements hsz, hq]
        · refine ⟨u, (upd_ne _ _ q).trans hj, ?_⟩
          obtain ⟨l', hl', hu⟩ := hI.holds j u hj
          rw [hu.elements hsz]
          refine Holds.elements hsz (hu.frame b.frame ?_)
          intro x hx q'
          exact hI.apart i j t u (Ne.symm q) ht hj x q' hx
      · rw [Nat.two_mul]
        exact (OTable.reserve_le c w.mem t _).ok e1
  refine ⟨?_, ?_⟩
  · intro op hop
    simp only [List.mem_cons, List.not_mem_nil, or_false] at hop
    rcases hop with rfl | rfl | rfl
    · simp [World.step]
    · simp [World.step, World.assignMove]
    · simp only [World.step, if_true]
      cases ht : w.tab i with
      | none => rfl
      | some t =>
        obtain ⟨l, hl, o, hr, _⟩ := hI.holds i t ht
        simp only
        rw [swap_self hr, bind_ok]
        simp only
        rw [upd_self ht]
  · intro op hop
    simp only [List.mem_cons, List.not_mem_nil, or_false] at hop
    rcases hop with rfl | rfl
    · exact hmerge
    · simp only [World.step]
      cases ht : w.tab i with
      | none => exact ⟨w, rfl, fun j t hj => ⟨t, hj, rfl⟩, Or.inl rfl⟩
      | some t =>
        simp only
        split
        · refine ⟨w, ?_, fun j t hj => ⟨t, hj, rfl⟩, Or.inl rfl⟩
          simp [World.assignMove]
        · rw [ht] at hmerge
          exact hmerge

set_option maxRecDepth 100000 in
example : fine c16 (fill 0 0 ++ fill 1 3 ++ [.swap 0 0, .merge 0 0, .swap 1 1, .merge 1 1, .mergeMove .std 1 1]) = true ∧
    ((after c16 (fill 0 0 ++ fill 1 3 ++ [.swap 0 0, .merge 0 0, .swap 1 1, .merge 1 1, .mergeMove .std 1 1])).get 1).elements 24
      (after c16 (fill 0 0 ++ fill 1 3 ++ [.swap 0 0, .merge 0 0, .swap 1 1, .merge 1 1, .mergeMove .std 1 1])).mem =
        .ok [(1, 10), (2, 20), (3, 30)] := by
  constructor <;> decide +kernel

/-! ## C91 -/

/-- C91 for ordered sparse containers, an empty destination and buffers that can be handed over: the destination has the source's sequence
afterwards, in the same order, and the source is empty.  Missing: other destinations, for which the code runs `merge` as for an lvalue
(C60); unequal allocators that stay. -/
theorem C91_ordered_swiss_partial (hsz : 0 < c.sz) (hA : c.A.Sound c.sz) {w : World K V} {s : Seqs K V} (h : Reached c w s) {i j : Nat}
    (hij : i ≠ j) {q : List (K × V)} (hd : s i = some []) (hq : s j = some q) {al : AllocP} (hal : (al.equal || al.moveProp) = true) :
    ∃ w' t' u', w.step c (.mergeMove al i j) = .ok (w', .unit) ∧ w'.tab i = some t' ∧ w'.tab j = some u' ∧
      t'.elements c.sz w'.mem = .ok q ∧ u'.elements c.sz w'.mem = .ok [] := by
  have hI := h.inv hsz hA
  obtain ⟨t, ht, o', hr', hq'⟩ := hI.some_iff hd
  obtain ⟨u, hu, o, hr, rfl⟩ := hI.some_iff hq
  have hz : t.core.size = 0 := (Shows.nonempty hr').mp hq'
  obtain ⟨m', t', u', e, hm, g, h1, h2⟩ := moveAssign_ok hsz hA al hr' hr (hI.apart i j t u hij ht hu)
  refine ⟨⟨m', upd (upd w.tab j (some u')) i (some t')⟩, t', u', ?_, upd_same .., (upd_ne _ _ (Ne.symm hij)).trans (upd_same ..), ?_, ?_⟩
  · simp only [World.step, ht]
    rw [if_pos hz]
    simp only [World.assignMove]
    rw [if_neg (Ne.symm hij), hu, ht]
    simp only
    rw [e, bind_ok]
  · rw [Holds.elements hsz ⟨_, h1 (Or.inl hal), rfl⟩, g]
  · rw [Holds.elements hsz ⟨_, h2 (Or.inr (Or.inr hz)), rfl⟩]
    rfl

/-- In the same situation `merge` of an lvalue leaves the first element behind and reverses the others, so the two overloads agree only
for an empty source. -/
theorem C91_ordered_swiss_lvalue_false (hsz : 0 < c.sz) (hA : c.A.Sound c.sz) {w : World K V} {s : Seqs K V} (h : Reached c w s) {i j : Nat}
    (hij : i ≠ j) {q : List (K × V)} (hd : s i = some []) (hq : s j = some q) (hne : q ≠ []) :
    ∃ w' t' u', w.step c (.merge i j) = .ok (w', .unit) ∧ w'.tab i = some t' ∧ w'.tab j = some u' ∧
      t'.elements c.sz w'.mem = .ok q.tail.reverse ∧ u'.elements c.sz w'.mem = .ok (q.take 1) ∧ q.tail.reverse ≠ q ∧ q.take 1 ≠ [] := by
  have hI := h.inv hsz hA
  obtain ⟨t, ht, _⟩ := hI.some_iff hd
  obtain ⟨u, hu, _⟩ := hI.some_iff hq
  obtain ⟨m', t', u', e, e1, e2⟩ := C60_swiss_merge_actual_partial hsz hA h hij ht hu hd hq
  refine ⟨⟨m', upd (upd w.tab i (some t')) j (some u')⟩, t', u', ?_, (upd_ne _ _ hij).trans (upd_same ..), upd_same .., ?_, ?_, ?_, ?_⟩
  · simp only [World.step, World.mergeInto]
    rw [if_neg hij, hu, ht]
    simp only
    rw [e, bind_ok]
  · rw [e1]
    simp
  · rw [e2]
    simp
  · intro g
    have := congrArg List.length g
    rw [List.length_reverse, List.length_tail] at this
    have := List.length_pos_iff.mpr hne
    omega
  · obtain ⟨a, r, rfl⟩ := List.exists_cons_of_ne_nil hne
    simp

set_option maxRecDepth 100000 in
example : fine c16 (fill 0 0 ++ fill 1 3 ++ [.mergeMove .std 0 1]) = true ∧
    ((after c16 (fill 0 0 ++ fill 1 3 ++ [.mergeMove .std 0 1])).get 0).elements 24
      (after c16 (fill 0 0 ++ fill 1 3 ++ [.mergeMove .std 0 1])).mem = .ok [(1, 10), (2, 20), (3, 30)] ∧
    (mergedLists c16 (after c16 (fill 0 0 ++ fill 1 3))).toOption = some ([(3, 30), (2, 20)], [(1, 10)]) := by
  refine ⟨?_, ?_, ?_⟩ <;> decide +kernel

end Tpp.OSwiss

namespace Tpp.ODense

open Tpp.Dense (Elem LF Table Inv swapRemove conflict idxOf elemOf)
open Tpp.Ordered

variable {k : Nat} {K V : Type} [DecidableEq K]

/-- C90 for ordered dense containers: assignment and swap of a container with itself change nothing. -/
theorem C90_ordered_dense {hash : K → Nat} {sz : Int} (hsz : 0 < sz) {A : Alloc} (hA : A.Sound sz) {w : World k K V} {s : Seqs k K V}
    (h : Reached hash sz A w s) (i : Nat) (prop : Bool) :
    ∀ op ∈ [WOp.copyAssign prop i i, .moveAssign prop i i, .swap i i], w.step hash sz A op = .ok (w, .unit) := by
  intro op hop
  simp only [List.mem_cons, List.not_mem_nil, or_false] at hop
  rcases hop with rfl | rfl | rfl
  · simp [World.step]
  · simp [World.step]
  · simp only [World.step, if_true]
    cases ht : w.tab i with
    | none => rfl
    | some t =>
      obtain ⟨_, _, a, o, hr, _⟩ := (h.inv hsz hA).holds i t ht
      simp only
      rw [swap_self hr, bind_ok]
      have e : upd w.tab i (some t) = w.tab := by
        funext x
        unfold upd
        split
        · rename_i q; rw [q, ht]
        · rfl
      simp only
      rw [e]

example : WSpec.Guarded (fun _ => none) (fill 0 0 ++ fill 1 3 ++ [.swap 0 0, .swap 1 1, .moveAssign false 1 1]) = true ∧
    ((after (fill 0 0 ++ fill 1 3 ++ [.swap 0 0, .swap 1 1, .moveAssign false 1 1])).get 1).elements 24
      (after (fill 0 0 ++ fill 1 3 ++ [.swap 0 0, .swap 1 1, .moveAssign false 1 1])).mem = .ok [el 1 10, el 2 20, el 3 30] := ⟨rfl, rfl⟩

end Tpp.ODense
