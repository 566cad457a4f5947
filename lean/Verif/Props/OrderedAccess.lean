import Verif.Ordered.Access
import Verif.Props.OrderedSwiss

/-!
# C89: `find`, `at`, writing mapped values and `operator==` of ordered containers
-/

set_option linter.unusedSectionVars false

namespace Tpp.ODense

open Tpp.Dense (Elem LF Table Inv swapRemove conflict idxOf elemOf AtResult)
open Tpp.Ordered

variable {k : Nat} {K V : Type} [DecidableEq K]

/-- C89 for ordered dense containers: `find(x)` by any key component is the iterator at the position of the element in the sequence, from
which the iteration goes on with the rest of the sequence, or `end()` if no element has the key. -/
theorem C89_dense_find {hash : K → Nat} {sz : Int} (hsz : 0 < sz) {A : Alloc} (hA : A.Sound sz) {w : World k K V}
    {s : Seqs k K V} (h : Reached hash sz A w s) {i : Nat} {t : OTable k K V} (ht : w.tab i = some t) {q : List (Elem k K V)}
    (hq : s i = some q) (j : Fin k) (x : K) :
    ∃ a, t.find hash sz j x = .ok a ∧
      (∀ n e, q[n]? = some e → e.1 j = x → t.nth w.mem n = .ok a ∧ a ≠ t.hd ∧ t.elemAt sz a = .ok e) ∧
      ((∀ e ∈ q, e.1 j ≠ x) → a = t.hd) := by
  obtain ⟨l, o, hr, rfl⟩ := h.holds hsz hA ht hq
  have hp := seq_perm hr.perm
  refine ⟨_, find_ok hr j x, ?_, ?_⟩
  · intro n e he hx
    rw [seq_getElem? (fun i hi => hr.lt hi)] at he
    obtain ⟨p, hp1, hp2⟩ := Option.bind_eq_some_iff.mp he
    obtain ⟨hn, rfl⟩ := List.getElem?_eq_some_iff.mp hp1
    have hlt := (List.getElem?_eq_some_iff.mp hp2).1
    have : idxOf l j x = some o[n] := by rw [← hx, Dense.idxOf_of_uniq (hr.core.uniq j) hp2]
    rw [this]
    refine ⟨nth_getElem hr hn, addr_ne hr hlt, ?_⟩
    simp only
    rw [elemAt_ok hsz hr.core hlt]
    rw [List.getElem?_eq_getElem hlt] at hp2
    rw [Option.some.inj hp2]
  · intro ha
    have : idxOf l j x = none := Dense.idxOf_none (fun e he => ha e (hp.mem_iff.mpr he))
    rw [this]

/-- C89 for ordered dense containers: `at(x)` is the mapped value of the element with the key, or throws. -/
theorem C89_dense_at {hash : K → Nat} {sz : Int} (hsz : 0 < sz) {A : Alloc} (hA : A.Sound sz) {w : World k K V}
    {s : Seqs k K V} (h : Reached hash sz A w s) {i : Nat} {t : OTable k K V} (ht : w.tab i = some t) {q : List (Elem k K V)}
    (hq : s i = some q) (j : Fin k) (x : K) :
    (∀ e ∈ q, e.1 j = x → t.at_ hash sz j x = .ok (.value e.2)) ∧
    ((∀ e ∈ q, e.1 j ≠ x) → t.at_ hash sz j x = .ok .outOfRange) := by
  obtain ⟨a, e1, h1, h2⟩ := C89_dense_find hsz hA h ht hq j x
  unfold OTable.at_
  rw [e1, bind_ok]
  constructor
  · intro e he hx
    obtain ⟨n, hn⟩ := List.mem_iff_getElem?.mp he
    obtain ⟨_, g2, g3⟩ := h1 n e hn hx
    rw [if_neg g2, g3, bind_ok]
  · intro ha
    rw [if_pos (h2 ha)]

/-- C89 for ordered dense containers: assigning to the mapped value of an element through its iterator changes this value and nothing
else, in particular not the order. -/
theorem C89_dense_write {hash : K → Nat} {sz : Int} (hsz : 0 < sz) {A : Alloc} (hA : A.Sound sz) {w : World k K V}
    {s : Seqs k K V} (h : Reached hash sz A w s) {i : Nat} {t : OTable k K V} (ht : w.tab i = some t) {q : List (Elem k K V)}
    (hq : s i = some q) {n : Nat} {e : Elem k K V} (he : q[n]? = some e) (v : V) :
    ∃ a t', t.nth w.mem n = .ok a ∧ t.write sz a v = .ok t' ∧ t'.elements sz w.mem = .ok (q.set n (e.1, v)) ∧
      Holds hash sz w.mem t' (q.set n (e.1, v)) := by
  obtain ⟨l, o, hr, rfl⟩ := h.holds hsz hA ht hq
  have hn : n < o.length := by
    have := (List.getElem?_eq_some_iff.mp he).1
    rwa [seq_length hr.perm] at this
  obtain ⟨t', e1, r1, e2⟩ := write_ok hsz hr hn he v
  have hh : Holds hash sz w.mem t' ((seq l o).set n (e.1, v)) := ⟨_, o, r1, e2⟩
  exact ⟨_, t', nth_getElem hr hn, e1, hh.elements hsz, hh⟩

/-- C89 for ordered dense containers: `operator==` tells whether the containers have the same elements, in whatever order. -/
theorem C89_dense_eq [DecidableEq V] {hash : K → Nat} {sz : Int} (hsz : 0 < sz) {A : Alloc} (hA : A.Sound sz) {w : World k K V}
    {s : Seqs k K V} (h : Reached hash sz A w s) (hk : 0 < k) {i j : Nat} {t u : OTable k K V} (ht : w.tab i = some t) (hu : w.tab j = some u)
    {p q : List (Elem k K V)} (hp : s i = some p) (hq : s j = some q) :
    ∃ r, t.eq sz w.mem u = .ok r ∧ (r = true ↔ ∀ e, e ∈ p ↔ e ∈ q) := by
  have hd : ∀ {i : Nat} {t : OTable k K V} {q : List (Elem k K V)}, w.tab i = some t → s i = some q → q.Nodup := by
    intro i t q ht hq
    obtain ⟨l, o, hr, rfl⟩ := h.holds hsz hA ht hq
    exact (seq_perm hr.perm).nodup_iff.mpr (List.Nodup.of_map _ (hr.core.uniq ⟨0, hk⟩))
  have e1 := Holds.elements (hash := hash) hsz (h.holds hsz hA ht hp)
  have e2 := Holds.elements (hash := hash) hsz (h.holds hsz hA hu hq)
  unfold OTable.elements at e1 e2
  obtain ⟨a, f1, e1⟩ := Dense.bind_eq_ok e1
  obtain ⟨b, f2, e2⟩ := Dense.bind_eq_ok e2
  refine ⟨decide (p.Perm q), ?_, ?_⟩
  · unfold OTable.eq
    rw [f1, bind_ok, e1, bind_ok, f2, bind_ok, e2, bind_ok]
  · rw [decide_eq_true_iff]
    exact List.perm_ext_iff_of_nodup (hd ht hp) (hd hu hq)

/-- Two containers with the same elements in different order. -/
def twins : List (WOp 1 Nat Nat) :=
  fill 0 3 ++ [.create 1 LF.initial] ++ [3, 1, 2].map fun n => .op 1 (.insert (el n 0).1 (10 * n))

example : (do
    let w := after (fill 0 5)
    let t := w.get 0
    let a ← t.find h3 24 0 4
    let b ← t.find h3 24 0 9
    let c ← t.nth w.mem 3
    let x ← t.at_ h3 24 0 4
    let y ← t.at_ h3 24 0 9
    let t' ← t.write 24 a 44
    let l ← t'.elements 24 w.mem
    .ok (decide (a = c), decide (b = t.hd), x, y, l) : M _) =
    .ok (true, true, .value 40, .outOfRange, [el 1 10, el 2 20, el 3 30, el 4 44, el 5 50]) := rfl

example : ((after twins).get 0).eq 24 (after twins).mem ((after twins).get 1) = .ok true ∧
    ((after twins).get 1).elements 24 (after twins).mem = .ok [el 3 30, el 1 10, el 2 20] := by
  exact ⟨by decide +kernel, rfl⟩

end Tpp.ODense

namespace Tpp.OSwiss

open Tpp.Swiss (Node Table Inv)
open Tpp.Ordered

variable {K V : Type} [DecidableEq K] {c : Cfg K}

/-- C89 for ordered sparse and stable containers: `find`.  (Partial like C52: no exchanged nodes.) -/
theorem C89_swiss_find_partial (hsz : 0 < c.sz) (hA : c.A.Sound c.sz) {w : World K V} {s : Seqs K V} (h : Reached c w s)
    {i : Nat} {t : OTable K V} (ht : w.tab i = some t) {q : List (K × V)} (hq : s i = some q) (k : K) :
    ∃ a, t.find c k = .ok a ∧
      (∀ n e, q[n]? = some e → e.1 = k → t.nth w.mem n = .ok a ∧ a ≠ t.hd ∧ t.elemAt c.sz a = .ok e) ∧
      ((∀ e ∈ q, e.1 ≠ k) → a = t.hd) := by
  obtain ⟨o, hr, rfl⟩ := h.holds hsz hA ht hq
  rcases find_ok hr k with ⟨n, hn, x, hx, hk, hf, hg, _⟩ | ⟨hs, hf⟩
  · refine ⟨_, hf, ?_, ?_⟩
    · intro n' e he hke
      have hi := List.getElem_mem hn
      have hnn : n' = n := by
        have h1 : ((seqOf t.core.node o).map Prod.fst)[n']? = some k := by rw [List.getElem?_map, he, ← hke]; rfl
        have h2 : ((seqOf t.core.node o).map Prod.fst)[n]? = some k := by rw [List.getElem?_map, hg, ← hk]; rfl
        exact (List.getElem?_inj (List.getElem?_eq_some_iff.mp h1).1 hr.uniq).mp (h1.trans h2.symm)
      subst hnn
      rw [hg] at he
      cases he
      exact ⟨nth_getElem hr hn, hr.addr_ne hi, hr.elem hsz hi hx⟩
    · intro ha
      exact absurd hk (ha _ (List.mem_of_getElem? hg))
  · refine ⟨_, hf, ?_, fun _ => rfl⟩
    intro n e he hke
    have := find_some hr.uniq (List.mem_of_getElem? he)
    rw [hke, hs] at this
    cases this

/-- C89 for ordered sparse and stable containers: `at`. -/
theorem C89_swiss_at_partial (hsz : 0 < c.sz) (hA : c.A.Sound c.sz) {w : World K V} {s : Seqs K V} (h : Reached c w s)
    {i : Nat} {t : OTable K V} (ht : w.tab i = some t) {q : List (K × V)} (hq : s i = some q) (k : K) :
    (∀ e ∈ q, e.1 = k → t.at_ c k = .ok (.value e.2)) ∧ ((∀ e ∈ q, e.1 ≠ k) → t.at_ c k = .ok .outOfRange) := by
  obtain ⟨a, e1, h1, h2⟩ := C89_swiss_find_partial hsz hA h ht hq k
  unfold OTable.at_
  rw [e1, bind_ok]
  constructor
  · intro e he hx
    obtain ⟨n, hn⟩ := List.mem_iff_getElem?.mp he
    obtain ⟨_, g2, g3⟩ := h1 n e hn hx
    rw [if_neg g2, g3, bind_ok]
  · intro ha
    rw [if_pos (h2 ha)]

/-- C89 for ordered sparse and stable containers: writing mapped values. -/
theorem C89_swiss_write_partial (hsz : 0 < c.sz) (hA : c.A.Sound c.sz) {w : World K V} {s : Seqs K V} (h : Reached c w s)
    {i : Nat} {t : OTable K V} (ht : w.tab i = some t) {q : List (K × V)} (hq : s i = some q) {n : Nat} {e : K × V}
    (he : q[n]? = some e) (v : V) :
    ∃ a t', t.nth w.mem n = .ok a ∧ t.write c a v = .ok t' ∧ t'.elements c.sz w.mem = .ok (q.set n (e.1, v)) ∧
      Holds c w.mem t' (q.set n (e.1, v)) := by
  obtain ⟨o, hr, rfl⟩ := h.holds hsz hA ht hq
  have hn : n < o.length := by
    have := (List.getElem?_eq_some_iff.mp he).1
    rwa [seqOf_length hr.link.isSome] at this
  obtain ⟨t', e1, r1, e2⟩ := write_ok hsz hr hn he v
  have hh : Holds c w.mem t' ((seqOf t.core.node o).set n (e.1, v)) := ⟨o, r1, e2⟩
  exact ⟨_, t', nth_getElem hr hn, e1, hh.elements hsz, hh⟩

/-- C89 for ordered sparse and stable containers: `operator==`. -/
theorem C89_swiss_eq_partial [DecidableEq V] (hsz : 0 < c.sz) (hA : c.A.Sound c.sz) {w : World K V} {s : Seqs K V} (h : Reached c w s)
    {i j : Nat} {t u : OTable K V} (ht : w.tab i = some t) (hu : w.tab j = some u) {p q : List (K × V)} (hp : s i = some p)
    (hq : s j = some q) : ∃ r, t.eq c w.mem u = .ok r ∧ (r = true ↔ ∀ e, e ∈ p ↔ e ∈ q) := by
  have hd : ∀ {i : Nat} {t : OTable K V} {q : List (K × V)}, w.tab i = some t → s i = some q → q.Nodup := by
    intro i t q ht hq
    obtain ⟨o, hr, rfl⟩ := h.holds hsz hA ht hq
    exact List.Nodup.of_map _ hr.uniq
  have e1 := (h.holds hsz hA ht hp).elements hsz
  have e2 := (h.holds hsz hA hu hq).elements hsz
  unfold OTable.elements at e1 e2
  obtain ⟨a, f1, e1⟩ := Dense.bind_eq_ok e1
  obtain ⟨b, f2, e2⟩ := Dense.bind_eq_ok e2
  refine ⟨decide (p.Perm q), ?_, ?_⟩
  · unfold OTable.eq
    rw [f1, bind_ok, e1, bind_ok, f2, bind_ok, e2, bind_ok]
  · rw [decide_eq_true_iff]
    exact List.perm_ext_iff_of_nodup (hd ht hp) (hd hu hq)

/-- Two containers with the same elements in different order. -/
def twins : List (WOp Nat Nat) := fill 0 3 ++ [.create 1] ++ [3, 1, 2].map fun n => .op 1 (.insert n (10 * n))

example : (do
    let w := after c16 (fill 0 5)
    let t := w.get 0
    let a ← t.find c16 4
    let b ← t.find c16 9
    let n ← t.nth w.mem 3
    let x ← t.at_ c16 4
    let y ← t.at_ c16 9
    let t' ← t.write c16 a 44
    let l ← t'.elements 24 w.mem
    .ok (decide (a = n ∧ b = t.hd ∧ x = .value 40 ∧ y = .outOfRange), l) : M (Bool × List (Nat × Nat))).toOption =
    some (true, [(1, 10), (2, 20), (3, 30), (4, 44), (5, 50)]) := by decide +kernel

example : (((after c16 twins).get 0).eq c16 (after c16 twins).mem ((after c16 twins).get 1)).toOption = some true ∧
    fine c16 twins = true := by decide +kernel

end Tpp.OSwiss
