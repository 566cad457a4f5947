import Mathlib.Algebra.BigOperators.Group.Finset.Basic
import Mathlib.Algebra.Order.BigOperators.Group.Finset
import Mathlib.Tactic.Linarith
import Verif.Swiss.Average
import Verif.Swiss.Calls

/-!
# Keys with the same hash
-/

set_option linter.unusedSectionVars false

namespace Tpp.Swiss

variable {K V : Type} [DecidableEq K]

/-- Whatever a search compares is among the matches in the blocks of its trail. -/
theorem findLoopT_within {isa : Isa} {t : Table K V} {k : K} {tag : Nat} :
    ∀ {fuel pos idx i b : Nat} {tr : List Nat}, t.findLoopT isa k tag fuel pos idx = .ok (i, tr, b) →
      tr ⊆ (t.trail isa fuel pos idx).flatMap (fun q => (t.matchEq isa q tag).map fun i => (q + i) &&& t.cap) := by
  intro fuel
  induction fuel with
  | zero => intro pos idx i b tr e; cases e
  | succ fuel ih =>
    intro pos idx i b tr e
    unfold Table.findLoopT at e
    obtain ⟨u, _, e⟩ := Dense.bind_eq_ok e
    obtain ⟨⟨r, l⟩, hl, e⟩ := Dense.bind_eq_ok e
    have hpre := (scanT_spec hl).1.subset
    unfold Table.trail
    rw [List.flatMap_cons]
    simp only at e
    cases r with
    | some off =>
      cases e
      exact fun j hj => List.mem_append_left _ (hpre hj)
    | none =>
      simp only at e
      by_cases hne : t.matches_ isa pos (·.isEmpty) ≠ []
      · rw [if_pos hne] at e
        cases e
        exact fun j hj => List.mem_append_left _ (hpre hj)
      · rw [if_neg hne] at e ⊢
        by_cases hidx : idx < t.cap
        · rw [if_pos hidx] at e ⊢
          obtain ⟨⟨i', l', b'⟩, h', e⟩ := Dense.bind_eq_ok e
          simp only [Except.ok.injEq, Prod.mk.injEq] at e
          obtain ⟨_, e2, _⟩ := e
          subst e2
          intro j hj
          rcases List.mem_append.mp hj with hj | hj
          · exact List.mem_append_left _ (hpre hj)
          · exact List.mem_append_right _ (ih h' hj)
        · rw [if_neg hidx] at e
          cases e

/-- A failing search compares every element that has the hash of the key. -/
theorem miss_all {isa : Isa} {hash : K → Nat} {t : Table K V} (h : Inv isa hash t) {k : K} {tr : List Nat} {b : Nat}
    (e : t.findNodeT isa k (hash k) = .ok (t.cap, tr, b)) {j : Nat} {n : Node K V} (hj : j < t.cap) (hn : t.node j = some n)
    (hh : hash n.key = hash k) : j ∈ tr := by
  have hs : t.size ≠ 0 := by
    intro hz
    have hm := (mem_contents (t := t)).mpr ⟨j, n, hj, hn, rfl, rfl⟩
    have := List.length_pos_of_mem hm
    rw [h.contents_length] at this
    omega
  obtain ⟨i, tr', b', e', e1, _, h2, _⟩ := findNodeT_spec h n.key
  have hij : i = j := by
    rcases find_cases h n.key with ⟨i', n', hi', hn', hk', hf, _⟩ | ⟨hno, _⟩
    · rw [hf] at e1
      cases e1
      exact h.uniq _ hi' _ hj _ _ hn' hn hk'
    · exact absurd rfl (hno j hj n hn)
  subst hij
  have hlast := List.mem_of_getLast? (h2 (by omega))
  unfold Table.findNodeT at e e'
  rw [if_pos hs] at e e'
  rw [(findLoopT_miss h (by omega) Nat.and_le_right e).1]
  rw [hh] at e'
  exact findLoopT_within e' hlast

/-- How many elements with a given hash there are. -/
theorem same_le {isa : Isa} {hash : K → Nat} {t : Table K V} (h : Inv isa hash t) {k : K} {tr : List Nat} {b : Nat}
    (e : t.findNodeT isa k (hash k) = .ok (t.cap, tr, b)) : t.contents.countP (fun x => hash x.1 = hash k) ≤ tr.length := by
  have hnd : ((t.contents.filter fun x => hash x.1 = hash k).map Prod.fst).Nodup :=
    (h.contents_uniq).sublist (List.filter_sublist.map _)
  have hsub : (t.contents.filter fun x => hash x.1 = hash k).map Prod.fst ⊆ tr.filterMap fun j => (t.node j).map (·.key) := by
    intro y hy
    obtain ⟨⟨a, v⟩, hx, ey⟩ := List.mem_map.mp hy
    rw [List.mem_filter] at hx
    obtain ⟨i, n, hi, hn, hk, _⟩ := mem_contents.mp hx.1
    rw [List.mem_filterMap]
    refine ⟨i, miss_all h e hi hn ?_, ?_⟩
    · rw [hk]
      simpa using hx.2
    · rw [hn, ← ey, ← hk]
      rfl
  have := (hnd.subperm hsub).length_le
  rw [List.length_map, ← List.countP_eq_length_filter] at this
  exact this.trans (List.length_filterMap_le _ _)

/-- A search compares an element at most twice. -/
theorem compared_le {isa : Isa} {hash : K → Nat} {t : Table K V} (h : Inv isa hash t) {k : K} {i b : Nat} {tr : List Nat}
    (e : t.findNodeT isa k (hash k) = .ok (i, tr, b)) : tr.length ≤ 2 * t.size := by
  obtain ⟨i', tr', b', e', _, _, _, h3, _, h5⟩ := findNodeT_spec h k
  rw [e] at e'
  cases e'
  have hsub : tr.toFinset ⊆ ((List.range t.cap).filter (fun i => (t.ctl i).isOccupied)).toFinset := by
    intro j hj
    obtain ⟨hjc, n, hn, _⟩ := h3 j (List.mem_toFinset.mp hj)
    rw [List.mem_toFinset, List.mem_filter, List.mem_range]
    refine ⟨hjc, ?_⟩
    rw [← h.live j hjc, hn]
    rfl
  have h1 := (Finset.card_le_card hsub).trans (List.toFinset_card_le _)
  rw [← cnt_eq_length, ← h.size_eq] at h1
  have h2 : tr.length ≤ ∑ j ∈ tr.toFinset, 2 := by
    rw [← List.sum_toFinset_count_eq_length]
    exact Finset.sum_le_sum fun j _ => h5 j
  rw [Finset.sum_const, smul_eq_mul] at h2
  omega

/-- The calls of the user's functions in an insertion of a new key. -/
theorem insertC_new {isa : Isa} {hash : K → Nat} {t : Table K V} (h : Inv isa hash t) {k : K} (v : V)
    (hk : Spec.lookup t.contents k = none) :
    ∃ N t' p, 1 + t.contents.countP (fun x => hash x.1 = hash k) ≤ N ∧ N ≤ 1 + 2 * t.size ∧ (isa.W ≤ t.cap + 1 → N ≤ 1 + t.size) ∧
      t.insert isa hash k v = .ok (t', p, true) ∧ Inv isa hash t' ∧ t'.contents.Perm ((k, v) :: t.contents) ∧
      ∀ c, t.insertC isa hash k v c = .ok (if c < N then (t, none) else (t', some (p, true, c - N))) := by
  obtain ⟨i, tr, b, e, e1, _, _, _, h4, _⟩ := findNodeT_spec h k
  obtain ⟨t', p, b', e2, h', _, hc⟩ := insert_spec h k v
  rcases hc with ⟨rfl, _, g1, _⟩ | ⟨w, _, g1, _⟩
  swap
  · rw [g1] at hk; cases hk
  have hcap : i = t.cap := by
    rcases find_cases h k with ⟨i', n', hi', hn', hk', hf, hl⟩ | ⟨_, hf, _⟩
    · rw [hl] at hk; cases hk
    · rw [hf] at e1
      cases e1
      rfl
  subst hcap
  have hlo := same_le h e
  refine ⟨1 + tr.length, t', p, by omega, ?_, ?_, e2, h', g1, ?_⟩
  · have := compared_le h e
    omega
  · intro hW
    have hsub : tr ⊆ (List.range t.cap).filter (fun i => (t.ctl i).isOccupied) := by
      obtain ⟨_, _, _, e', _, _, _, h3, _⟩ := findNodeT_spec h k
      rw [e] at e'
      cases e'
      intro j hj
      obtain ⟨hjc, n, hn, _⟩ := h3 j hj
      rw [List.mem_filter, List.mem_range]
      refine ⟨hjc, ?_⟩
      rw [← h.live j hjc, hn]
      rfl
    have := ((h4 hW).subperm hsub).length_le
    rw [← cnt_eq_length, ← h.size_eq] at this
    omega
  · intro c
    simp only [Table.insert, e1, bind_ok, if_true] at e2
    obtain ⟨⟨u, q⟩, he, e2⟩ := Dense.bind_eq_ok e2
    cases e2
    cases c with
    | zero => simp [Table.insertC, Table.seekC]
    | succ c =>
      simp only [Table.insertC, Table.seekC, findNodeT_calls e c, bind_ok]
      by_cases hc : c < tr.length
      · rw [if_pos hc, if_pos (by omega)]
        rfl
      · rw [if_neg hc, if_neg (by omega)]
        simp only [bind_ok, if_true, he]
        rw [show c - tr.length = c + 1 - (1 + tr.length) by omega]

/-- The calls of the user's functions while new keys with one hash are inserted. -/
theorem insertListC_same {isa : Isa} {hash : K → Nat} {d : Nat} : ∀ (xs : List (K × V)) {t : Table K V}, Inv isa hash t →
    (xs.map Prod.fst).Nodup → (∀ x ∈ xs, hash x.1 = d ∧ Spec.lookup t.contents x.1 = none) →
    ∃ N t', xs.length + 2 * (xs.length * t.contents.countP (fun x => hash x.1 = d)) + xs.length * xs.length ≤ 2 * N ∧
      N ≤ xs.length * xs.length + 2 * (xs.length * t.size) ∧ Inv isa hash t' ∧ t'.contents.Perm (xs.reverse ++ t.contents) ∧
      ∀ c, (c < N → ∃ u, t.insertListC isa hash xs c = .ok (u, none)) ∧
        (N ≤ c → t.insertListC isa hash xs c = .ok (t', some (c - N))) := by
  intro xs
  induction xs with
  | nil =>
    intro t h _ _
    exact ⟨0, t, by simp, by simp, h, by simp, fun c => ⟨fun hc => by omega, fun _ => rfl⟩⟩
  | cons x xs ih =>
    intro t h hnd hx
    obtain ⟨hxh, hxn⟩ := hx x List.mem_cons_self
    obtain ⟨N1, t1, p, a1, a2, _, _, a3, a4, a5⟩ := insertC_new h x.2 hxn
    rw [List.map_cons, List.nodup_cons] at hnd
    obtain ⟨N2, t2, b1, b2, b3, b4, b5⟩ := ih a3 hnd.2 (by
      intro y hy
      obtain ⟨h1, h2⟩ := hx y (List.mem_cons_of_mem _ hy)
      refine ⟨h1, ?_⟩
      rw [Spec.lookup_perm a4 a3.contents_uniq]
      have hne : y.1 ≠ x.1 := fun q => hnd.1 (List.mem_map.mpr ⟨y, hy, q⟩)
      simp only [Spec.lookup] at h2 ⊢
      simp [List.find?_cons, Ne.symm hne] at h2 ⊢
      exact h2)
    have hcount : t1.contents.countP (fun x => hash x.1 = d) = t.contents.countP (fun x => hash x.1 = d) + 1 := by
      rw [a4.countP_eq, List.countP_cons]
      simp [hxh]
    have hsize : t1.size = t.size + 1 := by
      rw [← h.contents_length, ← a3.contents_length, a4.length_eq, List.length_cons]
    rw [hxh] at a1
    rw [hcount] at b1
    rw [hsize] at b2
    refine ⟨N1 + N2, t2, ?_, ?_, b3, ?_, ?_⟩
    · rw [List.length_cons]
      generalize t.contents.countP (fun x => hash x.1 = d) = s at *
      nlinarith
    · rw [List.length_cons]
      nlinarith
    · rw [List.reverse_cons, List.append_assoc]
      exact b4.trans (List.Perm.append_left _ a4)
    · intro c
      constructor
      · intro hc
        by_cases h1 : c < N1
        · refine ⟨t, ?_⟩
          simp only [Table.insertListC, a5 c, if_pos h1, bind_ok]
        · obtain ⟨u, hu⟩ := (b5 (c - N1)).1 (by omega)
          refine ⟨u, ?_⟩
          simp only [Table.insertListC, a5 c, if_neg h1, bind_ok, hu]
      · intro hc
        have := (b5 (c - N1)).2 (by omega)
        simp only [Table.insertListC, a5 c, if_neg (show ¬ c < N1 by omega), bind_ok, this]
        rw [Nat.sub_sub]

end Tpp.Swiss
