import Verif.Dense.Throw
import Verif.Dense.Work

/-!
# The number of comparisons of an insertion in a dense container
-/

set_option linter.unusedSectionVars false

namespace Tpp.Dense

variable {k : Nat} {K V : Type} [DecidableEq K]

/-- The comparisons counted are those of the search. -/
theorem findCalls_eq {t : Table k K V} {j : Fin k} {x : K} {h : Nat} : ∀ {fuel : Nat} {r : Ref}
    {o : Option Nat × Ref} {vis cmp : List Nat}, t.findLoopT j x h fuel r = .ok (o, vis, cmp) → t.findCalls j x h fuel r = .ok cmp.length := by
  intro fuel
  induction fuel with
  | zero => intro r o vis cmp e; cases e
  | succ fuel ih =>
    intro r o vis cmp e
    unfold Table.findLoopT at e
    unfold Table.findCalls
    obtain ⟨a, ha, e⟩ := bind_eq_ok e
    rw [ha, bind_ok]
    cases a with
    | none => cases e; rfl
    | some i =>
      simp only at e ⊢
      obtain ⟨n, hn, e⟩ := bind_eq_ok e
      rw [hn, bind_ok]
      by_cases h1 : n.hash j = h
      · rw [if_pos h1] at e ⊢
        by_cases h2 : x = n.key j
        · rw [if_pos h2] at e ⊢
          cases e
          rfl
        · rw [if_neg h2] at e ⊢
          obtain ⟨⟨o', vis', cmp'⟩, e', e⟩ := bind_eq_ok e
          rw [ih e', bind_ok]
          cases e
          rfl
      · rw [if_neg h1] at e ⊢
        obtain ⟨⟨o', vis', cmp'⟩, e', e⟩ := bind_eq_ok e
        rw [ih e']
        cases e
        rfl

/-- Counting by index. -/
theorem countP_range {α : Type} (p : α → Bool) : ∀ l : List α, (List.range l.length).countP (fun i => l[i]?.any p) = l.countP p := by
  intro l
  induction l with
  | nil => rfl
  | cons a l ih =>
    rw [List.length_cons, List.range_succ_eq_map, List.countP_cons, List.countP_cons, List.countP_map, ← ih]
    rfl

/-- The comparisons of a search: at most the elements with the hash of the key, all of them if the key is absent, one at least if
it is present. -/
theorem searchCalls_ok {hash : K → Nat} {t : Table k K V} {l : List (Elem k K V)} (h : Inv hash t l) (hb : 0 < t.bc) (j : Fin k) (x : K) :
    ∃ c, t.findCalls j x (hash x) (t.cap + 1) (.head (hash x % t.bc)) = .ok c ∧ c ≤ l.countP (fun e => hash (e.1 j) = hash x) ∧
      ((∀ e ∈ l, e.1 j ≠ x) → c = l.countP (fun e => hash (e.1 j) = hash x)) ∧ ((∃ e ∈ l, e.1 j = x) → 1 ≤ c) := by
  obtain ⟨c, h1, h2, h3⟩ := h.chained j (hash x % t.bc) (Nat.mod_lt _ hb)
  have hlt : ∀ i ∈ c, i < l.length := fun i hi => ((h3 i).mp hi).1
  obtain ⟨o, r', vis, cmp, e, g1, g2, g3, g4, g5, g6⟩ := findLoopT_spec (x := x) (h := hash x) h1
    (show t.Valid (.head _) from Nat.mod_lt _ hb) (fun i hi => h.toArr.valid (hlt i hi)) (Chained.length_le h.toArr h2 hlt)
  have hnd : cmp.Nodup := (h2.sublist g1.sublist).sublist g2
  have hmem : ∀ i ∈ cmp, i ∈ (List.range l.length).filter (fun i => l[i]?.any (fun e => hash (e.1 j) = hash x)) := by
    intro i hi
    obtain ⟨n, hn, hh⟩ := g3 i hi
    rw [List.mem_filter, List.mem_range]
    refine ⟨h.toArr.node_lt hn, ?_⟩
    rw [h.toArr.node_elem hn]
    simpa [h.hashed i n hn j] using hh
  have hcnt : l.countP (fun e => hash (e.1 j) = hash x) =
      ((List.range l.length).filter (fun i => l[i]?.any (fun e => hash (e.1 j) = hash x))).length := by
    rw [← List.countP_eq_length_filter, countP_range]
  have hfind : t.findNode hash j x = .ok (o, some r') := by
    unfold Table.findNode
    rw [getChain_pos hb]
    simp only
    rw [← findLoopT_fst, e]
    rfl
  obtain ⟨r2, hf⟩ := findNode_ok h j x
  rw [hfind] at hf
  injection hf with hf
  injection hf with ho _
  refine ⟨cmp.length, findCalls_eq e, ?_, ?_, ?_⟩
  · rw [hcnt]
    exact (hnd.subperm hmem).length_le
  · intro hx
    have hnone : o = none := by
      rw [ho]
      unfold idxOf
      simpa using hx
    rw [hcnt]
    refine ((List.perm_ext_iff_of_nodup hnd (List.nodup_range.filter _)).mpr fun i => ⟨hmem i, ?_⟩).length_eq
    intro hi
    rw [List.mem_filter, List.mem_range] at hi
    obtain ⟨n, hn, he⟩ := h.toArr.node_some hi.1
    have hh : hash (n.key j) = hash x := by
      have := hi.2
      rw [h.toArr.node_elem hn] at this
      simpa using this
    have hv : i ∈ vis := by
      rw [g6 hnone]
      exact (h3 i).mpr ⟨hi.1, n, hn, by rw [h.hashed i n hn j, hh]⟩
    by_contra hc
    obtain ⟨n', hn', hne⟩ := g4 i hv hc
    rw [hn] at hn'
    cases hn'
    exact hne (by rw [h.hashed i n hn j, hh])
  · rintro ⟨e', he', hx⟩
    cases o with
    | none =>
      unfold idxOf at ho
      have := ho.symm
      rw [List.findIdx?_eq_none_iff] at this
      exact absurd hx (by simpa using this e' he')
    | some i =>
      cases cmp with
      | nil => have := g5 i rfl; cases this
      | cons a cmp => simp

/-- All components. -/
theorem locateCalls_count {hash : K → Nat} {t : Table k K V} {l : List (Elem k K V)} (h : Inv hash t l) (hb : 0 < t.bc) (key : Fin k → K) :
    ∃ n : Fin k → Nat, (∀ j, t.findCalls j (key j) (hash (key j)) (t.cap + 1) (.head (hash (key j) % t.bc)) = .ok (n j)) ∧
      (∀ j, n j ≤ l.countP (fun e => hash (e.1 j) = hash (key j))) ∧
      (∀ j, (∀ e ∈ l, e.1 j ≠ key j) → n j = l.countP (fun e => hash (e.1 j) = hash (key j))) ∧
      ∀ j, (∃ e ∈ l, e.1 j = key j) → 1 ≤ n j := by
  have := fun j => searchCalls_ok h hb j (key j)
  choose n h1 h2 h3 h4 using this
  exact ⟨n, h1, h2, h3, h4⟩

theorem locateCalls_sum {hash : K → Nat} {t : Table k K V} (hb : 0 < t.bc) {key : Fin k → K} {n : Fin k → Nat}
    (hn : ∀ j, t.findCalls j (key j) (hash (key j)) (t.cap + 1) (.head (hash (key j) % t.bc)) = .ok (n j)) :
    t.locateCalls hash key = .ok (k + ((List.finRange k).map n).sum) := by
  have H : ∀ (js : List (Fin k)) (c : Nat), js.foldlM (fun c j =>
        match t.getChain (hash (key j)) with
        | none => (.ok c : M Nat)
        | some r => do
          let d ← t.findCalls j (key j) (hash (key j)) (t.cap + 1) r
          (.ok (c + d) : M Nat)) c = .ok (c + (js.map n).sum) := by
    intro js
    induction js with
    | nil => intro c; rfl
    | cons j js ih =>
      intro c
      rw [List.foldlM_cons, getChain_pos hb]
      simp only
      rw [hn j, bind_ok, bind_ok, ih, List.map_cons, List.sum_cons, Nat.add_assoc]
  exact H _ k

theorem Extends.findCalls {t t1 : Table k K V} (h : Extends t t1) {j : Fin k} {x : K} {hx : Nat} :
    ∀ {fuel : Nat} {r : Ref} {c : Nat}, t.findCalls j x hx fuel r = .ok c → t1.findCalls j x hx fuel r = .ok c := by
  intro fuel
  induction fuel with
  | zero => intro r c e; cases e
  | succ fuel ih =>
    intro r c e
    unfold Table.findCalls at e ⊢
    obtain ⟨o, ho, e⟩ := bind_eq_ok e
    rw [h.readRef ho, bind_ok]
    cases o with
    | none => exact e
    | some i =>
      simp only at e ⊢
      obtain ⟨n, hn, e⟩ := bind_eq_ok e
      rw [h.readNode hn, bind_ok]
      by_cases h1 : n.hash j = hx
      · rw [if_pos h1] at e ⊢
        by_cases h2 : x = n.key j
        · rw [if_pos h2] at e ⊢; exact e
        · rw [if_neg h2] at e ⊢
          obtain ⟨d, hd, e⟩ := bind_eq_ok e
          rw [ih hd, bind_ok]
          exact e
      · rw [if_neg h1] at e ⊢; exact ih e

end Tpp.Dense
