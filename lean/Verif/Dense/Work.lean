import Verif.Dense.Ops

/-!
# The work of a search in a dense container: the elements visited and the elements compared
-/

set_option linter.unusedSectionVars false

namespace Tpp.Dense

variable {k : Nat} {K V : Type} [DecidableEq K]

namespace Table

/-- The loop of `find_node` (dense_table.hpp 538-545), with the nodes visited and the nodes whose keys are compared: the stored hash is
tested first (542). -/
def findLoopT (t : Table k K V) (j : Fin k) (x : K) (h : Nat) : Nat → Ref → M ((Option Nat × Ref) × List Nat × List Nat)
  | 0, _ => .error .diverge
  | fuel + 1, r => do
    match ← t.readRef j r with
    | none => .ok ((none, r), [], [])
    | some i =>
      let n ← t.readNode i
      if n.hash j = h then
        if x = n.key j then .ok ((some i, r), [i], [i])
        else do
          let (o, vis, cmp) ← t.findLoopT j x h fuel (.next i)
          .ok (o, i :: vis, i :: cmp)
      else do
        let (o, vis, cmp) ← t.findLoopT j x h fuel (.next i)
        .ok (o, i :: vis, cmp)

/-- `find_node` (dense_table.hpp 534-547). -/
def findNodeT (hash : K → Nat) (t : Table k K V) (j : Fin k) (x : K) : M ((Option Nat × Option Ref) × List Nat × List Nat) :=
  match t.getChain (hash x) with
  | none => .ok ((none, none), [], [])
  | some r => do
    let ((n, r), vis, cmp) ← t.findLoopT j x (hash x) (t.cap + 1) r
    .ok ((n, some r), vis, cmp)

end Table

theorem findLoopT_fst (t : Table k K V) (j : Fin k) (x : K) (h : Nat) : ∀ (fuel : Nat) (r : Ref),
    (t.findLoopT j x h fuel r).map Prod.fst = t.findLoop j x h fuel r := by
  intro fuel
  induction fuel with
  | zero => intro r; rfl
  | succ fuel ih =>
    intro r
    unfold Table.findLoopT Table.findLoop
    cases t.readRef j r with
    | error f => rfl
    | ok o =>
      simp only [bind_ok]
      cases o with
      | none => rfl
      | some i =>
        simp only
        cases t.readNode i with
        | error f => rfl
        | ok n =>
          simp only [bind_ok]
          rw [← ih]
          by_cases h1 : n.hash j = h
          · by_cases h2 : x = n.key j
            · rw [if_pos h1, if_pos h2, if_pos ⟨h1, h2⟩]; rfl
            · rw [if_pos h1, if_neg h2, if_neg (fun e => h2 e.2)]
              cases t.findLoopT j x h fuel (.next i) with
              | error f => rfl
              | ok r => rfl
          · rw [if_neg h1, if_neg (fun e => h1 e.1)]
            cases t.findLoopT j x h fuel (.next i) with
            | error f => rfl
            | ok r => rfl

theorem findNodeT_fst (hash : K → Nat) (t : Table k K V) (j : Fin k) (x : K) :
    (t.findNodeT hash j x).map Prod.fst = t.findNode hash j x := by
  unfold Table.findNodeT Table.findNode
  cases t.getChain (hash x) with
  | none => rfl
  | some r =>
    simp only
    rw [← findLoopT_fst]
    cases t.findLoopT j x (hash x) (t.cap + 1) r with
    | error f => rfl
    | ok r => rfl

/-- What the loop visits along a chain. -/
theorem findLoopT_spec {t : Table k K V} {j : Fin k} {x : K} {h : Nat} : ∀ {fuel : Nat} {r : Ref} {l : List Nat},
    Path (t.cell j) r l → t.Valid r → (∀ i ∈ l, t.Valid (.next i)) → l.length < fuel →
    ∃ o r' vis cmp, t.findLoopT j x h fuel r = .ok ((o, r'), vis, cmp) ∧ vis <+: l ∧ cmp.Sublist vis ∧
      (∀ i ∈ cmp, ∃ n, t.node i = some n ∧ n.hash j = h) ∧
      (∀ i ∈ vis, i ∉ cmp → ∃ n, t.node i = some n ∧ n.hash j ≠ h) ∧
      (∀ i, o = some i → cmp.getLast? = some i) ∧ (o = none → vis = l) := by
  intro fuel
  induction fuel with
  | zero => intro r l _ _ _ h; omega
  | succ fuel ih =>
    intro r l hp hr hv hl
    unfold Table.findLoopT
    rw [readRef_ok j hr, bind_ok]
    cases l with
    | nil =>
      rw [show t.cell j r = none from hp]
      exact ⟨none, r, [], [], rfl, List.nil_prefix, List.Sublist.refl _, by simp, by simp, fun i e => (by cases e), fun _ => rfl⟩
    | cons i l =>
      have hvi := hv i List.mem_cons_self
      obtain ⟨n, hn⟩ := Option.ne_none_iff_exists'.mp hvi.2
      rw [show t.cell j r = some i from hp.1]
      simp only
      rw [readNode_ok hvi.1 hn, bind_ok]
      obtain ⟨o, r', vis, cmp, e, h1, h2, h3, h4, h5, h6⟩ := ih hp.2 hvi (fun i' hi' => hv i' (List.mem_cons_of_mem _ hi'))
        (by simp at hl; omega)
      by_cases g1 : n.hash j = h
      · rw [if_pos g1]
        by_cases g2 : x = n.key j
        · rw [if_pos g2]
          exact ⟨some i, r, [i], [i], rfl, by simp, List.Sublist.refl _, by simpa using ⟨n, hn, g1⟩, by simp,
            fun i e => (by cases e; rfl), fun e => (by cases e)⟩
        · rw [if_neg g2, e, bind_ok]
          refine ⟨o, r', i :: vis, i :: cmp, rfl, by simpa using h1, h2.cons_cons i, ?_, ?_, ?_, fun e => by rw [h6 e]⟩
          · intro i' hi'
            rcases List.mem_cons.mp hi' with rfl | hi'
            · exact ⟨n, hn, g1⟩
            · exact h3 i' hi'
          · intro i' hi' hc
            rcases List.mem_cons.mp hi' with rfl | hi'
            · exact absurd List.mem_cons_self hc
            · exact h4 i' hi' (fun hm => hc (List.mem_cons_of_mem _ hm))
          · intro i' e'
            have := h5 i' e'
            cases cmp with
            | nil => cases this
            | cons a cmp => rw [List.getLast?_cons_cons]; exact this
      · rw [if_neg g1, e, bind_ok]
        refine ⟨o, r', i :: vis, cmp, rfl, by simpa using h1, h2.cons i, h3, ?_, h5, fun e => by rw [h6 e]⟩
        intro i' hi' hc
        rcases List.mem_cons.mp hi' with rfl | hi'
        · exact ⟨n, hn, g1⟩
        · exact h4 i' hi' hc

/-- A search in a container. -/
theorem findNodeT_spec {hash : K → Nat} {t : Table k K V} {l : List (Elem k K V)} (h : Inv hash t l) (j : Fin k) (x : K) :
    ∃ o r vis cmp, t.findNodeT hash j x = .ok ((o, r), vis, cmp) ∧ t.findNode hash j x = .ok (o, r) ∧ vis.Nodup ∧ cmp.Sublist vis ∧
      (∀ i ∈ vis, ∃ n, t.node i = some n ∧ hash (n.key j) % t.bc = hash x % t.bc) ∧
      (∀ i ∈ cmp, ∃ n, t.node i = some n ∧ hash (n.key j) = hash x) ∧
      (∀ i ∈ vis, i ∉ cmp → ∃ n, t.node i = some n ∧ hash (n.key j) ≠ hash x) ∧
      (∀ i, o = some i → cmp.getLast? = some i) := by
  suffices H : ∃ o r vis cmp, t.findNodeT hash j x = .ok ((o, r), vis, cmp) ∧ vis.Nodup ∧ cmp.Sublist vis ∧
      (∀ i ∈ vis, ∃ n, t.node i = some n ∧ hash (n.key j) % t.bc = hash x % t.bc) ∧
      (∀ i ∈ cmp, ∃ n, t.node i = some n ∧ hash (n.key j) = hash x) ∧
      (∀ i ∈ vis, i ∉ cmp → ∃ n, t.node i = some n ∧ hash (n.key j) ≠ hash x) ∧
      (∀ i, o = some i → cmp.getLast? = some i) by
    obtain ⟨o, r, vis, cmp, e, H⟩ := H
    refine ⟨o, r, vis, cmp, e, ?_, H⟩
    rw [← findNodeT_fst, e]
    rfl
  unfold Table.findNodeT
  by_cases hb : 0 < t.bc
  · have hg : t.getChain (hash x) = some (.head (hash x % t.bc)) := by
      unfold Table.getChain
      rw [if_neg (by omega)]
    rw [hg]
    simp only
    obtain ⟨c, h1, h2, h3⟩ := h.chained j (hash x % t.bc) (Nat.mod_lt _ hb)
    have hlt : ∀ i ∈ c, i < l.length := fun i hi => ((h3 i).mp hi).1
    obtain ⟨o, r', vis, cmp, e, g1, g2, g3, g4, g5, _⟩ := findLoopT_spec (x := x) (h := hash x) h1
      (show t.Valid (.head _) from Nat.mod_lt _ hb) (fun i hi => h.toArr.valid (hlt i hi)) (Chained.length_le h.toArr h2 hlt)
    rw [e, bind_ok]
    refine ⟨o, some r', vis, cmp, rfl, h2.sublist g1.sublist, g2, ?_, ?_, ?_, g5⟩
    · intro i hi
      obtain ⟨_, n, hn, e⟩ := (h3 i).mp (g1.subset hi)
      exact ⟨n, hn, by rw [← h.hashed i n hn]; exact e⟩
    · intro i hi
      obtain ⟨n, hn, e⟩ := g3 i hi
      exact ⟨n, hn, by rw [← h.hashed i n hn]; exact e⟩
    · intro i hi hc
      obtain ⟨n, hn, e⟩ := g4 i hi hc
      exact ⟨n, hn, by rw [← h.hashed i n hn]; exact e⟩
  · have hg : t.getChain (hash x) = none := by
      unfold Table.getChain
      rw [if_pos (by omega)]
    rw [hg]
    exact ⟨none, none, [], [], rfl, by simp, by simp, by simp, by simp, by simp, fun i e => (by cases e)⟩

end Tpp.Dense
