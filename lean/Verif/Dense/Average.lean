import Mathlib.Algebra.BigOperators.Fin
import Mathlib.Algebra.BigOperators.Ring.Finset
import Mathlib.Data.Fintype.BigOperators
import Mathlib.Logic.Equiv.Fin.Basic
import Mathlib.Tactic.Ring
import Mathlib.Tactic.Linarith
import Verif.Dense.Work
import Verif.Dense.Local

/-!
# The average number of elements that a search in a dense container visits
-/

set_option linter.unusedSectionVars false

namespace Tpp.Dense

variable {k : Nat} {K V : Type} [DecidableEq K]

/-- How many nodes `find_node` looks at (dense_table.hpp 534-547). -/
def Table.visits (hash : K → Nat) (t : Table k K V) (j : Fin k) (x : K) : M Nat := do
  let r ← t.findNodeT hash j x
  .ok r.2.1.length

/-- The number of elements whose component `j` belongs to bucket `b` of `m`. -/
def crowd (hash : K → Nat) (m : Nat) (j : Fin k) (l : List (Elem k K V)) (b : Nat) : Nat :=
  l.countP fun e => decide (hash (e.1 j) % m = b)

theorem sum_crowd (hash : K → Nat) {m : Nat} (hm : 0 < m) (j : Fin k) (l : List (Elem k K V)) :
    ∑ b ∈ Finset.range m, crowd hash m j l b = l.length := by
  induction l with
  | nil => simp [crowd]
  | cons e l ih =>
    have : ∀ b, crowd hash m j (e :: l) b = crowd hash m j l b + if hash (e.1 j) % m = b then 1 else 0 := by
      intro b
      simp [crowd, List.countP_cons]
    simp only [this]
    rw [Finset.sum_add_distrib, ih, Finset.sum_ite_eq, if_pos (Finset.mem_range.mpr (Nat.mod_lt _ hm))]
    simp

/-- The chain of a bucket, with its length. -/
theorem Inv.chain {hash : K → Nat} {t : Table k K V} {l : List (Elem k K V)} (h : Inv hash t l) (j : Fin k) {b : Nat} (hb : b < t.bc) :
    ∃ c, Path (t.cell j) (.head b) c ∧ c.Nodup ∧ c.length < t.cap + 1 ∧ (∀ i ∈ c, t.Valid (.next i)) ∧
      (∀ i, i ∈ c ↔ i < l.length ∧ ∃ n, t.node i = some n ∧ hash (n.key j) % t.bc = b) ∧ c.length = crowd hash t.bc j l b := by
  obtain ⟨c, h1, h2, h3⟩ := h.chained j b hb
  obtain ⟨c', g1, g2, g3, _, g5⟩ := h.bucket j hb
  have e := h1.unique g1
  subst e
  refine ⟨c, h1, h2, by omega, g3, ?_, ?_⟩
  · intro i
    rw [h3 i]
    refine and_congr_right fun _ => exists_congr fun n => and_congr_right fun hn => ?_
    rw [h.hashed i n hn]
  · have e1 : (c.filterMap fun i => (t.node i).map fun n => (n.key, n.val)).length = c.length := by
      rw [List.filterMap_length_eq_length]
      intro i hi
      obtain ⟨_, n, hn, _⟩ := (h3 i).mp hi
      rw [hn]
      rfl
    rw [← e1, g5.length_eq, ← List.countP_eq_length_filter]
    rfl

/-- A search for the key of an element of the chain. -/
theorem findLoopT_hit {t : Table k K V} {j : Fin k} {x : K} {h i : Nat} {n : Node k K V} (hn : t.node i = some n) (hh : n.hash j = h)
    (hx : n.key j = x) : ∀ {fuel : Nat} {r : Ref} {c : List Nat}, Path (t.cell j) r c → t.Valid r → (∀ i ∈ c, t.Valid (.next i)) →
    c.length < fuel → i ∈ c → (∀ i' ∈ c, ∀ n', t.node i' = some n' → n'.key j = x → i' = i) →
    ∃ r' vis cmp, t.findLoopT j x h fuel r = .ok ((some i, r'), vis, cmp) ∧ vis.length = c.idxOf i + 1 := by
  intro fuel
  induction fuel with
  | zero => intro r c _ _ _ hl; omega
  | succ fuel ih =>
    intro r c hp hr hv hl hi hu
    unfold Table.findLoopT
    rw [readRef_ok j hr, bind_ok]
    cases c with
    | nil => cases hi
    | cons a c =>
      have hva := hv a List.mem_cons_self
      obtain ⟨m, hm⟩ := Option.ne_none_iff_exists'.mp hva.2
      rw [show t.cell j r = some a from hp.1]
      simp only
      rw [readNode_ok hva.1 hm, bind_ok]
      by_cases e : a = i
      · subst e
        rw [hn] at hm
        cases hm
        rw [if_pos hh, if_pos hx.symm]
        exact ⟨r, [a], [a], rfl, by simp⟩
      · have hne : x ≠ m.key j := fun q => e (hu a List.mem_cons_self m hm q.symm)
        have hic : i ∈ c := (List.mem_cons.mp hi).resolve_left (fun q => e q.symm)
        obtain ⟨r', vis, cmp, g1, g2⟩ := ih hp.2 hva (fun i' hi' => hv i' (List.mem_cons_of_mem _ hi')) (by simp at hl; omega) hic
          (fun i' hi' => hu i' (List.mem_cons_of_mem _ hi'))
        have hlen : (a :: c).idxOf i = c.idxOf i + 1 := List.idxOf_cons_ne _ e
        by_cases q : m.hash j = h
        · rw [if_pos q, if_neg hne, g1, bind_ok]
          exact ⟨r', a :: vis, a :: cmp, rfl, by simp [g2, hlen]⟩
        · rw [if_neg q, g1, bind_ok]
          exact ⟨r', a :: vis, cmp, rfl, by simp [g2, hlen]⟩

theorem visits_hit {hash : K → Nat} {t : Table k K V} {l : List (Elem k K V)} (h : Inv hash t l) (j : Fin k) {b : Nat} {c : List Nat}
    (hb : b < t.bc) (hp : Path (t.cell j) (.head b) c) (hl : c.length < t.cap + 1) (hv : ∀ i ∈ c, t.Valid (.next i))
    (hc : ∀ i, i ∈ c ↔ i < l.length ∧ ∃ n, t.node i = some n ∧ hash (n.key j) % t.bc = b) {i : Nat} (hi : i ∈ c) {e : Elem k K V}
    (he : l[i]? = some e) : t.visits hash j (e.1 j) = .ok (c.idxOf i + 1) := by
  obtain ⟨hil, n, hn, hx⟩ := (hc i).mp hi
  have hne := h.toArr.node_elem hn
  rw [he] at hne
  cases hne
  have hg : t.getChain (hash (n.key j)) = some (.head b) := by
    unfold Table.getChain
    rw [if_neg (by omega), hx]
  obtain ⟨r', vis, cmp, g1, g2⟩ := findLoopT_hit (h := hash (n.key j)) hn (h.hashed i n hn j) rfl hp (show t.Valid (.head b) from hb) hv hl hi
    (by
      intro i' hi' n' hn' hk
      have h1 := h.toArr.node_elem hn'
      have hl' := h.toArr.node_lt hn'
      have hu := h.uniq j
      rw [List.getElem?_eq_getElem hil, Option.some.injEq] at he
      rw [List.getElem?_eq_getElem hl', Option.some.injEq] at h1
      refine (List.Nodup.getElem_inj_iff hu (hi := by simpa using hl') (hj := by simpa using hil)).mp ?_
      simp [he, h1, hk])
  unfold Table.visits Table.findNodeT
  rw [hg]
  simp only
  rw [g1, bind_ok, bind_ok, g2]

theorem visits_miss {hash : K → Nat} {t : Table k K V} {l : List (Elem k K V)} (h : Inv hash t l) (j : Fin k) (hb : 0 < t.bc) {x : K}
    (hx : t.contains hash j x = .ok false) : t.visits hash j x = .ok (crowd hash t.bc j l (hash x % t.bc)) := by
  obtain ⟨c, h1, h2, h3, h4, h5, h6⟩ := h.chain j (Nat.mod_lt (hash x) hb)
  obtain ⟨o, r', vis, cmp, e, _, _, _, _, _, g6⟩ := findLoopT_spec (x := x) (h := hash x) h1
      (show t.Valid (.head _) from Nat.mod_lt _ hb) h4 h3
  have hg : t.getChain (hash x) = some (.head (hash x % t.bc)) := by
    unfold Table.getChain
    rw [if_neg (by omega)]
  have ho : o = none := by
    have e2 : t.findNode hash j x = .ok (o, some r') := by
      rw [← findNodeT_fst]
      unfold Table.findNodeT
      rw [hg]
      simp only
      rw [e]
      rfl
    unfold Table.contains at hx
    rw [e2, bind_ok] at hx
    cases o with
    | none => rfl
    | some i => cases hx
  unfold Table.visits Table.findNodeT
  rw [hg]
  simp only
  rw [e, bind_ok, bind_ok, g6 ho, h6]

theorem sum_idxOf (c : List Nat) (hc : c.Nodup) : 2 * (c.map fun i => c.idxOf i + 1).sum = c.length * (c.length + 1) := by
  induction c using List.reverseRecOn with
  | nil => rfl
  | append_singleton c a ih =>
    have hn := List.nodup_append.mp hc
    have ha : a ∉ c := fun q => hn.2.2 a q a (by simp) rfl
    have e1 : (c.map fun i => (c ++ [a]).idxOf i + 1) = c.map fun i => c.idxOf i + 1 := by
      apply List.map_congr_left
      intro i hi
      rw [List.idxOf_append_of_mem hi]
    have e2 : (c ++ [a]).idxOf a = c.length := by
      rw [List.idxOf_append_of_notMem ha]
      simp
    rw [List.map_append, List.sum_append, e1]
    simp only [List.map_cons, List.map_nil, List.sum_cons, List.sum_nil, Nat.add_zero, e2, List.length_append, List.length_singleton]
    have := ih hn.1
    rw [Nat.mul_add, this]
    ring

/-- The number of nodes visited by one search for every element. -/
theorem visits_total {hash : K → Nat} {t : Table k K V} {l : List (Elem k K V)} (h : Inv hash t l) (j : Fin k) :
    ∃ w : K → Nat, (∀ e ∈ l, t.visits hash j (e.1 j) = .ok (w (e.1 j))) ∧
      2 * (l.map fun e => w (e.1 j)).sum = ∑ b ∈ Finset.range t.bc, crowd hash t.bc j l b * (crowd hash t.bc j l b + 1) := by
  let w : K → Nat := fun x => match t.visits hash j x with
    | .ok n => n
    | .error _ => 0
  rcases Nat.eq_zero_or_pos t.bc with hz | hpos
  · have := h.empty hz
    subst this
    exact ⟨w, by simp, by simp [hz]⟩
  let F : Nat → Nat := fun i => match l[i]? with
    | some e => w (e.1 j)
    | none => 0
  let B : Nat → Nat := fun i => match l[i]? with
    | some e => hash (e.1 j) % t.bc
    | none => 0
  have hsum : ∀ b ∈ Finset.range t.bc, 2 * ∑ i ∈ (Finset.range l.length).filter (fun i => B i = b), F i =
      crowd hash t.bc j l b * (crowd hash t.bc j l b + 1) := by
    intro b hb
    have hb := Finset.mem_range.mp hb
    obtain ⟨c, h1, h2, h3, h4, h5, h6⟩ := h.chain j hb
    have hset : (Finset.range l.length).filter (fun i => B i = b) = c.toFinset := by
      ext i
      rw [Finset.mem_filter, Finset.mem_range, List.mem_toFinset, h5 i]
      refine and_congr_right fun hi => ?_
      obtain ⟨n, hn, e⟩ := h.toArr.node_some hi
      have hB : B i = hash (n.key j) % t.bc := by
        simp only [B, List.getElem?_eq_getElem hi, ← e]
      rw [hB]
      constructor
      · intro q; exact ⟨n, hn, q⟩
      · rintro ⟨n', hn', q⟩
        rw [hn] at hn'
        cases hn'
        exact q
    rw [hset, List.sum_toFinset _ h2, ← h6, ← sum_idxOf c h2]
    congr 2
    apply List.map_congr_left
    intro i hi
    have hil := ((h5 i).mp hi).1
    have he := List.getElem?_eq_getElem hil
    simp only [F, he, w, visits_hit h j hb h1 h3 h4 h5 hi he]
  refine ⟨w, ?_, ?_⟩
  · intro e he
    obtain ⟨i, hi, rfl⟩ := List.getElem_of_mem he
    obtain ⟨c, h1, h2, h3, h4, h5, h6⟩ := h.chain j (Nat.mod_lt (hash (l[i].1 j)) hpos)
    have hic : i ∈ c := by
      rw [h5 i]
      obtain ⟨n, hn, e⟩ := h.toArr.node_some hi
      exact ⟨hi, n, hn, by rw [← e]⟩
    have := visits_hit h j (Nat.mod_lt _ hpos) h1 h3 h4 h5 hic (List.getElem?_eq_getElem hi)
    simp only [w, this]
  · rw [← Finset.sum_congr rfl hsum, ← Finset.mul_sum, Finset.sum_fiberwise_of_maps_to]
    · congr 1
      rw [Finset.sum_range]
      simp only [F, List.getElem?_eq_getElem (Fin.is_lt _)]
      rw [← List.sum_ofFn]
      congr 1
      apply List.ext_getElem
      · simp
      · intro i h1 h2; simp
    · intro i hi
      have hi := Finset.mem_range.mp hi
      simp only [B, List.getElem?_eq_getElem hi, Finset.mem_range]
      exact Nat.mod_lt _ hpos

/-- Two fixed arguments have the same value under one in `m` of all functions. -/
theorem sum_agree {n m : Nat} {i j : Fin n} (hij : i ≠ j) :
    m * ∑ f : Fin n → Fin m, (if f i = f j then 1 else 0) = m ^ n := by
  rw [← (Equiv.funSplitAt j (Fin m)).symm.sum_comp]
  rw [Fintype.sum_prod_type_right]
  have hn : Fintype.card {x // x ≠ j} + 1 = n := by
    rw [Fintype.card_subtype_compl]
    simp
    have := j.is_lt
    omega
  have : ∀ g : {x // x ≠ j} → Fin m,
      ∑ b : Fin m, (if (Equiv.funSplitAt j (Fin m)).symm (b, g) i = (Equiv.funSplitAt j (Fin m)).symm (b, g) j then 1 else 0) = 1 := by
    intro g
    simp [Equiv.funSplitAt, Equiv.piSplitAt, hij]
  rw [Finset.sum_congr rfl fun g _ => this g]
  simp only [Finset.sum_const, Finset.card_univ, smul_eq_mul, mul_one, Fintype.card_pi, Finset.prod_const, Fintype.card_fin]
  conv_rhs => rw [← hn, pow_succ, Nat.mul_comm]

/-- The number of coinciding pairs, summed over all functions. -/
theorem sum_squares (n m : Nat) :
    m * ∑ f : Fin n → Fin m, ∑ b : Fin m, (∑ i : Fin n, if f i = b then 1 else 0) * ((∑ i : Fin n, if f i = b then 1 else 0) + 1) =
      m ^ n * (n * (2 * m + (n - 1))) := by
  have h1 : ∀ f : Fin n → Fin m, ∑ b : Fin m, (∑ i : Fin n, if f i = b then 1 else 0) * ((∑ i : Fin n, if f i = b then 1 else 0) + 1) =
      (∑ i : Fin n, ∑ j : Fin n, if f i = f j then 1 else 0) + n := by
    intro f
    simp only [Nat.mul_add, Nat.mul_one, Finset.sum_add_distrib]
    congr 1
    · simp only [Finset.sum_mul_sum]
      rw [Finset.sum_comm]
      refine Finset.sum_congr rfl fun i _ => ?_
      rw [Finset.sum_comm]
      refine Finset.sum_congr rfl fun j _ => ?_
      simp only [mul_ite, mul_one, mul_zero]
      rw [Finset.sum_ite_eq]
      simp
    · rw [Finset.sum_comm]
      simp
  simp only [h1]
  rw [Finset.sum_add_distrib, Finset.sum_comm, Nat.mul_add]
  have h2 : ∀ i : Fin n, m * ∑ f : Fin n → Fin m, ∑ j : Fin n, (if f i = f j then 1 else 0) = m ^ n * (m + (n - 1)) := by
    intro i
    rw [Finset.sum_comm, Finset.mul_sum, ← Finset.add_sum_erase _ _ (Finset.mem_univ i)]
    rw [Finset.sum_congr rfl (g := fun _ => m ^ n) fun j hj => sum_agree (Finset.ne_of_mem_erase hj).symm]
    simp [Finset.card_erase_of_mem]
    ring
  rw [Finset.mul_sum, Finset.sum_congr rfl fun i _ => h2 i]
  simp
  ring

end Tpp.Dense
