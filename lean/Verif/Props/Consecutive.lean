import Verif.Swiss.Consecutive
import Verif.Props.Targets
import Verif.Props.Work
import Verif.Dense.Equiv
import Verif.Props.OrderedCore
import Verif.Props.OrderedIndex

/-!
# C122: searches for consecutive integers

Full statement: if the hashes of the keys in a container are consecutive integers (as those of consecutive integers are with the `std::hash` of the
usual standard libraries), a search reads no more than a few blocks or elements on average, as it would with arbitrary hashes.

True for dense containers (`C122_dense`).  For sparse and stable containers the opposite holds for every container with sufficiently many such keys
(`C122_consecutive_false`): positions are taken from `hash >> 7` without mixing, so 128 consecutive keys start at the same slot, and all keys in the
first hundredth of the table.  What remains is the bound of C85, in particular a single block for tables smaller than a block
(`C122_small_partial`).
-/

set_option linter.unusedSectionVars false

namespace Tpp.Swiss

variable {K V : Type} [DecidableEq K]

theorem holds_of_contains {isa : Isa} {hash : K → Nat} {t : Table K V} (h : Inv isa hash t) {k : K} (hc : t.contains isa hash k = .ok true) :
    ∃ i, Holds t i k := by
  rcases find_cases h k with ⟨i, n, hi, hn, hk, _⟩ | ⟨_, hf, _⟩
  · exact ⟨i, hi, n, hn, hk⟩
  · simp [Table.contains, hf] at hc

theorem consecutive {isa : Isa} {hash : K → Nat} {t : Table K V} (hi : Inv isa hash t) {x : Nat → K} {a n : Nat}
    (hx : ∀ i < n, hash (x i) = a + i) (hin : ∀ i < n, t.contains isa hash (x i) = .ok true) :
    ∃ w : Nat → Nat, (∀ i < n, ∃ p tr, t.findNodeT isa (x i) (hash (x i)) = .ok (p, tr, w i)) ∧
      (∀ j, ((Finset.range n).filter (fun i => w i ≤ j)).card ≤ j * (n / 128 + isa.W + 1)) ∧
      n * n ≤ 2 * (n / 128 + isa.W + 1) * ∑ i ∈ Finset.range n, w i ∧
      (0 < n → ∃ i < n, n ≤ w i * (n / 128 + isa.W + 1)) ∧
      (128 * (isa.W + 1) ≤ n → 32 * n ≤ ∑ i ∈ Finset.range n, w i) ∧
      (384 * (isa.W + 1) ≤ n → 48 * n ≤ ∑ i ∈ Finset.range n, w i) := by
  classical
  have hone : ∀ i, ∃ p b : Nat, i < n → Holds t p (x i) ∧ (∃ tr, t.findNodeT isa (x i) (hash (x i)) = .ok (p, tr, b)) ∧ 1 ≤ b ∧
      InWin isa t.cap (wpos isa t.cap (hashHi (hash (x i))) (b - 1)) p := by
    intro i
    by_cases hn : i < n
    · obtain ⟨p, hp⟩ := holds_of_contains hi (hin i hn)
      obtain ⟨tr, b, e, e1, e2⟩ := hit_window hi hp
      exact ⟨p, b, fun _ => ⟨hp, ⟨tr, e⟩, e1, e2⟩⟩
    · exact ⟨0, 0, fun h => absurd h hn⟩
  choose p w hw using hone
  have hfew : ∀ j, ((Finset.range n).filter (fun i => w i ≤ j)).card ≤ j * (n / 128 + isa.W + 1) := by
    intro j
    have := few_soon hi (n := n) (A := hashHi a) (S := n / 128 + 2) (x := x) (p := p) (w := w) (fun i hn => (hw i hn).1)
      (by
        intro i h1 i' h2 e
        have e1 := hx i h1
        rw [e, hx i' h2] at e1
        omega)
      (by
        intro i hn
        rw [hx i hn]
        unfold hashHi
        omega)
      (fun i hn => ⟨(hw i hn).2.2.1, (hw i hn).2.2.2⟩) j
    have hW := isa.W_pos
    rwa [show n / 128 + 2 + isa.W - 1 = n / 128 + isa.W + 1 by omega] at this
  have hsum := sum_large (Nat.succ_pos (n / 128 + isa.W)) hfew
  refine ⟨w, fun i hn => ⟨p i, (hw i hn).2.1⟩, hfew, hsum, ?_, ?_, ?_⟩
  · intro hn
    by_contra hno
    push Not at hno
    -- all searches are short: count them
    have h1 := hfew ((n - 1) / (n / 128 + isa.W + 1))
    have hall : (Finset.range n).filter (fun i => w i ≤ (n - 1) / (n / 128 + isa.W + 1)) = Finset.range n := by
      refine Finset.filter_true_of_mem fun i hi => ?_
      have := hno i (Finset.mem_range.mp hi)
      rw [Nat.le_div_iff_mul_le (by omega)]
      omega
    rw [hall, Finset.card_range] at h1
    have := Nat.div_mul_le_self (n - 1) (n / 128 + isa.W + 1)
    omega
  · intro hn
    generalize ∑ i ∈ Finset.range n, w i = X at *
    have h2 : 64 * (n / 128 + isa.W + 1) ≤ n := by omega
    rcases Nat.eq_zero_or_pos n with h0 | hpos
    · omega
    · have h3 : n * n * 32 ≤ n * X := by
        calc n * n * 32 ≤ 2 * (n / 128 + isa.W + 1) * X * 32 := Nat.mul_le_mul_right _ hsum
          _ = 64 * (n / 128 + isa.W + 1) * X := by ring
          _ ≤ n * X := Nat.mul_le_mul_right _ h2
      have h4 : n * (32 * n) ≤ n * X := by rw [show n * (32 * n) = n * n * 32 by ring]; exact h3
      exact Nat.le_of_mul_le_mul_left h4 hpos
  · intro hn
    generalize ∑ i ∈ Finset.range n, w i = X at *
    have h2 : 96 * (n / 128 + isa.W + 1) ≤ n := by omega
    rcases Nat.eq_zero_or_pos n with h0 | hpos
    · omega
    · have h3 : n * n * 48 ≤ n * X := by
        calc n * n * 48 ≤ 2 * (n / 128 + isa.W + 1) * X * 48 := Nat.mul_le_mul_right _ hsum
          _ = 96 * (n / 128 + isa.W + 1) * X := by ring
          _ ≤ n * X := Nat.mul_le_mul_right _ h2
      have h4 : n * (48 * n) ≤ n * X := by rw [show n * (48 * n) = n * n * 48 by ring]; exact h3
      exact Nat.le_of_mul_le_mul_left h4 hpos

/-- C122 is false for every sparse or stable container, however it came about, that contains keys with `n` consecutive hashes.  Of the searches for
them at most `j * (n / 128 + W + 1)` read at most `j` blocks; so one of them reads at least `n / (n / 128 + W + 1)` blocks, which comes close to 128,
and all together read at least half of that for each of them: 32 blocks each on average from `n = 128 * (W + 1)` on, 48 from three times that on. -/
theorem C122_consecutive_false {isa : Isa} {hash : K → Nat} {t : Table K V} (h : Reachable isa hash t) {x : Nat → K} {a n : Nat}
    (hx : ∀ i < n, hash (x i) = a + i) (hin : ∀ i < n, t.contains isa hash (x i) = .ok true) :
    ∃ w : Nat → Nat, (∀ i < n, ∃ p tr, t.findNodeT isa (x i) (hash (x i)) = .ok (p, tr, w i)) ∧
      (∀ j, ((Finset.range n).filter (fun i => w i ≤ j)).card ≤ j * (n / 128 + isa.W + 1)) ∧
      n * n ≤ 2 * (n / 128 + isa.W + 1) * ∑ i ∈ Finset.range n, w i ∧
      (0 < n → ∃ i < n, n ≤ w i * (n / 128 + isa.W + 1)) ∧
      (128 * (isa.W + 1) ≤ n → 32 * n ≤ ∑ i ∈ Finset.range n, w i) ∧
      (384 * (isa.W + 1) ≤ n → 48 * n ≤ ∑ i ∈ Finset.range n, w i) :=
  consecutive h.inv hx hin

theorem spec_inserts (xs : List (K × V)) : ∀ (m : List (K × V)) (k : K), Spec.lookup m k ≠ none ∨ k ∈ xs.map Prod.fst →
    Spec.lookup (Spec.run m (xs.map fun x => Op.insert x.1 x.2)).1 k ≠ none := by
  induction xs with
  | nil =>
    intro m k h
    rcases h with h | h
    · exact h
    · simp at h
  | cons y xs ih =>
    intro m k h
    simp only [List.map_cons, Spec.run]
    refine ih _ k ?_
    rcases h with h | h
    · left
      simp only [Spec.step]
      rw [Spec.lookup_insert]
      split
      · split <;> simp
      · exact h
    · rw [List.map_cons, List.mem_cons] at h
      rcases h with h | h
      · left
        simp only [Spec.step]
        rw [Spec.lookup_insert, if_pos h]
        split <;> simp
      · exact Or.inr h

/-- C122: the containers that the refutation is about exist for every number of keys and every target: insert the keys one after the other. -/
theorem C122_inserted (isa : Isa) (hash : K → Nat) (x : Nat → K) (v : V) (a n : Nat) (hx : ∀ i < n, hash (x i) = a + i) :
    ∃ t os, (Table.init : Table K V).run isa hash ((List.range n).map fun i => .insert (x i) v) = .ok (t, os) ∧ Reachable isa hash t ∧
      t.size = n ∧ ∀ i < n, t.contains isa hash (x i) = .ok true := by
  have hn : (((List.range n).map fun i => (x i, v)).map Prod.fst).Nodup := by
    rw [List.map_map]
    refine List.Nodup.map_on ?_ List.nodup_range
    intro i h1 i' h2 e
    have e' : x i = x i' := e
    have e1 := hx i (List.mem_range.mp h1)
    rw [e', hx i' (List.mem_range.mp h2)] at e1
    omega
  obtain ⟨t, os, e1, e2, -, e4⟩ := inserts_grew ((List.range n).map fun i => (x i, v)) (Inv.init isa hash)
    ⟨fun i hi => absurd hi (Nat.not_lt_zero _), fun _ => rfl, Or.inl rfl⟩ hn (fun x _ => rfl)
  rw [List.map_map] at e1
  have e1' : (Table.init : Table K V).run isa hash ((List.range n).map fun i => .insert (x i) v) = .ok (t, os) := e1
  refine ⟨t, os, e1', ?_, ?_, ?_⟩
  · have := after_reachable isa hash ((List.range n).map fun i => Op.insert (x i) v)
    unfold after at this
    rw [e1'] at this
    exact this
  · rw [e4]
    simp [Table.init]
  · intro i hi
    have hr := (run_contents _ (Inv.init isa hash) (List.Perm.refl _) e1').1
    rw [contains_spec e2, Spec.lookup_perm hr e2.contents_uniq]
    have := spec_inserts ((List.range n).map fun i => (x i, v)) (Table.init : Table K V).contents (x i)
      (Or.inr (by rw [List.map_map]; exact List.mem_map.mpr ⟨i, List.mem_range.mpr hi, rfl⟩))
    rw [List.map_map] at this
    have h2 : ((fun x : K × V => Op.insert x.1 x.2) ∘ fun i => (x i, v)) = fun i => Op.insert (x i) v := rfl
    rw [h2] at this
    rw [Option.isSome_iff_ne_none.mpr this]

/-- C122 where it holds: in a table smaller than a block every search reads one block. -/
theorem C122_small_partial {isa : Isa} {hash : K → Nat} {t : Table K V} (h : Reachable isa hash t) (hs : t.cap < isa.W) (k : K) :
    ∃ i tr b, t.findNodeT isa k (hash k) = .ok (i, tr, b) ∧ b ≤ 1 := by
  obtain ⟨i, tr, b, e, -, hb, -⟩ := C85_swiss_search_partial h k
  rw [Nat.div_eq_of_lt hs] at hb
  exact ⟨i, tr, b, e, hb⟩

/-- The keys 0 to 39 with the identity as hash function, 8-byte blocks: instead of about one block per key the searches read three on average. -/
example : ((List.range 40).map fun i => match (after .portable id ((List.range 40).map fun i => Op.insert i ())).findNodeT .portable i i with
    | .ok r => r.2.2
    | .error _ => 0).sum = 120 := by decide +kernel

end Tpp.Swiss

namespace Tpp.Dense

variable {k : Nat} {K V : Type} [DecidableEq K]

/-- C122 for dense containers: if the hashes of the `j`-th keys are different numbers of an interval of length `n`, a search visits at most `n` divided
by the bucket count (rounded up) elements: at most one if there are as many buckets as keys. -/
theorem C122_dense {hash : K → Nat} {t : Table k K V} (h : Reachable hash t) (j : Fin k) {a n : Nat}
    (hk : ∀ i nd, t.readNode i = .ok nd → a ≤ hash (nd.key j) ∧ hash (nd.key j) < a + n)
    (hinj : ∀ i i' nd nd', t.readNode i = .ok nd → t.readNode i' = .ok nd' → hash (nd.key j) = hash (nd'.key j) → nd.key j = nd'.key j) (x : K) :
    ∃ o r vis cmp, t.findNodeT hash j x = .ok ((o, r), vis, cmp) ∧ vis.length ≤ (n + t.bc - 1) / t.bc ∧ cmp.length ≤ vis.length ∧
      (n ≤ t.bc → vis.length ≤ 1) := by
  obtain ⟨o, r, vis, cmp, e, -, hnd, hsub, hle, hv, -⟩ := C85_dense_search h j x
  have hb : vis.length ≤ (n + t.bc - 1) / t.bc := by
    obtain ⟨l, hi⟩ := h.inv
    rcases Nat.eq_zero_or_pos t.bc with h0 | hpos
    · rw [hi.size, hi.empty h0] at hle
      exact hle.trans (Nat.zero_le _)
    · classical
      let f : Nat → Nat := fun i => match t.readNode i with
        | .ok nd => (hash (nd.key j) - a) / t.bc
        | .error _ => 0
      have hinjf : (vis.map f).Nodup := by
        refine List.Nodup.map_on ?_ hnd
        intro i h1 i' h2 ef
        obtain ⟨nd, e1, m1, -⟩ := hv i h1
        obtain ⟨nd', e2, m2, -⟩ := hv i' h2
        have ef' : (hash (nd.key j) - a) / t.bc = (hash (nd'.key j) - a) / t.bc := by simpa only [f, e1, e2] using ef
        obtain ⟨b1, b2⟩ := hk i nd e1
        obtain ⟨c1, c2⟩ := hk i' nd' e2
        have hmod : hash (nd.key j) ≡ hash (nd'.key j) [MOD t.bc] := m1.trans m2.symm
        have hmod' : (hash (nd.key j) - a) % t.bc = (hash (nd'.key j) - a) % t.bc := by
          refine Nat.ModEq.add_right_cancel' a ?_
          rw [Nat.sub_add_cancel b1, Nat.sub_add_cancel c1]
          exact hmod
        have heq : hash (nd.key j) = hash (nd'.key j) := by
          have d1 := Nat.div_add_mod (hash (nd.key j) - a) t.bc
          have d2 := Nat.div_add_mod (hash (nd'.key j) - a) t.bc
          rw [ef', hmod'] at d1
          omega
        have hkey := hinj i i' nd nd' e1 e2 heq
        have g1 := hi.toArr.node_elem (readNode_node e1)
        have g2 := hi.toArr.node_elem (readNode_node e2)
        have i1 := idxOf_of_uniq (hi.uniq j) g1
        have i2 := idxOf_of_uniq (hi.uniq j) g2
        dsimp only at i1 i2
        rw [hkey] at i1
        exact Option.some.inj (i1.symm.trans i2)
      have hsubr : vis.map f ⊆ List.range ((n + t.bc - 1) / t.bc) := by
        intro q hq
        obtain ⟨i, h1, rfl⟩ := List.mem_map.mp hq
        obtain ⟨nd, e1, -⟩ := hv i h1
        obtain ⟨b1, b2⟩ := hk i nd e1
        simp only [f, e1, List.mem_range]
        rw [Nat.lt_div_iff_mul_lt hpos]
        rw [show n + t.bc - 1 - (t.bc - 1) = n by omega]
        refine lt_of_le_of_lt ?_ (show hash (nd.key j) - a < n by omega)
        first
          | exact Nat.mul_div_le _ _
          | exact Nat.div_mul_le_self _ _
      have := (hinjf.subperm hsubr).length_le
      simpa using this
  refine ⟨o, r, vis, cmp, e, hb, hsub.length_le, ?_⟩
  intro hn
  rcases Nat.eq_zero_or_pos t.bc with h0 | hpos
  · rw [h0, Nat.div_zero] at hb
    omega
  · have : (n + t.bc - 1) / t.bc < 2 := by
      rw [Nat.div_lt_iff_lt_mul hpos]
      omega
    omega

/-- The keys 0 to 39 with the identity as hash function: every search visits one element. -/
example : (List.range 40).all (fun i => match (after id LF.initial ((List.range 40).map fun i => .insert (el i 0).1 i)).findNodeT id 0 i with
    | .ok r => r.2.1.length == 1
    | .error _ => false) = true := by decide +kernel

end Tpp.Dense

namespace Tpp.OSwiss

open Tpp.Swiss (consecutive)
open Tpp.Ordered
open Tpp.ODense (mem0)

variable {K V : Type} [DecidableEq K] {c : Cfg K}

/-- C122 is false for ordered sparse and stable containers in the same way, after any history that does not run into undefined behaviour. -/
theorem C122_ordered_false (hsz : 0 < c.sz) (hA : c.A.Sound c.sz) (m : Mem) {os : List (Op K V)} {r : Mem × OTable K V × List (Out K V)}
    (e : (OTable.create (V := V) c m).2.run c (OTable.create (V := V) c m).1 os = .ok r) {x : Nat → K} {a n : Nat}
    (hx : ∀ i < n, c.hash (x i) = a + i) (hin : ∀ i < n, r.2.1.core.contains c.isa c.hash (x i) = .ok true) :
    ∃ w : Nat → Nat, (∀ i < n, ∃ p tr, r.2.1.core.findNodeT c.isa (x i) (c.hash (x i)) = .ok (p, tr, w i)) ∧
      (0 < n → ∃ i < n, n ≤ w i * (n / 128 + c.isa.W + 1)) ∧
      (128 * (c.isa.W + 1) ≤ n → 32 * n ≤ ∑ i ∈ Finset.range n, w i) := by
  obtain ⟨h, -, -⟩ := run_index hsz hA os (Swiss.Inv.init _ _) (create_sep c m) e
  obtain ⟨w, h1, -, -, h4, h5, -⟩ := consecutive h hx hin
  exact ⟨w, h1, h4, h5⟩

/-- The keys 0 to 39 with the identity as hash function: three blocks on average, as without links. -/
def identity : Cfg Nat := { c8 with hash := id }

example : ((OTable.create (V := Nat) identity mem0).2.run identity (OTable.create (V := Nat) identity mem0).1
      ((List.range 40).map fun i => .insert i i)).toOption.map (fun r => ((List.range 40).map fun i =>
        match r.2.1.core.findNodeT identity.isa i i with
        | .ok q => q.2.2
        | .error _ => 0).sum) = some 120 := by
  decide +kernel

end Tpp.OSwiss

namespace Tpp.ODense

open Tpp.Dense (LF)
open Tpp.Ordered

variable {k : Nat} {K V : Type} [DecidableEq K]

/-- C122 for ordered dense containers, after any history that does not run into undefined behaviour. -/
theorem C122_ordered_dense {hash : K → Nat} {sz : Int} {A : Alloc} {m : Mem} {lf : LF} {c : Nat} {os : List (Op k K V)}
    {r : Mem × OTable k K V × List (Out k K V)}
    (e : (OTable.createN sz A m lf c : Mem × OTable k K V).2.run hash sz A (OTable.createN (k := k) (K := K) (V := V) sz A m lf c).1 os = .ok r)
    (j : Fin k) {a n : Nat} (hk : ∀ i nd, r.2.1.core.readNode i = .ok nd → a ≤ hash (nd.key j) ∧ hash (nd.key j) < a + n)
    (hinj : ∀ i i' nd nd', r.2.1.core.readNode i = .ok nd → r.2.1.core.readNode i' = .ok nd' → hash (nd.key j) = hash (nd'.key j) →
      nd.key j = nd'.key j) (x : K) :
    ∃ o q vis cmp, r.2.1.core.findNodeT hash j x = .ok ((o, q), vis, cmp) ∧ vis.length ≤ (n + r.2.1.core.bc - 1) / r.2.1.core.bc ∧
      (n ≤ r.2.1.core.bc → vis.length ≤ 1) := by
  obtain ⟨o, q, vis, cmp, h1, h2, -, h3⟩ := Dense.C122_dense (C112_dense_reachable e) j hk hinj x
  exact ⟨o, q, vis, cmp, h1, h2, h3⟩

/-- The keys 0 to 19 with the identity as hash function. -/
example : ((OTable.createN 24 bump mem0 LF.initial 2 : Mem × OTable 1 Nat Nat).2.run id 24 bump
      (OTable.createN (k := 1) (K := Nat) (V := Nat) 24 bump mem0 LF.initial 2).1
      ((List.range 20).map fun i => .insert (fun _ => i) i)).toOption.map (fun r => (List.range 20).all fun i =>
        match r.2.1.core.findNodeT id 0 i with
        | .ok q => q.2.1.length == 1
        | .error _ => false) = some true := by decide +kernel

end Tpp.ODense
