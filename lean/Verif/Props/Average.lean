import Verif.Dense.Average
import Verif.Props.Dense

/-!
# C108: average work of searches in dense containers
-/

set_option linter.unusedSectionVars false

namespace Tpp.Dense

variable {k : Nat} {K V : Type} [DecidableEq K]

/-- C108, unsuccessful searches: a search for an absent key looks at exactly the elements of its bucket.  If one absent key is searched for in
each bucket, all searches together look at `size()` elements: on average at `size() / bucket_count()`, the load factor. -/
theorem C108_dense_absent {hash : K → Nat} {t : Table k K V} (h : Reachable hash t) {l : List (Elem k K V)} (hl : t.iterate = .ok l)
    (j : Fin k) (hb : t.bc ≠ 0) {x : Nat → K} (hx : ∀ b < t.bc, hash (x b) % t.bc = b)
    (habs : ∀ b < t.bc, t.contains hash j (x b) = .ok false) :
    ∃ w : Nat → Nat, (∀ b < t.bc, t.visits hash j (x b) = .ok (w b) ∧
        w b = (l.filter fun e : Elem k K V => hash (e.1 j) % t.bc = b).length) ∧
      ∑ b ∈ Finset.range t.bc, w b = t.size := by
  have hi := h.of_iterate hl
  refine ⟨crowd hash t.bc j l, ?_, ?_⟩
  · intro b hb'
    refine ⟨?_, ?_⟩
    · have := visits_miss hi j (by omega) (habs b hb')
      rwa [hx b hb'] at this
    · unfold crowd
      rw [List.countP_eq_length_filter]
  · rw [sum_crowd hash (by omega) j l, hi.size]

/-- C108, successful searches: if every element is searched for once, the searches together look at `c * (c + 1) / 2` elements for each
bucket with `c` elements. -/
theorem C108_dense_present {hash : K → Nat} {t : Table k K V} (h : Reachable hash t) {l : List (Elem k K V)} (hl : t.iterate = .ok l)
    (j : Fin k) : ∃ w : K → Nat, (∀ e ∈ l, t.visits hash j (e.1 j) = .ok (w (e.1 j))) ∧
      2 * (l.map fun e => w (e.1 j)).sum = ∑ b ∈ Finset.range t.bc,
        (l.filter fun e : Elem k K V => hash (e.1 j) % t.bc = b).length * ((l.filter fun e : Elem k K V => hash (e.1 j) % t.bc = b).length + 1) := by
  obtain ⟨w, h1, h2⟩ := visits_total (h.of_iterate hl) j
  refine ⟨w, h1, ?_⟩
  rw [h2]
  simp only [crowd, List.countP_eq_length_filter]

/-- C108, successful searches averaged over all hash functions: take any `n` keys and, for each of the `m ^ n` ways to distribute them to
`m` buckets, any container with `m` buckets that holds these keys and whose hash function distributes them in this way.  A search for one
of the keys looks at `1 + (n - 1) / (2 * m)` elements on average over the keys and the containers.  Whatever the history of each of them:
insertions, erasures and rehashes in any order. -/
theorem C108_dense_expected {n m : Nat} (ks : Fin n → K) (j : Fin k) {H : (Fin n → Fin m) → K → Nat}
    {T : (Fin n → Fin m) → Table k K V} (hr : ∀ f, Reachable (H f) (T f)) (hb : ∀ f, (T f).bc = m)
    (hl : ∀ f, ∃ l : List (Elem k K V), (T f).iterate = .ok l ∧ (l.map fun e => e.1 j).Perm (List.ofFn ks))
    (hf : ∀ f i, H f (ks i) % m = f i) :
    ∃ w : (Fin n → Fin m) → Fin n → Nat, (∀ f i, (T f).visits (H f) j (ks i) = .ok (w f i)) ∧
      2 * m * ∑ f, ∑ i, w f i = m ^ n * (n * (2 * m + (n - 1))) := by
  have key : ∀ f, ∃ w : Fin n → Nat, (∀ i, (T f).visits (H f) j (ks i) = .ok (w i)) ∧
      2 * ∑ i, w i = ∑ b : Fin m, (∑ i : Fin n, if f i = b then 1 else 0) * ((∑ i : Fin n, if f i = b then 1 else 0) + 1) := by
    intro f
    obtain ⟨l, h1, h2⟩ := hl f
    obtain ⟨w, h3, h4⟩ := visits_total ((hr f).of_iterate h1) j
    refine ⟨fun i => w (ks i), ?_, ?_⟩
    · intro i
      have : ks i ∈ l.map fun e => e.1 j := h2.mem_iff.mpr (by simp [List.mem_ofFn])
      obtain ⟨e, he, q⟩ := List.mem_map.mp this
      show _ = Except.ok (w (ks i))
      rw [← q]
      exact h3 e he
    · have e1 : (l.map fun e => w (e.1 j)).sum = ∑ i, w (ks i) := by
        have : (l.map fun e => w (e.1 j)) = (l.map fun e => e.1 j).map w := by rw [List.map_map]; rfl
        rw [this, (h2.map w).sum_eq, List.map_ofFn, List.sum_ofFn]
        rfl
      rw [← e1, h4, hb f, Finset.sum_range]
      refine Finset.sum_congr rfl fun b _ => ?_
      have e2 : crowd (H f) m j l b = ∑ i : Fin n, if f i = b then 1 else 0 := by
        have : crowd (H f) m j l b = (l.map fun e => e.1 j).countP fun x => decide (H f x % m = b) := by
          rw [List.countP_map]
          rfl
        rw [this, h2.countP_eq]
        have : ∀ (q : Nat) (g : Fin q → K), (List.ofFn g).countP (fun x => decide (H f x % m = b)) =
            ∑ i : Fin q, if H f (g i) % m = b then 1 else 0 := by
          intro q
          induction q with
          | zero => intro g; simp
          | succ q ih =>
            intro g
            rw [List.ofFn_succ, List.countP_cons, ih, Fin.sum_univ_succ, Nat.add_comm]
            simp
        rw [this]
        refine Finset.sum_congr rfl fun i _ => ?_
        rw [hf f i]
        simp [Fin.ext_iff]
      rw [e2]
  choose w h1 h2 using key
  refine ⟨w, h1, ?_⟩
  have : 2 * m * ∑ f, ∑ i, w f i = m * ∑ f, 2 * ∑ i, w f i := by
    rw [← Finset.mul_sum]
    ring
  rw [this, Finset.sum_congr rfl fun f _ => h2 f, sum_squares]

/-- Five elements in eight buckets, three of them in bucket 2. -/
example : let t := after (fun n => n % 8) LF.initial ([2, 10, 18, 5, 6].map fun i => (.insert (fun _ => i) i : Op 1 Nat Nat))
    t.bc = 8 ∧ t.size = 5 ∧ ([2, 10, 18, 5, 6].mapM fun i => t.visits (fun n => n % 8) 0 i) = .ok [1, 2, 3, 1, 1] ∧
    ((List.range 8).mapM fun i => t.visits (fun n => n % 8) 0 (i + 80)) = .ok [0, 0, 3, 0, 0, 1, 1, 0] := by decide +kernel

/-- Two keys and all 64 ways to distribute them to eight buckets: 136 visits for 128 searches, as `2 * 8 * 136 = 64 * (2 * (16 + 1))`. -/
example : let H : (Fin 2 → Fin 8) → Nat → Nat := fun f x => if x = 7 then f 0 else f 1
    let T : (Fin 2 → Fin 8) → Table 1 Nat Nat := fun f => after (H f) LF.initial [.insert (fun _ => 7) 0, .insert (fun _ => 9) 0]
    (∀ f, Reachable (H f) (T f)) ∧ (∀ f, (T f).bc = 8 ∧ (T f).iterate.map (fun l => l.map fun e => e.1 0) = .ok [7, 9]) ∧
    (∀ f, H f 7 % 8 = f 0 ∧ H f 9 % 8 = f 1) ∧
    (∑ f, match (T f).visits (H f) 0 7, (T f).visits (H f) 0 9 with
      | .ok a, .ok b => a + b
      | _, _ => 0) = 136 := by
  refine ⟨fun f => after_reachable _ _ _, ?_, ?_, ?_⟩
  · decide +kernel
  · decide +kernel
  · decide +kernel

end Tpp.Dense
