import Mathlib.Tactic.Linarith
import Verif.Dense.CallCount

/-!
# Keys with the same hash in dense containers
-/

set_option linter.unusedSectionVars false

namespace Tpp.Dense

variable {k : Nat} {K V : Type} [DecidableEq K]

/-- How often an insertion calls the hash function and the comparison (`do_insert`, dense_table.hpp 674-697). -/
def Table.insertCost (hash : K → Nat) (t : Table k K V) (key : Fin k → K) : M Nat := do
  let t ← t.maybeResize
  let t ← t.maybeRehash
  t.locateCalls hash key

/-- Insertions one after the other (the loop of dense_table.hpp 393), with the number of calls of all of them. -/
def Table.insertsCost (hash : K → Nat) : Table k K V → List (Elem k K V) → M (Table k K V × Nat)
  | t, [] => .ok (t, 0)
  | t, x :: xs => do
    let c ← t.insertCost hash x.1
    let r ← t.insert hash x.1 x.2
    let q ← Table.insertsCost hash r.1 xs
    .ok (q.1, c + q.2)

/-- The calls of an insertion of a new key. -/
theorem insertCost_new {hash : K → Nat} {t : Table k K V} {l : List (Elem k K V)} (h : Inv hash t l) {key : Fin k → K}
    (hn : ∀ j, ∀ e ∈ l, e.1 j ≠ key j) :
    t.insertCost hash key = .ok (k + ((List.finRange k).map fun j => l.countP (fun e => hash (e.1 j) = hash (key j))).sum) := by
  obtain ⟨t1, e1, i1, c1, f1, b1, s1⟩ := maybeResize_ok h
  obtain ⟨t2, e2, i2, c2, f2, b2, p2⟩ := maybeRehash_ok i1
  obtain ⟨n, hn', h1, h2, h3⟩ := locateCalls_count i2 p2 key
  unfold Table.insertCost
  rw [e1, bind_ok, e2, bind_ok, locateCalls_sum p2 hn']
  rw [show n = fun j => l.countP (fun e => hash (e.1 j) = hash (key j)) from funext fun j => h2 j (hn j)]

theorem sum_shift (js : List (Fin k)) (f g : Fin k → Nat) (h : ∀ j, g j = f j + 1) : (js.map g).sum = (js.map f).sum + js.length := by
  induction js with
  | nil => rfl
  | cons j js ih =>
    simp only [List.map_cons, List.sum_cons, List.length_cons, ih, h]
    omega

/-- The calls while new keys with one hash are inserted. -/
theorem insertsCost_same {hash : K → Nat} {d : Nat} : ∀ (xs : List (Elem k K V)) {t : Table k K V} {l : List (Elem k K V)}, Inv hash t l →
    (∀ j, (xs.map fun e => e.1 j).Nodup) → (∀ x ∈ xs, ∀ j, hash (x.1 j) = d ∧ ∀ e ∈ l, e.1 j ≠ x.1 j) →
    ∃ N t', t.insertsCost hash xs = .ok (t', N) ∧ Inv hash t' (l ++ xs) ∧
      2 * N = k * xs.length + 2 * (xs.length * ((List.finRange k).map fun j => l.countP (fun e => hash (e.1 j) = d)).sum) +
        k * (xs.length * xs.length) := by
  intro xs
  induction xs with
  | nil =>
    intro t l h _ _
    exact ⟨0, t, rfl, by simpa using h, by simp⟩
  | cons x xs ih =>
    intro t l h hnd hx
    have hx0 := hx x List.mem_cons_self
    have c1 := insertCost_new h (key := x.1) (fun j => (hx0 j).2)
    rw [show (fun j => l.countP (fun e => hash (e.1 j) = hash (x.1 j))) = fun j => l.countP (fun e => hash (e.1 j) = d) from
      funext fun j => by rw [(hx0 j).1]] at c1
    obtain ⟨r, e, hr⟩ := insert_ok h x.1 x.2
    have hcf : conflict l x.1 = none := by
      unfold conflict
      rw [List.findSome?_eq_none_iff]
      intro j _
      exact idxOf_none (hx0 j).2
    have hr' := (hr.fresh hcf).2
    obtain ⟨N, t', g1, g2, g3⟩ := ih hr' (fun j => by
        have := hnd j
        rw [List.map_cons, List.nodup_cons] at this
        exact this.2) (by
        intro y hy j
        obtain ⟨h1, h2⟩ := hx y (List.mem_cons_of_mem _ hy) j
        refine ⟨h1, fun e he => ?_⟩
        rcases List.mem_append.mp he with he | he
        · exact h2 e he
        · rw [List.mem_singleton] at he
          subst he
          have := hnd j
          rw [List.map_cons, List.nodup_cons] at this
          exact fun q => this.1 (List.mem_map.mpr ⟨y, hy, q.symm⟩))
    rw [sum_shift (List.finRange k) (fun j => l.countP (fun e => hash (e.1 j) = d)) _ (by
      intro j
      rw [List.countP_append]
      simp [(hx0 j).1]), List.length_finRange] at g3
    refine ⟨k + ((List.finRange k).map fun j => l.countP (fun e => hash (e.1 j) = d)).sum + N, t', ?_, ?_, ?_⟩
    · simp only [Table.insertsCost, c1, bind_ok, e, g1]
    · simpa using g2
    · rw [List.length_cons]
      generalize ((List.finRange k).map fun j => l.countP (fun e => hash (e.1 j) = d)).sum = s at *
      nlinarith

end Tpp.Dense
