import Verif.Props.Dense

/-!
# C75: `reserve` and `rehash` of dense containers

The maximal load factor is `p / q`, computed exactly (`LF.ratio`); `bc` is `bucket_count()`, `cap` the number of elements for which
the array has room.  Iterators and references stay valid as long as the array is not reallocated (`cap` does not change).
-/

set_option linter.unusedSectionVars false

namespace Tpp.Dense

variable {k : Nat} {K V : Type} [DecidableEq K]

/-- A program inserting the elements one by one (`insert`, dense_table.hpp 374-375). -/
def Table.inserts (hash : K → Nat) (t : Table k K V) (xs : List (Elem k K V)) : M (Table k K V) :=
  xs.foldlM (fun t x => do
    let r ← t.insert hash x.1 x.2
    .ok r.1) t

theorem inserts_cons {hash : K → Nat} {t : Table k K V} {x : Elem k K V} {xs : List (Elem k K V)} {r : Table k K V × Nat × Bool}
    (e : t.insert hash x.1 x.2 = .ok r) : t.inserts hash (x :: xs) = r.1.inserts hash xs := by
  unfold Table.inserts
  rw [List.foldlM_cons, e, bind_ok, bind_ok]

theorem InsertOk.inv {hash : K → Nat} {t : Table k K V} {l : List (Elem k K V)} {key : Fin k → K} {v : V}
    {r : Table k K V × Nat × Bool} (h : InsertOk hash t l key v r) : ∃ l', Inv hash r.1 l' ∧ l'.length ≤ l.length + 1 ∧
      (conflict l key = none → l' = l ++ [(key, v)]) := by
  cases hc : conflict l key with
  | none => exact ⟨_, (h.fresh hc).2, by simp, fun _ => rfl⟩
  | some i => exact ⟨l, (h.dup i hc).2, by omega, fun e => by cases e⟩

theorem inserts_keep_lf {hash : K → Nat} {n : Nat} : ∀ (xs : List (Elem k K V)) {t : Table k K V} {l : List (Elem k K V)},
    Inv hash t l → l.length + xs.length ≤ n → n ≤ t.cap → (0 < n → 0 < t.bc) → (∀ s < n, t.lf.full s t.bc = false) →
    ∃ t', t.inserts hash xs = .ok t' ∧ t'.cap = t.cap ∧ t'.bc = t.bc := by
  intro xs
  induction xs with
  | nil => intro t l _ _ _ _ _; exact ⟨t, rfl, rfl, rfl⟩
  | cons x xs ih =>
    intro t l hi hn hc hb hf
    simp only [List.length_cons] at hn
    obtain ⟨r, e, hr⟩ := insert_ok hi x.1 x.2
    have hbc := insert_bc hi e
    have hsz := hi.size
    have b1 := hb (by omega)
    have hm : t.maybeResize = .ok t := by
      unfold Table.maybeResize
      rw [if_neg (by omega)]
    have hcap := hr.cap t hm
    rw [if_neg (by omega), hf t.size (by omega)] at hbc
    simp only [Bool.false_eq_true, if_false] at hbc
    obtain ⟨l', i', hle, _⟩ := hr.inv
    obtain ⟨t', e', c', bb⟩ := ih i' (by omega) (by omega) (by rw [hbc]; exact hb) (by rw [hbc, hr.lf]; exact hf)
    exact ⟨t', by rw [inserts_cons e]; exact e', c'.trans hcap, bb.trans hbc⟩

theorem inserts_keep {hash : K → Nat} {p q n : Nat} (xs : List (Elem k K V)) {t : Table k K V} {l : List (Elem k K V)}
    (hi : Inv hash t l) (hlf : t.lf = LF.ratio p q) (hn : l.length + xs.length ≤ n) (hc : n ≤ t.cap)
    (hb : 0 < n → 0 < t.bc ∧ (n - 1) * q < p * t.bc) :
    ∃ t', t.inserts hash xs = .ok t' ∧ t'.cap = t.cap ∧ t'.bc = t.bc := by
  refine inserts_keep_lf xs hi hn hc (fun h => (hb h).1) (fun s hs => ?_)
  rw [hlf]
  simp only [LF.ratio, decide_eq_false_iff_not]
  have : s * q ≤ (n - 1) * q := Nat.mul_le_mul_right q (by omega)
  have := (hb (by omega)).2
  omega

/-- The bucket count never shrinks in insertions. -/
theorem inserts_mono {hash : K → Nat} : ∀ (xs : List (Elem k K V)) {t t' : Table k K V} {l : List (Elem k K V)},
    Inv hash t l → t.inserts hash xs = .ok t' → t.bc ≤ t'.bc := by
  intro xs
  induction xs with
  | nil => intro t t' l _ e; cases e; exact Nat.le_refl _
  | cons x xs ih =>
    intro t t' l hi e
    obtain ⟨r, e1, hr⟩ := insert_ok hi x.1 x.2
    rw [inserts_cons e1] at e
    obtain ⟨l', i', _, _⟩ := hr.inv
    have := ih i' e
    have hbc := insert_bc hi e1
    have : t.bc ≤ r.1.bc := by
      rw [hbc]
      split
      · omega
      · split <;> omega
    omega

/-- C75 with a maximal load factor of at most 1: after `reserve(n)`, up to the size `n` no insertion reallocates the array or
changes the number of buckets. -/
theorem C75_reserve_partial {hash : K → Nat} {t : Table k K V} (h : Reachable hash t) {l : List (Elem k K V)} (hl : t.iterate = .ok l)
    {p q : Nat} (hlf : t.lf = LF.ratio p q) (hp : 0 < p) (hpq : p ≤ q) (n : Nat) :
    ∃ t1, t.reserve n = .ok t1 ∧ Behaves hash t1 l ∧ ∀ xs : List (Elem k K V), l.length + xs.length ≤ n →
      ∃ t2, t1.inserts hash xs = .ok t2 ∧ t2.cap = t1.cap ∧ t2.bc = t1.bc := by
  have hi := h.of_iterate hl
  obtain ⟨t1, e1, i1, c1, _, f1, _, b1⟩ := reserve_ok hi n
  refine ⟨t1, e1, i1.behaves, fun xs hx => inserts_keep xs i1 (f1.trans hlf) hx c1 (fun hn => ?_)⟩
  rw [hlf] at b1
  simp only [LF.ratio] at b1
  have h1 : n * q < p * (n * q / p) + p := by
    have := Nat.div_add_mod (n * q) p
    have := Nat.mod_lt (n * q) hp
    omega
  have h2 : p * (n * q / p) ≤ p * t1.bc := Nat.mul_le_mul_left p b1
  have h3 : n * q = (n - 1) * q + q := by
    obtain ⟨m, rfl⟩ : ∃ m, n = m + 1 := ⟨n - 1, by omega⟩
    simp only [Nat.add_sub_cancel, Nat.succ_mul]
  refine ⟨?_, by omega⟩
  by_contra hb
  have : t1.bc = 0 := by omega
  rw [this] at h2
  omega

theorem inserts_length {hash : K → Nat} : ∀ (xs : List (Elem k K V)) {t : Table k K V} {l : List (Elem k K V)}, Inv hash t l →
    (∀ i (hi : i < xs.length), conflict (l ++ xs.take i) xs[i].1 = none) →
    ∃ t', t.inserts hash xs = .ok t' ∧ Inv hash t' (l ++ xs) ∧ t'.lf = t.lf := by
  intro xs
  induction xs with
  | nil => intro t l h _; exact ⟨t, rfl, by rw [List.append_nil]; exact h, rfl⟩
  | cons x xs ih =>
    intro t l h hd
    obtain ⟨r, e, hr⟩ := insert_ok h x.1 x.2
    have h0 := hd 0 (by simp)
    simp only [List.take_zero, List.append_nil, List.getElem_cons_zero] at h0
    have i1 := (hr.fresh h0).2
    obtain ⟨t', e', i', f'⟩ := ih i1 (by
      intro i hi
      have := hd (i + 1) (by simp only [List.length_cons]; omega)
      simp only [List.take_succ_cons, List.getElem_cons_succ] at this
      rw [List.append_assoc]
      exact this)
    exact ⟨t', by rw [inserts_cons e]; exact e', by rw [List.append_assoc] at i'; exact i', f'.trans hr.lf⟩

theorem inserts_append {hash : K → Nat} {t t' : Table k K V} {xs ys : List (Elem k K V)} (e : t.inserts hash xs = .ok t') :
    t.inserts hash (xs ++ ys) = t'.inserts hash ys := by
  unfold Table.inserts at *
  rw [List.foldlM_append, e, bind_ok]

/-- No element of `xs` shares a component with another one. -/
def Distinct (xs : List (Elem k K V)) : Prop :=
  xs.Pairwise (fun a b => ∀ j, a.1 j ≠ b.1 j)

theorem conflict_take {xs : List (Elem k K V)} (h : Distinct xs) {i : Nat} (hi : i < xs.length) :
    conflict (xs.take i) xs[i].1 = none := by
  unfold conflict
  rw [List.findSome?_eq_none_iff]
  intro j _
  rw [idxOf_none]
  intro e he
  obtain ⟨m, hm, rfl⟩ := List.getElem_of_mem he
  simp only [List.length_take] at hm
  rw [List.getElem_take]
  exact List.pairwise_iff_getElem.mp h m i (by omega) hi (by omega) j

/-- The number of buckets after `rehash`: it never shrinks. -/
theorem rehash_bc {hash : K → Nat} {t t' : Table k K V} {l : List (Elem k K V)} (h : Inv hash t l) {n : Nat}
    (e : t.rehash n = .ok t') :
    t'.bc = if n = 0 ∧ t.size = 0 then t.bc else max t.bc (max (t.lf.div t.size) n) := by
  unfold Table.rehash at e
  split
  · rename_i h0
    rw [if_pos h0] at e
    cases e
    rfl
  · rename_i h0
    rw [if_neg h0] at e
    simp only at e
    split at e
    · have hpos : 0 < t.bc ∨ 0 < max (t.lf.div t.size) n := by
        by_cases hb : t.bc = 0
        · right
          have hl := h.empty hb
          have := h.size
          rw [hl] at this
          simp only [List.length_nil] at this
          omega
        · left; omega
      obtain ⟨t1, e1, _, _, _, _, hb, _⟩ := doRehash_ok h.toArr hpos
      rw [e1] at e
      cases e
      rw [hb]
      split <;> omega
    · cases e
      omega

/-- C75 for every maximal load factor `p / q`, exactly: `reserve(n)` of an empty container saves `n` insertions of new elements
from rehashing if and only if `n * q % p < q`. -/
theorem C75_reserve_iff {hash : K → Nat} {p q n : Nat} (hp : 0 < p) (hn : 0 < n) {xs : List (Elem k K V)} (hx : xs.length = n)
    (hd : Distinct xs) :
    ∃ t1 t2, (Table.init (LF.ratio p q) : Table k K V).reserve n = .ok t1 ∧ t1.inserts hash xs = .ok t2 ∧
      (t2.bc = t1.bc ↔ n * q % p < q) := by
  have hi : Inv hash (Table.init (LF.ratio p q) : Table k K V) [] := init_inv hash _
  obtain ⟨t0, e0, i0, c0, f0, b0⟩ := resizeData_ok hi (c := n) (Nat.zero_le _)
  obtain ⟨t1, e1, i1, c1, f1, _, _⟩ := rehash_ok i0 (t0.lf.div n)
  have hb1 := rehash_bc i0 e1
  have hlf1 : t1.lf = LF.ratio p q := f1.trans f0
  have hbc1 : t1.bc = n * q / p := by
    have hs0 : t0.size = 0 := i0.size
    have hbz : t0.bc = 0 := b0
    rw [hb1, hs0, hbz, f0]
    simp only [Table.init, LF.ratio, Nat.zero_mul, Nat.zero_div]
    have hge := Nat.zero_le (n * q / p)
    generalize n * q / p = x at *
    split <;> omega
  have e2 : (Table.init (LF.ratio p q) : Table k K V).reserve n = .ok t1 := by
    unfold Table.reserve
    rw [if_pos (show n > (Table.init (LF.ratio p q) : Table k K V).cap from hn), e0, bind_ok, e1]
  have hm := Nat.div_add_mod (n * q) p
  have h3 : n * q = (n - 1) * q + q := by
    obtain ⟨m, rfl⟩ : ∃ m, n = m + 1 := ⟨n - 1, by omega⟩
    simp only [Nat.add_sub_cancel, Nat.succ_mul]
  by_cases hc : n * q % p < q
  · obtain ⟨t2, e3, _, b2⟩ := inserts_keep (n := n) xs i1 hlf1 (by simp [hx]) (by omega) (by
      intro _
      rw [hbc1]
      refine ⟨?_, by omega⟩
      by_contra hz
      have hz0 : n * q / p = 0 := by omega
      rw [hz0] at hm
      have : n * q ≥ q := Nat.le_mul_of_pos_left q hn
      omega)
    exact ⟨t1, t2, e2, e3, by simp [hc, b2]⟩
  · have hne : xs ≠ [] := by intro e; rw [e] at hx; simp at hx; omega
    obtain ⟨ys, x, rfl⟩ : ∃ ys x, xs = ys ++ [x] := ⟨xs.dropLast, xs.getLast hne, (List.dropLast_append_getLast hne).symm⟩
    have hdy : Distinct ys := (List.pairwise_append.mp hd).1
    obtain ⟨t3, e3, i3, f3⟩ := inserts_length ys i1 (fun i hi => conflict_take hdy hi)
    have hb3 := inserts_mono ys i1 e3
    obtain ⟨r, e4, hr⟩ := insert_ok i3 x.1 x.2
    have hb4 := insert_bc i3 e4
    have hs3 : t3.size = n - 1 := by
      rw [i3.size]
      simp only [List.length_append, List.length_cons, List.length_nil] at hx ⊢
      omega
    refine ⟨t1, r.1, e2, ?_, ?_⟩
    · rw [inserts_append e3, inserts_cons e4]; rfl
    · simp only [hc, iff_false]
      rw [hb4, f3, hlf1, hs3]
      split
      · omega
      · rename_i hz
        split
        · omega
        · rename_i hf
          simp only [LF.ratio, decide_eq_true_eq] at hf
          intro e
          rw [e, hbc1] at hf
          omega

/-- C75 for every load factor: after `reserve(n)`, up to the size `n` no insertion reallocates the array (iterators and references
stay valid). -/
theorem C75_references {hash : K → Nat} {t : Table k K V} (h : Reachable hash t) {l : List (Elem k K V)} (hl : t.iterate = .ok l)
    (n : Nat) : ∃ t1, t.reserve n = .ok t1 ∧ Behaves hash t1 l ∧ ∀ xs : List (Elem k K V), l.length + xs.length ≤ n →
      ∃ t2, t1.inserts hash xs = .ok t2 ∧ t2.cap = t1.cap := by
  obtain ⟨t1, e1, i1, c1, _, _, _, _⟩ := reserve_ok (h.of_iterate hl) n
  refine ⟨t1, e1, i1.behaves, fun xs hx => ?_⟩
  have : ∀ (xs : List (Elem k K V)) {t : Table k K V} {l : List (Elem k K V)}, Inv hash t l → l.length + xs.length ≤ t.cap →
      ∃ t2, t.inserts hash xs = .ok t2 ∧ t2.cap = t.cap := by
    intro xs
    induction xs with
    | nil => intro t l _ _; exact ⟨t, rfl, rfl⟩
    | cons x xs ih =>
      intro t l hi hn
      simp only [List.length_cons] at hn
      obtain ⟨r, e, hr⟩ := insert_ok hi x.1 x.2
      have hm : t.maybeResize = .ok t := by
        unfold Table.maybeResize
        have := hi.size
        rw [if_neg (by omega)]
      obtain ⟨l', i', hle, _⟩ := hr.inv
      have hcap := hr.cap t hm
      obtain ⟨t', e', c'⟩ := ih i' (by omega)
      exact ⟨t', by rw [inserts_cons e]; exact e', c'.trans hcap⟩
  exact this xs i1 (by omega)

/-- C75, `rehash(n)`: contents stay, and the number of buckets is exactly this (in particular at least `n`, and it never
shrinks). -/
theorem C75_rehash {hash : K → Nat} {t : Table k K V} (h : Reachable hash t) {l : List (Elem k K V)} (hl : t.iterate = .ok l)
    {p q : Nat} (hlf : t.lf = LF.ratio p q) (n : Nat) :
    ∃ t', t.rehash n = .ok t' ∧ Behaves hash t' l ∧ t'.cap = t.cap ∧ t'.lf = t.lf ∧
      t'.bc = if n = 0 ∧ l = [] then t.bc else max t.bc (max (l.length * q / p) n) := by
  have hi := h.of_iterate hl
  obtain ⟨t', e, i', c', f', _, _⟩ := rehash_ok hi n
  refine ⟨t', e, i'.behaves, c', f', ?_⟩
  rw [rehash_bc hi e, hlf, hi.size]
  simp only [LF.ratio, List.length_eq_zero_iff]

/-- The load factor 3: `reserve(4)` provides one bucket, the fourth insertion rehashes. -/
example : ∃ t1 t2, (Table.init (LF.ratio 3 1) : Table 1 Nat Nat).reserve 4 = .ok t1 ∧
    t1.inserts h3 [el 1 0, el 2 0, el 3 0, el 4 0] = .ok t2 ∧ t1.bc = 1 ∧ t2.bc = 2 ∧ t2.cap = 4 ∧ ¬ 4 * 1 % 3 < 1 :=
  ⟨_, _, rfl, rfl, rfl, rfl, rfl, by decide⟩

/-- The initial load factor: room for ten elements in eleven buckets. -/
example : ∃ t1 t2, demo.reserve 10 = .ok t1 ∧
    t1.inserts h3 [el 11 0, el 12 0, el 13 0, el 14 0, el 15 0, el 16 0] = .ok t2 ∧ demo.cap = 8 ∧ t1.bc = 11 ∧ t2.bc = 11 ∧
    t2.cap = 10 ∧ t2.size = 10 :=
  ⟨_, _, rfl, rfl, rfl, rfl, rfl, rfl, rfl⟩

/-- Without `reserve` the ninth insertion reallocates and rehashes. -/
example : ∃ t2, demo.inserts h3 [el 11 0, el 12 0, el 13 0, el 14 0, el 15 0, el 16 0] = .ok t2 ∧ t2.bc = 16 ∧ t2.cap = 16 :=
  ⟨_, rfl, rfl, rfl⟩

end Tpp.Dense
