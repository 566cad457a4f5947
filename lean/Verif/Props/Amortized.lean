import Verif.Swiss.Amortized
import Verif.Props.SwissA

/-!
# C95: rehashes cost a constant per insertion on average

The log of a container (`Verif/Swiss/Model.lean`) holds every buffer allocated and every element relocated or exchanged by the
rehashes.  A single insertion may relocate all elements; the total over a history is linear in the number of insertions.
-/

set_option linter.unusedSectionVars false

namespace Tpp.Swiss

variable {K V : Type} [DecidableEq K]

/-- The number of relocations and exchanges of elements in a log. -/
def relocations (l : List Ev) : Nat :=
  (l.filter fun e => match e with | .grow _ => false | _ => true).length

/-- The number of slots of all buffers allocated. -/
def slotsAllocated (l : List Ev) : Nat := (l.map fun e => match e with | .grow n => n | _ => 0).sum

theorem cost_eq (g : Nat) (l : List Ev) : cost g l = g * slotsAllocated l + relocations l := by
  induction l with
  | nil => rfl
  | cons e l ih =>
    unfold slotsAllocated relocations at ih ⊢
    cases e <;> simp only [cost, List.map_cons, List.sum_cons, List.filter_cons, ih, Nat.zero_add, if_true, Bool.false_eq_true, if_false,
      List.length_cons, Nat.mul_add] <;> omega

/-- C95: in every history of insertions, erasures and the like on a default constructed container, the slots of the buffers allocated
and the relocations of elements are together at most ten times the insertions. -/
theorem C95_amortized_partial (isa : Isa) (hash : K → Nat) (ops : List (Op K V)) (hops : ∀ op ∈ ops, op.plain = true) {t : Table K V}
    {outs : List (Out K V)} (hrun : (Table.init : Table K V).run isa hash ops = .ok (t, outs)) :
    slotsAllocated t.log + relocations t.log ≤ 10 * (ops.map Op.adds).sum := by
  have h := run_pay ops hops (Inv.init isa hash) hrun
  have h0 : cost 1 (Table.init : Table K V).log = 0 := rfl
  have h1 : (Table.init : Table K V).saved isa 5 = 0 := by simp [Table.saved, Table.used, Table.init, maxSize]
  rw [h0, h1, cost_eq] at h
  unfold addCount at h
  omega

/-- C95, from any container: what comes on top is at most five times its bucket count, once. -/
theorem C95_from_partial {isa : Isa} {hash : K → Nat} {t t' : Table K V} (hr : Reachable isa hash t) (ops : List (Op K V))
    (hops : ∀ op ∈ ops, op.plain = true) {outs : List (Out K V)} (hrun : t.run isa hash ops = .ok (t', outs)) :
    slotsAllocated t'.log + relocations t'.log ≤
      slotsAllocated t.log + relocations t.log + 10 * (ops.map Op.adds).sum + 5 * t.cap := by
  have h := run_pay ops hops hr.inv hrun
  have h1 : t.saved isa 5 ≤ 5 * t.cap := by
    unfold Table.saved Table.used
    have : maxSize isa t.cap ≤ t.cap := by unfold maxSize; split <;> omega
    omega
  rw [cost_eq, cost_eq] at h
  unfold addCount at h
  omega

/-- C95, without erasures: at most two relocations for an insertion. -/
theorem C95_growing_partial (isa : Isa) (hash : K → Nat) (ops : List (Op K V)) (hops : ∀ op ∈ ops, op.plain = true ∧ op.noErase = true)
    {t : Table K V} {outs : List (Out K V)} (hrun : (Table.init : Table K V).run isa hash ops = .ok (t, outs)) :
    relocations t.log ≤ 2 * (ops.map Op.adds).sum := by
  have h := run_pay_two ops hops (Inv.init isa hash) (fun i hi => absurd hi (Nat.not_lt_zero i)) hrun
  have h0 : cost 0 (Table.init : Table K V).log = 0 := rfl
  have h1 : (Table.init : Table K V).saved isa 1 = 0 := by simp [Table.saved, Table.used, Table.init, maxSize]
  rw [h0, h1, cost_eq] at h
  unfold addCount at h
  omega

/-! ## Two is the best constant -/

/-- The cost of having grown to a bucket count, nearly. -/
def Grown (isa : Isa) (t : Table Nat V) : Prop :=
  t.cap = 0 ∨ t.cap = 1 ∨ (t.cap = 3 ∧ 1 ≤ cost 0 t.log) ∨ (t.cap = 7 ∧ 4 ≤ cost 0 t.log) ∨
    (15 ≤ t.cap ∧ maxSize isa t.cap ≤ cost 0 t.log + 4)

/-- A container with the elements inserted so far. -/
structure Filled (isa : Isa) (hash : Nat → Nat) (n : Nat) (t : Table Nat V) : Prop where
  inv : Inv isa hash t
  noTomb : NoTomb t
  size : t.size = n
  keys : ∀ x ∈ t.contents, x.1 < n
  grown : Grown isa t
  small : t.cap ≤ 1 ∨ maxSize isa ((t.cap - 1) / 2) < n
  zero : 0 < n → (Spec.lookup t.contents 0).isSome = true

theorem Filled.insert {isa : Isa} {hash : Nat → Nat} {n : Nat} {t : Table Nat V} (h : Filled isa hash n t) (v : V)
    {t' : Table Nat V} {o : Out Nat V} (e : t.step isa hash (.insert n v) = .ok (t', o)) : Filled isa hash (n + 1) t' := by
  have hn' := step_noTomb h.inv (op := .insert n v) rfl e h.noTomb
  have hi' := (ends_ok (step_spec h.inv (List.Perm.refl _) (.insert n v)) e).1
  obtain ⟨a, p, b, e1, e2, e3, e4⟩ := insert_spec h.inv n v
  simp only [Table.step] at e
  rw [e1] at e
  simp only [bind_ok] at e
  obtain ⟨_, _, e⟩ := Tpp.Dense.bind_eq_ok e
  obtain ⟨_, _, e⟩ := Tpp.Dense.bind_eq_ok e
  cases e
  rcases e4 with ⟨_, _, hp, _, hs, _⟩ | ⟨w, _, hl, _, _⟩
  · obtain ⟨t1, hroom, hc, _, hlog⟩ := insert_adds 0 h.inv e1
    have hs1 := h.size
    refine ⟨hi', hn', by omega, ?_, ?_, ?_, ?_⟩
    · intro x hx
      rcases List.mem_cons.mp (hp.mem_iff.mp hx) with rfl | hx
      · exact Nat.lt_succ_self _
      · exact Nat.lt_succ_of_lt (h.keys x hx)
    · have hg := h.grown
      unfold Grown at hg ⊢
      rw [hc, hlog]
      cases hroom with
      | same hh => subst hh; exact hg
      | first h0 h1 h2 h3 => exact .inr (.inl h1)
      | grow h0 h1 h2 h3 h4 =>
        have hb := h.inv.budget h0
        have hz : cnt (fun i => (t.ctl i).isDeleted) t.cap = 0 := by
          refine cnt_eq_zero ?_
          intro i hi
          cases hci : t.ctl i <;> simp [Ctl.isDeleted]
          exact absurd hci (h.noTomb i hi)
        rw [hz, h1] at hb
        rw [h2]
        obtain ⟨m, hm⟩ := (h.inv.meta_ok h0).pow
        rcases hg with g | g | ⟨g, g'⟩ | ⟨g, g'⟩ | ⟨g, g'⟩
        · omega
        · rw [g] at hb h4 ⊢
          have : maxSize isa 1 = 1 := by simp [maxSize]
          omega
        · rw [g] at hb h4 ⊢
          have : maxSize isa 3 = 3 := by simp [maxSize]
          omega
        · rw [g] at hb h4 ⊢
          refine .inr (.inr (.inr (.inr ⟨by omega, ?_⟩)))
          have h15 : maxSize isa (2 * 7 + 1) = 14 := by simp [maxSize]
          have h7 : 6 ≤ maxSize isa 7 := by unfold maxSize; split <;> omega
          omega
        · refine .inr (.inr (.inr (.inr ⟨by omega, ?_⟩)))
          have hdbl : maxSize isa (2 * t.cap + 1) ≤ 2 * maxSize isa t.cap := by
            have h8 : ∃ q, t.cap = 8 * q + 7 := by
              match m, hm with
              | 0, hm => simp at hm; omega
              | 1, hm => omega
              | 2, hm => omega
              | k + 3, hm =>
                refine ⟨2 ^ k - 1, ?_⟩
                have := Nat.two_pow_pos k
                rw [Nat.pow_add] at hm
                omega
            obtain ⟨q, hq⟩ := h8
            unfold maxSize
            split <;> split <;> omega
          omega
      | reclaim h0 h1 h2 h3 h4 h5 h6 => exact absurd h.noTomb h6
    · have hg := h.small
      rw [hc]
      cases hroom with
      | same hh => subst hh; omega
      | first h0 h1 h2 h3 => exact .inl (by omega)
      | grow h0 h1 h2 h3 h4 =>
        right
        have hb := h.inv.budget h0
        have hz : cnt (fun i => (t.ctl i).isDeleted) t.cap = 0 := by
          refine cnt_eq_zero ?_
          intro i hi
          cases hci : t.ctl i <;> simp [Ctl.isDeleted]
          exact absurd hci (h.noTomb i hi)
        rw [h2, show (2 * t.cap + 1 - 1) / 2 = t.cap by omega]
        omega
      | reclaim h0 h1 h2 h3 h4 h5 h6 => exact absurd h.noTomb h6
    · intro _
      rw [Spec.lookup_perm hp hi'.contents_uniq, Spec.lookup_cons]
      by_cases h0 : n = 0
      · simp [h0]
      · rw [if_neg h0]
        exact h.zero (by omega)
  · have := h.keys (n, w) ((Spec.lookup_some h.inv.contents_uniq).mp hl)
    exact absurd this (Nat.lt_irrefl n)

theorem Filled.init (isa : Isa) (hash : Nat → Nat) : Filled isa hash 0 (Table.init : Table Nat V) :=
  ⟨Inv.init isa hash, fun i hi => absurd hi (Nat.not_lt_zero i), rfl, fun x hx => (by cases hx), .inl rfl, .inl (Nat.zero_le _),
    fun h => absurd h (Nat.lt_irrefl 0)⟩

theorem Filled.run {isa : Isa} {hash : Nat → Nat} (v : V) : ∀ (m : Nat) {n : Nat} {t : Table Nat V}, Filled isa hash n t →
    ∃ t' o, t.run isa hash ((List.range' n m).map fun i => Op.insert i v) = .ok (t', o) ∧ Filled isa hash (n + m) t'
  | 0, _, t, h => ⟨t, [], rfl, h⟩
  | m + 1, n, t, h => by
    rw [List.range'_succ, List.map_cons]
    unfold Table.run
    obtain ⟨x, p, b, h1, h2, hg, h3⟩ := insert_spec h.inv n v
    have hp : ∃ y, x.At p y := by
      rcases h3 with ⟨_, _, _, h6, _⟩ | ⟨w, _, _, h5, h6⟩
      · exact ⟨_, h6⟩
      · subst h5; exact ⟨_, h6⟩
    obtain ⟨y, hy⟩ := hp
    obtain ⟨nd, d1, d2, d3⟩ := deref_spec h2 hy
    have hs : t.step isa hash (.insert n v) = .ok (x, .ins (nd.key, nd.val) b) := by
      simp only [Table.step, h1, bind_ok, d1, d2]
    obtain ⟨t', o, e, hf⟩ := Filled.run v m (h.insert v hs)
    rw [hs]
    simp only [bind_ok]
    rw [e]
    refine ⟨t', _, rfl, ?_⟩
    rw [show n + (m + 1) = n + 1 + m by omega]
    exact hf

theorem filled (isa : Isa) (hash : Nat → Nat) (v : V) (n : Nat) : ∃ (t : Table Nat V) (outs : List (Out Nat V)),
    (Table.init : Table Nat V).run isa hash ((List.range n).map fun i => Op.insert i v) = .ok (t, outs) ∧ Filled isa hash n t := by
  have := Filled.run v n (Filled.init (V := V) isa hash)
  rw [Nat.zero_add, ← List.range_eq_range'] at this
  exact this

/-- C95: whatever the hash function, inserting `n` new keys into an empty container relocates at least `2n - 6` elements for
arbitrarily large `n`; the bound of `C95_growing_partial` cannot be lowered. -/
theorem C95_two_needed (isa : Isa) (hash : Nat → Nat) (v : V) (N : Nat) :
    ∃ n, N ≤ n ∧ ∃ (t : Table Nat V) (outs : List (Out Nat V)),
      (Table.init : Table Nat V).run isa hash ((List.range n).map fun i => Op.insert i v) = .ok (t, outs) ∧
        2 * n ≤ relocations t.log + 6 := by
  have hpow : N < 2 ^ N := Nat.lt_two_pow_self
  have hbig : 2 ^ (N + 4) = 16 * 2 ^ N := by rw [Nat.pow_add]; omega
  have hm : maxSize isa (2 ^ (N + 4) - 1) = 14 * 2 ^ N := by
    unfold maxSize
    rw [if_neg (by omega)]
    omega
  refine ⟨14 * 2 ^ N + 1, by omega, ?_⟩
  obtain ⟨t, o, e, hf⟩ := filled isa hash v (14 * 2 ^ N + 1)
  refine ⟨t, o, e, ?_⟩
  have hsz := hf.inv.size_le
  rw [hf.size] at hsz
  have hcap : 2 ^ (N + 5) ≤ t.cap + 1 := by
    obtain ⟨j, hj⟩ := hf.inv.pow
    rw [hj]
    refine Nat.pow_le_pow_right (by omega) ?_
    by_contra hlt
    have : 2 ^ j ≤ 2 ^ (N + 4) := Nat.pow_le_pow_right (by omega) (by omega)
    rw [← hj] at this
    have hmx : maxSize isa t.cap ≤ maxSize isa (2 ^ (N + 4) - 1) := by
      rw [hm]
      unfold maxSize
      split <;> omega
    omega
  have h5 : 2 ^ (N + 5) = 32 * 2 ^ N := by rw [Nat.pow_add]; omega
  have hmx : 28 * 2 ^ N ≤ maxSize isa t.cap := by
    unfold maxSize
    rw [if_neg (by omega)]
    omega
  have hc := cost_eq 0 t.log
  rcases hf.grown with g | g | ⟨g, g'⟩ | ⟨g, g'⟩ | ⟨g, g'⟩
  all_goals omega

/-- C95 at work: a container is filled, thirteen elements are erased, and five insertions reclaim the erased slots in place. -/
def demoChurn : List (Op Nat Nat) :=
  ((List.range 28).map fun i => Op.insert i i) ++ ((List.range 13).map fun i => Op.erase i) ++
    ((List.range 5).map fun i => Op.insert (100 + i) i)

set_option maxRecDepth 100000 in
example : (∀ op ∈ demoChurn, op.plain = true) ∧ (demoChurn.map Op.adds).sum = 33 ∧
    ((Table.init : Table Nat Nat).run .sse2 (fun n => n / 20 * 2048) demoChurn).map (fun r =>
      (r.1.cap, r.1.size, slotsAllocated r.1.log, relocations r.1.log, r.1.log.head?)) =
      .ok (31, 20, 57, 29, some (.mv 19 3)) := ⟨by decide +kernel, by decide +kernel, by decide +kernel⟩

/-! ## Ranges -/

theorem run_append {isa : Isa} {hash : K → Nat} (a b : List (Op K V)) : ∀ {t u t' : Table K V} {o o' : List (Out K V)},
    t.run isa hash a = .ok (u, o) → u.run isa hash b = .ok (t', o') → t.run isa hash (a ++ b) = .ok (t', o ++ o') := by
  induction a with
  | nil => intro t u t' o o' e e'; cases e; exact e'
  | cons op a ih =>
    intro t u t' o o' e e'
    unfold Table.run at e
    obtain ⟨⟨x, o1⟩, hs, e⟩ := Tpp.Dense.bind_eq_ok e
    obtain ⟨⟨y, os⟩, hr, e⟩ := Tpp.Dense.bind_eq_ok e
    cases e
    rw [List.cons_append]
    unfold Table.run
    rw [hs]
    simp only [bind_ok]
    rw [ih hr e']
    rfl

theorem alignCapacity_self {j : Nat} (hj : 0 < j) : alignCapacity (2 ^ j - 1) = 2 ^ j - 1 := by
  have h2 : 2 ≤ 2 ^ j := by
    have := Nat.pow_le_pow_right (n := 2) (by omega) hj
    omega
  have h1 := le_alignCapacity (2 ^ j - 1)
  unfold alignCapacity at h1 ⊢
  rw [if_neg (by omega)] at h1 ⊢
  have : Nat.log2 (2 ^ j - 1) < j := (Nat.log2_lt (by omega)).mpr (by omega)
  have h3 : 2 ^ (Nat.log2 (2 ^ j - 1) + 1) ≤ 2 ^ j := Nat.pow_le_pow_right (by omega) this
  omega

/-- A container with as many elements as its buffer admits. -/
structure Full (hash : K → Nat) (N : Nat) (k : K) (t : Table K V) : Prop where
  inv : Inv .sse2 hash t
  cap : t.cap + 1 = 16 * 2 ^ N
  size : t.size = 14 * 2 ^ N
  mem : (Spec.lookup t.contents k).isSome = true

/-- An element is erased and inserted again. -/
def again (k : K) (v : V) : List (Op K V) := [.erase k, .insertRange true [(k, v)]]

theorem Full.again {hash : K → Nat} {N : Nat} {k : K} {t : Table K V} (h : Full hash N k t) (v : V) :
    ∃ t' o, t.run .sse2 hash (again k v) = .ok (t', o) ∧ Full hash N k t' ∧ cost 1 t.log + t.cap ≤ cost 1 t'.log := by
  have hq := Nat.two_pow_pos N
  have hc := h.cap
  have hs := h.size
  have hb := h.inv.budget (by omega)
  have hm : maxSize .sse2 t.cap = 14 * 2 ^ N := by
    unfold maxSize
    rw [if_neg (by simp [Isa.W])]
    omega
  obtain ⟨w, hw⟩ := Option.isSome_iff_exists.mp h.mem
  rcases erase_spec h.inv k with ⟨⟨a, it⟩, e1, a1, a2, a3, a4, a5, _, _, a6⟩ | ⟨hw, _⟩
  · simp only at a1 a2 a3 a4 a5 a6
    have a7 : a.size + 1 = t.size := by
      rcases a6 with ⟨_, _, _, a7, _⟩ | ⟨a7, _⟩
      · exact a7
      · rw [hw] at a7; cases a7
    have hkeep : Keeps t a := by
      have hst : t.step .sse2 hash (.erase k) = .ok (a, .unit) := by simp only [Table.step, e1, bind_ok]
      rcases step_adds 1 h.inv (op := .erase k) rfl hst with ⟨x, _⟩ | ⟨_, hk⟩
      · cases x
      · exact hk
    have hmc : alignCapacity (minCapacity .sse2 (a.size + 1)) = t.cap := by
      have : minCapacity .sse2 (a.size + 1) = 2 ^ (N + 4) - 1 := by
        unfold minCapacity
        rw [if_neg (by simp [Isa.W]), a7, hs, Nat.pow_add]
        omega
      rw [this, alignCapacity_self (by omega), Nat.pow_add]
      omega
    obtain ⟨m, hpow⟩ := h.inv.pow
    obtain ⟨b, b1, b2, b3, b4, b5, b6, b7⟩ := doRehash_spec a1 (n := t.cap) (m := m) hpow (by omega)
    have hres : a.reserve .sse2 (a.size + 1) = .ok b := by
      unfold Table.reserve
      rw [if_pos (by omega), hmc]
      exact b1
    have hcost := doRehash_cost 1 a1 b1
    obtain ⟨c, p, f, c1, c2, c3, c4⟩ := insert_spec b2 k v
    have hnone : Spec.lookup b.contents k = none := by
      rw [Spec.lookup_perm (contents_perm b6) b2.contents_uniq, Spec.lookup_perm a3 a1.contents_uniq]
      simp [Spec.lookup, Spec.erase]
    have hrun : t.run .sse2 hash (Swiss.again k v) = .ok (c, [.unit, .unit]) := by
      simp only [Swiss.again, Table.run, Table.step, e1, bind_ok, Table.insertRange, if_true, List.length_cons, List.length_nil,
        Nat.zero_add, hres, List.foldlM_cons, List.foldlM_nil, c1]
      rfl
    refine ⟨c, _, hrun, ?_, ?_⟩
    · rcases c4 with ⟨_, _, hp, hat, hsz, hfix⟩ | ⟨w', _, hl, _⟩
      · have := hfix (by omega) (by omega)
        refine ⟨c2, by omega, by omega, ?_⟩
        rw [Spec.lookup_perm hp c2.contents_uniq, Spec.lookup_cons]
        simp
      · rw [hnone] at hl; cases hl
    · obtain ⟨t1, hr, _, _, hlog⟩ := insert_adds 1 b2 c1
      rw [hlog]
      have : cost 1 b.log ≤ cost 1 t1.log := by
        cases hr with
        | same h => rw [h]
        | first h0 _ _ h3 => omega
        | grow _ h1 _ _ _ => omega
        | reclaim _ h1 _ _ _ _ _ => omega
      rw [hkeep.2.2] at hcost
      omega
  · cases hw

theorem Full.rounds {hash : K → Nat} {N : Nat} {k : K} (v : V) : ∀ (m : Nat) {t : Table K V}, Full hash N k t →
    ∃ t' o, t.run .sse2 hash (List.replicate m (Swiss.again k v)).flatten = .ok (t', o) ∧ Full hash N k t' ∧
      cost 1 t.log + m * t.cap ≤ cost 1 t'.log
  | 0, t, h => ⟨t, [], rfl, h, by omega⟩
  | m + 1, t, h => by
    obtain ⟨a, o, e1, h1, c1⟩ := h.again v
    obtain ⟨b, o', e2, h2, c2⟩ := Full.rounds v m h1
    refine ⟨b, o ++ o', ?_, h2, ?_⟩
    · rw [List.replicate_succ, List.flatten_cons]
      exact run_append _ _ e1 e2
    · have : a.cap = t.cap := by have := h.cap; have := h1.cap; omega
      rw [this] at c2
      rw [Nat.succ_mul]
      omega

/-- Single insertions, erasures, and ranges of one element inserted through random access iterators. -/
def _root_.Tpp.Op.single {K V : Type} : Op K V → Prop
  | .insert _ _ => True
  | .erase _ => True
  | .insertRange true [_] => True
  | _ => False

/-- C95 is false with ranges: whatever the constant, some history of single insertions, erasures and insertions of one element through
random access iterators costs more than that constant per insertion, for every hash function.  Reserving the room for one element in a
buffer with an erased slot allocates a new buffer of the same size. -/
theorem C95_range_false (hash : Nat → Nat) (v : V) (c : Nat) :
    ∃ ops : List (Op Nat V), (∀ op ∈ ops, op.single) ∧ ∃ t outs,
      (Table.init : Table Nat V).run .sse2 hash ops = .ok (t, outs) ∧
        c * (ops.map Op.adds).sum < slotsAllocated t.log + relocations t.log := by
  have hc : c < 2 ^ c := Nat.lt_two_pow_self
  obtain ⟨t, o, e, hf⟩ := filled .sse2 hash v (14 * 2 ^ c)
  have hms : ∀ x, maxSize .sse2 x = x - x / 8 := fun x => by unfold maxSize; rw [if_neg (by simp [Isa.W])]
  have hsz := hf.inv.size_le
  rw [hf.size, hms] at hsz
  obtain ⟨j, hj⟩ := hf.inv.pow
  have h3 : 2 ^ (c + 3) = 8 * 2 ^ c := by rw [Nat.pow_add]; omega
  have h4 : 2 ^ (c + 4) = 16 * 2 ^ c := by rw [Nat.pow_add]; omega
  have h5 : 2 ^ (c + 5) = 32 * 2 ^ c := by rw [Nat.pow_add]; omega
  have hlo : c + 4 ≤ j := by
    by_contra hlt
    have : 2 ^ j ≤ 2 ^ (c + 3) := Nat.pow_le_pow_right (by omega) (by omega)
    omega
  have hhi : j ≤ c + 4 := by
    by_contra hlt
    have : 2 ^ (c + 5) ≤ 2 ^ j := Nat.pow_le_pow_right (by omega) (by omega)
    rcases hf.small with h | h
    · omega
    · rw [hms] at h
      omega
  have hjc : j = c + 4 := by omega
  subst hjc
  have hfull : Full hash c 0 t := by
    exact ⟨hf.inv, by omega, hf.size, hf.zero (by omega)⟩
  obtain ⟨t', o', e', hf', hcost⟩ := hfull.rounds v (14 * 2 ^ c)
  refine ⟨((List.range (14 * 2 ^ c)).map fun i => Op.insert i v) ++ (List.replicate (14 * 2 ^ c) (again 0 v)).flatten, ?_, t', o ++ o',
    run_append _ _ e e', ?_⟩
  · intro op hop
    rcases List.mem_append.mp hop with h | h
    · obtain ⟨i, _, rfl⟩ := List.mem_map.mp h
      exact trivial
    · obtain ⟨l, hl, h⟩ := List.mem_flatten.mp h
      rw [List.eq_of_mem_replicate hl] at h
      simp only [again, List.mem_cons, List.not_mem_nil, or_false] at h
      rcases h with rfl | rfl <;> exact trivial
  · have hsum : ((((List.range (14 * 2 ^ c)).map fun i => Op.insert i v) ++
        (List.replicate (14 * 2 ^ c) (again 0 v)).flatten).map Op.adds).sum = 14 * 2 ^ c + 14 * 2 ^ c := by
      rw [List.map_append, List.sum_append, List.map_map]
      congr 1
      · have : (Op.adds ∘ fun i => (Op.insert i v : Op Nat V)) = fun _ => 1 := rfl
        rw [this]
        simp
      · generalize 14 * 2 ^ c = m
        induction m with
        | zero => rfl
        | succ m ih =>
          rw [List.replicate_succ, List.flatten_cons, List.map_append, List.sum_append, ih]
          show 1 + m = m + 1
          omega
    rw [hsum]
    rw [cost_eq, cost_eq] at hcost
    have hcap := hfull.cap
    have hk : 14 * 2 ^ c * (2 * c + 1) ≤ 14 * 2 ^ c * t.cap := Nat.mul_le_mul_left _ (by omega)
    have hpos : 0 < 14 * 2 ^ c := by omega
    have e1 : 14 * 2 ^ c * (2 * c + 1) = c * (14 * 2 ^ c + 14 * 2 ^ c) + 14 * 2 ^ c := by
      generalize 14 * 2 ^ c = q
      rw [Nat.mul_add, Nat.mul_one, Nat.mul_add]
      rw [← Nat.mul_assoc, Nat.mul_comm q 2, Nat.mul_assoc, Nat.mul_comm q c]
      omega
    omega

/-- Fourteen elements in fifteen slots: each time one is erased and inserted again as a range, a buffer of fifteen slots is allocated
and the other thirteen elements are relocated; single insertions would allocate at most once more. -/
example : ((Table.init : Table Nat Nat).run .sse2 (fun n => n * 128)
      (((List.range 14).map fun i => Op.insert i i) ++ again 3 0 ++ again 3 1 ++ again 3 2)).map (fun r =>
        (r.1.cap, r.1.size, slotsAllocated r.1.log, relocations r.1.log)) =
      .ok (15, 14, (1 + 3 + 7 + 15) + 3 * 15, (1 + 3 + 7) + 3 * 13) := by decide +kernel

end Tpp.Swiss
