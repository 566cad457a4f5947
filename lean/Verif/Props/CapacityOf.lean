import Verif.Props.Huge
import Verif.Props.Iters
import Verif.Props.DenseReserve
import Verif.Props.Exact
import Verif.Props.F32

/-!
# C105: `capacity()` and `max_size()`

Full statement: a container never holds more than `capacity()` elements, keeps its buffers while it holds at most `capacity()` elements, and
any number of elements up to `max_size()` can be asked for with `reserve`, which throws if it cannot provide the room.
-/

set_option linter.unusedSectionVars false

namespace Tpp.Swiss

variable {K V : Type} [DecidableEq K]

/-- `capacity()` (swiss_table.hpp 910, 814-820). -/
def Table.capacity (isa : Isa) (t : Table K V) : Nat := maxSize isa t.cap

/-- `max_bucket_count()` (swiss_table.hpp 914). -/
def maxBuckets (isa : Isa) : Nat := 2 ^ 64 - 1 - isa.W

/-- What is left of the capacity is divided between unused and erased slots. -/
theorem tombs_eq {isa : Isa} {hash : K → Nat} {t : Table K V} (h : Inv isa hash t) (hno : NoTomb t) (hS : Settled t) :
    t.size + t.numEmpty = t.capacity isa := by
  unfold Table.capacity
  rcases Nat.eq_zero_or_pos t.cap with h0 | h0
  · have := h.size_le_cap
    have := hS h0
    have : maxSize isa t.cap ≤ t.cap := maxSize_le isa _
    omega
  · have hb := h.budget h0
    have : cnt (fun i => (t.ctl i).isDeleted) t.cap = 0 := by
      refine cnt_eq_zero ?_
      intro i hi
      cases hc : t.ctl i <;> simp [Ctl.isDeleted]
      exact absurd hc (hno i hi)
    omega

/-- C105: no container holds more elements than `capacity()`. -/
theorem C105_size {isa : Isa} {hash : K → Nat} {t : Table K V} (h : Reachable isa hash t) : t.size ≤ t.capacity isa := h.inv.size_le

/-- C105 if no slot is marked erased (for instance after `reserve`, `rehash`, `clear` or construction with a bucket count): insertions up to
`capacity()` elements keep the buffer, and all elements stay in their slots. -/
theorem C105_room_partial {isa : Isa} {hash : K → Nat} {t t' : Table K V} (h : Reachable isa hash t) (hS : Settled t) (hno : NoTomb t)
    {ops : List (Op K V)} {outs : List (Out K V)} (hops : ∀ op ∈ ops, op.inserts = true) (hr : t.run isa hash ops = .ok (t', outs))
    (hn : t'.size ≤ t.capacity isa) :
    t'.cap = t.cap ∧ ∀ i x, i < t.cap → t.node i = some x → ∃ y, t'.node i = some y ∧ y.key = x.key := by
  refine C12_reserve_partial h hS (t.capacity isa) ops hops ?_ hr hn
  have := tombs_eq h.inv hno hS
  unfold Table.reserve
  rw [if_neg (by omega)]

/-- C105: with `capacity()` elements there is no room; any further element makes the bucket count `2n + 1`. -/
theorem C105_full {isa : Isa} {hash : K → Nat} {t : Table K V} (h : Reachable isa hash t) (hfull : t.size = t.capacity isa)
    {k : K} {v : V} (habs : t.contains isa hash k = .ok false) :
    ∃ t' p, t.insert isa hash k v = .ok (t', p, true) ∧ t'.cap = 2 * t.cap + 1 ∧ t'.size = t.size + 1 := by
  rw [contains_spec h.inv] at habs
  obtain ⟨t', p, b, e, hI, hg, hc⟩ := insert_spec h.inv k v
  rcases hc with ⟨rfl, hl, _, _, hs, _⟩ | ⟨w, _, hl, _⟩
  · refine ⟨t', p, e, ?_, hs⟩
    have h1 := hI.size_le
    unfold Table.capacity at hfull
    rcases hg.1 with q | ⟨q1, q2⟩ | ⟨_, _, q, _⟩
    · rw [q] at h1
      omega
    · omega
    · exact q
  · rw [hl] at habs
    cases habs

/-- C105, exactly: an insertion of a new key replaces the buffer by a larger one if and only if the counter of unused slots is 0, the free
slot found is not one marked erased, and the container has no more buckets than a block or is more than 25/32 full. -/
theorem C105_growth_iff {isa : Isa} {hash : K → Nat} {t : Table K V} (h : Reachable isa hash t) (h0 : 0 < t.cap)
    {k : K} (v : V) (habs : t.contains isa hash k = .ok false) :
    ∃ t' p, t.insert isa hash k v = .ok (t', p, true) ∧ (t.cap < t'.cap ↔ t.numEmpty = 0 ∧
      (∃ q, t.findAvailable isa (hash k) = .ok q ∧ t.ctl q ≠ .deleted) ∧ (t.cap ≤ isa.W ∨ t.cap * 25 < t.size * 32)) := by
  rw [contains_spec h.inv] at habs
  rcases find_cases h.inv k with ⟨_, _, _, _, _, _, hl⟩ | ⟨hfresh, hf, hl⟩
  · rw [hl] at habs; cases habs
  obtain ⟨t', p, he, hi', hp, hnp, hperm, hsz, hg, hfix⟩ := emplaceNode_spec h.inv (n := ⟨k, v, hash k⟩) rfl hfresh
  refine ⟨t', p, by simp [Table.insert, hf, he], ?_⟩
  unfold Table.emplaceNode at he
  obtain ⟨⟨w, target⟩, e3, e4⟩ := ok_of_bind he
  obtain ⟨_, _, _, _, c5, _⟩ := commit_log e4
  rw [c5]
  have e3' := e3
  unfold Table.prepare at e3
  rw [if_neg (by omega)] at e3
  obtain ⟨q, hq, e3⟩ := ok_of_bind e3
  obtain ⟨c, hc, e3⟩ := ok_of_bind e3
  have hc' : c = t.ctl q := by
    unfold Table.readCtl at hc
    split at hc
    · cases hc; rfl
    · cases hc
  subst hc'
  constructor
  · intro hlt
    obtain ⟨w', target', p1, _, _, _, _, _, _, _, _, p10⟩ := prepare_spec h.inv (hash k)
    rw [e3'] at p1
    cases p1
    rcases p10.1 with g | ⟨g, _⟩ | ⟨_, g1, _, g2⟩
    · omega
    · omega
    · refine ⟨g1, ⟨q, hq, fun hd => ?_⟩, g2⟩
      rw [if_neg (by simp [hd])] at e3
      cases e3
      omega
  · rintro ⟨g1, ⟨q', hq', g2⟩, g3⟩
    rw [hq] at hq'
    cases hq'
    rw [if_pos ⟨g1, g2⟩, if_neg (by omega)] at e3
    obtain ⟨u, hu, e3⟩ := ok_of_bind e3
    obtain ⟨_, _, e3⟩ := ok_of_bind e3
    cases e3
    obtain ⟨m, hm⟩ := h.inv.pow
    have hle := h.inv.size_le
    obtain ⟨u', d1, _, d2, _⟩ := doRehash_spec h.inv (n := (t.cap + 1) * 2 - 1) (m := m + 1) (by rw [pow_succ]; omega)
      (Nat.le_trans hle (by unfold maxSize; split <;> split <;> omega))
    rw [hu] at d1
    cases d1
    omega

/-- C105 with erased slots: beyond the size of a block, insertions keep the buffer (but may relocate elements in it) as long as at most 25/32
of the buckets hold an element. -/
theorem C105_growth_partial {isa : Isa} {hash : K → Nat} {t : Table K V} (h : Reachable isa hash t) (hW : isa.W < t.cap)
    (hs : t.size * 32 ≤ t.cap * 25) {k : K} (v : V) (habs : t.contains isa hash k = .ok false) :
    ∃ t' p, t.insert isa hash k v = .ok (t', p, true) ∧ t'.cap = t.cap := by
  have hWp := isa.W_pos
  obtain ⟨t', p, e, hiff⟩ := C105_growth_iff h (by omega) v habs
  refine ⟨t', p, e, ?_⟩
  obtain ⟨_, _, _, e2, _, hg, _⟩ := insert_spec h.inv k v
  rw [e] at e2
  cases e2
  rcases hg.1 with q | ⟨q, _⟩ | ⟨_, _, _, q⟩
  · exact q
  · omega
  · omega

/-- Eight elements at a time, a queue. -/
def queueOf (n : Nat) : List (Op Nat Nat) :=
  (List.range n).flatMap fun i => .insert i i :: if 8 ≤ i + 1 then [.erase (i + 1 - 8)] else []

/-- As many elements as the capacity of 31 buckets, one erased and another key inserted. -/
def replaceOne : List (Op Nat Nat) := (List.range 28).map (fun i => .insert i i) ++ [.erase 0, .insert 30 30]

set_option maxRecDepth 100000 in
/-- C105 is false with erased slots: a queue of at most 8 elements gets 31 buckets although the capacity of 15 buckets is 14; and a container
of 27 elements with the capacity 28 replaces its buffer when one is added. -/
theorem C105_room_false :
    (∃ t t' os os', (Table.init : Table Nat Nat).run .sse2 (· * 128) ((queueOf 15).take 19) = .ok (t, os) ∧ t.capacity .sse2 = 14 ∧
      t.run .sse2 (· * 128) ((queueOf 15).drop 19) = .ok (t', os') ∧ t'.cap = 31 ∧ t'.size = 7 ∧
      ∀ n, (Spec.run [] ((queueOf 15).take n)).1.length ≤ 8) ∧
    ∃ t t' os os', (Table.init : Table Nat Nat).run .sse2 (· * 128) (replaceOne.take 29) = .ok (t, os) ∧ t.size = 27 ∧
      t.capacity .sse2 = 28 ∧ t.run .sse2 (· * 128) (replaceOne.drop 29) = .ok (t', os') ∧ t'.size = 28 ∧ t'.cap = 2 * t.cap + 1 := by
  have two : ∀ (a b : List (Op Nat Nat)) (c s s' d : Nat),
      (match (Table.init : Table Nat Nat).run .sse2 (· * 128) a with
        | .error _ => false
        | .ok (t, _) => match t.run .sse2 (· * 128) b with
          | .error _ => false
          | .ok (t', _) => decide (t.capacity .sse2 = c ∧ t.size = s ∧ t'.size = s' ∧ t'.cap = 2 * t.cap + 1 ∧ t'.cap = d)) = true →
      ∃ t t' os os', (Table.init : Table Nat Nat).run .sse2 (· * 128) a = .ok (t, os) ∧ t.run .sse2 (· * 128) b = .ok (t', os') ∧
        t.capacity .sse2 = c ∧ t.size = s ∧ t'.size = s' ∧ t'.cap = 2 * t.cap + 1 ∧ t'.cap = d := by
    intro a b c s s' d key
    split at key
    · cases key
    · rename_i t os e
      split at key
      · cases key
      · rename_i t' os' e'
        exact ⟨t, t', os, os', e, e', of_decide_eq_true key⟩
  constructor
  · obtain ⟨t, t', os, os', e, e', k1, _, k3, _, k5⟩ := two ((queueOf 15).take 19) ((queueOf 15).drop 19) 14 7 7 31 (by decide +kernel)
    refine ⟨t, t', os, os', e, k1, e', k5, k3, fun n => ?_⟩
    by_cases hn : n < 23
    · revert n
      decide +kernel
    · rw [List.take_of_length_le (by have : (queueOf 15).length = 23 := by decide
                                     omega)]
      decide +kernel
  · obtain ⟨t, t', os, os', e, e', k1, k2, k3, k4, _⟩ := two (replaceOne.take 29) (replaceOne.drop 29) 28 27 28 63 (by decide +kernel)
    exact ⟨t, t', os, os', e, k2, k1, e', k3, k4⟩

/-- C105 is false for `max_size()` with one block for control bytes and elements: `reserve(max_size())` does not throw (C104). -/
theorem C105_max_size_false {isa : Isa} {hash : K → Nat} {t : Table K V} (h : Reachable isa hash t) (hS : Settled t) (hc : t.cap < 2 ^ 60)
    {g : Grants} {s : Nat} (hs : 16 ≤ s) (h0 : g.ok s 0 = true) :
    t.reserveReq isa g s .comb (maxSize isa (maxBuckets isa)) = .error .oobMeta := by
  refine C104_reserve_false h hS hc hs h0 ?_
  cases isa <;> decide

/-- C105 for `max_size()` with separate blocks: `reserve(max_size())` throws. -/
theorem C105_max_size_partial {isa : Isa} {hash : K → Nat} {t : Table K V} (h : Reachable isa hash t) (hS : Settled t) (hc : t.cap < 2 ^ 60)
    (g : Grants) {s : Nat} (hs : 16 ≤ s) :
    t.reserveReq isa g s .split (maxSize isa (maxBuckets isa)) = .ok none := by
  have hI := h.inv
  have h1 := hI.size_le_cap
  have h2 : t.numEmpty ≤ t.cap := by
    rcases Nat.eq_zero_or_pos t.cap with q | q
    · rw [hS q]
      omega
    · exact hI.budget_le q
  have hn : 9 * 2 ^ 60 ≤ maxSize isa (maxBuckets isa) ∧ maxSize isa (maxBuckets isa) < 2 ^ 64 := by cases isa <;> decide
  unfold Table.reserveReq
  rw [sum_small hI hS hc, if_pos (by omega), capFor_high isa (by omega) (Or.inr hn), bind_ok]
  unfold Table.doRehashReq
  rw [room_split_max isa g hs]
  rfl

/-- 27 elements in 31 buckets, none erased: the 28th has room, the 29th not. -/
example : let ins := fun a n => (List.range n).map fun i => (Op.insert (a + i) 0 : Op Nat Nat)
    (do
      let (t, _) ← (Table.init : Table Nat Nat).run .sse2 (· * 128) (ins 0 27)
      let (t1, _) ← t.run .sse2 (· * 128) (ins 27 1)
      let (t2, _) ← t1.run .sse2 (· * 128) (ins 28 1)
      .ok [t.capacity .sse2, t.cap, t1.cap, t2.cap, t2.capacity .sse2]) = (.ok [28, 31, 31, 63, 56] : M _) := by
  decide +kernel

/-- `max_size()`. -/
example : maxSize .sse2 (maxBuckets .sse2) = 7 * 2 ^ 61 - 14 ∧ maxSize .neon (maxBuckets .neon) = 7 * 2 ^ 61 - 7 := by decide

end Tpp.Swiss

namespace Tpp.Dense

open F32

variable {k : Nat} {K V : Type} [DecidableEq K]

/-- `capacity()` (dense_table.hpp 335, 481) with the maximal load factor `f`; `none` where the conversion is undefined. -/
def Table.capacityF (t : Table k K V) (f : ℚ) : Option Nat := mulF f t.bc

/-- C105: with the maximal load factor `p / 2^j` and no more than `2^24 / p` buckets `capacity()` is the exact product rounded down. -/
theorem C105_dense_exact {p j : Nat} (hp : 0 < p) (hj : j ≤ 149) {t : Table k K V} (hb : p * t.bc ≤ 2 ^ 24) :
    t.capacityF ((p : ℚ) / 2 ^ j) = some (p * t.bc / 2 ^ j) := by
  have hbb : t.bc ≤ 2 ^ 24 := le_trans (Nat.le_mul_of_pos_left _ hp) hb
  unfold Table.capacityF mulF
  rw [fl_nat hbb]
  have hx : (t.bc : ℚ) * ((p : ℚ) / 2 ^ j) = ((p * t.bc : ℕ) : ℚ) / ((2 ^ j : ℕ) : ℚ) := by
    push_cast
    ring
  have hfl : fl ((t.bc : ℚ) * ((p : ℚ) / 2 ^ j)) = ((p * t.bc : ℕ) : ℚ) / ((2 ^ j : ℕ) : ℚ) := by
    rw [hx]
    rcases Nat.eq_zero_or_pos t.bc with h0 | h0
    · rw [h0]
      simp [fl_zero]
    · have hN0 : 0 < p * t.bc := Nat.mul_pos hp h0
      generalize p * t.bc = N at hb hN0
      rcases Nat.lt_or_ge N (2 ^ 24) with hlt | hge
      · refine fl_exact ?_
        push_cast
        exact isF32_ratio hN0 hlt hj
      · have : N = 2 ^ 24 := by omega
        subst this
        refine fl_exact ⟨1, 24 - j, by norm_num, by norm_num, by omega, ?_⟩
        push_cast
        rw [one_mul, zpow_sub₀ (by norm_num), zpow_natCast]
        norm_num
  rw [hfl]
  unfold toSize
  rw [Nat.floor_div_eq_div, if_pos]
  rw [div_lt_iff₀ (by positivity)]
  have h1 : ((p * t.bc : ℕ) : ℚ) ≤ 2 ^ 24 := by exact_mod_cast hb
  have h2 : (1 : ℚ) ≤ ((2 ^ j : ℕ) : ℚ) := by exact_mod_cast Nat.one_le_two_pow
  have h3 : (0 : ℚ) ≤ (2 : ℚ) ^ 64 := by positivity
  nlinarith [mul_le_mul_of_nonneg_left h2 h3]

theorem inserts_keep_bc {hash : K → Nat} {n : Nat} : ∀ (xs : List (Elem k K V)) {t : Table k K V} {l : List (Elem k K V)},
    Inv hash t l → l.length + xs.length ≤ n → (0 < n → 0 < t.bc) → (∀ s < n, t.lf.full s t.bc = false) →
    ∃ t', t.inserts hash xs = .ok t' ∧ t'.bc = t.bc := by
  intro xs
  induction xs with
  | nil => intro t l _ _ _ _; exact ⟨t, rfl, rfl⟩
  | cons x xs ih =>
    intro t l hi hn hb hf
    simp only [List.length_cons] at hn
    obtain ⟨r, e, hr⟩ := insert_ok hi x.1 x.2
    have hbc := insert_bc hi e
    have hsz := hi.size
    have b1 := hb (by omega)
    rw [if_neg (by omega), hf t.size (by omega)] at hbc
    simp only [Bool.false_eq_true, if_false] at hbc
    obtain ⟨l', i', hle, _⟩ := hr.inv
    obtain ⟨t', e', bb⟩ := ih i' (by omega) (by rw [hbc]; exact hb) (by rw [hbc, hr.lf]; exact hf)
    exact ⟨t', by rw [inserts_cons e]; exact e', bb.trans hbc⟩

/-- C105 for the buckets of dense containers: insertions up to `capacity()` elements do not rehash. -/
theorem C105_dense_buckets_partial {hash : K → Nat} {t : Table k K V} (h : Reachable hash t) {l : List (Elem k K V)}
    (hl : t.iterate = .ok l) {p j : Nat} (hp : 0 < p) (hp' : p < 2 ^ 24) (hj : j ≤ 149) (hlf : t.lf = lfF ((p : ℚ) / 2 ^ j))
    (hb : p * t.bc ≤ 2 ^ 24) {c : Nat} (hc : t.capacityF ((p : ℚ) / 2 ^ j) = some c) (hc' : c ≤ 2 ^ 24) {xs : List (Elem k K V)}
    (hx : l.length + xs.length ≤ c) : ∃ t', t.inserts hash xs = .ok t' ∧ t'.bc = t.bc := by
  rw [C105_dense_exact hp hj hb] at hc
  cases hc
  refine inserts_keep_bc xs (h.of_iterate hl) hx (fun h0 => ?_) (fun s hs => ?_)
  · rcases Nat.eq_zero_or_pos t.bc with q | q
    · rw [q] at h0
      simp at h0
    · exact q
  · have h0 : 0 < t.bc := by
      rcases Nat.eq_zero_or_pos t.bc with q | q
      · rw [q] at hs
        simp at hs
      · exact q
    rw [hlf]
    show fullF _ s t.bc = false
    rw [C81_full_exact hp hp' hj (by omega) h0 hb]
    simp only [LF.ratio, decide_eq_false_iff_not, Nat.not_le]
    have := (Nat.le_div_iff_mul_le (Nat.two_pow_pos j)).mp (Nat.succ_le_of_lt hs)
    have hp2 := Nat.two_pow_pos j
    rw [Nat.succ_mul] at this
    omega

/-- C105 is false for the array of dense containers: in all containers whose array is full, an insertion replaces it, whatever `capacity()`
is. -/
theorem C105_dense_array_false {hash : K → Nat} {t : Table k K V} (h : Reachable hash t) (hfull : t.size = t.cap) (key : Fin k → K) (v : V) :
    ∃ r, t.insert hash key v = .ok r ∧ r.1.cap = if t.cap = 0 then 1 else 2 * t.cap := by
  obtain ⟨l, hI⟩ := h.inv
  obtain ⟨r, e, hr⟩ := insert_ok hI key v
  obtain ⟨t1, e1, i1, c1, f1, b1, s1⟩ := maybeResize_ok hI
  refine ⟨r, e, ?_⟩
  rw [hr.cap t1 e1]
  unfold Table.maybeResize at e1
  rw [if_pos hfull.symm] at e1
  obtain ⟨u, e2, _, h2, _⟩ := resizeData_ok hI (c := if t.cap = 0 then 1 else t.cap * 2) (by have := hI.size; split <;> omega)
  rw [e1] at e2
  cases e2
  rw [h2]
  split <;> omega

/-- C105 is false for the size of dense containers: for every bucket count that is not a multiple of 8 there are containers with more than
`capacity()` elements. -/
theorem C105_dense_size_false (hash : Nat → Nat) {n : Nat} (hn : ¬ 8 ∣ n) :
    ∃ t : Table 1 Nat Nat, Reachable hash t ∧ t.lf = LF.ratio 7 8 ∧ t.bc = n ∧ 7 * t.bc / 8 < t.size := by
  obtain ⟨t, h1, h2, h3, h4⟩ := C50_load_false_all hash hn
  exact ⟨t, h1, h2, h3, by omega⟩

/-- C105 for the size: after an insertion a dense container has at most two elements more than `capacity()` (maximal load factor at
most 1, computed exactly). -/
theorem C105_dense_size_partial {hash : K → Nat} {t t' : Table k K V} {pos p q : Nat} (h : Reachable hash t) (hp : 0 < p) (hpq : p ≤ q)
    (hlf : t.lf = LF.ratio p q) {key : Fin k → K} {v : V} (e : t.insert hash key v = .ok (t', pos, true)) :
    t'.size ≤ p * t'.bc / q + 2 := by
  have hb := C50_load_bound_partial h hp hlf e
  have : (t'.size - 2) * q ≤ p * t'.bc := by
    rcases Nat.lt_or_ge t'.size 2 with h2 | h2
    · rw [show t'.size - 2 = 0 by omega]
      omega
    · have : t'.size - 1 = (t'.size - 2) + 1 := by omega
      rw [this, Nat.add_mul, Nat.mul_add] at hb
      omega
  have := (Nat.le_div_iff_mul_le (by omega : 0 < q)).mpr this
  omega

/-- The capacity of ten buckets is 8. -/
example : (Table.withBuckets (lfF (7 / 8)) 10 : Table 1 Nat Nat).capacityF (7 / 8) = some 8 := by
  have := C105_dense_exact (p := 7) (j := 3) (t := (Table.withBuckets (lfF (7 / 8)) 10 : Table 1 Nat Nat)) (by decide) (by decide) (by decide)
  rw [show ((7 : Nat) : ℚ) / 2 ^ 3 = 7 / 8 by norm_num] at this
  exact this

/-- After `rehash(10)` nine elements fit into the ten buckets, one more than the capacity; the array is replaced for the first, second,
third, fifth and ninth. -/
example : ((Table.init (LF.ratio 7 8) : Table 1 Nat Nat).rehash 10).map (fun t => (List.range 11).map fun n =>
      ((t.inserts id ((List.range n).map fun i => (fun _ => i, 0))).map fun t => (t.size, t.cap, t.bc)).toOption) =
    .ok [some (0, 0, 10), some (1, 1, 10), some (2, 2, 10), some (3, 4, 10), some (4, 4, 10), some (5, 8, 10), some (6, 8, 10),
      some (7, 8, 10), some (8, 8, 10), some (9, 16, 10), some (10, 16, 20)] := by decide +kernel

/-- The bound is attained: seven elements in four buckets, then the maximal load factor 3/4; the next insertion rehashes to nine buckets, for
which the capacity is 6. -/
example : (do
    let t ← (Table.withBuckets (LF.ratio 2 1) 4 : Table 1 Nat Nat).inserts id ((List.range 7).map fun i => (fun _ => i, 0))
    let t := t.setLoad (LF.ratio 3 4)
    let (t', _) ← t.insert id (fun _ => 7) 0
    .ok [t.size, t.bc, t'.size, t'.bc, 3 * t'.bc / 4]) = (.ok [7, 4, 8, 9, 6] : M _) := by decide +kernel

end Tpp.Dense
