import Verif.Swiss.Huge
import Verif.Props.SwissA
import Verif.Props.Dense

/-!
# C104: requests for more room than there can be

Full statement: for every container and every 64-bit `n`, `reserve(n)`, `rehash(n)` and the constructor with the bucket count `n` either
throw an exception and leave the container as it was, or provide the room asked for.
-/

set_option linter.unusedSectionVars false

namespace Tpp.Swiss

variable {K V : Type} [DecidableEq K]

theorem sum_small {isa : Isa} {hash : K → Nat} {t : Table K V} (h : Inv isa hash t) (hS : Settled t) (hc : t.cap < 2 ^ 60) :
    wadd t.size t.numEmpty = t.size + t.numEmpty := by
  have h1 := h.size_le_cap
  have h2 : t.numEmpty ≤ t.cap := by
    rcases Nat.eq_zero_or_pos t.cap with h0 | h0
    · rw [hS h0]
      omega
    · exact h.budget_le h0
  exact wadd_eq (by omega)

theorem doRehashReq_low {isa : Isa} (g : Grants) {s : Nat} (hs : 16 ≤ s) (l : Layout) {t t' : Table K V} {c m : Nat} (hm : c + 1 = 2 ^ m)
    (hc : c < 2 ^ 63) (e : t.doRehash isa c = .ok t') :
    t.doRehashReq isa g s l c = .ok none ∨ t.doRehashReq isa g s l c = .ok (some t') := by
  unfold Table.doRehashReq
  rcases room_low isa g l hs hc with h | ⟨h, h'⟩
  · rw [h]
    exact Or.inl rfl
  · rw [h, bind_ok]
    have : c < 2 ^ 60 := by
      have : 16 * c ≤ s * c := Nat.mul_le_mul_right _ hs
      omega
    simp only [if_true]
    rw [(doRehashW_of ⟨⟨m, hm⟩, this⟩ e).1]
    exact Or.inr rfl

/-- C104 for `reserve`: with separate blocks for any `n` but 2^63, with one block for `n` up to 7·2^60 (and some larger ones).  If it does
not throw, the container is the one of C10 and C12, in which there is room for `n` elements. -/
theorem C104_reserve_partial {isa : Isa} {hash : K → Nat} {t : Table K V} (h : Reachable isa hash t) (hS : Settled t) (hc : t.cap < 2 ^ 60)
    (g : Grants) {s : Nat} (hs : 16 ≤ s) {l : Layout} {n : Nat} (hn : n < 2 ^ 64) (hn' : n ≠ 2 ^ 63)
    (hl : l = .split ∨ n ≤ 7 * 2 ^ 60 ∨ 2 ^ 63 < n ∧ n < 9 * 2 ^ 60) :
    t.reserveReq isa g s l n = .ok none ∨
      ∃ t', t.reserveReq isa g s l n = .ok (some t') ∧ t.reserve isa n = .ok t' ∧ Inv isa hash t' ∧ t'.contents.Perm t.contents ∧
        n ≤ t'.size + t'.numEmpty := by
  have hI := h.inv
  obtain ⟨t', e, i1, i2, i3, i4, _⟩ := reserve_spec hI n
  have hp : t'.contents.Perm t.contents := i3.map _
  unfold Table.reserveReq
  rw [sum_small hI hS hc]
  by_cases hgt : n > t.size + t.numEmpty
  · rw [if_pos hgt]
    by_cases h7 : n ≤ 7 * 2 ^ 60
    · obtain ⟨c1, c2⟩ := capFor_low isa (Nat.zero_le n) h7
      rw [c1, bind_ok]
      rw [Nat.zero_or] at c2 ⊢
      have e' := e
      unfold Table.reserve at e'
      rw [if_pos hgt] at e'
      obtain ⟨m, hm, _⟩ := alignCapacity_pow' (minCapacity isa n)
      rcases doRehashReq_low g hs l hm c2 e' with q | q
      · exact Or.inl q
      · exact Or.inr ⟨t', q, e, i1, hp, i4⟩
    · left
      by_cases hmid : 2 ^ 63 < n ∧ n < 9 * 2 ^ 60
      · rw [capFor_mid isa hmid.1 hmid.2, bind_ok]
        unfold Table.doRehashReq
        rcases room_low isa g l hs (n := 2 ^ 63 - 1) (by decide) with q | ⟨q, q'⟩
        · rw [q]
          rfl
        · have : 16 * (2 ^ 63 - 1) ≤ s * (2 ^ 63 - 1) := Nat.mul_le_mul_right _ hs
          omega
      · rw [capFor_high isa (by omega) (by omega), bind_ok]
        have hsp : l = .split := by
          rcases hl with q | q | q
          · exact q
          · exact absurd q h7
          · exact absurd q hmid
        subst hsp
        unfold Table.doRehashReq
        rw [room_split_max isa g hs]
        rfl
  · rw [if_neg hgt]
    have e' := e
    unfold Table.reserve at e'
    rw [if_neg hgt] at e'
    cases e'
    exact Or.inr ⟨t, rfl, e, i1, hp, i4⟩

/-- C104 is false for `reserve` with one block: for all containers and all `n` between 7·2^60 and 2^63 or from 9·2^60 on, no exception is
thrown; the computed size of the block is 0, and the control bytes are written outside. -/
theorem C104_reserve_false {isa : Isa} {hash : K → Nat} {t : Table K V} (h : Reachable isa hash t) (hS : Settled t) (hc : t.cap < 2 ^ 60)
    {g : Grants} {s : Nat} (hs : 16 ≤ s) (h0 : g.ok s 0 = true) {n : Nat}
    (hn : 7 * 2 ^ 60 < n ∧ n < 2 ^ 63 ∨ 9 * 2 ^ 60 ≤ n ∧ n < 2 ^ 64) : t.reserveReq isa g s .comb n = .error .oobMeta := by
  have hI := h.inv
  have h1 := hI.size_le_cap
  have h2 : t.numEmpty ≤ t.cap := by
    rcases Nat.eq_zero_or_pos t.cap with q | q
    · rw [hS q]
      omega
    · exact hI.budget_le q
  unfold Table.reserveReq
  rw [sum_small hI hS hc, if_pos (by omega), capFor_high isa (by omega) hn, bind_ok]
  unfold Table.doRehashReq
  rw [room_comb_max isa hs h0]
  rfl

/-- C104 for `rehash`: with separate blocks for any `n` but 0 (C11) and 2^63, with one block up to 7·2^60. -/
theorem C104_rehash_partial {isa : Isa} {hash : K → Nat} {t : Table K V} (h : Reachable isa hash t) (hc : t.cap < 2 ^ 60)
    (g : Grants) {s : Nat} (hs : 16 ≤ s) {l : Layout} {n : Nat} (hn0 : n ≠ 0) (hn : n < 2 ^ 64) (hn' : n ≠ 2 ^ 63)
    (hl : l = .split ∨ n ≤ 7 * 2 ^ 60) :
    t.rehashReq isa g s l n = .ok none ∨
      ∃ t', t.rehashReq isa g s l n = .ok (some t') ∧ t.rehash isa n = .ok t' ∧ Inv isa hash t' ∧ t'.contents.Perm t.contents ∧ n ≤ t'.cap := by
  have hI := h.inv
  obtain ⟨t', e, i1, i2, i3, _, i4, _⟩ := rehash_spec hI hn0
  have hp : t'.contents.Perm t.contents := i3.map _
  unfold Table.rehashReq
  rw [if_neg (by simp [hn0])]
  by_cases h7 : n ≤ 7 * 2 ^ 60
  · obtain ⟨c1, c2⟩ := capFor_low isa (Nat.le_refl n) h7
    rw [c1, bind_ok]
    have e' := e
    unfold Table.rehash at e'
    rw [if_neg (by simp [hn0])] at e'
    simp only [hn0, false_or] at e' ⊢
    by_cases hgt : alignCapacity (n ||| minCapacity isa n) > t.cap
    · rw [if_pos hgt] at e' ⊢
      obtain ⟨m, hm, _⟩ := alignCapacity_pow' (n ||| minCapacity isa n)
      rcases doRehashReq_low g hs l hm c2 e' with q | q
      · exact Or.inl q
      · exact Or.inr ⟨t', q, e, i1, hp, i4⟩
    · rw [if_neg hgt] at e' ⊢
      cases e'
      exact Or.inr ⟨t, rfl, e, i1, hp, i4⟩
  · left
    have hsp : l = .split := hl.resolve_right h7
    subst hsp
    have hcap : capFor isa n n = .ok (2 ^ 64 - 1) := by
      rcases Nat.lt_or_ge n (2 ^ 63) with q | q
      · exact capFor_high isa hn (Or.inl ⟨by omega, q⟩)
      · exact capFor_or isa (by omega) hn
    rw [hcap, bind_ok, if_pos (Or.inr (by omega))]
    unfold Table.doRehashReq
    rw [room_split_max isa g hs]
    rfl

/-- C104 is false for `rehash` with one block, for all containers and all `n` above 7·2^60. -/
theorem C104_rehash_false {isa : Isa} {t : Table K V} (hc : t.cap < 2 ^ 60) {g : Grants} {s : Nat} (hs : 16 ≤ s)
    (h0 : g.ok s 0 = true) {n : Nat} (hn : 7 * 2 ^ 60 < n) (hn2 : n < 2 ^ 64) (hn' : n ≠ 2 ^ 63) :
    t.rehashReq isa g s .comb n = .error .oobMeta := by
  unfold Table.rehashReq
  rw [if_neg (by omega)]
  have hcap : capFor isa n n = .ok (2 ^ 64 - 1) := by
    rcases Nat.lt_or_ge n (2 ^ 63) with q | q
    · exact capFor_high isa hn2 (Or.inl ⟨hn, q⟩)
    · exact capFor_or isa (by omega) hn2
  rw [hcap, bind_ok, if_pos (Or.inr (by omega))]
  unfold Table.doRehashReq
  rw [room_comb_max isa hs h0]
  rfl

/-- C104 is false for 2^63, whatever the layout: the subtraction in `size_to_min_capacity` overflows. -/
theorem C104_signed_false {isa : Isa} {hash : K → Nat} {t : Table K V} (h : Reachable isa hash t) (hS : Settled t) (hc : t.cap < 2 ^ 60)
    (g : Grants) (s : Nat) (l : Layout) : t.reserveReq isa g s l (2 ^ 63) = .error .underflow ∧
      t.rehashReq isa g s l (2 ^ 63) = .error .underflow := by
  have hI := h.inv
  have h1 := hI.size_le_cap
  have h2 : t.numEmpty ≤ t.cap := by
    rcases Nat.eq_zero_or_pos t.cap with q | q
    · rw [hS q]
      omega
    · exact hI.budget_le q
  constructor
  · unfold Table.reserveReq
    rw [sum_small hI hS hc, if_pos (by omega)]
    rfl
  · unfold Table.rehashReq
    rw [if_neg (by omega)]
    rfl

/-- C104 for the constructor: it throws or gives an empty container with `n` buckets, if `n` is one less than a power of two (C26) and, with
one block, not 2^64 - 1. -/
theorem C104_bucket_count_partial {isa : Isa} (g : Grants) {s : Nat} (hs : 16 ≤ s) {l : Layout} {n m : Nat} (hn : n + 1 = 2 ^ m) (hm : m ≤ 64)
    (hl : l = .split ∨ m < 64) :
    (Table.withCapacityReq isa g s l n : M (Option (Table K V))) = .ok none ∨
      ∃ t, Table.withCapacityReq isa g s l n = .ok (some (t : Table K V)) ∧ Table.withCapacity isa n = .ok t ∧ t.cap = n ∧ t.size = 0 := by
  have hand : (n + 1) &&& n = 0 := by
    rw [show n = 2 ^ m - 1 by omega, show 2 ^ m - 1 + 1 = 2 ^ m by have := Nat.two_pow_pos m; omega, Nat.and_two_pow_sub_one_eq_mod,
      Nat.mod_self]
  unfold Table.withCapacityReq
  rcases Nat.lt_or_ge m 64 with h64 | h64
  · have hp : 2 ^ m ≤ 2 ^ 63 := Nat.pow_le_pow_right (by decide) (by omega)
    rw [wadd_eq (by omega), if_pos hand]
    rcases room_low isa g l hs (n := n) (by omega) with q | ⟨q, _⟩
    · rw [q]
      exact Or.inl rfl
    · rw [q, bind_ok]
      right
      simp only [if_true]
      unfold Table.withCapacity
      rw [if_pos hand]
      exact ⟨_, rfl, rfl, rfl, rfl⟩
  · have hm64 : m = 64 := by omega
    subst hm64
    have hn64 : n = 2 ^ 64 - 1 := by omega
    subst hn64
    have hsp : l = .split := hl.resolve_right (by omega)
    subst hsp
    left
    rw [show wadd (2 ^ 64 - 1) 1 = 0 from by decide, Nat.zero_and, if_pos rfl, room_split_max isa g hs]
    rfl

/-- C104 is false for the constructor with one block and the bucket count 2^64 - 1 (`-1`). -/
theorem C104_bucket_count_false (isa : Isa) {g : Grants} {s : Nat} (hs : 16 ≤ s) (h0 : g.ok s 0 = true) :
    (Table.withCapacityReq isa g s .comb (2 ^ 64 - 1) : M (Option (Table K V))) = .error .oobMeta := by
  unfold Table.withCapacityReq
  rw [show wadd (2 ^ 64 - 1) 1 = 0 from by decide, Nat.zero_and, if_pos rfl, room_comb_max isa hs h0]
  rfl

/-! ### Concrete cases -/

/-- A machine with 2^40 bytes. -/
def tera : Grants := ⟨fun s n => decide (s * n ≤ 2 ^ 40), fun s n h => by simp; omega⟩

/-- `reserve(-1)`, `reserve(2^62)` and `reserve(100)` of a container with separate blocks. -/
example : (demo.reserveReq .sse2 tera 16 .split (2 ^ 64 - 1)).map Option.isSome = .ok false ∧
    (demo.reserveReq .sse2 tera 16 .split (2 ^ 62)).map Option.isSome = .ok false ∧
    (demo.reserveReq .sse2 tera 16 .split 100).map (fun r => r.map fun t => (t.cap, t.size)) = .ok (some (127, demo.size)) := by
  refine ⟨?_, ?_, ?_⟩ <;> decide +kernel

/-- With one block `reserve(2^62)` throws, `reserve(-1)` and `rehash(-1)` do not. -/
example : (demo.reserveReq .sse2 tera 16 .comb (2 ^ 62)).map Option.isSome = .ok false ∧
    demo.reserveReq .sse2 tera 16 .comb (2 ^ 64 - 1) = .error .oobMeta ∧
    demo.rehashReq .sse2 tera 16 .comb (2 ^ 64 - 1) = .error .oobMeta := by
  refine ⟨by decide +kernel, ?_, ?_⟩
  · exact C104_reserve_false demo_reachable (fun h => absurd h (by decide)) (by decide) (by decide) (by decide) (by decide)
  · exact C104_rehash_false (by decide) (by decide) (by decide) (by decide) (by decide) (by decide)

/-- Beyond 2^63 the bucket count may be less than the request. -/
example : capFor .sse2 0 (2 ^ 63 + 1) = .ok (2 ^ 63 - 1) ∧ capFor .neon 0 (7 * 2 ^ 60) = .ok (2 ^ 63 - 1) := by
  constructor <;> rfl

end Tpp.Swiss

namespace Tpp.Dense

variable {k : Nat} {K V : Type} [DecidableEq K]

/-- C104 for `reserve` of dense containers: the array is allocated first, so that a request that does not fit into memory is refused before
anything changes. -/
theorem C104_dense_reserve {hash : K → Nat} {t : Table k K V} (h : Reachable hash t) {l : List (Elem k K V)} (hl : t.iterate = .ok l)
    (g : Swiss.Grants) {s n : Nat} (hn : t.cap < n) (hs : 2 ^ 64 ≤ s * n) (fails2 : Bool) :
    t.reserveA (!g.ok s n) fails2 n = .ok (⟨t, false⟩, true) ∧ Behaves hash t l := by
  rw [g.refuses s n hs]
  refine ⟨?_, (h.of_iterate hl).behaves⟩
  unfold Table.reserveA
  rw [if_pos hn]
  rfl

/-- C104 is false for `rehash` of dense containers: the old buckets are given back before the new ones are refused (B13). -/
theorem C104_dense_rehash_false {hash : K → Nat} {t : Table k K V} (h : Reachable hash t) (hb : t.bc ≠ 0) (g : Swiss.Grants) {s n : Nat}
    (hn : t.bc < n) (hs : 2 ^ 64 ≤ s * n) :
    ∃ a, t.rehashA (!g.ok s n) n = .ok (a, true) ∧ (∀ j x, a.lookup hash j x = .error .dangling) ∧ a.destroy = .error .badFree := by
  rw [g.refuses s n hs]
  exact C48_rehash_false h hb hn

/-- `rehash(-1)` of a container with elements leaves it without buckets. -/
example : ∃ a, demo.rehashA (!Swiss.tera.ok 8 (2 ^ 64 - 1)) (2 ^ 64 - 1) = .ok (a, true) ∧ a.lookup h3 0 7 = .error .dangling := by
  refine ⟨_, rfl, rfl⟩

end Tpp.Dense
