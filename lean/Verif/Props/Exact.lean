import Verif.Props.SwissA
import Verif.Props.SwissB
import Verif.Props.Bits
import Verif.Props.Dense

/-!
# Exact conditions for C11, C12, C25, C26, C32, C50

The statements whose negation was so far shown by single witnesses, for all containers.
-/

set_option linter.unusedSectionVars false

namespace Tpp.Swiss

variable {K V : Type} [DecidableEq K]

/-! ## C11 -/

/-- An element that is relocated into a buffer of a single slot which is already taken: whatever slot the search returns, the
construction is not defined. -/
theorem relocOne_full {isa : Isa} {s d : Table K V} {i : Nat} (hc : d.cap = 1) (hn : (d.node 0).isSome = true)
    (ho : (s.ctl i).isOccupied = true) : ∃ f, Table.relocOne isa (s, d) i = .error f := by
  unfold Table.relocOne Table.readCtl
  simp only
  by_cases h1 : i < s.len
  · rw [if_pos h1, bind_ok, if_pos ho]
    cases hr : s.readNode i with
    | error f => exact ⟨f, rfl⟩
    | ok n =>
      rw [bind_ok]
      cases hf : d.findAvailable isa n.hash with
      | error f => exact ⟨f, rfl⟩
      | ok p =>
        rw [bind_ok]
        unfold Table.construct
        by_cases hp : p < d.cap
        · have : p = 0 := by omega
          subst this
          rw [if_pos hp]
          cases hd : d.node 0 with
          | none => rw [hd] at hn; cases hn
          | some _ => exact ⟨_, rfl⟩
        · rw [if_neg hp]
          exact ⟨_, rfl⟩
  · rw [if_neg h1]
    exact ⟨_, rfl⟩

/-- What a relocation step does to the flags that matter here. -/
theorem relocOne_flags {isa : Isa} {s d s' d' : Table K V} {i : Nat} (hc : d.cap = 1)
    (e : Table.relocOne isa (s, d) i = .ok (s', d')) :
    d'.cap = 1 ∧ s'.ctl = s.ctl ∧ ((d.node 0).isSome = true → (d'.node 0).isSome = true) ∧
      ((s.ctl i).isOccupied = true → (d'.node 0).isSome = true) := by
  unfold Table.relocOne Table.readCtl at e
  simp only at e
  by_cases h1 : i < s.len
  · rw [if_pos h1, bind_ok] at e
    by_cases ho : (s.ctl i).isOccupied = true
    · rw [if_pos ho] at e
      obtain ⟨n, _, e⟩ := Dense.bind_eq_ok e
      obtain ⟨p, _, e⟩ := Dense.bind_eq_ok e
      obtain ⟨d1, e1, e⟩ := Dense.bind_eq_ok e
      obtain ⟨s1, e2, e⟩ := Dense.bind_eq_ok e
      obtain ⟨d2, e3, e⟩ := Dense.bind_eq_ok e
      cases e
      unfold Table.construct at e1
      unfold Table.destroy at e2
      by_cases hp : p < d.cap
      · rw [if_pos hp] at e1
        have hp0 : p = 0 := by omega
        subst hp0
        have hd1 : d1.cap = 1 ∧ (d1.node 0).isSome = true := by
          split at e1
          · cases e1
          · cases e1; exact ⟨hc, by simp [upd]⟩
        have hs1 : s'.ctl = s.ctl := by
          split at e2
          · split at e2
            · cases e2; rfl
            · cases e2
          · cases e2
        have hd2 : d2.cap = d1.cap ∧ d2.node = d1.node := by
          unfold Table.setMetadata at e3
          simp only at e3
          obtain ⟨d3, e4, e5⟩ := Dense.bind_eq_ok e3
          unfold Table.writeCtl at e4 e5
          split at e4
          · cases e4
            split at e5
            · cases e5; exact ⟨rfl, rfl⟩
            · cases e5
          · cases e4
        refine ⟨by show d2.cap = 1; rw [hd2.1]; exact hd1.1, hs1, fun _ => ?_, fun _ => ?_⟩ <;>
          (show (d2.node 0).isSome = true; rw [hd2.2]; exact hd1.2)
      · rw [if_neg hp] at e1; cases e1
    · rw [if_neg ho] at e
      cases e
      exact ⟨hc, rfl, fun h => h, fun h => absurd h ho⟩
  · rw [if_neg h1] at e; cases e

/-- Relocating two elements into a single slot. -/
theorem reloc_two {isa : Isa} {oc : Nat → Bool} : ∀ (l : List Nat) {s d : Table K V}, d.cap = 1 →
    (∀ i, (s.ctl i).isOccupied = oc i) → (d.node 0).isSome = true → (∃ i ∈ l, oc i = true) →
    ∃ f, l.foldlM (Table.relocOne isa) (s, d) = .error f := by
  intro l
  induction l with
  | nil => intro s d _ _ _ h; obtain ⟨i, hi, _⟩ := h; cases hi
  | cons a l ih =>
    intro s d hc hs hn h
    rw [List.foldlM_cons]
    by_cases ha : oc a = true
    · obtain ⟨f, hf⟩ := relocOne_full (isa := isa) (s := s) (i := a) hc hn (by rw [hs]; exact ha)
      exact ⟨f, by rw [hf]; rfl⟩
    · cases hr : Table.relocOne isa (s, d) a with
      | error f => exact ⟨f, rfl⟩
      | ok r =>
        obtain ⟨s', d'⟩ := r
        obtain ⟨h1, h2, h3, _⟩ := relocOne_flags hc hr
        obtain ⟨i, hi, ho⟩ := h
        rw [List.mem_cons] at hi
        rcases hi with rfl | hi
        · exact absurd ho ha
        · exact ih h1 (fun i => by rw [h2]; exact hs i) (h3 hn) ⟨i, hi, ho⟩

theorem reloc_one {isa : Isa} {oc : Nat → Bool} : ∀ (l : List Nat) {s d : Table K V}, d.cap = 1 →
    (∀ i, (s.ctl i).isOccupied = oc i) → 2 ≤ (l.filter oc).length →
    ∃ f, l.foldlM (Table.relocOne isa) (s, d) = .error f := by
  intro l
  induction l with
  | nil => intro s d _ _ h; simp at h
  | cons a l ih =>
    intro s d hc hs h
    rw [List.foldlM_cons]
    cases hr : Table.relocOne isa (s, d) a with
    | error f => exact ⟨f, rfl⟩
    | ok r =>
      obtain ⟨s', d'⟩ := r
      obtain ⟨h1, h2, h3, h4⟩ := relocOne_flags hc hr
      rw [bind_ok]
      by_cases ha : oc a = true
      · rw [List.filter_cons_of_pos ha, List.length_cons] at h
        refine reloc_two (oc := oc) l h1 (fun i => by rw [h2]; exact hs i) (h4 (by rw [hs a]; exact ha)) ?_
        obtain ⟨i, hi⟩ := List.exists_mem_of_length_pos (l := l.filter oc) (by omega)
        rw [List.mem_filter] at hi
        exact ⟨i, hi.1, hi.2⟩
      · rw [List.filter_cons_of_neg ha] at h
        exact ih h1 (fun i => by rw [h2]; exact hs i) h

/-- C11 is false for every container with two or more elements: the relocation into the single new bucket fails. -/
theorem C11_rehash_zero_false_all {isa : Isa} {hash : K → Nat} {t : Table K V} (h : Reachable isa hash t) (hs : 2 ≤ t.size) :
    ∃ f, (List.range t.cap).foldlM (Table.relocOne isa) (t, t.grown isa 1) = .error f ∧ t.rehash isa 0 = .error f := by
  have hsz := h.inv.size_eq
  rw [cnt_eq_length] at hsz
  obtain ⟨f, hf⟩ := reloc_one (isa := isa) (oc := fun i => (t.ctl i).isOccupied) (List.range t.cap) (s := t)
    (d := t.grown isa 1) rfl (fun _ => rfl) (by omega)
  refine ⟨f, hf, ?_⟩
  have e : alignCapacity (0 ||| minCapacity isa 0) = 1 := by cases isa <;> decide
  simp only [Table.rehash, show ¬ t.size = 0 by omega, and_false, if_false, e, true_or, if_true]
  unfold Table.doRehash
  unfold Table.grown at hf
  simp only [hf]
  rfl

/-- C11 exactly: `rehash(0)` is defined for containers with at most one element only. -/
theorem C11_rehash_zero_iff {isa : Isa} {hash : K → Nat} {t : Table K V} (h : Reachable isa hash t) :
    (∃ t', t.rehash isa 0 = .ok t') ↔ t.size ≤ 1 := by
  constructor
  · rintro ⟨t', e⟩
    by_contra hc
    obtain ⟨f, _, hf⟩ := C11_rehash_zero_false_all h (by omega)
    rw [e] at hf
    cases hf
  · intro hs
    obtain ⟨t', e, _⟩ := C11_rehash_zero_partial h (h.inv.behaves (List.Perm.refl _)) hs
    exact ⟨t', e⟩

example : (demo.rehash .sse2 0).isOk = false ∧ demo.size = 4 := by decide

/-! ## C12 -/

/-- C12 is false for every container without buckets that has a budget of free slots left: `reserve(n)` does nothing for any
`n` up to that budget, and the first insertion allocates. -/
theorem C12_reserve_false_all {isa : Isa} {hash : K → Nat} {t : Table K V} (h : Reachable isa hash t) (hS : ¬ Settled t)
    {n : Nat} (hn : n ≤ t.numEmpty) (k : K) (v : V) :
    0 < t.numEmpty ∧ t.reserve isa n = .ok t ∧ t.cap = 0 ∧
      ∃ t' p, t.insert isa hash k v = .ok (t', p, true) ∧ t'.size = 1 ∧ 0 < t'.cap := by
  unfold Settled at hS
  have hc : t.cap = 0 := by by_contra hc; exact hS (fun e => absurd e hc)
  have hne : 0 < t.numEmpty := by
    by_contra hz
    exact hS (fun _ => by omega)
  have hsz : t.size = 0 := by
    have := h.inv.size_eq
    rw [hc] at this
    exact this
  refine ⟨hne, ?_, hc, ?_⟩
  · unfold Table.reserve
    rw [if_neg (by omega)]
  · obtain ⟨t', p, b, h1, h2, _, h3⟩ := insert_spec h.inv k v
    have hcont : t.contents = [] := by
      have := h.inv.contents_length
      rw [hsz] at this
      exact List.eq_nil_of_length_eq_zero this
    rcases h3 with ⟨hb, _, h5, _, h6, _⟩ | ⟨w, _, h4, _⟩
    · cases hb
      refine ⟨t', p, h1, by omega, ?_⟩
      have := h2.size_le
      rcases Nat.eq_zero_or_pos t'.cap with h0 | h0
      · have hl := h2.contents_length
        unfold Table.contents Table.nodes at hl
        rw [h0] at hl
        simp only [collect_zero, List.map_nil, List.length_nil] at hl
        omega
      · exact h0
    · rw [hcont] at h4; cases h4

/-- A container left behind by a move assignment has such a budget. -/
example : (Table.moveAssign .sse2 .std demo (after .sse2 h64 [.insert 7 70])).map (fun r => (r.2.cap, r.2.numEmpty)) =
    .ok (0, 2) := by decide

/-! ## C25, C26 -/

theorem pow_of_and {n : Nat} (h : (n + 1) &&& n = 0) : ∃ j, n + 1 = 2 ^ j := by
  have := (Nat.and_sub_one_eq_zero_iff_isPowerOfTwo (n := n + 1) (by omega)).mp (by simpa using h)
  exact this

/-- C26 is false for all other bucket counts: the constructor violates its own assertion (undefined behaviour if assertions are
assumptions, utility.hpp 164). -/
theorem C26_bucket_count_ctor_false_all {isa : Isa} {n : Nat} (hn : ∀ j, n + 1 ≠ 2 ^ j) :
    (Table.withCapacity isa n : M (Table K V)) = .error .assertFail := by
  unfold Table.withCapacity
  rw [if_neg]
  intro h
  obtain ⟨j, hj⟩ := pow_of_and h
  exact hn j hj

/-- C26 exactly. -/
theorem C26_bucket_count_ctor_iff {isa : Isa} {n : Nat} :
    (∃ t : Table K V, Table.withCapacity isa n = .ok t) ↔ ∃ j, n + 1 = 2 ^ j := by
  constructor
  · rintro ⟨t, e⟩
    by_contra hc
    rw [C26_bucket_count_ctor_false_all (fun j hj => hc ⟨j, hj⟩)] at e
    cases e
  · rintro ⟨j, hj⟩
    obtain ⟨t, e, _⟩ := C26_bucket_count_ctor_partial (K := K) (V := V) (isa := isa) (hash := fun _ => 0) hj
    exact ⟨t, e⟩

/-- C25 is false for all other lengths. -/
theorem C25_range_ctor_false_all {isa : Isa} {hash : K → Nat} {ra : Bool} {xs : List (K × V)} {n : Nat}
    (hn : ∀ j, (if ra then max xs.length n else n) + 1 ≠ 2 ^ j) : Table.rangeCtor isa hash ra xs n = .error .assertFail := by
  unfold Table.rangeCtor
  rw [C26_bucket_count_ctor_false_all hn]
  rfl

/-- C25 exactly, for random access ranges (initializer lists, vectors) and the default bucket count: defined only if the number of
elements is a power of two minus one. -/
theorem C25_range_ctor_iff {isa : Isa} {hash : K → Nat} {xs : List (K × V)} :
    (∃ t, Table.rangeCtor isa hash true xs 0 = .ok t) ↔ ∃ j, xs.length + 1 = 2 ^ j := by
  constructor
  · rintro ⟨t, e⟩
    by_contra hc
    rw [C25_range_ctor_false_all (fun j hj => hc ⟨j, by simpa using hj⟩)] at e
    cases e
  · rintro ⟨j, hj⟩
    obtain ⟨t, m, e, _⟩ := C25_range_ctor_partial (isa := isa) (hash := hash) (ra := true) (xs := xs) (n := 0) (j := j)
      (by simpa using hj)
    exact ⟨t, e⟩

example : (Table.withCapacity .portable 12 : M (Table Nat Nat)) = .error .assertFail ∧
    (Table.rangeCtor .sse2 h64 true [(1, 1), (2, 2), (1, 3)] 0).map (·.size) = .ok 2 ∧
    (Table.rangeCtor .sse2 h64 true [(1, 1), (2, 2), (1, 3), (4, 4)] 0).map (·.size) = .error .assertFail := ⟨rfl, rfl, rfl⟩

/-! ## C32 -/

/-- The eight bytes from `p` on are not all free. -/
def Stop (t : Table K V) (p : Nat) : Prop := ∃ i, i < 8 ∧ (t.ctl (p + i)).isAvailable = false

theorem nextOccupied_stop {isa : Isa} (hW : isa.W = 8) {t : Table K V} {fuel pos r : Nat}
    (e : t.nextOccupied isa fuel pos = .ok r) : Stop t pos := by
  cases fuel with
  | zero => cases e
  | succ fuel =>
    unfold Table.nextOccupied at e
    obtain ⟨c, e1, e⟩ := Dense.bind_eq_ok e
    unfold Table.readCtl at e1
    split at e1
    · cases e1
      by_cases hav : (t.ctl pos).isAvailable = true
      · rw [if_pos hav] at e
        obtain ⟨off, e2, _⟩ := Dense.bind_eq_ok e
        unfold Table.countAvailable at e2
        obtain ⟨_, _, e2⟩ := Dense.bind_eq_ok e2
        cases hf : (List.range isa.W).find? (fun i => !(t.ctl (pos + i)).isAvailable) with
        | none =>
          rw [hf] at e2
          cases isa with
          | sse2 => simp [Isa.W] at hW
          | neon => cases e2
          | portable => cases e2
        | some i =>
          have hi := List.mem_of_find?_eq_some hf
          have hp := List.find?_some hf
          rw [List.mem_range, hW] at hi
          exact ⟨i, hi, by simpa using hp⟩
      · exact ⟨0, by omega, by simpa using hav⟩
    · cases e1

theorem walk_stop {isa : Isa} (hW : isa.W = 8) {hash : K → Nat} {t : Table K V} (h : Inv isa hash t) :
    ∀ (fuel pos : Nat) (l : List (K × V)), pos ≤ t.cap → t.walk isa fuel pos t.cap = .ok l →
      ∀ i, pos ≤ i → i < t.cap → (t.ctl i).isOccupied = true → Stop t (i + 1) := by
  intro fuel
  induction fuel with
  | zero => intro pos l _ e; cases e
  | succ fuel ih =>
    intro pos l hp e i hi hic ho
    unfold Table.walk at e
    rw [if_neg (by omega)] at e
    obtain ⟨n, _, e⟩ := Dense.bind_eq_ok e
    obtain ⟨q, e1, e⟩ := Dense.bind_eq_ok e
    obtain ⟨rest, e2, _⟩ := Dense.bind_eq_ok e
    have hst := nextOccupied_stop hW e1
    by_cases hip : i = pos
    · subst hip; exact hst
    · have hm := h.meta_ok (by omega)
      have hn := ends_ok (nextOccupied_spec hm (t.cap + 1) (pos + 1) (by omega) (by omega)) e1
      by_cases hq : q ≤ i
      · exact ih q rest hn.2.1 e2 i hq hic ho
      · have := hn.2.2.1 i (by omega) (by omega)
        rw [this] at ho
        cases ho

/-- C32 exactly, for the instruction sets with 8-byte blocks: iterating over a container is defined if and only if it has at most
seven buckets or no eight consecutive control bytes are all free. -/
theorem C32_iteration_iff {isa : Isa} (hW : isa.W = 8) {hash : K → Nat} {t : Table K V} (h : Reachable isa hash t) :
    (∃ l, t.iterate isa = .ok l) ↔ (t.cap ≤ 7 ∨ NoFreeWindow t) := by
  constructor
  · rintro ⟨l, e⟩
    by_cases hc : t.cap ≤ 7
    · exact Or.inl hc
    · right
      have hinv := h.inv
      have hm := hinv.meta_ok (by omega)
      have hlen : ¬ t.len = 0 := by have := hm.len_eq; omega
      unfold Table.iterate at e
      obtain ⟨first, e1, e⟩ := Dense.bind_eq_ok e
      have hf := ends_ok (toIter_spec hinv (Nat.zero_le _)) e1
      unfold Table.begin_ Table.toIter at e1
      rw [if_neg hlen] at e1
      have h0 := nextOccupied_stop hW e1
      unfold Table.iterateFrom at e
      obtain ⟨last, e2, e⟩ := Dense.bind_eq_ok e
      have hl := ends_ok (toIter_spec hinv (Nat.le_refl _)) e2
      have hlast : last = t.cap := by have := hl.1; have := hl.2.1; omega
      rw [hlast] at e
      have hw := walk_stop hW hinv _ _ _ hf.2.1 e
      intro pos
      induction pos with
      | zero => intro _; exact h0
      | succ p ih =>
        intro hp
        by_cases ho : (t.ctl p).isOccupied = true
        · refine hw p ?_ (by omega) ho
          by_contra hlt
          have := hf.2.2.1 p (by omega) (by omega)
          rw [this] at ho
          cases ho
        · obtain ⟨i, hi, hb⟩ := ih (by omega)
          have hav : (t.ctl p).isAvailable = true := by
            have hs := hm.slot p (by omega)
            cases hcp : t.ctl p <;> simp_all [Ctl.isOccupied, Ctl.isAvailable]
          cases i with
          | zero => rw [Nat.add_zero, hav] at hb; cases hb
          | succ i => exact ⟨i, by omega, by rw [show p + 1 + i = p + (i + 1) by omega]; exact hb⟩
  · intro hw
    obtain ⟨l, e, _⟩ := C32_iteration_partial h (h.inv.behaves (List.Perm.refl _)) hw
    exact ⟨l, e⟩

/-- C32 is false for every container with a free block. -/
theorem C32_iteration_false_all {isa : Isa} (hW : isa.W = 8) {hash : K → Nat} {t : Table K V} (h : Reachable isa hash t)
    {p : Nat} (hp : p + 8 ≤ t.cap) (hf : ∀ i, i < 8 → (t.ctl (p + i)).isOccupied = false) :
    t.iterate isa = .error .ctzZero := by
  rcases iterate_spec h.inv with ⟨l, e, _⟩ | ⟨_, e⟩
  · exfalso
    rcases (C32_iteration_iff hW h).mp ⟨l, e⟩ with hc | hn
    · omega
    · obtain ⟨i, hi, hb⟩ := hn p (by omega)
      have hm := h.inv.meta_ok (by omega)
      have hs := hm.slot (p + i) (by omega)
      have := hf i hi
      cases hcp : t.ctl (p + i) <;> simp_all [Ctl.isOccupied, Ctl.isAvailable]
  · exact e

/-- Two elements in the slots 10 and 11. -/
example : (after .neon h64 [.reserve 20, .insert 20 1, .insert 21 2] : Table Nat Nat).cap = 31 ∧
    (∀ i, i < 8 → ((after .neon h64 [.reserve 20, .insert 20 1, .insert 21 2] : Table Nat Nat).ctl (12 + i)).isOccupied = false) := by
  decide

end Tpp.Swiss

namespace Tpp.Dense

variable {k : Nat} {K V : Type} [DecidableEq K]

/-! ## C50 -/

/-- C50 exactly, for an insertion that need not grow the buckets: the maximal load factor `p / q` is exceeded afterwards if and only
if the new element does not fit below it; the code tests the load before the insertion. -/
theorem C50_load_iff {hash : K → Nat} {t t' : Table k K V} {pos p q : Nat} (h : Reachable hash t)
    (hlf : t.lf = LF.ratio p q) (hb : t.bc ≠ 0) (hroom : t.size * q < p * t.bc) {key : Fin k → K} {v : V}
    (e : t.insert hash key v = .ok (t', pos, true)) :
    t'.bc = t.bc ∧ t'.size = t.size + 1 ∧ (p * t'.bc < t'.size * q ↔ p * t.bc < (t.size + 1) * q) := by
  obtain ⟨l, hi⟩ := h.inv
  have hbc := insert_bc hi e
  obtain ⟨r, e', hr⟩ := insert_ok hi key v
  rw [e] at e'
  cases e'
  have hsz : t'.size = t.size + 1 := by
    cases hc : conflict l key with
    | some i => have := (hr.dup i hc).1; cases this
    | none =>
      have := (hr.fresh hc).2.size
      simp only [List.length_append, List.length_cons, List.length_nil] at this
      rw [this, hi.size]
  simp only at hbc
  rw [if_neg hb, hlf, if_neg (by simp only [LF.ratio, decide_eq_true_eq]; omega)] at hbc
  refine ⟨hbc, hsz, ?_⟩
  rw [hbc, hsz]

/-- Insertion of keys `0, …, m - 1` into a container of `n` buckets, as long as the load test fails before each. -/
theorem fill_load {hash : Nat → Nat} {n : Nat} (hn : 0 < n) : ∀ m, (m - 1) * 8 < 7 * n →
    ∃ t : Table 1 Nat Nat, Reachable hash t ∧ t.lf = LF.initial ∧ t.bc = n ∧ t.size = m ∧
      ∃ l, Inv hash t l ∧ ∀ e ∈ l, e.1 0 < m := by
  intro m
  induction m with
  | zero =>
    intro _
    exact ⟨Table.withBuckets LF.initial n, .withBuckets _ _, rfl, rfl, rfl, [], withBuckets_inv _ _ _, by simp⟩
  | succ m ih =>
    intro hm
    obtain ⟨t, h1, h2, h3, h4, l, h5, h6⟩ := ih (by omega)
    obtain ⟨r, e, hr⟩ := insert_ok h5 (fun _ => m) (0 : Nat)
    have hc : conflict l (fun _ => m) = none := by
      unfold conflict
      rw [List.findSome?_eq_none_iff]
      intro j _
      refine idxOf_none (fun e he => ?_)
      have : j = 0 := Subsingleton.elim _ _
      subst this
      have := h6 e he
      show e.1 0 ≠ m
      omega
    obtain ⟨g1, g2⟩ := hr.fresh hc
    obtain ⟨t', p, b⟩ := r
    cases g1
    have hx := C50_load_iff h1 h2 (by omega) (by rw [h4, h3]; simpa using hm) e
    refine ⟨t', ?_, hr.lf.trans h2, hx.1.trans h3, by rw [hx.2.1, h4], _, g2, ?_⟩
    · refine Reachable.step (o := .insert (fun _ => m) 0) (r := (t', .ins l.length true)) h1 ?_
      simp only [Table.step]
      rw [e, bind_ok]
    · intro x hx'
      rw [List.mem_append, List.mem_singleton] at hx'
      rcases hx' with hx' | rfl
      · have := h6 x hx'; omega
      · show m < m + 1; omega

/-- C50 is false for every bucket count that is not a multiple of 8: there is a container of that many buckets with the initial
maximal load factor 7/8 whose load exceeds it. -/
theorem C50_load_false_all (hash : Nat → Nat) {n : Nat} (hn : ¬ 8 ∣ n) :
    ∃ t : Table 1 Nat Nat, Reachable hash t ∧ t.lf = LF.ratio 7 8 ∧ t.bc = n ∧ 7 * t.bc < t.size * 8 := by
  have h0 : 0 < n := by
    rcases Nat.eq_zero_or_pos n with rfl | h
    · exact absurd (Nat.dvd_zero 8) hn
    · exact h
  obtain ⟨t, h1, h2, h3, h4, _⟩ := fill_load (hash := hash) h0 (7 * n / 8 + 1) (by omega)
  exact ⟨t, h1, h2, h3, by rw [h3, h4]; omega⟩

/-- Eleven buckets: ten elements are inserted without growth, 10 / 11 > 7 / 8. -/
example : ((Table.withBuckets LF.initial 11 : Table 1 Nat Nat).run h3
    ((List.range 10).map fun i => .insert (fun _ => i) 0)).map (fun r => (r.1.size, r.1.bc)) = .ok (10, 11) := rfl

end Tpp.Dense
