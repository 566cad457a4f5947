import Verif.Swiss.Target
import Verif.Props.CapacityOf
import Verif.Props.Bits
import Verif.Props.Interchange

/-!
# C120: The same program on different targets

Full statement: a program that uses sparse containers gives the same answers, iterates in the same order and makes the same buffers whatever
block variant (SSE2, NEON, portable) the header was compiled with.

True between the two 8-byte variants; between 16- and 8-byte blocks only the answers up to the order of iteration are the same.
-/

set_option linter.unusedSectionVars false

namespace Tpp.Swiss

variable {K V : Type} [DecidableEq K]

/-- C120 for the 8-byte variants: every history from every container a program can have gives the same answers in the same order, the same
slots, the same buffers and the same faults, although the portable `match_eq` reports other bytes than the NEON one. -/
theorem C120_exact {hash : K → Nat} {t : Table K V} (h : Reachable .neon hash t) (ops : List (Op K V)) :
    t.run .neon hash ops = t.run .portable hash ops := run_eight ops h.inv

/-- C120 for the 8-byte variants: merging containers. -/
theorem C120_exact_merge {hash hash' : K → Nat} {a b : Table K V} (ha : Reachable .neon hash a) (hb : Reachable .neon hash' b) :
    Table.merge .neon hash a b = Table.merge .portable hash a b := merge_eight ha.inv hb.inv

/-- C120 for the 8-byte variants: construction from a range or an initializer list. -/
theorem C120_exact_range (hash : K → Nat) (ra : Bool) (xs : List (K × V)) (n : Nat) :
    Table.rangeCtor .neon hash ra xs n = Table.rangeCtor .portable hash ra xs n := by
  unfold Table.rangeCtor
  rw [← withCapacity_eight]
  cases hc : (Table.withCapacity .neon (if ra then max xs.length n else n) : M (Table K V)) with
  | error e => rfl
  | ok t =>
    obtain ⟨m, hm⟩ := (C26_bucket_count_ctor_iff (K := K) (V := V) (isa := .neon)).mp ⟨t, hc⟩
    exact insertRange_eight (Reachable.ctor (hash := hash) hm hc).inv ra xs

/-- C120 for the 8-byte variants: the same containers can be made, by all operations together (merging, moving, copying, swapping, erasing
at iterators, …). -/
theorem C120_exact_reachable (hash : K → Nat) (t : Table K V) : Reachable .neon hash t ↔ Reachable .portable hash t :=
  ⟨Reachable.eight, Reachable.eight'⟩

/-- Tags 0 and 1 in neighbouring slots: searching for a key of tag 0 the portable variant also compares the key of tag 1, and still both
find the same slot, and both make the same buffer when an eighth key arrives. -/
example :
    let t := ((Table.init : Table Nat Nat).run .neon id [.reserve 4, .insert 0 5, .insert 1 6, .insert 1024 7]).map Prod.fst
    t.map (fun t => (t.matchEq .neon 0 0, t.matchEq .portable 0 0)) = .ok ([0, 2], [0, 1, 2]) ∧
    (do (← t).findNode .neon 1024 1024) = .ok 2 ∧ (do (← t).findNode .portable 1024 1024) = .ok 2 := by decide +kernel

theorem run_contents {isa : Isa} {hash : K → Nat} (ops : List (Op K V)) : ∀ {t t' : Table K V} {m : List (K × V)} {os : List (Out K V)}, Inv isa hash t →
    t.contents.Perm m → t.run isa hash ops = .ok (t', os) →
    t'.contents.Perm (Spec.run m ops).1 ∧ List.Forall₂ Out.Agree os (Spec.run m ops).2 := by
  induction ops with
  | nil =>
    intro t t' m os _ hm e
    cases e
    exact ⟨hm, .nil⟩
  | cons op ops ih =>
    intro t t' m os h hm e
    simp only [Table.run] at e
    obtain ⟨⟨t1, o⟩, h1, e⟩ := ok_of_bind e
    obtain ⟨⟨t2, os'⟩, h2, e⟩ := ok_of_bind e
    cases e
    obtain ⟨i1, i2, i3⟩ := ends_ok (step_spec h hm op) h1
    obtain ⟨j1, j2⟩ := ih i1 i2 h2
    exact ⟨j1, .cons i3 j2⟩

/-- C120 for any two variants and any two hash functions: a history that runs to its end in both gives the same answers up to the order of
iteration, and leaves the same elements. -/
theorem C120_answers_partial {a b : Isa} {hash hash' : K → Nat} {ops : List (Op K V)} {t u : Table K V} {os os' : List (Out K V)}
    (ha : (Table.init : Table K V).run a hash ops = .ok (t, os)) (hb : (Table.init : Table K V).run b hash' ops = .ok (u, os')) :
    List.Forall₂ Out.Agree os os' ∧ t.contents.Perm u.contents := by
  obtain ⟨h1, h2⟩ := run_contents ops (Inv.init a hash) (List.Perm.refl _) ha
  obtain ⟨h3, h4⟩ := run_contents ops (Inv.init b hash') (List.Perm.refl _) hb
  exact ⟨agree_both h2 h4, h1.trans h3.symm⟩

/-! ## The number of buckets -/

theorem pow_sep {c d i j : Nat} (hc : c + 1 = 2 ^ i) (hd : d + 1 = 2 ^ j) (hlt : d < c) : d ≤ (c - 1) / 2 := by
  have : j < i := (Nat.pow_lt_pow_iff_right (by omega : 1 < 2)).mp (by omega)
  have := Nat.pow_le_pow_right (n := 2) (by omega) (show j + 1 ≤ i by omega)
  rw [Nat.pow_succ] at this
  omega

/-- The buckets of a container into which `n` elements were inserted one after the other. -/
def Grew (isa : Isa) (t : Table K V) : Prop :=
  NoTomb t ∧ Settled t ∧ (t.cap = 0 ∨ t.cap = 1 ∨ maxSize isa ((t.cap - 1) / 2) < t.size)

theorem insert_grew {isa : Isa} {hash : K → Nat} {t : Table K V} (h : Inv isa hash t) (hg : Grew isa t) {k : K} {v : V}
    (hk : Spec.lookup t.contents k = none) : ∃ t' p, t.insert isa hash k v = .ok (t', p, true) ∧ Inv isa hash t' ∧ Grew isa t' ∧
      t'.size = t.size + 1 ∧ t'.contents.Perm ((k, v) :: t.contents) := by
  obtain ⟨t', p, b, h1, h2, h3, h4⟩ := insert_spec h k v
  rcases h4 with ⟨rfl, -, h6, h7, h8, -⟩ | ⟨w, -, h5, -⟩
  · refine ⟨t', p, h1, h2, ⟨h3.2 hg.1, ?_, ?_⟩, h8, h6⟩
    · intro h0
      have := h2.size_le_cap
      omega
    · have hb := tombs_eq h hg.1 hg.2.1
      unfold Table.capacity at hb
      have := h2.size_le_cap
      rcases h3.1 with e | ⟨e0, e⟩ | ⟨e0, e1, e2, -⟩
      · rcases hg.2.2 with g | g | g
        · omega
        · right; left; omega
        · right; right; rw [e]; omega
      · right; left; exact e
      · right; right
        rw [e2, show (2 * t.cap + 1 - 1) / 2 = t.cap by omega]
        omega
  · rw [hk] at h5; cases h5

theorem inserts_grew {isa : Isa} {hash : K → Nat} (xs : List (K × V)) : ∀ {t : Table K V}, Inv isa hash t → Grew isa t → (xs.map Prod.fst).Nodup →
    (∀ x ∈ xs, Spec.lookup t.contents x.1 = none) →
    ∃ t' os, t.run isa hash (xs.map fun x => .insert x.1 x.2) = .ok (t', os) ∧ Inv isa hash t' ∧ Grew isa t' ∧ t'.size = t.size + xs.length := by
  induction xs with
  | nil => intro t h hg _ _; exact ⟨t, [], rfl, h, hg, rfl⟩
  | cons x xs ih =>
    intro t h hg hn hl
    obtain ⟨t1, p, h1, h2, h3, h4, h5⟩ := insert_grew (v := x.2) h hg (hl x List.mem_cons_self)
    simp only [List.map_cons, List.nodup_cons] at hn
    have hs : ∃ o, t.step isa hash (.insert x.1 x.2) = .ok (t1, o) := by
      obtain ⟨r, e, -⟩ := step_direct h (List.Perm.refl _) (.insert x.1 x.2) rfl
      have : r.1 = t1 := by
        simp only [Table.step, h1, bind_ok] at e
        obtain ⟨i, -, e⟩ := ok_of_bind e
        obtain ⟨n, -, e⟩ := ok_of_bind e
        cases e; rfl
      exact ⟨r.2, by rw [e, ← this]⟩
    obtain ⟨o, ho⟩ := hs
    obtain ⟨t', os, e1, e2, e3, e4⟩ := ih h2 h3 hn.2 (by
      intro y hy
      rw [Spec.lookup_perm h5 h2.contents_uniq, Spec.lookup_cons, if_neg]
      · exact hl y (List.mem_cons_of_mem _ hy)
      · intro e
        exact hn.1 (List.mem_map.mpr ⟨y, hy, e.symm⟩))
    refine ⟨t', o :: os, ?_, e2, e3, by rw [e4, h4, List.length_cons]; omega⟩
    rw [List.map_cons]
    simp only [Table.run, ho, e1, bind_ok]

/-- C120: inserting elements of different keys one after the other leaves exactly the buckets that `reserve` of their number would have made at
once, whatever the hash function. -/
theorem C120_growth (isa : Isa) (hash : K → Nat) {xs : List (K × V)} (hx : xs ≠ []) (hn : (xs.map Prod.fst).Nodup) :
    ∃ t os u, (Table.init : Table K V).run isa hash (xs.map fun x => .insert x.1 x.2) = .ok (t, os) ∧
      (Table.init : Table K V).reserve isa xs.length = .ok u ∧ t.cap = u.cap ∧ t.cap = alignCapacity (minCapacity isa xs.length) := by
  obtain ⟨t, os, e1, e2, e3, e4⟩ := inserts_grew xs (Inv.init isa hash) ⟨fun i hi => absurd hi (Nat.not_lt_zero _), fun _ => rfl, Or.inl rfl⟩ hn
    (fun x _ => rfl)
  have hlen : 0 < xs.length := List.length_pos_iff.mpr hx
  have hsz : t.size = xs.length := by rw [e4]; exact Nat.zero_add _
  have hcap : t.cap = alignCapacity (minCapacity isa xs.length) := by
    obtain ⟨⟨m, hm⟩, c2, c3, -⟩ := C33_capacity isa xs.length
    have hle := e2.size_le_cap
    obtain ⟨j, hj⟩ := e2.pow
    have hms : t.size ≤ maxSize isa t.cap := e2.size_le
    have h1 := c3 t.cap j hj (by omega) (by omega)
    rcases Nat.lt_or_ge (alignCapacity (minCapacity isa xs.length)) t.cap with hlt | hge
    · have h2 := pow_sep hj hm hlt
      have h3 := maxSize_mono (isa := isa) h2
      rcases e3.2.2 with g | g | g
      · omega
      · have := maxSize_le isa (alignCapacity (minCapacity isa xs.length))
        omega
      · omega
    · omega
  obtain ⟨u, f1, -⟩ := reserve_spec (Inv.init (V := V) isa hash) xs.length
  refine ⟨t, os, u, e1, f1, ?_, hcap⟩
  rw [hcap]
  unfold Table.reserve at f1
  rw [if_pos (by simpa [Table.init] using hlen)] at f1
  exact (doRehash_cap f1).symm

theorem buckets_differ (n : Nat) : alignCapacity (minCapacity .sse2 n) = alignCapacity (minCapacity .neon n) ↔ n ≠ 7 := by
  unfold minCapacity
  simp only [Isa.W]
  by_cases h : n = 7
  · subst h
    decide
  · simp [h]

/-- C120 is false for the number of buckets: containers that received the same elements, without any erasure, have the same number of buckets
with 16- and 8-byte blocks exactly if there are not seven elements, whatever the hash function. -/
theorem C120_buckets_false (hash : K → Nat) {xs : List (K × V)} (hx : xs ≠ []) (hn : (xs.map Prod.fst).Nodup) :
    ∃ t u os os', (Table.init : Table K V).run .sse2 hash (xs.map fun x => .insert x.1 x.2) = .ok (t, os) ∧
      (Table.init : Table K V).run .neon hash (xs.map fun x => .insert x.1 x.2) = .ok (u, os') ∧ (t.cap = u.cap ↔ xs.length ≠ 7) := by
  obtain ⟨t, os, -, e1, -, -, e2⟩ := C120_growth .sse2 hash hx hn
  obtain ⟨u, os', -, f1, -, -, f2⟩ := C120_growth .neon hash hx hn
  exact ⟨t, u, os, os', e1, f1, by rw [e2, f2]; exact buckets_differ _⟩

/-- Seven elements, hashed so that no group of eight slots stays free. -/
def seven : List (Op Nat Nat) := ([8, 1, 2, 11, 4, 5, 14] : List Nat).map fun i => .insert i i

/-- Seven elements: 7 buckets with 16-byte blocks, 15 with 8-byte blocks. -/
example : ((Table.init : Table Nat Nat).run .sse2 (fun x => x * 128) seven).map (fun r => r.1.cap) = .ok 7 ∧
    ((Table.init : Table Nat Nat).run .neon (fun x => x * 128) seven).map (fun r => r.1.cap) = .ok 15 ∧
    ((Table.init : Table Nat Nat).run .portable (fun x => x * 128) seven).map (fun r => r.1.cap) = .ok 15 := by decide +kernel

/-- C120 is false for the order of iteration: the same program iterates in another order with 16-byte blocks than with 8-byte blocks. -/
theorem C120_order_false : ∃ (hash : Nat → Nat) (ops : List (Op Nat Nat)) (t u : Table Nat Nat) (os os' : List (Out Nat Nat)),
    (Table.init : Table Nat Nat).run .sse2 hash ops = .ok (t, os) ∧ (Table.init : Table Nat Nat).run .neon hash ops = .ok (u, os') ∧
    os ≠ os' := by
  have h1 : ((Table.init : Table Nat Nat).run .sse2 (fun x => x * 128) (seven ++ [.iterate])).map (fun r => r.2.getLast?) =
      .ok (some (.list [(8, 8), (1, 1), (2, 2), (11, 11), (4, 4), (5, 5), (14, 14)])) := by decide +kernel
  have h2 : ((Table.init : Table Nat Nat).run .neon (fun x => x * 128) (seven ++ [.iterate])).map (fun r => r.2.getLast?) =
      .ok (some (.list [(1, 1), (2, 2), (4, 4), (5, 5), (8, 8), (11, 11), (14, 14)])) := by decide +kernel
  cases e : (Table.init : Table Nat Nat).run .sse2 (fun x => x * 128) (seven ++ [.iterate]) with
  | error f => rw [e] at h1; cases h1
  | ok r =>
    cases e' : (Table.init : Table Nat Nat).run .neon (fun x => x * 128) (seven ++ [.iterate]) with
    | error f => rw [e'] at h2; cases h2
    | ok r' =>
      refine ⟨_, _, r.1, r'.1, r.2, r'.2, e, e', ?_⟩
      intro heq
      rw [e] at h1
      rw [e'] at h2
      simp only [Except.map] at h1 h2
      rw [heq] at h1
      rw [h2] at h1
      revert h1
      decide

/-- The answers of that program agree as `C120_answers_partial` says. -/
example : ((Table.init : Table Nat Nat).run .sse2 (fun x => x * 128) (seven ++ [.find 11, .erase 8, .contains 8, .size])).map (fun r => r.2.drop 7) =
    ((Table.init : Table Nat Nat).run .neon (fun x => x * 128) (seven ++ [.find 11, .erase 8, .contains 8, .size])).map (fun r => r.2.drop 7) := by
  decide +kernel

end Tpp.Swiss
