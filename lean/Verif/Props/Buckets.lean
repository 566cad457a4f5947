import Verif.Props.CapacityOf
import Verif.Swiss.Cost
import Verif.Dense.Heap
import Verif.Dense.Faults

/-!
# C116: room once made is kept

Full statement: no operation but `rehash(0)` lowers the bucket count of a container, operations other than insertions, `reserve` and
`rehash` do not change it, and an insertion of one element keeps it or makes it `2n + 1` (sparse) or larger (dense).
-/

set_option linter.unusedSectionVars false

namespace Tpp.Swiss

variable {K V : Type} [DecidableEq K]

/-- Operations that insert at most one element. -/
def _root_.Tpp.Op.addsOne {K V : Type} : Op K V → Bool
  | .insert .. | .assign .. | .index .. | .insertNode .. | .insertThrow .. => true
  | _ => false

/-- Operations that neither insert nor ask for room. -/
def _root_.Tpp.Op.quiet {K V : Type} : Op K V → Bool
  | .erase .. | .clear | .find .. | .contains .. | .size | .iterate | .extract .. | .eraseIf .. => true
  | _ => false

/-- Operations that call `reserve`. -/
def _root_.Tpp.Op.reserves {K V : Type} : Op K V → Bool
  | .reserve .. => true
  | .insertRange ra _ => ra
  | _ => false

theorem GrowOk.cap {isa : Isa} {t t' : Table K V} (h : GrowOk isa t t') : t'.cap = t.cap ∨ t'.cap = 2 * t.cap + 1 := by
  rcases h.1 with e | ⟨e, e'⟩ | ⟨_, _, e, _⟩
  · exact Or.inl e
  · exact Or.inr (by omega)
  · exact Or.inr e

theorem insertList_cap {isa : Isa} {hash : K → Nat} (xs : List (K × V)) :
    ∀ (t t' : Table K V), Inv isa hash t →
      xs.foldlM (fun (t : Table K V) x => do
        let (t, _, _) ← t.insert isa hash x.1 x.2
        .ok t) t = .ok t' → t.cap ≤ t'.cap := by
  induction xs with
  | nil =>
    intro t t' _ he
    cases he
    exact Nat.le_refl _
  | cons x xs ih =>
    intro t t' h he
    obtain ⟨u, p, f, h1, h2, hg, _⟩ := insert_spec h x.1 x.2
    simp only [List.foldlM_cons, h1, bind_ok] at he
    have := ih u t' h2 he
    have := hg.cap
    omega

/-- C116 for sparse and stable containers: an operation that inserts at most one element keeps the bucket count or makes it `2n + 1`. -/
theorem C116_sparse_single {isa : Isa} {hash : K → Nat} {t t' : Table K V} (h : Reachable isa hash t) {op : Op K V} {o : Out K V}
    (hop : op.addsOne = true) (hs : t.step isa hash op = .ok (t', o)) : t'.cap = t.cap ∨ t'.cap = 2 * t.cap + 1 := by
  have hI := h.inv
  cases op <;> simp only [Op.addsOne] at hop <;> try (simp at hop; done)
  case insert k v =>
    obtain ⟨u, p, b, e, _, hg, _⟩ := insert_spec hI k v
    simp only [Table.step, e, bind_ok] at hs
    obtain ⟨_, _, hs⟩ := ok_of_bind hs
    obtain ⟨_, _, hs⟩ := ok_of_bind hs
    cases hs
    exact hg.cap
  case assign k v =>
    obtain ⟨u, p, b, e, _, hg, _⟩ := insertOrAssignWith_spec hI k v (fun _ => v)
    simp only [Table.step, Table.insertOrAssign, e, bind_ok] at hs
    obtain ⟨_, _, hs⟩ := ok_of_bind hs
    obtain ⟨_, _, hs⟩ := ok_of_bind hs
    cases hs
    exact hg.cap
  case index k d =>
    obtain ⟨u, v, e, _, _, _, _, hg⟩ := index_spec hI d k
    simp only [Table.step, e, bind_ok] at hs
    cases hs
    exact hg.cap
  case insertNode x =>
    obtain ⟨u, p, b, l, e, _, hg, _⟩ := insertNode_spec hI x
    simp only [Table.step, e, bind_ok] at hs
    obtain ⟨_, _, hs⟩ := ok_of_bind hs
    obtain ⟨_, _, hs⟩ := ok_of_bind hs
    cases hs
    exact hg.cap
  case insertThrow k =>
    obtain ⟨u, e, _, _, _, hg⟩ := insertThrow_spec hI k
    simp only [Table.step, e, bind_ok] at hs
    cases hs
    exact hg.cap

/-- C116 for sparse and stable containers: erasures, `clear`, node extraction and lookups keep the bucket count. -/
theorem C116_sparse_quiet {isa : Isa} {hash : K → Nat} {t t' : Table K V} (h : Reachable isa hash t) {op : Op K V} {o : Out K V}
    (hop : op.quiet = true) (hs : t.step isa hash op = .ok (t', o)) : t'.cap = t.cap := by
  have hI := h.inv
  cases op <;> simp only [Op.quiet] at hop <;> try (simp at hop; done)
  case erase k =>
    simp only [Table.step] at hs
    obtain ⟨⟨u, q⟩, e, hs⟩ := ok_of_bind hs
    cases hs
    exact (ends_ok (erase_spec hI k) e).2.1
  case clear =>
    obtain ⟨u, e, _, hc, _⟩ := clear_spec hI
    simp only [Table.step, e, bind_ok] at hs
    cases hs
    exact hc
  case find k =>
    simp only [Table.step] at hs
    obtain ⟨_, _, hs⟩ := ok_of_bind hs
    cases hs
    rfl
  case contains k =>
    simp only [Table.step] at hs
    obtain ⟨_, _, hs⟩ := ok_of_bind hs
    cases hs
    rfl
  case size =>
    cases hs
    rfl
  case iterate =>
    simp only [Table.step] at hs
    obtain ⟨_, _, hs⟩ := ok_of_bind hs
    cases hs
    rfl
  case extract k =>
    simp only [Table.step] at hs
    obtain ⟨⟨u, x⟩, e, hs⟩ := ok_of_bind hs
    cases hs
    exact (ends_ok (extract_spec hI k) e).2.2.2.2
  case eraseIf p =>
    simp only [Table.step] at hs
    obtain ⟨⟨u, n, l⟩, e, hs⟩ := ok_of_bind hs
    cases hs
    exact (ends_ok (eraseIf_spec p hI) e).2.2.2.2

/-- C116 for sparse and stable containers: no operation that does not call `reserve` lowers the bucket count (`rehash(n)` with `n > 0`
included). -/
theorem C116_sparse_partial {isa : Isa} {hash : K → Nat} {t t' : Table K V} (h : Reachable isa hash t) {op : Op K V} {o : Out K V}
    (hop : op.reserves = false) (hs : t.step isa hash op = .ok (t', o)) : t.cap ≤ t'.cap := by
  by_cases h1 : op.addsOne = true
  · have := C116_sparse_single h h1 hs
    omega
  · by_cases h2 : op.quiet = true
    · exact Nat.le_of_eq (C116_sparse_quiet h h2 hs).symm
    · cases op <;> simp [Op.addsOne, Op.quiet, Op.reserves] at h1 h2 hop
      case rehash n =>
        obtain ⟨u, e, _, _, _, hc, _⟩ := rehash_spec h.inv (n := n + 1) (by omega)
        simp only [Table.step, e, bind_ok] at hs
        cases hs
        exact hc
      case insertRange ra xs =>
        subst hop
        simp only [Table.step, Table.insertRange, Bool.false_eq_true, if_false, bind_ok] at hs
        obtain ⟨u, e, hs⟩ := ok_of_bind hs
        cases hs
        exact insertList_cap xs _ _ h.inv e

/-- C116, exactly: `reserve(n)` lowers the bucket count if and only if there is no room for `n` elements among the unused slots, but a
smaller buffer has room for them. -/
theorem C116_sparse_reserve_iff {isa : Isa} {hash : K → Nat} {t : Table K V} (h : Reachable isa hash t) (n : Nat) :
    ∃ t', t.reserve isa n = .ok t' ∧
      (t'.cap < t.cap ↔ t.size + t.numEmpty < n ∧ alignCapacity (minCapacity isa n) < t.cap) := by
  obtain ⟨u, e, _⟩ := reserve_spec h.inv n
  refine ⟨u, e, ?_⟩
  unfold Table.reserve at e
  split at e
  · rename_i hn
    rw [doRehash_cap e]
    exact ⟨fun a => ⟨hn, a⟩, fun a => a.2⟩
  · cases e
    constructor
    · intro a; omega
    · intro a; omega

/-- The insertion of a range given by random access iterators has the bucket count of its `reserve`. -/
theorem range_cap {isa : Isa} {hash : K → Nat} {t : Table K V} (h : Reachable isa hash t) (hc : t.cap ≠ 0) (xs : List (K × V)) :
    ∃ u t', t.reserve isa (t.size + xs.length) = .ok u ∧ t.insertRange isa hash true xs = .ok t' ∧ t'.cap = u.cap := by
  obtain ⟨t', e, _⟩ := insertRange_spec true h.inv xs
  obtain ⟨u, e1, hu, hs, _, hr, _⟩ := reserve_spec h.inv (t.size + xs.length)
  refine ⟨u, t', e1, e, ?_⟩
  unfold Table.insertRange at e
  simp only [if_true, e1, bind_ok] at e
  have hu0 : 0 < u.cap := by
    unfold Table.reserve at e1
    split at e1
    · rw [doRehash_cap e1]
      obtain ⟨m, hm, hm1⟩ := alignCapacity_pow (minCapacity isa (t.size + xs.length))
      have : 2 ^ 1 ≤ 2 ^ m := Nat.pow_le_pow_right (by omega) hm1
      omega
    · cases e1
      omega
  exact (insertList_fade xs u t' hu hu0 (by omega) e).1.1

/-- C116, exactly: so does the insertion of a range given by random access iterators (also of an initializer list). -/
theorem C116_sparse_range_iff {isa : Isa} {hash : K → Nat} {t : Table K V} (h : Reachable isa hash t) (xs : List (K × V)) :
    ∃ t', t.insertRange isa hash true xs = .ok t' ∧
      (t'.cap < t.cap ↔ t.numEmpty < xs.length ∧ alignCapacity (minCapacity isa (t.size + xs.length)) < t.cap) := by
  by_cases hc : t.cap = 0
  · obtain ⟨t', e, _⟩ := insertRange_spec true h.inv xs
    exact ⟨t', e, by omega⟩
  obtain ⟨u, t', e1, e, hf⟩ := range_cap h hc xs
  refine ⟨t', e, ?_⟩
  obtain ⟨u', e2, hiff⟩ := C116_sparse_reserve_iff h (t.size + xs.length)
  rw [e1] at e2
  cases e2
  rw [hf, hiff]
  constructor
  · rintro ⟨a, b⟩
    exact ⟨by omega, b⟩
  · rintro ⟨a, b⟩
    exact ⟨by omega, b⟩

/-- C116 without erased slots: neither `reserve` nor range insertion lowers the bucket count. -/
theorem C116_sparse_room_partial {isa : Isa} {hash : K → Nat} {t : Table K V} (h : Reachable isa hash t) (hS : Settled t) (hno : NoTomb t) :
    (∀ n, ∃ t', t.reserve isa n = .ok t' ∧ t.cap ≤ t'.cap) ∧
      ∀ xs, ∃ t', t.insertRange isa hash true xs = .ok t' ∧ t.cap ≤ t'.cap := by
  have ht := tombs_eq h.inv hno hS
  have key : ∀ n, t.size + t.numEmpty < n → t.cap ≤ alignCapacity (minCapacity isa n) := by
    intro n hn
    have h1 := reserve_fits isa n
    rcases Nat.lt_or_ge (alignCapacity (minCapacity isa n)) t.cap with hlt | hge
    · have := maxSize_mono (isa := isa) (Nat.le_of_lt hlt)
      unfold Table.capacity at ht
      omega
    · exact hge
  constructor
  · intro n
    obtain ⟨t', e, hiff⟩ := C116_sparse_reserve_iff h n
    refine ⟨t', e, ?_⟩
    rcases Nat.lt_or_ge t'.cap t.cap with hlt | hge
    · have := hiff.mp hlt
      have := key n this.1
      omega
    · exact hge
  · intro xs
    obtain ⟨t', e, hiff⟩ := C116_sparse_range_iff h xs
    refine ⟨t', e, ?_⟩
    rcases Nat.lt_or_ge t'.cap t.cap with hlt | hge
    · have := hiff.mp hlt
      have := key (t.size + xs.length) (by omega)
      omega
    · exact hge

/-! ### A container of any size that loses its buckets -/

theorem fresh_key : ∀ m : List (Nat × Nat), ∃ x, Spec.lookup m x = none := by
  intro m
  refine ⟨(m.map (·.1)).sum + 1, ?_⟩
  unfold Spec.lookup
  rw [Option.map_eq_none_iff, List.find?_eq_none]
  intro p hp
  have : p.1 ≤ (m.map (·.1)).sum := List.le_sum_of_mem (List.mem_map.mpr ⟨_, hp, rfl⟩)
  simp only [decide_eq_true_eq]
  omega

/-- Unused slots can be used up without changing the bucket count. -/
theorem fill_up {isa : Isa} {hash : Nat → Nat} : ∀ (d : Nat) (t : Table Nat Nat), Reachable isa hash t → 0 < t.cap → NoTomb t → t.numEmpty = d →
    ∃ t' : Table Nat Nat, Reachable isa hash t' ∧ t'.cap = t.cap ∧ t'.numEmpty = 0 := by
  intro d
  induction d with
  | zero => exact fun t h _ _ hd => ⟨t, h, rfl, hd⟩
  | succ d ih =>
    intro t h hc hno hd
    obtain ⟨x, hx⟩ := fresh_key t.contents
    obtain ⟨u, v, e, hu, hp, _, _, hg⟩ := index_spec h.inv 0 x
    have hr : Reachable isa hash u := h.step (op := .index x 0) (o := .opt (some v)) (by simp [Table.step, e])
    have hcap : u.cap = t.cap := by
      rcases hg.1 with q | ⟨q, _⟩ | ⟨_, q, _⟩ <;> omega
    have hsz : u.size = t.size + 1 := by
      have := hp.length_eq
      unfold Spec.insert at this
      rw [hx] at this
      simp only [List.length_cons] at this
      rw [hu.contents_length, h.inv.contents_length] at this
      exact this
    have h1 := tombs_eq h.inv hno (fun q => by omega)
    have h2 := tombs_eq hu (hg.2 hno) (fun q => by omega)
    unfold Table.capacity at h1 h2
    rw [hcap] at h2
    obtain ⟨t', a, b, c⟩ := ih u hr (by omega) (hg.2 hno) (by omega)
    exact ⟨t', a, by omega, c⟩

/-- C116 is false for sparse and stable containers of any size and for every hash function: there are empty containers of more than `n`
buckets that `reserve(1)`, or inserting a list of one element, leaves with one. -/
theorem C116_sparse_false (hash : Nat → Nat) (n : Nat) (x : Nat × Nat) : ∃ t : Table Nat Nat, Reachable .sse2 hash t ∧ t.size = 0 ∧ n < t.cap ∧
    (∃ t', t.reserve .sse2 1 = .ok t' ∧ t'.cap = 1) ∧ ∃ t', t.insertRange .sse2 hash true [x] = .ok t' ∧ t'.cap = 1 := by
  have h0 : Reachable .sse2 hash (Table.init : Table Nat Nat) := .init hash
  obtain ⟨a, e1, i1, s1, _, r1, _, n1⟩ := reserve_spec h0.inv (n + 2)
  have ha : Reachable .sse2 hash a := h0.step (op := .reserve (n + 2)) (o := .unit) (by simp [Table.step, e1])
  have hle : n + 2 ≤ a.cap := by
    unfold Table.reserve at e1
    have : (Table.init : Table Nat Nat).size + (Table.init : Table Nat Nat).numEmpty = 0 := rfl
    rw [if_pos (by omega)] at e1
    rw [doRehash_cap e1]
    have h2 := reserve_fits .sse2 (n + 2)
    have h3 := maxSize_le .sse2 (alignCapacity (minCapacity .sse2 (n + 2)))
    omega
  obtain ⟨b, hb, hbc, hb0⟩ := fill_up a.numEmpty a ha (by omega) (n1 (by intro i hi; simp [Table.init] at hi)) rfl
  obtain ⟨⟨c, o⟩, e2, hok⟩ : ∃ r, b.step .sse2 hash (.eraseIf fun _ => true) = .ok r ∧ StepOk .sse2 hash b.contents (.eraseIf fun _ => true) r := by
    rcases step_spec hb.inv (List.Perm.refl _) (.eraseIf fun _ => true) with h | ⟨h, _⟩
    · exact h
    · cases h
  have hc : Reachable .sse2 hash c := hb.step e2
  have hcap : c.cap = b.cap := C116_sparse_quiet hb rfl e2
  have hsz : c.size = 0 := by
    rw [← hc.inv.contents_length]
    have := hok.2.1.length_eq
    simpa [Spec.step] using this
  have hne : c.numEmpty = 0 := by
    simp only [Table.step] at e2
    obtain ⟨⟨u, k, l⟩, e3, e2⟩ := ok_of_bind e2
    cases e2
    unfold Table.eraseIf at e3
    obtain ⟨p, _, e3⟩ := ok_of_bind e3
    obtain ⟨q, _, e3⟩ := ok_of_bind e3
    rw [(eraseIfLoop_fade _ _ _ _ _ _ _ _ _ e3).2, hb0]
  have hcut : ∀ d, c.reserve .sse2 1 = .ok d → d.cap = 1 := by
    intro d e
    unfold Table.reserve at e
    rw [if_pos (by omega)] at e
    rw [doRehash_cap e]
    decide
  refine ⟨c, hc, hsz, by omega, ?_, ?_⟩
  · obtain ⟨d, e, _⟩ := reserve_spec hc.inv 1
    exact ⟨d, e, hcut d e⟩
  · obtain ⟨d, t', e, e', hd⟩ := range_cap hc (by omega) [x]
    rw [hsz] at e
    exact ⟨t', e', hd.trans (hcut d e)⟩

/-- The bucket count, the number of elements and that of unused slots after `ops`, keys being spread evenly. -/
def capAfter (isa : Isa) (ops : List (Op Nat Nat)) : Option (Nat × Nat × Nat) :=
  match (Table.init : Table Nat Nat).run isa (fun x => x * 128) ops with
  | .ok (t, _) => some (t.cap, t.size, t.numEmpty)
  | .error _ => none

/-- The insertion of the keys below `n` and the erasure of all of them. -/
def emptied (n : Nat) : List (Op Nat Nat) := (List.range n).map (fun i => Op.insert i i) ++ [.eraseIf fun _ => true]

/-- Twenty insertions leave 31 buckets, and erasures and `clear` keep them; `clear` of a container without elements keeps its erased slots. -/
example : capAfter .sse2 (emptied 20) = some (31, 0, 8) ∧ capAfter .sse2 (emptied 20 ++ [.clear]) = some (31, 0, 8) ∧
    capAfter .sse2 ((List.range 20).map (fun i => .insert i i) ++ [.clear]) = some (31, 0, 28) := by
  decide +kernel

/-- `reserve(9)` then finds room for eight, and leaves 15 buckets; so does the insertion of nine elements in a list, while that of the same
elements one by one keeps 31.  After `clear` of the full container there is room for 28, and nothing is lost. -/
example : capAfter .sse2 (emptied 20 ++ [.reserve 8]) = some (31, 0, 8) ∧ capAfter .sse2 (emptied 20 ++ [.reserve 9]) = some (15, 0, 14) ∧
    capAfter .sse2 (emptied 20 ++ [.insertRange true ((List.range 9).map fun i => (i, i))]) = some (15, 9, 5) ∧
    (capAfter .sse2 (emptied 20 ++ [.insertRange false ((List.range 9).map fun i => (i, i))])).map (·.1) = some 31 ∧
    (capAfter .sse2 ((List.range 20).map (fun i => .insert i i) ++ [.clear, .reserve 9])).map (·.1) = some 31 := by
  decide +kernel

/-- The same with groups of eight. -/
example : capAfter .neon (emptied 13) = some (15, 0, 1) ∧ capAfter .neon (emptied 13 ++ [.reserve 2]) = some (3, 0, 3) := by
  decide +kernel

end Tpp.Swiss

namespace Tpp.Dense

variable {k : Nat} {K V : Type} [DecidableEq K]

/-- Both arrays are at least as large as before. -/
def Grows (t t' : Table k K V) : Prop := t.cap ≤ t'.cap ∧ t.bc ≤ t'.bc

theorem Same.grows {t t' : Table k K V} (h : Same t t') : Grows t t' := ⟨Nat.le_of_eq h.1.symm, Nat.le_of_eq h.2.symm⟩

theorem Grows.trans {a b c : Table k K V} (h : Grows a b) (h' : Grows b c) : Grows a c :=
  ⟨Nat.le_trans h.1 h'.1, Nat.le_trans h.2 h'.2⟩

theorem Grows.refl (t : Table k K V) : Grows t t := ⟨Nat.le_refl _, Nat.le_refl _⟩

namespace Table

theorem doRehash_grows (t : Table k K V) (n : Nat) : Post (Grows t) (t.doRehash n) :=
  (doRehash_post t n).mono fun _ h => ⟨by omega, by omega⟩

theorem rehash_grows (t : Table k K V) (n : Nat) : Post (Grows t) (t.rehash n) := by
  unfold rehash
  split
  · exact Grows.refl t
  · dsimp only
    split
    · exact doRehash_grows t _
    · exact Grows.refl t

theorem maybeRehash_grows (t : Table k K V) : Post (Grows t) t.maybeRehash := by
  unfold maybeRehash
  split
  · exact rehash_grows t _
  · split
    · exact rehash_grows t _
    · exact Grows.refl t

theorem maybeResize_grows (t : Table k K V) : Post (Grows t) t.maybeResize := by
  unfold maybeResize
  split
  · refine (resizeData_post t _).mono fun t' h => ⟨?_, by omega⟩
    rw [h.1]
    split <;> omega
  · exact Grows.refl t

theorem insert_grows (hash : K → Nat) (t : Table k K V) (key : Fin k → K) (v : V) :
    Post (fun r => Grows t r.1) (t.insert hash key v) := by
  unfold insert
  refine (maybeResize_grows t).bind fun t1 h1 => (maybeRehash_grows t1).bind fun t2 h2 => (locate_post hash t2 key).bind fun f _ => ?_
  have h12 := h1.trans h2
  split
  · exact h12
  · refine (pushNode_post t2 key v).bind fun r h3 => ?_
    exact (commitNode_post r.1 _ _ _).bind fun t4 h4 => h12.trans ((Same.grows h3).trans (Same.grows h4))

theorem emplace_grows (hash : K → Nat) (t : Table k K V) (key : Fin k → K) (v : V) :
    Post (fun r => Grows t r.1) (t.emplace hash key v) := by
  unfold emplace
  refine (maybeResize_grows t).bind fun t1 h1 => (maybeRehash_grows t1).bind fun t2 h2 => (pushNode_post t2 key v).bind fun r h3 =>
    (locate_post hash r.1 key).bind fun f _ => ?_
  have h13 := (h1.trans h2).trans (Same.grows h3)
  split
  · exact (popNode_post r.1).bind fun t4 h4 => h13.trans (Same.grows h4)
  · exact (commitNode_post r.1 _ _ _).bind fun t4 h4 => h13.trans (Same.grows h4)

theorem insertOrAssign_grows (hash : K → Nat) (t : Table 1 K V) (x : K) (v : V) :
    Post (fun r => Grows t r.1) (t.insertOrAssign hash x v) := by
  unfold insertOrAssign
  refine (maybeResize_grows t).bind fun t1 h1 => (maybeRehash_grows t1).bind fun t2 h2 => (findNode_post hash t2 0 x).bind fun f _ => ?_
  have h12 := h1.trans h2
  obtain ⟨i, r⟩ := f
  cases i with
  | none =>
    refine (pushNode_post t2 _ v).bind fun r h3 => ?_
    exact (commitNode_post r.1 _ _ _).bind fun t4 h4 => h12.trans ((Same.grows h3).trans (Same.grows h4))
  | some i => exact (readNode_post t2 i).bind fun n _ => h12.trans ⟨Nat.le_refl _, Nat.le_refl _⟩

theorem assignStep_grows (hash : K → Nat) (hk : k = 1) (t : Table k K V) (x : K) (v : V) :
    Post (fun r => Grows t r.1) (assignStep hash hk t x v) := by
  subst hk
  exact insertOrAssign_grows hash t x v

theorem reserve_grows (t : Table k K V) (n : Nat) : Post (Grows t) (t.reserve n) := by
  unfold reserve
  refine Post.bind (P := Grows t) ?_ fun t1 h1 => (rehash_grows t1 _).mono fun _ h => h1.trans h
  split
  · exact (resizeData_post t n).mono fun t' h => ⟨by omega, by omega⟩
  · exact Grows.refl t

theorem insertRange_grows (hash : K → Nat) (t : Table k K V) (ra : Bool) (xs : List (Elem k K V)) :
    Post (Grows t) (t.insertRange hash ra xs) := by
  unfold insertRange
  refine Post.bind (P := Grows t) ?_ fun t1 h1 => Post.foldlM (P := Grows t) (fun t2 x h2 => ?_) xs h1
  rotate_left
  · exact (insert_grows hash t2 x.1 x.2).bind fun r h => h2.trans h
  cases ra
  · exact Grows.refl t
  · exact reserve_grows t _

theorem clear_same (t : Table k K V) : Post (Same t) t.clear := (clearData_post _).mono fun _ h => h

end Table

/-- Operations that neither insert nor ask for room. -/
def Op.quiet {k : Nat} {K V : Type} : Op k K V → Bool
  | .erase .. | .eraseAt .. | .eraseRange .. | .clear | .setLoad .. | .find .. | .contains .. | .size | .iterate => true
  | _ => false

/-- C116 for dense containers: no operation shrinks the array of elements or lowers the bucket count, not even `rehash(0)`. -/
theorem C116_dense (hash : K → Nat) {t t' : Table k K V} {op : Op k K V} {o : Out k K V} (hs : t.step hash op = .ok (t', o)) :
    t.cap ≤ t'.cap ∧ t.bc ≤ t'.bc := by
  have h : Post (fun r : Table k K V × Out k K V => Grows t r.1) (t.step hash op) := by
    cases op with
    | insert key v => exact (t.insert_grows hash key v).bind fun _ h => h
    | emplace key v => exact (t.emplace_grows hash key v).bind fun _ h => h
    | assign hk x v =>
      exact (Table.assignStep_grows hash hk t x v).bind fun _ h => h
    | erase j x => exact (t.erase_post hash j x).bind fun _ h => Same.grows h
    | eraseAt pos =>
      simp only [Table.step]
      split
      · exact (t.eraseAt_post pos).bind fun _ h => Same.grows h
      · exact Grows.refl t
    | eraseRange first n =>
      simp only [Table.step]
      split
      · exact (t.eraseRange_post _ _).bind fun _ h => Same.grows h
      · exact Grows.refl t
    | insertRange ra xs => exact (t.insertRange_grows hash ra xs).bind fun _ h => h
    | assignRange ra xs =>
      refine Post.bind (P := Grows t) ?_ fun _ h => h
      exact t.clear_same.bind fun t1 h1 => (t1.insertRange_grows hash ra xs).mono fun _ h => (Same.grows h1).trans h
    | clear => exact t.clear_same.bind fun _ h => Same.grows h
    | reserve n => exact (t.reserve_grows n).bind fun _ h => h
    | rehash n => exact (t.rehash_grows n).bind fun _ h => h
    | setLoad lf => exact Grows.refl t
    | find j x => exact (t.lookup_post hash j x).bind fun _ _ => Grows.refl t
    | contains j x => exact (t.contains_post hash j x).bind fun _ _ => Grows.refl t
    | size => exact Grows.refl t
    | iterate => exact t.iterate_post.bind fun _ _ => Grows.refl t
  rw [hs] at h
  exact h

/-- C116 for dense containers: erasures, `clear` and lookups keep the arrays. -/
theorem C116_dense_quiet (hash : K → Nat) {t t' : Table k K V} {op : Op k K V} {o : Out k K V} (hop : op.quiet = true)
    (hs : t.step hash op = .ok (t', o)) : t'.cap = t.cap ∧ t'.bc = t.bc := by
  have h : Post (fun r : Table k K V × Out k K V => Same t r.1) (t.step hash op) := by
    cases op <;> simp only [Op.quiet] at hop <;> try (simp at hop; done)
    case erase j x => exact (t.erase_post hash j x).bind fun _ h => h
    case eraseAt pos =>
      simp only [Table.step]
      split
      · exact (t.eraseAt_post pos).bind fun _ h => h
      · exact Same.refl t
    case eraseRange first n =>
      simp only [Table.step]
      split
      · exact (t.eraseRange_post _ _).bind fun _ h => h
      · exact Same.refl t
    case clear => exact t.clear_same.bind fun _ h => h
    case setLoad lf => exact Same.refl t
    case find j x => exact (t.lookup_post hash j x).bind fun _ _ => Same.refl t
    case contains j x => exact (t.contains_post hash j x).bind fun _ _ => Same.refl t
    case size => exact Same.refl t
    case iterate => exact t.iterate_post.bind fun _ _ => Same.refl t
  rw [hs] at h
  exact h

/-- C116 for dense containers: nor does any history. -/
theorem C116_dense_run (hash : K → Nat) (ops : List (Op k K V)) : ∀ {t t' : Table k K V} {os : List (Out k K V)},
    t.run hash ops = .ok (t', os) → t.cap ≤ t'.cap ∧ t.bc ≤ t'.bc := by
  induction ops with
  | nil =>
    intro t t' os h
    cases h
    exact ⟨Nat.le_refl _, Nat.le_refl _⟩
  | cons op ops ih =>
    intro t t' os h
    simp only [Table.run] at h
    obtain ⟨⟨u, o⟩, h1, h2⟩ := bind_eq_ok h
    obtain ⟨⟨w, os'⟩, h3, h4⟩ := bind_eq_ok h2
    cases h4
    exact Grows.trans (C116_dense hash h1) (ih h3)

/-- The sizes of the arrays after `ops`. -/
def arraysAfter (ops : List (Op 1 Nat Nat)) : Option (Nat × Nat × Nat) :=
  match (Table.init LF.initial : Table 1 Nat Nat).run (fun x => x) ops with
  | .ok (t, _) => some (t.cap, t.bc, t.size)
  | .error _ => none

/-- Twenty insertions leave room for 32 elements and 32 buckets; `clear`, `rehash(0)`, `reserve(1)` and the assignment of one element keep
both. -/
example : arraysAfter ((List.range 20).map fun i => .insert (fun _ => i) i) = some (32, 32, 20) ∧
    arraysAfter ((List.range 20).map (fun i => .insert (fun _ => i) i) ++ [.clear, .rehash 0, .reserve 1, .assignRange true [(fun _ => 7, 7)]]) =
      some (32, 32, 1) ∧
    arraysAfter ((List.range 20).map (fun i => .insert (fun _ => i) i) ++ [.reserve 40]) = some (40, 45, 20) := by
  decide +kernel

end Tpp.Dense
