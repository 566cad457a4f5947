import Verif.Dense.Iter
import Verif.Ordered.Access
import Verif.Props.Dense
import Verif.Props.DenseAccess
import Verif.Props.OrderedSwiss

/-!
# C88: arithmetic and comparison of iterators
-/

set_option linter.unusedSectionVars false

namespace Tpp.Dense

variable {k : Nat} {K V : Type} [DecidableEq K]

/-- C88 for unordered dense containers: for every container of `size` elements, wherever its array is, `begin() + n` is `n` increments
away from `begin()` and designates the `n`-th element; `end()` is `begin() + size`; the difference of two iterators is the difference
of their positions, and they compare like these; `front()` and `back()` are the first and the last element. -/
theorem C88_dense_random_access {hash : K → Nat} {t : Table k K V} (h : Reachable hash t) {l : List (Elem k K V)} (hl : t.iterate = .ok l)
    {sz : Int} (hsz : 0 < sz) (base : Int) :
    (∀ n : Nat, (fun a => iterAdd sz a 1)^[n] base = iterAdd sz base n) ∧
    t.iterEnd sz base = iterAdd sz base l.length ∧
    (∀ n (hn : n < l.length), t.iterDeref sz base (iterAdd sz base n) = .ok l[n]) ∧
    (∀ m n : Nat, (iterLt (iterAdd sz base m) (iterAdd sz base n) = true ↔ m < n) ∧
      (iterAdd sz base m = iterAdd sz base n ↔ m = n) ∧
      iterDiff sz (iterAdd sz base n) (iterAdd sz base m) = (n : Int) - m ∧
      iterAdd sz (iterAdd sz base m) ((n : Int) - m) = iterAdd sz base n) ∧
    (∀ hne : l ≠ [], t.front sz base = .ok (l.head hne) ∧ t.back sz base = .ok (l.getLast hne)) := by
  have hi := h.of_iterate hl
  refine ⟨?_, ?_, ?_, ?_, ?_⟩
  · intro n
    induction n with
    | zero => simp [iterAdd]
    | succ n ih =>
      rw [Function.iterate_succ_apply', ih]
      unfold iterAdd
      rw [Int.natCast_succ, Int.mul_add]
      omega
  · unfold Table.iterEnd iterAdd
    rw [hi.size]
  · intro n hn
    exact iterDeref_ok hi hsz base hn
  · intro m n
    have hlt : ∀ x y : Int, sz * x < sz * y ↔ x < y := fun x y => Int.mul_lt_mul_left hsz
    refine ⟨?_, ?_, ?_, ?_⟩
    · unfold iterLt iterAdd
      rw [decide_eq_true_iff]
      have := hlt m n
      omega
    · unfold iterAdd
      have h1 := hlt m n
      have h2 := hlt n m
      constructor
      · intro e; omega
      · intro e; rw [e]
    · unfold iterDiff iterAdd
      rw [show base + sz * (n : Int) - (base + sz * (m : Int)) = sz * ((n : Int) - m) by rw [Int.mul_sub]; omega]
      exact Int.mul_ediv_cancel_left _ (by omega)
    · unfold iterAdd
      rw [Int.mul_sub]
      omega
  · intro hne
    have hpos : 0 < l.length := List.length_pos_iff.mpr hne
    constructor
    · have := iterDeref_ok hi hsz base hpos
      unfold Table.front
      rw [Int.natCast_zero, Int.mul_zero, Int.add_zero] at this
      rw [this, List.head_eq_getElem]
    · have := iterDeref_ok hi hsz base (n := l.length - 1) (by omega)
      unfold Table.back
      rw [hi.size, show ((l.length : Int) - 1) = ((l.length - 1 : Nat) : Int) by omega, this, List.getLast_eq_getElem]

/-- Nodes of 40 bytes at address 1000. -/
example : demo.iterDeref 40 1000 (iterAdd 40 1000 2) = .ok (el 4 44) ∧ iterAdd 40 1000 2 = 1080 ∧ demo.iterEnd 40 1000 = 1160 ∧
    iterDiff 40 (demo.iterEnd 40 1000) 1000 = 4 ∧ demo.back 40 1000 = .ok (el 7 70) := ⟨rfl, rfl, rfl, rfl, rfl⟩

end Tpp.Dense

namespace Tpp.ODense

open Tpp.Dense (Elem LF Table Inv swapRemove conflict idxOf elemOf iterLt)
open Tpp.Ordered

variable {k : Nat} {K V : Type} [DecidableEq K]

theorem addr_lt {sz : Int} (hsz : 0 < sz) (t : OTable k K V) (i j : Nat) : t.addr sz i < t.addr sz j ↔ i < j := by
  unfold OTable.addr
  have := Int.mul_lt_mul_left (a := sz) (b := (i : Int)) (c := j) hsz
  omega

theorem sorted_perm_range {o : List Nat} {n : Nat} (hp : o.Perm (List.range n)) (hs : o.Pairwise (· < ·)) : o = List.range n :=
  hp.eq_of_pairwise (fun a b _ _ h1 h2 => absurd h1 (by omega)) hs List.pairwise_lt_range

theorem seq_inj {E : Type} {l : List E} (hn : l.Nodup) {o : List Nat} (hp : o.Perm (List.range l.length)) (e : seq l o = l) :
    o = List.range l.length := by
  have hlt : ∀ i ∈ o, i < l.length := fun i hi => List.mem_range.mp (hp.mem_iff.mp hi)
  refine List.ext_getElem (by rw [hp.length_eq]) ?_
  intro n h1 h2
  rw [List.getElem_range]
  have h3 : n < l.length := by simpa using h2
  have := seq_getElem? hlt n
  rw [e, List.getElem?_eq_getElem h1, Option.bind_some, List.getElem?_eq_getElem h3,
    List.getElem?_eq_getElem (hlt _ (List.getElem_mem h1)), Option.some.injEq] at this
  exact ((List.Nodup.getElem_inj_iff hn).mp this).symm

/-- C88 for ordered dense containers: the iterators compare like their positions exactly if the array holds the elements in the order of
the sequence. -/
theorem C88_ordered_dense_iff {hash : K → Nat} {sz : Int} (hsz : 0 < sz) {A : Alloc} (hA : A.Sound sz) {w : World k K V}
    {s : Seqs k K V} (h : Reached hash sz A w s) {i : Nat} {t : OTable k K V} (ht : w.tab i = some t) {q : List (Elem k K V)}
    (hq : s i = some q) (hk : 0 < k) :
    (∀ m n a b, m < n → n < q.length → t.nth w.mem m = .ok a → t.nth w.mem n = .ok b → iterLt a b = true) ↔ t.core.iterate = .ok q := by
  obtain ⟨l, o, hr, rfl⟩ := h.holds hsz hA ht hq
  have hlen : (seq l o).length = o.length := seq_length hr.perm
  have hnd : l.Nodup := List.Nodup.of_map _ (hr.core.uniq ⟨0, hk⟩)
  rw [Dense.iterate_ok hr.core.toArr]
  constructor
  · intro g
    have hs : o.Pairwise (· < ·) := by
      rw [List.pairwise_iff_getElem]
      intro m n hm hn hmn
      have := g m n _ _ hmn (by omega) (nth_getElem hr hm) (nth_getElem hr hn)
      unfold iterLt at this
      rw [decide_eq_true_iff, addr_lt hsz] at this
      exact this
    rw [sorted_perm_range hr.perm hs, seq_range]
  · intro e m n a b hmn hn ha hb
    have e' := seq_inj hnd hr.perm (Except.ok.inj e).symm
    rw [nth_getElem hr (by omega)] at ha hb
    cases ha
    cases hb
    unfold iterLt
    rw [decide_eq_true_iff, addr_lt hsz]
    subst e'
    simpa using hmn

example : ((after (fill 0 5)).get 0).core.iterate = .ok [el 1 10, el 2 20, el 3 30, el 4 40, el 5 50] := rfl

/-- C88 is false for every ordered dense container with at least three elements in the order of the array: once the first element is
erased, the last one compares less than the first. -/
theorem C88_ordered_dense_false {hash : K → Nat} {sz : Int} (hsz : 0 < sz) {A : Alloc} (hA : A.Sound sz) {w : World k K V}
    {s : Seqs k K V} (h : Reached hash sz A w s) {i : Nat} {t : OTable k K V} (ht : w.tab i = some t) {q : List (Elem k K V)}
    (hq : s i = some q) (hk : 0 < k) (h3 : 3 ≤ q.length) (ho : t.core.iterate = .ok q) :
    ∃ x m' t' r a b, t.nth w.mem 0 = .ok x ∧ t.eraseIter sz w.mem x = .ok (m', t', r) ∧ t'.elements sz m' = .ok q.tail ∧
      t'.nth m' 0 = .ok a ∧ t'.nth m' (q.length - 2) = .ok b ∧ iterLt b a = true := by
  obtain ⟨l, o, hr, rfl⟩ := h.holds hsz hA ht hq
  have hlen : (seq l o).length = o.length := seq_length hr.perm
  have hnd : l.Nodup := List.Nodup.of_map _ (hr.core.uniq ⟨0, hk⟩)
  rw [Dense.iterate_ok hr.core.toArr] at ho
  have e' := seq_inj hnd hr.perm (Except.ok.inj ho).symm
  have hll : (seq l o).length = l.length := by rw [hlen, hr.length]
  rw [hll] at h3
  obtain ⟨n, hn⟩ : ∃ n, l.length = n + 3 := ⟨l.length - 3, by omega⟩
  have hsplit : o = [] ++ 0 :: (List.range' 1 (n + 2)) := by
    rw [e', hn, List.range_eq_range', List.range'_succ]
    rfl
  rw [hsplit] at hr
  obtain ⟨m', c, next, e1, _, hcap, _, he⟩ := eraseIter_ok hsz hr
  have hr' := he.rep
  have hlast : ((([] : List Nat) ++ List.range' 1 (n + 2)).map (ren (l.length - 1) 0)).length = n + 2 := by simp
  refine ⟨_, m', _, next, _, _, nth_getElem hr (by simp), by simpa using e1, ?_, nth_getElem hr' (by rw [hlast]; omega),
    nth_getElem hr' (n := (seq l o).length - 2) (by rw [hlast, hll]; omega), ?_⟩
  · have := (he.becomes hr hcap).holds.elements hsz
    rw [this]
    rw [hsplit, List.nil_append, seq_cons (by omega)]
    rfl
  · unfold iterLt
    rw [decide_eq_true_iff, addr_lt hsz]
    simp only [hll, hn]
    simp [ren]
    omega

example : (do
    let w := after (fill 0 5)
    let x ← (w.get 0).nth w.mem 0
    let r ← (w.get 0).eraseIter 24 w.mem x
    let a ← r.2.1.nth r.1 0
    let b ← r.2.1.nth r.1 3
    .ok (a - (w.get 0).base, b - (w.get 0).base) : M (Int × Int)) = .ok (24, 0) := rfl

/-- An allocator: below everything in use. -/
def below : Alloc := fun _ live n => live.foldl min 0 - 24 * n

theorem foldl_min_le : ∀ (l : List Int) (a : Int), l.foldl min a ≤ a ∧ ∀ x ∈ l, l.foldl min a ≤ x
  | [], a => ⟨Int.le_refl _, by simp⟩
  | b :: l, a => by
    obtain ⟨h1, h2⟩ := foldl_min_le l (min a b)
    rw [List.foldl_cons]
    refine ⟨by omega, ?_⟩
    intro x hx
    rcases List.mem_cons.mp hx with e | e
    · rw [e]; omega
    · exact h2 x e

theorem below_sound : below.Sound 24 := by
  intro c live n x hx hl
  obtain ⟨i, hi, e⟩ := mem_slots.mp hx
  have h1 := (foldl_min_le live 0).2 x hl
  unfold below at e
  omega

/-- C88 is false for `end()`, which is the address of the container itself: the same history leaves every iterator less than `end()` with
one allocator and greater with another. -/
theorem C88_ordered_dense_end_false : ∃ (os : List (WOp 1 Nat Nat)) (w1 w2 : World 1 Nat Nat) (t1 t2 : OTable 1 Nat Nat),
    bump.Sound 24 ∧ Reached h3 24 bump w1 (WSpec.run (fun _ => none) os).1 ∧ w1.tab 0 = some t1 ∧
    below.Sound 24 ∧ Reached h3 24 below w2 (WSpec.run (fun _ => none) os).1 ∧ w2.tab 0 = some t2 ∧
    ∃ q, (WSpec.run (fun _ => none) os).1 0 = some q ∧ q.length = 3 ∧
      (∀ n, n < q.length → ∃ a, t1.nth w1.mem n = .ok a ∧ iterLt t1.hd a = true) ∧
      (∀ n, n < q.length → ∃ a, t2.nth w2.mem n = .ok a ∧ iterLt a t2.hd = true) := by
  have key : ∀ A : Alloc, ∀ w outs, World.run h3 24 A ⟨mem0, fun _ => none⟩ (fill 0 3) = .ok (w, outs) →
      Reached h3 24 A w (WSpec.run (fun _ => none) (fill 0 3)).1 := fun A w outs e => ⟨mem0, _, outs, rfl, e, rfl⟩
  refine ⟨fill 0 3, _, _, _, _, bump_sound (by decide), key bump _ _ rfl, rfl, below_sound, key below _ _ rfl, rfl, _, rfl, rfl, ?_, ?_⟩
  · intro n hn
    match n, hn with
    | 0, _ => exact ⟨_, rfl, rfl⟩
    | 1, _ => exact ⟨_, rfl, rfl⟩
    | 2, _ => exact ⟨_, rfl, rfl⟩
  · intro n hn
    match n, hn with
    | 0, _ => exact ⟨_, rfl, rfl⟩
    | 1, _ => exact ⟨_, rfl, rfl⟩
    | 2, _ => exact ⟨_, rfl, rfl⟩

end Tpp.ODense

namespace Tpp.OSwiss

open Tpp.Swiss (Node Table Inv)
open Tpp.Ordered
open Tpp.Dense (iterLt)
open Tpp.ODense (bump bump_sound mem0)

variable {K V : Type} [DecidableEq K] {c : Cfg K}

theorem addr_lt {sz : Int} (hsz : 0 < sz) (t : OTable K V) (i j : Nat) : t.addr sz i < t.addr sz j ↔ i < j := by
  unfold OTable.addr
  have := Int.mul_lt_mul_left (a := sz) (b := (i : Int)) (c := j) hsz
  omega

/-- The occupied slots in the order of the array. -/
theorem seqOf_occupied (t : Table K V) : seqOf t.node ((List.range t.cap).filter fun i => (t.node i).isSome) = t.contents := by
  show _ = (collect t.node t.cap).map _
  unfold seqOf collect
  rw [List.map_filterMap, List.filterMap_filter]
  refine List.filterMap_congr ?_
  intro i _
  cases t.node i <;> rfl

/-- C88 for ordered sparse and stable containers: the iterators compare like their positions exactly if the slots of the array hold the
elements in the order of the sequence. -/
theorem C88_ordered_swiss_iff {c : Cfg K} (hsz : 0 < c.sz) (hA : c.A.Sound c.sz) {w : World K V} {s : Seqs K V} (h : Reached c w s)
    {i : Nat} {t : OTable K V} (ht : w.tab i = some t) {q : List (K × V)} (hq : s i = some q) :
    (∀ m n a b, m < n → n < q.length → t.nth w.mem m = .ok a → t.nth w.mem n = .ok b → iterLt a b = true) ↔ t.core.contents = q := by
  obtain ⟨o, hr, rfl⟩ := h.holds hsz hA ht hq
  have hsome : ∀ i ∈ o, (t.core.node i).isSome := hr.link.isSome
  have hlen : (seqOf t.core.node o).length = o.length := seqOf_length hsome
  constructor
  · intro g
    have hs : o.Pairwise (· < ·) := by
      rw [List.pairwise_iff_getElem]
      intro m n hm hn hmn
      have := g m n _ _ hmn (by omega) (nth_getElem hr hm) (nth_getElem hr hn)
      unfold iterLt at this
      rw [decide_eq_true_iff, addr_lt hsz] at this
      exact this
    have hp : o.Perm ((List.range t.core.cap).filter fun i => (t.core.node i).isSome) := by
      refine (List.perm_ext_iff_of_nodup hr.link.nodup (List.nodup_range.filter _)).mpr ?_
      intro i
      rw [hr.link.occ i, List.mem_filter, List.mem_range]
    rw [← seqOf_occupied t.core,
      hp.eq_of_pairwise (fun a b _ _ h1 h2 => absurd h1 (by omega)) hs (List.pairwise_lt_range.filter _)]
  · intro e m n a b hmn hn ha hb
    have e' : o = (List.range t.core.cap).filter fun i => (t.core.node i).isSome := by
      have hs' : ∀ i ∈ (List.range t.core.cap).filter (fun i => (t.core.node i).isSome), (t.core.node i).isSome :=
        fun i hi => (List.mem_filter.mp hi).2
      have hl := seqOf_length hs'
      rw [seqOf_occupied, e, hlen] at hl
      refine List.ext_getElem hl ?_
      intro x h1 h2
      have g1 := seqOf_getElem? hsome x
      have g2 := seqOf_getElem? hs' x
      rw [seqOf_occupied, e, g1, List.getElem?_eq_getElem h1, List.getElem?_eq_getElem h2, Option.bind_some, Option.bind_some] at g2
      have hm2 : ((List.range t.core.cap).filter fun i => (t.core.node i).isSome)[x] ∈ o := by
        have := List.getElem_mem h2
        rw [List.mem_filter, List.mem_range] at this
        exact (hr.link.occ _).mpr this
      obtain ⟨n1, q1⟩ := Option.isSome_iff_exists.mp (hsome _ (List.getElem_mem h1))
      obtain ⟨n2, q2⟩ := Option.isSome_iff_exists.mp (hsome _ hm2)
      rw [q1, q2, Option.map_some, Option.map_some, Option.some.injEq, Prod.mk.injEq] at g2
      exact hr.core.uniq _ (hr.link.lt (List.getElem_mem h1)) _ (hr.link.lt hm2) _ _ q1 q2 g2.1
    rw [nth_getElem hr (by omega)] at ha hb
    cases ha
    cases hb
    unfold iterLt
    rw [decide_eq_true_iff, addr_lt hsz]
    have hs : o.Pairwise (· < ·) := by
      rw [e']
      exact List.pairwise_lt_range.filter _
    exact List.pairwise_iff_getElem.mp hs m n (by omega) (by omega) hmn

example : fine c16 (fill 0 9) = true ∧ ((after c16 (fill 0 9)).get 0).core.contents = (List.range 9).map fun i => (i + 1, 10 * (i + 1)) := by
  decide +kernel

/-- Insert keys in descending order of their home positions. -/
def mixed : List (WOp Nat Nat) := .create 0 :: [9, 1, 5, 3].map fun n => .op 0 (.insert n (10 * n))

/-- C88 is false for ordered sparse and stable containers, with blocks of 16 and of 8 bytes, even if nothing is ever erased: the second
element may compare less than the first. -/
theorem C88_ordered_swiss_false : ∀ c ∈ [c16, c8], ∃ (w : World Nat Nat) (s : Seqs Nat Nat) (t : OTable Nat Nat) (q : List (Nat × Nat)) (a b : Int),
    c.A.Sound c.sz ∧ Reached c w s ∧ w.tab 0 = some t ∧ s 0 = some q ∧ q = [(9, 90), (1, 10), (5, 50), (3, 30)] ∧
    t.elements c.sz w.mem = .ok q ∧ t.nth w.mem 0 = .ok a ∧ t.nth w.mem 1 = .ok b ∧ iterLt b a = true := by
  have key : ∀ c ∈ [c16, c8], 0 < c.sz ∧ c.A.Sound c.sz ∧ fine c mixed = true ∧ ((after c mixed).tab 0).isSome ∧ (do
      let a ← ((after c mixed).get 0).nth (after c mixed).mem 0
      let b ← ((after c mixed).get 0).nth (after c mixed).mem 1
      .ok (iterLt b a) : M Bool).toOption = some true := by
    intro c hc
    rcases List.mem_cons.mp hc with rfl | hc
    · exact ⟨by decide, bump_sound (by decide), by decide +kernel, by decide +kernel, by decide +kernel⟩
    · rw [List.mem_singleton] at hc
      subst hc
      exact ⟨by decide, bump_sound (by decide), by decide +kernel, by decide +kernel, by decide +kernel⟩
  intro c hc
  obtain ⟨hsz, hA, hf, ht, hlt⟩ := key c hc
  obtain ⟨t, ht⟩ := Option.isSome_iff_exists.mp ht
  have hr := after_reached hf
  have hq : (WSpec.run (fun _ => none) mixed).1 0 = some [(9, 90), (1, 10), (5, 50), (3, 30)] := by decide +kernel
  have hg : (after c mixed).get 0 = t := by
    unfold World.get
    rw [ht]
    rfl
  rw [hg] at hlt
  have hh := hr.holds hsz hA ht hq
  have hel := hh.elements hsz
  obtain ⟨o, ho, e⟩ := hh
  have hl : o.length = 4 := by
    rw [← seqOf_length ho.link.isSome, e]
    rfl
  have e0 := nth_getElem ho (n := 0) (by omega)
  have e1 := nth_getElem ho (n := 1) (by omega)
  rw [e0, bind_ok, e1, bind_ok] at hlt
  exact ⟨_, _, t, _, _, _, hA, hr, ht, hq, rfl, hel, e0, e1, Option.some.inj hlt⟩

end Tpp.OSwiss
