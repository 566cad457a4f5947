import Verif.Ordered.SwissThrow
import Verif.Props.OrderedSwiss
import Verif.Props.OrderedThrow

/-!
# C86: ordered sparse and stable containers after an exception

`Reached c w s` as in `Verif.Props.OrderedSwiss`; here a call that ends in an exception is made on a container of a reached world.
-/

set_option linter.unusedSectionVars false

namespace Tpp.OSwiss

open Tpp.Swiss (Node Ev Table Inv NoTomb AllocP Raw)
open Tpp.Ordered
open Tpp.ODense (bump bump_sound mem0 walk_reads)

variable {K V : Type} [DecidableEq K] {c : Cfg K}

theorem OTable.run_le (c : Cfg K) : ∀ (ops : List (Op K V)) (m : Mem) (t : OTable K V), Le (t.run c.stop m ops) (t.run c m ops)
  | [], _, _ => Le.refl _
  | o :: ops, m, t => (OTable.step_le c m t o).bind fun r => (run_le c ops r.1 r.2.1).bind fun _ => Le.refl _

/-- All that can be observed of the container from now on, until two linked nodes are exchanged (C52), is what a list `s` of elements
would answer. -/
structure Works (c : Cfg K) (m : Mem) (t : OTable K V) (s : List (K × V)) : Prop where
  elements : t.elements c.sz m = .ok s
  size : t.core.size = s.length
  run : ∀ ops, t.run c.stop m ops = .error .rawSwap ∨
    ∃ m' t', t.run c m ops = .ok (m', t', (Spec.run s ops).2) ∧ t'.elements c.sz m' = .ok (Spec.run s ops).1
  destroy : ∃ m', t.destroy c m = .ok m' ∧ ∀ x ∈ t.foot c.sz, x ∉ m'.live

theorem Holds.size {m : Mem} {t : OTable K V} {s : List (K × V)} (h : Holds c m t s) : t.core.size = s.length := by
  obtain ⟨o, h, rfl⟩ := h
  rw [seqOf_length h.link.isSome, h.length]

theorem run_stop (hsz : 0 < c.sz) (hA : c.A.Sound c.sz) (hst : c.strict = true) : ∀ (ops : List (Op K V)) {m : Mem} {t : OTable K V}
    {s : List (K × V)}, Holds c m t s → Okay True (t.run c m ops) (fun r => r.2.2 = (Spec.run s ops).2 ∧ Holds c r.1 r.2.1 (Spec.run s ops).1)
  | [], m, t, s, h => Okay.ok ⟨rfl, h⟩
  | o :: ops, m, t, s, h => by
    simp only [OTable.run, Spec.run]
    refine Okay.bind (step_ok hsz hA hst h o (b := True) (Or.inl trivial)) id ?_
    rintro r ⟨h1, h2, _⟩
    refine Okay.bind (run_stop hsz hA hst ops h2.holds) id ?_
    rintro r' ⟨h3, h4⟩
    exact Okay.ok ⟨by rw [h1, h3], h4⟩

theorem Holds.works (hsz : 0 < c.sz) (hA : c.A.Sound c.sz) {m : Mem} {t : OTable K V} {s : List (K × V)} (h : Holds c m t s) :
    Works c m t s where
  elements := h.elements hsz
  size := h.size
  run := by
    intro ops
    rcases run_stop (c := c.stop) hsz hA rfl ops h.restop with ⟨_, e⟩ | ⟨r, e, h1, h2⟩
    · exact Or.inl e
    · exact Or.inr ⟨r.1, r.2.1, by rw [(OTable.run_le c ops m t).ok e, ← h1], h2.unstop.elements hsz⟩
  destroy := by
    obtain ⟨o, h, _⟩ := h
    obtain ⟨m', e, _, hx⟩ := destroy_ok h
    exact ⟨m', e, hx⟩

/-- The other containers still work. -/
def Others (c : Cfg K) (w : World K V) (s : Seqs K V) (P : Nat → Prop) (m' : Mem) : Prop :=
  ∀ j u p, ¬ P j → w.tab j = some u → s j = some p → Works c m' u p

variable {w : World K V} {s : Seqs K V}

theorem Reached.others (hsz : 0 < c.sz) (hA : c.A.Sound c.sz) (h : Reached c w s) {P : Nat → Prop} {m' : Mem} {F F' : List Int}
    (hf : Frame w.mem m' F F') (hF : ∀ j u, ¬ P j → w.tab j = some u → ∀ x ∈ u.foot c.sz, x ∉ F) : Others c w s P m' := by
  intro j u p hj hu hp
  obtain ⟨o, hr, rfl⟩ := h.holds hsz hA hu hp
  exact Holds.works hsz hA ⟨o, hr.frame hf (hF j u hj hu), rfl⟩

theorem Reached.others1 (hsz : 0 < c.sz) (hA : c.A.Sound c.sz) (h : Reached c w s) {i : Nat} {t : OTable K V} (ht : w.tab i = some t)
    {m' : Mem} {F' : List Int} (hf : Frame w.mem m' (t.foot c.sz) F') : Others c w s (· = i) m' :=
  h.others hsz hA hf (fun j u hj hu x hx q => (h.inv hsz hA).apart i j t u (fun e => hj e.symm) ht hu x q hx)

/-- A container in which an element was erased, and another one. -/
def exOps : List (WOp Nat Nat) := fill 0 5 ++ [.op 0 (.erase 2)] ++ fill 1 3

def ex : World Nat Nat := after c16 exOps

theorem ex_reached : Reached c16 ex (WSpec.run (fun _ => none) exOps).1 := after_reached (by set_option maxRecDepth 100000 in decide +kernel)

/-! ## Hash function, comparison, predicate -/

/-- C86, `insert`, `try_emplace` and `insert_or_assign`, with or without a hint: there is a number of calls of the hash function and
the comparison, one at least, that the operation makes before it changes anything.  If one of them throws, the container holds its old
sequence and works, otherwise the call is the ordinary one. -/
theorem C86_insert_call (hsz : 0 < c.sz) (hA : c.A.Sound c.sz) (h : Reached c w s) {i : Nat} {t : OTable K V} (ht : w.tab i = some t)
    {q : List (K × V)} (hq : s i = some q) (k : K) (v : V) (hint : Option Int) :
    ∃ N N', ∀ b,
      (b < N + 1 → ∃ t', t.insertCall c b w.mem k v hint = .ok (w.mem, t', none) ∧ Works c w.mem t' q) ∧
      (N + 1 ≤ b → t.insertCall c b w.mem k v hint =
        (t.insert c w.mem k v hint).map fun r => (r.1, r.2.1, some (r.2.2.1, r.2.2.2, b - (N + 1)))) ∧
      (b < N' + 1 → ∃ t', t.assignCall c b w.mem k v hint = .ok (w.mem, t', none) ∧ Works c w.mem t' q) ∧
      (N' + 1 ≤ b → t.assignCall c b w.mem k v hint =
        (t.assign c w.mem k v hint).map fun r => (r.1, r.2.1, some (r.2.2.1, r.2.2.2, b - (N' + 1)))) := by
  obtain ⟨o, hr, rfl⟩ := h.holds hsz hA ht hq
  obtain ⟨N, hN⟩ := insertCall_costs c w.mem t k v hint
  obtain ⟨N', hN'⟩ := assignCall_costs c w.mem t k v hint
  have hw : Works c w.mem ({ t with core := fresh t.core } : OTable K V) (seqOf t.core.node o) := Holds.works hsz hA ⟨o, hr.fresh, rfl⟩
  refine ⟨N, N', fun b => ⟨fun hb => ⟨_, ?_, hw⟩, fun hb => ?_, fun hb => ⟨_, ?_, hw⟩, fun hb => ?_⟩⟩
  · rw [hN, if_pos hb]
  · rw [hN, if_neg (by omega)]
  · rw [hN', if_pos hb]
  · rw [hN', if_neg (by omega)]

set_option maxRecDepth 100000 in
/-- Assignment to a key that is present. -/
example : ((List.range 3).map fun b => (((ex.get 0).assignCall c16 b ex.mem 3 1).toOption.map fun r =>
      (r.2.2.isNone, (r.2.1.elements 24 r.1).toOption))) =
    [some (true, some [(1, 10), (3, 30), (4, 40), (5, 50)]), some (true, some [(1, 10), (3, 30), (4, 40), (5, 50)]),
     some (false, some [(1, 10), (3, 1), (4, 40), (5, 50)])] := by decide +kernel

set_option maxRecDepth 100000 in
/-- Key 33 has the tag of other keys, with which it is compared. -/
example : ([5, 9].map fun b => (((ex.get 0).insertCall c16 b ex.mem 33 1).toOption.map fun r =>
      (r.2.2.isNone, (r.2.1.elements 24 r.1).toOption))) =
    [some (true, some [(1, 10), (3, 30), (4, 40), (5, 50)]), some (false, some [(1, 10), (3, 30), (4, 40), (5, 50), (33, 1)])] := by
  decide +kernel

/-- C86, `erase(key)` and `extract(key)`. -/
theorem C86_erase_call (hsz : 0 < c.sz) (hA : c.A.Sound c.sz) (h : Reached c w s) {i : Nat} {t : OTable K V} (ht : w.tab i = some t)
    {q : List (K × V)} (hq : s i = some q) (k : K) :
    Works c w.mem t q ∧ ∃ N N', ∀ b,
      (b < N + 1 → t.eraseCall c b w.mem k = .ok (w.mem, t, none)) ∧
      (N + 1 ≤ b → t.eraseCall c b w.mem k = (t.erase c w.mem k).map fun r => (r.1, r.2.1, some (r.2.2, b - (N + 1)))) ∧
      (b < N' + 1 → t.extractCall c b w.mem k = .ok (w.mem, t, none)) ∧
      (N' + 1 ≤ b → t.extractCall c b w.mem k = (t.extract c w.mem k).map fun r => (r.1, r.2.1, some (r.2.2, b - (N' + 1)))) := by
  obtain ⟨N, hN⟩ := eraseCall_costs c w.mem t k
  obtain ⟨N', hN'⟩ := extractCall_costs c w.mem t k
  refine ⟨(h.holds hsz hA ht hq).works hsz hA, N, N', fun b => ⟨fun hb => ?_, fun hb => ?_, fun hb => ?_, fun hb => ?_⟩⟩
  · rw [hN, if_pos hb]
  · rw [hN, if_neg (by omega)]
  · rw [hN', if_pos hb]
  · rw [hN', if_neg (by omega)]

set_option maxRecDepth 100000 in
example : ((List.range 3).map fun b => (((ex.get 0).eraseCall c16 b ex.mem 3).toOption.map fun r => (r.2.2, (r.2.1.elements 24 r.1).toOption))) =
    [some (none, some [(1, 10), (3, 30), (4, 40), (5, 50)]), some (none, some [(1, 10), (3, 30), (4, 40), (5, 50)]),
     some (some (124, 0), some [(1, 10), (4, 40), (5, 50)])] := by decide +kernel

/-- C86, `erase_if` whose predicate returns `b` times and throws if it is called again: the first `b` elements of the sequence have been
dealt with, the others are there. -/
theorem C86_erase_if (hsz : 0 < c.sz) (hA : c.A.Sound c.sz) (h : Reached c w s) {i : Nat} {t : OTable K V} (ht : w.tab i = some t)
    {q : List (K × V)} (hq : s i = some q) (p : K × V → Bool) (b : Nat) :
    ∃ a m' t', t.first w.mem = .ok a ∧ t.eraseIfCall c p (q.length + 1) b w.mem a 0 =
        .ok (m', t', if b < q.length then none else some (q.filter p).length) ∧
      Works c m' t' ((q.take b).filter (fun e => !p e) ++ q.drop b) ∧ Others c w s (· = i) m' := by
  obtain ⟨o, hr, rfl⟩ := h.holds hsz hA ht hq
  have hlen : (seqOf t.core.node o).length = o.length := seqOf_length hr.link.isSome
  obtain ⟨m', t', e, hb⟩ := eraseIfCall_ok (o1 := []) (o2 := o) hsz p (o.length + 1) b 0 hr (by omega)
  refine ⟨_, m', t', first_ok hr, ?_, ?_, h.others1 hsz hA ht hb.frame⟩
  · rw [hlen, e, Nat.zero_add]
  · have := hb.holds
    simp only [seqOf, List.filterMap_nil, List.nil_append] at this
    exact this.works hsz hA

set_option maxRecDepth 100000 in
/-- The third call throws. -/
example : (((ex.get 0).eraseIfCall c16 (fun e => e.1 ≠ 3) 5 2 ex.mem 52 0).toOption.map fun r => (r.2.2, (r.2.1.elements 24 r.1).toOption)) =
    some (none, some [(3, 30), (4, 40), (5, 50)]) := by decide +kernel

/-- C86, insertion of a range (from random access iterators or not): if the hash function or the comparison throws, a proper prefix of
the range has been inserted and the container works.  Missing: containers whose linked nodes were exchanged during the call. -/
theorem C86_insert_range_partial (hsz : 0 < c.sz) (hA : c.A.Sound c.sz) (h : Reached c w s) {i : Nat} {t : OTable K V} (ht : w.tab i = some t)
    {q : List (K × V)} (hq : s i = some q) (ra : Bool) (xs : List (K × V)) (b : Nat) :
    t.insertRangeCall c.stop b w.mem ra xs = .error .rawSwap ∨
    ∃ m' t' r j, t.insertRangeCall c b w.mem ra xs = .ok (m', t', r) ∧ (r = none → j < xs.length) ∧ (r ≠ none → j = xs.length) ∧
      Works c m' t' ((xs.take j).foldl (fun l x => (Spec.insert l x.1 x.2).1) q) ∧ Others c w s (· = i) m' := by
  obtain ⟨o, hr, rfl⟩ := (h.holds hsz hA ht hq).restop
  rcases insertRangeCall_ok (c := c.stop) hsz hA rfl hr ra xs b (g := True) (Or.inl trivial) with ⟨_, e⟩ | ⟨r, e, j, j1, j2, j3⟩
  · exact Or.inl e
  · exact Or.inr ⟨r.1, r.2.1, r.2.2, j, (OTable.insertRangeCall_le c b w.mem t ra xs).ok e, j1, j2, j3.holds.unstop.works hsz hA,
      h.others1 hsz hA ht j3.frame⟩

set_option maxRecDepth 100000 in
/-- The first of three elements is inserted, the second is there, the comparison throws for the third. -/
example : ((((ex.get 0).insertRangeCall c16 8 ex.mem true [(7, 1), (3, 2), (8, 3)]).toOption.map fun r =>
    (r.2.2, (r.2.1.elements 24 r.1).toOption))) = some (none, some [(1, 10), (3, 30), (4, 40), (5, 50), (7, 1)]) := by decide +kernel

/-! ## Constructor of a new element -/

/-- C86, the constructor of a new element throws: the container has made room for it, but holds its old sequence and works.  Missing:
containers whose linked nodes were exchanged when room was made. -/
theorem C86_insert_throw_partial (hsz : 0 < c.sz) (hA : c.A.Sound c.sz) (h : Reached c w s) {i : Nat} {t : OTable K V} (ht : w.tab i = some t)
    {q : List (K × V)} (hq : s i = some q) (k : K) :
    t.insertThrow c.stop w.mem k = .error .rawSwap ∨
    ∃ m' t', t.insertThrow c w.mem k = .ok (m', t', (Spec.find q k).isNone) ∧ Works c m' t' q ∧ Others c w s (· = i) m' := by
  obtain ⟨o, hr, rfl⟩ := (h.holds hsz hA ht hq).restop
  rcases insertThrow_ok (c := c.stop) hsz hA rfl hr (g := True) (k := k) (fun _ => Or.inl trivial) with ⟨_, e⟩ | ⟨r, e, j1, j2⟩
  · exact Or.inl e
  · exact Or.inr ⟨r.1, r.2.1, by rw [(OTable.insertThrow_le c w.mem t k).ok e, ← j1], j2.holds.unstop.works hsz hA,
      h.others1 hsz hA ht j2.frame⟩

set_option maxRecDepth 100000 in
example : (((ex.get 0).insertThrow c16 ex.mem 7).toOption.map fun r => (r.2.2, (r.2.1.elements 24 r.1).toOption)) =
    some (true, some [(1, 10), (3, 30), (4, 40), (5, 50)]) := by decide +kernel

/-! ## Relocation -/

theorem elemAt_dead {sz : Int} (hsz : 0 < sz) {t : OTable K V} {i : Nat} (hi : i < t.core.cap) (hn : t.core.node i = none) :
    t.elemAt sz (t.addr sz i) = .error .deadRead := by
  unfold OTable.elemAt
  rw [slotOf_ok hsz hi]
  simp only [Table.readNode, hi, if_true, hn]
  rfl

/-- Iterating over a ring that has a node without an element does not end well. -/
theorem elements_dead {sz : Int} {m : Mem} {t : OTable K V} {r : List Int} (h : Ring m t.hd r) {x : Int} (hx : x ∈ r)
    (hd : t.elemAt sz x = .error .deadRead) : ∀ y, t.elements sz m ≠ .ok y := by
  intro y hy
  unfold OTable.elements OTable.first at hy
  rw [Mem.nextOf_ok (h.live _ (by simp)), bind_ok] at hy
  have hpl := (Ring.place (l := []) h).1
  rw [show m.nxt t.hd = r.headD t.hd from hpl] at hy
  obtain ⟨e, he⟩ := walk_reads (pre := []) h hy x hx
  rw [hd] at he
  cases he

theorem nth_ring {m : Mem} {t : OTable K V} {o1 o2 : List Nat} {j : Nat} {f : Nat → Int} (h : Ring m t.hd ((o1 ++ j :: o2).map f)) {p : Nat}
    (hl : o1.length = p) {a : Int} (ha : f j = a) : t.nth m p = .ok a := by
  have hadv := advance_ok (l := []) (n := p) h (by rw [List.length_map, List.length_append, hl]; omega)
  have hdrop : ((o1 ++ j :: o2).map f).drop p = a :: o2.map f := by
    rw [List.map_append, List.drop_left' (by rw [List.length_map, hl]), List.map_cons, ha]
  rw [hdrop, List.headD_cons] at hadv
  unfold OTable.nth OTable.first
  rw [Mem.nextOf_ok (h.live _ (by simp)), bind_ok, show m.nxt t.hd = _ from (Ring.place (l := []) h).1]
  exact hadv

/-- C86 is false if the relocation of an element throws while `reserve`, `rehash` or an insertion allocates a new array of `n` slots,
all containers, whichever element throws: the container still counts all its elements, but at the place of this one iteration meets a
node that holds no element.  (The unordered containers lose the element and those after it, C70, but can be iterated.) -/
theorem C86_growth_false (hsz : 0 < c.sz) (hA : c.A.Sound c.sz) (h : Reached c w s) {i : Nat} {t : OTable K V} (ht : w.tab i = some t)
    {q : List (K × V)} (hq : s i = some q) {n k : Nat} (hn : n + 1 = 2 ^ k) (hfit : q.length ≤ maxSize c.isa n) {p : Nat}
    (hp : p < q.length) :
    ∃ a slot m' t' a', t.nth w.mem p = .ok a ∧ t.slotOf c.sz a = some slot ∧ t.growThrow c w.mem n slot = .ok (some (m', t')) ∧
      t'.core.size = q.length ∧ t'.nth m' p = .ok a' ∧ t'.elemAt c.sz a' = .error .deadRead ∧ (∀ y, t'.elements c.sz m' ≠ .ok y) ∧
      Others c w s (· = i) m' := by
  have hh := h.holds hsz hA ht hq
  have hsize := hh.size
  obtain ⟨o, hr, rfl⟩ := hh
  obtain ⟨o1, j, o2, rfl, hl, hj, _, _⟩ := split_at hr (n := p) (by omega)
  obtain ⟨m', x, b, d, e, hcap, hs, hd, hdead, hring, hdn, hf⟩ := growThrow_ok hsz hA hr hn (by omega) hj
  have hnth := nth_split hr
  rw [hl, List.map_cons, List.headD_cons] at hnth
  have hel : OTable.elemAt c.sz ({ t with core := x, base := b } : OTable K V) (b + c.sz * (d j : Int)) = .error .deadRead :=
    elemAt_dead (t := ({ t with core := x, base := b } : OTable K V)) hsz (show d j < x.cap by omega) hdead
  have hmem : b + c.sz * (d j : Int) ∈ (o1 ++ j :: o2).map (fun i => if i ≤ j then b + c.sz * (d i : Int) else t.addr c.sz i) :=
    List.mem_map.mpr ⟨j, hj, by rw [if_pos (Nat.le_refl _)]⟩
  refine ⟨_, j, m', _, b + c.sz * (d j : Int), hnth, slotOf_ok hsz (hr.link.lt hj), e, by simp only; omega, ?_, hel,
    elements_dead (t := ({ t with core := x, base := b } : OTable K V)) hring hmem hel, h.others1 hsz hA ht hf⟩
  exact nth_ring (t := ({ t with core := x, base := b } : OTable K V)) hring hl (by simp)

/-- Growth to 31 slots, the element at position 2 throws. -/
example : ∃ a slot m' t' a', (ex.get 0).nth ex.mem 2 = .ok a ∧ (ex.get 0).slotOf 24 a = some slot ∧
    (ex.get 0).growThrow c16 ex.mem 31 slot = .ok (some (m', t')) ∧ t'.core.size = 4 ∧ t'.nth m' 2 = .ok a' ∧
    t'.elemAt 24 a' = .error .deadRead := by
  obtain ⟨a, slot, m', t', a', h1, h2, h3, h4, h5, h6, _⟩ := C86_growth_false (by decide) (bump_sound (by decide)) ex_reached (i := 0)
    (t := ex.get 0) (q := [(1, 10), (3, 30), (4, 40), (5, 50)]) (by rfl) (by rfl) (n := 31) (k := 5) (by decide) (by decide) (p := 2) (by decide)
  exact ⟨a, slot, m', t', a', h1, h2, h3, h4, h5, h6⟩

/-! ## Assignments -/

/-- C86 is false for copy assignment, whichever element throws: the target counts no elements, but its first element is looked for as
far behind the target as the first element of the source is behind the source.  This is no node of the target, except by accident.
`clear` does not rescue the target, as it does nothing if the size is 0 (the dense containers are rescued, C82).  The source and all
other containers are untouched. -/
theorem C86_copy_assign_false (hsz : 0 < c.sz) (hA : c.A.Sound c.sz) (h : Reached c w s) {i j : Nat} (hij : i ≠ j) {t u : OTable K V}
    (ht : w.tab i = some t) (hu : w.tab j = some u) {q : List (K × V)} (hq : s j = some q) {p : Nat} (hp : p < q.length) (al : AllocP) :
    ∃ x slot m' t' a, u.nth w.mem p = .ok x ∧ u.slotOf c.sz x = some slot ∧ t.copyAssignThrow c al w.mem u slot = .ok (some (m', t')) ∧
      t'.core.size = 0 ∧ u.first w.mem = .ok a ∧ t'.first m' = .ok (t.hd + (a - u.hd)) ∧ t.hd + (a - u.hd) ≠ t'.hd ∧
      (t.hd + (a - u.hd) ∉ slots c.sz t'.base t'.core.cap → t'.elements c.sz m' = .error .dangling) ∧
      t'.clear c m' = .ok (m', t') ∧ Others c w s (· = i) m' := by
  have ha := (h.inv hsz hA).apart j i u t hij.symm hu ht
  have hh := h.holds hsz hA hu hq
  have hsize := hh.size
  obtain ⟨o, hr, rfl⟩ := hh
  obtain ⟨q', hq', o', hr', rfl⟩ := (h.inv hsz hA).holds i t ht
  obtain ⟨o1, z, o2, ho, hl, hj, _, _⟩ := split_at hr (n := p) (by omega)
  have hnth : u.nth w.mem p = .ok (u.addr c.sz z) := by
    subst ho
    have := nth_split hr
    rw [hl, List.map_cons, List.headD_cons] at this
    exact this
  obtain ⟨m', x, b, e, hs, hcap, _, hlk, hlv, hsl, hdn, hf⟩ := copyAssignThrow_ok hsz hA al hr' hr ha hj
  have hfu := first_ok hr
  obtain ⟨y, o3, hy⟩ : ∃ y o', o = y :: o' := List.exists_cons_of_ne_nil (fun g => by rw [g] at hj; cases hj)
  rw [hy] at hfu
  simp only [List.map_cons, List.headD_cons] at hfu
  have hyo : y ∈ o := by rw [hy]; simp
  have hlu : (w.mem.link u.hd).next = u.addr c.sz y - u.hd := by
    unfold OTable.first at hfu
    rw [Mem.nextOf_ok hr.hd_live] at hfu
    have := Except.ok.inj hfu
    unfold Mem.nxt at this
    omega
  have hft : OTable.first m' ({ t with core := x, base := b } : OTable K V) = .ok (t.hd + (u.addr c.sz y - u.hd)) := by
    unfold OTable.first
    simp only
    rw [Mem.nextOf_ok hlv]
    unfold Mem.nxt
    rw [hlk, hlu]
  have hne : t.hd + (u.addr c.sz y - u.hd) ≠ t.hd := by
    intro g
    refine hr.link.hdr ?_
    have : u.hd = u.addr c.sz y := by omega
    rw [this]
    exact hr.link.slot hyo
  refine ⟨_, z, m', _, u.addr c.sz y, hnth, slotOf_ok hsz (hr.link.lt hj), e, hs, hfu, hft, hne, ?_, ?_, h.others1 hsz hA ht hf⟩
  · intro g
    unfold OTable.elements
    rw [hft, bind_ok]
    unfold walk
    rw [if_neg hne]
    unfold OTable.elemAt
    have : OTable.slotOf c.sz ({ t with core := x, base := b } : OTable K V) (t.hd + (u.addr c.sz y - u.hd)) = none := by
      unfold OTable.slotOf
      rw [List.find?_eq_none]
      intro i hi hx
      rw [decide_eq_true_iff] at hx
      rw [← hx] at g
      exact g (mem_slots.mpr ⟨i, List.mem_range.mp hi, rfl⟩)
    rw [this]
    rfl
  · unfold OTable.clear
    simp [hs, Table.clear]

/-- The copy of the third element throws. -/
def exCopy : Option (Mem × OTable Nat Nat) := ((ex.get 1).copyAssignThrow c16 .std ex.mem (ex.get 0) 3).toOption.join

set_option maxRecDepth 100000 in
example : (exCopy.map fun r => (r.2.core.size, r.2.hd, (r.2.first r.1).toOption)) = some (0, 197, some 248) ∧
    (exCopy.map fun r => (match r.2.elements 24 r.1 with | .error .dangling => true | _ => false)) = some true ∧
    (exCopy.map fun r => ((ex.get 0).elements 24 r.1).toOption) = some (some [(1, 10), (3, 30), (4, 40), (5, 50)]) := by decide +kernel

/-- C86 is false for move assignment between unequal allocators that do not propagate, whichever element throws: the target counts no
elements, but begins with one and has at the place of the one that throws a node that holds none; the source yields nothing, though it counts all its elements. -/
theorem C86_move_assign_false (hsz : 0 < c.sz) (hA : c.A.Sound c.sz) (h : Reached c w s) {i j : Nat} (hij : i ≠ j) {t u : OTable K V}
    (ht : w.tab i = some t) (hu : w.tab j = some u) {q : List (K × V)} (hq : s j = some q) {p : Nat} (hp : p < q.length) :
    ∃ x slot m' t' u', u.nth w.mem p = .ok x ∧ u.slotOf c.sz x = some slot ∧
      t.moveAssignThrow c w.mem u slot = .ok (some (m', t', u')) ∧ t'.core.size = 0 ∧ (∃ a', t'.first m' = .ok a' ∧ a' ≠ t'.hd) ∧
      (∃ a', t'.nth m' p = .ok a' ∧ t'.elemAt c.sz a' = .error .deadRead) ∧ (∀ y, t'.elements c.sz m' ≠ .ok y) ∧
      u'.core.size = q.length ∧ u'.elements c.sz m' = .ok [] ∧ Others c w s (fun n => n = i ∨ n = j) m' := by
  have ha := (h.inv hsz hA).apart i j t u hij ht hu
  have hh := h.holds hsz hA hu hq
  have hsize := hh.size
  obtain ⟨o, hr, rfl⟩ := hh
  obtain ⟨q', hq', o', hr', rfl⟩ := (h.inv hsz hA).holds i t ht
  obtain ⟨o1, z, o2, ho, hl, hj, _, _⟩ := split_at hr (n := p) (by omega)
  have hnth : u.nth w.mem p = .ok (u.addr c.sz z) := by
    subst ho
    have := nth_split hr
    rw [hl, List.map_cons, List.headD_cons] at this
    exact this
  obtain ⟨m', x, b, e, hs, hcap, hnode, r1, r2, hub, hdn, hf⟩ := moveAssignThrow_ok hsz hA hr' hr ha hj
  have hzc : z < x.cap := Nat.lt_of_lt_of_le (hr.link.lt hj) hcap
  have hel : OTable.elemAt c.sz ({ t with core := x, base := b } : OTable K V) (b + c.sz * (z : Int)) = .error .deadRead :=
    elemAt_dead (t := ({ t with core := x, base := b } : OTable K V)) hsz hzc (by
      show x.node z = none
      rw [hnode z hzc, if_neg (Nat.lt_irrefl _)])
  have hmem : b + c.sz * (z : Int) ∈ o.map (fun i => if i ≤ z then b + c.sz * (i : Int) else u.addr c.sz i) :=
    List.mem_map.mpr ⟨z, hj, by rw [if_pos (Nat.le_refl _)]⟩
  refine ⟨_, z, m', _, _, hnth, slotOf_ok hsz (hr.link.lt hj), e, hs, ?_, ?_,
    elements_dead (t := ({ t with core := x, base := b } : OTable K V)) r2 hmem hel, hsize, ?_, ?_⟩
  · obtain ⟨y, o3, hy⟩ : ∃ y o', o = y :: o' := List.exists_cons_of_ne_nil (fun g => by rw [g] at hj; cases hj)
    rw [hy, List.map_cons] at r2
    refine ⟨_, ?_, Ring.head_ne (l := []) r2⟩
    unfold OTable.first
    rw [Mem.nextOf_ok (r2.live _ (by simp))]
    have hpl := (Ring.place (l := []) r2).1
    exact congrArg _ hpl
  · subst ho
    exact ⟨_, nth_ring (t := ({ t with core := x, base := b } : OTable K V)) r2 hl (if_pos (Nat.le_refl _)), hel⟩
  · unfold OTable.elements OTable.first
    have hrl := r1.live u.hd (by simp)
    rw [Mem.nextOf_ok hrl, bind_ok]
    have hpl := (Ring.place (l := []) r1).1
    rw [show m'.nxt u.hd = u.hd from hpl]
    unfold walk
    rw [if_pos rfl]
  · refine h.others hsz hA hf ?_
    intro n v hn hv y hy g
    rw [not_or] at hn
    rcases List.mem_append.mp g with g | g
    · exact (h.inv hsz hA).apart i n t v (fun e => hn.1 e.symm) ht hv y g hy
    · exact (h.inv hsz hA).apart j n u v (fun e => hn.2 e.symm) hu hv y g hy

/-- The relocation of the third element throws. -/
def exMove : Option (Mem × OTable Nat Nat × OTable Nat Nat) := ((ex.get 1).moveAssignThrow c16 ex.mem (ex.get 0) 3).toOption.join

set_option maxRecDepth 100000 in
example : (exMove.map fun r => (r.2.1.core.size, r.2.2.core.size, (r.2.2.elements 24 r.1).toOption)) = some (0, 4, some []) ∧
    (exMove.map fun r => (match r.2.1.nth r.1 2 with
      | .ok a => (match r.2.1.elemAt 24 a with | .error .deadRead => true | _ => false)
      | .error _ => false)) = some true := by decide +kernel

end Tpp.OSwiss
