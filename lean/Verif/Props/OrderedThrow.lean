import Verif.Ordered.DenseThrow
import Verif.Props.OrderedMove

/-!
# C82: ordered dense containers after an exception

`Reached hash sz A w s` as in `Verif.Props.OrderedDense`; here a call that ends in an exception is made on a container of a reached
world.
-/

set_option linter.unusedSectionVars false

namespace Tpp.ODense

open Tpp.Dense (Elem LF Table Inv swapRemove conflict idxOf elemOf)
open Tpp.Ordered

variable {k : Nat} {K V : Type} [DecidableEq K]

/-- All that can be observed of the container from now on is what a list `s` of elements would answer. -/
structure Works (hash : K → Nat) (sz : Int) (A : Alloc) (m : Mem) (t : OTable k K V) (s : List (Elem k K V)) : Prop where
  elements : t.elements sz m = .ok s
  run : ∀ os, Spec.Guarded (decide (0 < t.core.bc)) os = true →
    ∃ m' t', t.run hash sz A m os = .ok (m', t', (Spec.run s os).2) ∧ t'.elements sz m' = .ok (Spec.run s os).1
  destroy : ∃ m', t.destroy sz m = .ok m' ∧ ∀ x ∈ t.foot sz, x ∉ m'.live

theorem Holds.works {hash : K → Nat} {sz : Int} (hsz : 0 < sz) {A : Alloc} (hA : A.Sound sz) {m : Mem} {t : OTable k K V}
    {s : List (Elem k K V)} (h : Holds hash sz m t s) : Works hash sz A m t s where
  elements := h.elements hsz
  run := by
    intro os hg
    obtain ⟨m', t', e, h'⟩ := orun_ok hsz hA os h (by simp) hg
    exact ⟨m', t', e, h'.elements hsz⟩
  destroy := by
    obtain ⟨l, o, h, _⟩ := h
    obtain ⟨m', e, _, hx⟩ := destroy_ok h
    exact ⟨m', e, hx⟩

/-- The other containers still work. -/
def Others (hash : K → Nat) (sz : Int) (A : Alloc) (w : World k K V) (s : Seqs k K V) (P : Nat → Prop) (m' : Mem) : Prop :=
  ∀ j u p, ¬ P j → w.tab j = some u → s j = some p → Works hash sz A m' u p

theorem Reached.others {hash : K → Nat} {sz : Int} (hsz : 0 < sz) {A : Alloc} (hA : A.Sound sz) {w : World k K V} {s : Seqs k K V}
    (h : Reached hash sz A w s) {P : Nat → Prop} {m' : Mem} {F F' : List Int} (hf : Frame w.mem m' F F')
    (hF : ∀ j u, ¬ P j → w.tab j = some u → ∀ x ∈ u.foot sz, x ∉ F) : Others hash sz A w s P m' := by
  intro j u p hj hu hp
  obtain ⟨l, o, hr, rfl⟩ := h.holds hsz hA hu hp
  exact Holds.works hsz hA ⟨l, o, hr.frame hf (hF j u hj hu), rfl⟩

theorem Reached.others1 {hash : K → Nat} {sz : Int} (hsz : 0 < sz) {A : Alloc} (hA : A.Sound sz) {w : World k K V} {s : Seqs k K V}
    (h : Reached hash sz A w s) {i : Nat} {t : OTable k K V} (ht : w.tab i = some t) {m' : Mem} {F' : List Int}
    (hf : Frame w.mem m' (t.foot sz) F') : Others hash sz A w s (· = i) m' :=
  h.others hsz hA hf (fun j u hj hu x hx q => (h.inv hsz hA).apart i j t u (fun e => hj e.symm) ht hu x q hx)

/-! ## Hash function and comparison -/

/-- C82, `insert` and `try_emplace`, with or without a hint: if the hash function or the comparison throws, the container holds its
old sequence and works; if they do not, the call is the ordinary one. -/
theorem C82_insert_call {hash : K → Nat} {sz : Int} (hsz : 0 < sz) {A : Alloc} (hA : A.Sound sz) {w : World k K V} {s : Seqs k K V}
    (h : Reached hash sz A w s) {i : Nat} {t : OTable k K V} (ht : w.tab i = some t) {q : List (Elem k K V)} (hq : s i = some q)
    (b : Nat) (key : Fin k → K) (v : V) (hint : Option Int) :
    (∃ m' t', t.insertCall hash sz A b w.mem key v hint = .ok (m', t', none) ∧ Works hash sz A m' t' q ∧
      Others hash sz A w s (· = i) m') ∨
    (k ≤ b ∧ t.insertCall hash sz A b w.mem key v hint =
      (t.insert hash sz A w.mem key v hint).map fun r => (r.1, r.2.1, some r.2.2)) := by
  obtain ⟨l, o, hr, rfl⟩ := h.holds hsz hA ht hq
  obtain ⟨m', bs, t1, t2, e1, e2, e3, p2, _, hr', hf⟩ := grown hsz hA hr
  unfold OTable.insertCall
  rw [e1, bind_ok]
  rcases Dense.insertCall_ok hr.core e2 e3 hr'.core p2 b key v with e | ⟨hb, p, e, e'⟩
  · left
    rw [e, bind_ok]
    exact ⟨m', _, rfl, Holds.works hsz hA ⟨l, o, hr', rfl⟩, h.others1 hsz hA ht hf⟩
  · right
    refine ⟨hb, ?_⟩
    unfold OTable.insert OTable.insertWith
    rw [e, bind_ok, e1, bind_ok]
    simp only
    rw [e', bind_ok]
    generalize (if p.2.2 = true then OTable.linkNew m' t.hd (bs + sz * (p.2.1 : Int)) (hint.map (· + (bs - t.base))) else .ok m') = x
    cases x <;> rfl

/-- A ring of nodes that hold elements. -/
theorem elements_gen {sz : Int} {m : Mem} {t : OTable k K V} {l : List (Elem k K V)} {r : List Nat}
    (h : Ring m t.hd (r.map (t.addr sz))) (hv : ∀ i ∈ r, ∃ hi : i < l.length, t.elemAt sz (t.addr sz i) = .ok l[i])
    (hs : r.length ≤ t.core.size) : t.elements sz m = .ok (seq l r) := by
  unfold OTable.elements OTable.first
  rw [Mem.nextOf_ok (h.live _ (by simp)), bind_ok]
  have := (Ring.place (l := []) h).1
  rw [show m.nxt t.hd = (r.map (t.addr sz)).headD t.hd from this]
  exact walk_nodes (pre := []) h hv (by omega)

/-- C82 is false for `emplace`, all containers, all keys, whichever call throws: the container counts one element more than it
yields, lookups do not find the new element, and no element can be erased. -/
theorem C82_emplace_call_false {hash : K → Nat} {sz : Int} (hsz : 0 < sz) {A : Alloc} (hA : A.Sound sz) {w : World k K V} {s : Seqs k K V}
    (h : Reached hash sz A w s) {i : Nat} {t : OTable k K V} (ht : w.tab i = some t) {q : List (Elem k K V)} (hq : s i = some q)
    (hk : 0 < k) (b : Nat) (g : Fin k → Nat) (key : Fin k → K) (v : V) (hint : Option Int) :
    (∃ m' t', t.emplaceCall hash sz A b g w.mem key v hint = .ok (m', t', none) ∧ t'.elements sz m' = .ok q ∧
      t'.core.size = q.length + 1 ∧ (∀ j x, t'.core.lookup hash j x = .ok (q.find? (fun e => e.1 j = x))) ∧
      (∀ n, n < q.length → ∃ a, t'.nth m' n = .ok a ∧ ∀ r, t'.eraseIter sz m' a ≠ .ok r) ∧ Others hash sz A w s (· = i) m') ∨
    (k ≤ b ∧ t.emplaceCall hash sz A b g w.mem key v hint =
      (t.emplace hash sz A w.mem key v hint).map fun r => (r.1, r.2.1, some r.2.2)) := by
  obtain ⟨l, o, hr, rfl⟩ := h.holds hsz hA ht hq
  obtain ⟨m', bs, t1, t2, e1, e2, e3, p2, hcap, hr', hf⟩ := grown hsz hA hr
  unfold OTable.emplaceCall
  rw [e1, bind_ok]
  rcases Dense.emplaceCall_ok hr.core e2 e3 hr'.core p2 hcap b g key v with ⟨c, e, ho⟩ | ⟨hb, p, e, e'⟩
  · left
    rw [e, bind_ok]
    have hlen : (seq l o).length = l.length := by rw [seq_length hr.perm, hr.length]
    refine ⟨m', _, rfl, ?_, by rw [hlen]; exact ho.size, ?_, ?_, h.others1 hsz hA ht hf⟩
    · exact elements_gen (l := l) (r := o) hr'.ring (fun i hi => ⟨hr.lt hi, elemAt_ext hsz hr' ho.ext (hr.lt hi)⟩)
        (by rw [hr.length, show (OTable.core _ : Table k K V).size = c.size from rfl, ho.size]; omega)
    · intro j x
      change c.lookup hash j x = _
      rw [ho.lookup, hr.uniq.find (seq_perm hr.perm).symm]
    · intro n hn
      rw [hlen] at hn
      obtain ⟨o1, pos, o2, rfl, hn', hp, _⟩ := split_at hr' hn
      refine ⟨bs + sz * (pos : Int), ?_, ?_⟩
      · have := nth_split hr'
        rw [hn'] at this
        exact this
      · intro r hx
        unfold OTable.eraseIter at hx
        have hso : OTable.slotOf sz ({ t with core := c, base := bs } : OTable k K V) (bs + sz * (pos : Int)) = some pos :=
          slotOf_ok (t := ({ t with core := c, base := bs } : OTable k K V)) hsz
            (by show pos < c.cap; exact Nat.lt_trans hp ho.le_cap)
        rw [hso] at hx
        simp only at hx
        split at hx
        · obtain ⟨y, _, hx⟩ := Dense.bind_eq_ok hx
          rw [ho.eraseAt hk hp] at hx
          cases hx
        · cases hx
  · right
    refine ⟨hb, ?_⟩
    unfold OTable.emplace OTable.insertWith
    rw [e, bind_ok, e1, bind_ok]
    simp only
    rw [e', bind_ok]
    generalize (if p.2.2 = true then OTable.linkNew m' t.hd (bs + sz * (p.2.1 : Int)) (hint.map (· + (bs - t.base))) else .ok m') = x
    cases x <;> rfl

/-! ## Constructor -/

/-- C82 is false if the constructor of a new element throws: the container counts an element it neither has nor yields, and cannot
be destroyed. -/
theorem C82_insert_throw_false {hash : K → Nat} {sz : Int} (hsz : 0 < sz) {A : Alloc} (hA : A.Sound sz) {w : World k K V} {s : Seqs k K V}
    (h : Reached hash sz A w s) {i : Nat} {t : OTable k K V} (ht : w.tab i = some t) {q : List (Elem k K V)} (hq : s i = some q)
    {key : Fin k → K} (hk : ∀ e ∈ q, ∀ j, e.1 j ≠ key j) :
    ∃ m' t', t.insertThrow hash sz A w.mem key = .ok (m', t', true) ∧ t'.elements sz m' = .ok q ∧ t'.core.size = q.length + 1 ∧
      t'.destroy sz m' = .error .deadDestroy ∧ Others hash sz A w s (· = i) m' := by
  obtain ⟨l, o, hr, rfl⟩ := h.holds hsz hA ht hq
  obtain ⟨m', bs, t1, t2, e1, e2, e3, p2, hcap, hr', hf⟩ := grown hsz hA hr
  have hi2 : Inv hash t2 l := hr'.core
  obtain ⟨r, e4, _⟩ := Dense.locate_ok hi2.toArr hi2.uniq hi2.chained p2 key
  have hc : conflict l key = none := by
    unfold conflict
    rw [List.findSome?_eq_none_iff]
    intro j _
    exact Dense.idxOf_none (fun e he => hk e ((seq_perm hr.perm).mem_iff.mpr he) j)
  have hlen : (seq l o).length = l.length := by rw [seq_length hr.perm, hr.length]
  unfold OTable.insertThrow Table.insertThrow
  rw [e1, bind_ok, e2, bind_ok, e3, bind_ok, e4, bind_ok, Dense.findSome_map]
  rw [show List.findSome? (fun a => (a, idxOf l a (key a), some (r a)).2.1) (List.finRange k) = conflict l key from rfl, hc]
  simp only
  unfold Table.pushThrow
  rw [if_pos hcap, bind_ok, bind_ok]
  have hx : Dense.Extends t2 ({ t2 with size := t2.size + 1 } : Table k K V) := ⟨rfl, rfl, rfl, fun _ _ h => h⟩
  refine ⟨m', _, rfl, ?_, by simp only; rw [hlen, hi2.size], ?_, h.others1 hsz hA ht hf⟩
  · exact elements_gen (l := l) (r := o) hr'.ring (fun i hi => ⟨hr.lt hi, elemAt_ext hsz hr' hx (hr.lt hi)⟩)
      (by rw [hr.length]; simp only; rw [hi2.size]; omega)
  · have := Dense.destroy_hole hi2
    unfold Table.destroy at this
    unfold OTable.destroy
    simp only
    cases e : ({ t2 with size := t2.size + 1 } : Table k K V).clearData with
    | ok y => rw [e] at this; cases this
    | error f => rw [e] at this; cases this; rfl

/-- C82 if the key is present: nothing is constructed. -/
theorem C82_insert_throw_partial {hash : K → Nat} {sz : Int} (hsz : 0 < sz) {A : Alloc} (hA : A.Sound sz) {w : World k K V} {s : Seqs k K V}
    (h : Reached hash sz A w s) {i : Nat} {t : OTable k K V} (ht : w.tab i = some t) {q : List (Elem k K V)} (hq : s i = some q)
    {key : Fin k → K} (hk : ∃ e ∈ q, ∃ j, e.1 j = key j) :
    ∃ m' t', t.insertThrow hash sz A w.mem key = .ok (m', t', false) ∧ Works hash sz A m' t' q ∧ Others hash sz A w s (· = i) m' := by
  obtain ⟨l, o, hr, rfl⟩ := h.holds hsz hA ht hq
  obtain ⟨m', bs, t1, t2, e1, e2, e3, p2, hcap, hr', hf⟩ := grown hsz hA hr
  have hi2 : Inv hash t2 l := hr'.core
  obtain ⟨r, e4, _⟩ := Dense.locate_ok hi2.toArr hi2.uniq hi2.chained p2 key
  unfold OTable.insertThrow Table.insertThrow
  rw [e1, bind_ok, e2, bind_ok, e3, bind_ok, e4, bind_ok, Dense.findSome_map]
  rw [show List.findSome? (fun a => (a, idxOf l a (key a), some (r a)).2.1) (List.finRange k) = conflict l key from rfl]
  cases hc : conflict l key with
  | none =>
    obtain ⟨e, he, j, hx⟩ := hk
    exact absurd hx (Dense.idxOf_eq_none (Dense.conflict_none hc j) e ((seq_perm hr.perm).mem_iff.mp he))
  | some i => exact ⟨m', _, rfl, Holds.works hsz hA ⟨l, o, hr', rfl⟩, h.others1 hsz hA ht hf⟩

/-! ## Making room -/

/-- `clear` needs the header and the elements, not the links. -/
theorem clear_lost {hash : K → Nat} {sz : Int} {m : Mem} {t : OTable k K V} {l : List (Elem k K V)} (h : Inv hash t.core l)
    (hd : t.hd ∈ m.live) (hl : ∀ x ∈ slots sz t.base t.core.cap, x ∈ m.live) (hh : t.hd ∉ slots sz t.base t.core.cap) :
    ∃ m' t', t.clear m = .ok (m', t') ∧ Holds hash sz m' t' [] := by
  obtain ⟨c, e, h1, h2, h3, _⟩ := Dense.clear_ok h.toArr
  unfold OTable.clear
  have hw : m.reset t.hd = _ := Mem.write_ok hd ⟨0, 0⟩
  rw [hw, bind_ok, e, bind_ok]
  refine ⟨_, { t with core := c }, rfl, [], [], ⟨h1, ?_, ?_, ?_, ?_⟩, rfl⟩
  · simp
  · rw [List.map_nil, Ring.nil_iff]
    exact ⟨hd, by simp⟩
  · change ∀ x ∈ slots sz t.base c.cap, _
    rw [h3]
    exact hl
  · change t.hd ∉ slots sz t.base c.cap
    rw [h3]; exact hh

/-- C82 is false if the relocation of any element throws while an insertion or `reserve` enlarges the array, even if it is the first
one (where the unordered containers are left as they were, C73): iterating leads into the new array, which was freed.  Only after
the first one the container can be rescued, by `clear`. -/
theorem C82_room_false {hash : K → Nat} {sz : Int} (hsz : 0 < sz) {A : Alloc} (hA : A.Sound sz) {w : World k K V} {s : Seqs k K V}
    (h : Reached hash sz A w s) {i : Nat} {t : OTable k K V} (ht : w.tab i = some t) {q : List (Elem k K V)} (hq : s i = some q)
    {p : Nat} (hp : p < q.length) {c : Nat} (hc : t.core.cap < c) :
    ∃ m' t' lost, t.reserveThrow sz A w.mem c p = .ok (some (m', t', lost)) ∧
      (t.core.cap = t.core.size → c = t.core.cap * 2 → t.insertRoomThrow sz A w.mem p = .ok (some (m', t', lost))) ∧
      t'.elements sz m' = .error .dangling ∧
      (p = 0 → ∃ m'' t'', t'.clear m' = .ok (m'', t'') ∧ Works hash sz A m'' t'' []) ∧
      (p ≠ 0 → t'.destroy sz m' = .error .deadDestroy) ∧ Others hash sz A w s (· = i) m' := by
  obtain ⟨l, o, hr, rfl⟩ := h.holds hsz hA ht hq
  have hlen : (seq l o).length = l.length := by rw [seq_length hr.perm, hr.length]
  rw [hlen] at hp
  have hle := hr.core.le_cap
  have hs := hr.core.size
  obtain ⟨m', m1, bs, e, h1, h2, h3, h4, h5⟩ := resizeThrow_ok hsz hA hr (c := c) (q := p) (by omega) hp
  refine ⟨m', { t with core := dead p t.core }, l.take p, ?_, ?_, ?_, ?_, ?_, h.others1 hsz hA ht h4⟩
  · unfold OTable.reserveThrow
    rw [if_pos hc]
    exact e
  · intro g1 g2
    unfold OTable.insertRoomThrow
    rw [if_pos g1, if_neg (by omega), ← g2]
    exact e
  · have hb : ∀ i, i < p + 1 → bs + sz * (i : Int) ∈ slots sz bs c := fun i hi => mem_slots.mpr ⟨i, by omega, rfl⟩
    have hnew : ∀ x ∈ slots sz bs c, x ∉ slots sz t.base t.core.cap := fun x hx g => h3 x hx (hr.live x g)
    unfold OTable.elements OTable.first
    have hhd : t.hd ∉ slots sz bs c := fun g => h3 _ g hr.hd_live
    change (m'.nextOf t.hd >>= fun a => walk m' t.hd (OTable.elemAt sz ({ t with core := dead p t.core } : OTable k K V)) (t.core.size + 1) a) = _
    rw [h2 _ hhd, Mem.nextOf_ok (h1.live _ (by simp)), bind_ok]
    have hpl := (Ring.place (l := []) h1).1
    rw [show m1.nxt t.hd = (o.map (fun i => if i < p + 1 then bs + sz * (i : Int) else t.addr sz i)).headD t.hd from hpl]
    refine walk_dangling (pre := []) h1 ?_ ?_ (by rw [List.length_map, hr.length, hs]; omega)
    · intro x hx
      obtain ⟨i, hi, rfl⟩ := List.mem_map.mp hx
      by_cases g : i < p + 1
      · left
        rw [if_pos g]
        exact elemAt_none (t := ({ t with core := dead p t.core } : OTable k K V)) (hnew _ (hb i g))
      · right
        rw [if_neg g]
        have hx : t.addr sz i ∈ slots sz t.base t.core.cap := hr.addr_slots hi
        refine ⟨⟨l[i]'(hr.lt hi), ?_⟩, h2 _ (fun g' => hnew _ g' hx)⟩
        unfold OTable.elemAt
        rw [show t.addr sz i = OTable.addr sz ({ t with core := dead p t.core } : OTable k K V) i from rfl,
          slotOf_ok hsz (t := ({ t with core := dead p t.core } : OTable k K V)) (hr.lt_cap (hr.lt hi))]
        obtain ⟨n, hrd, hn, hv⟩ := hr.core.toArr.read (hr.lt hi)
        simp only
        have : (dead p t.core).readNode i = .ok n := by
          refine Dense.readNode_ok (t := dead p t.core) (hr.lt_cap (hr.lt hi)) ?_
          show (if i < p then none else t.core.node i) = some n
          rw [if_neg (by omega)]
          exact hn
        rw [this, bind_ok, hv]
    · refine ⟨bs + sz * ((0 : Nat) : Int), List.mem_map.mpr ⟨0, hr.mem (by omega), by rw [if_pos (by omega)]⟩, ?_⟩
      exact elemAt_none (t := ({ t with core := dead p t.core } : OTable k K V)) (hnew _ (hb 0 (by omega)))
  · intro g
    subst g
    have hd0 : dead 0 t.core = t.core := by unfold dead; simp
    rw [hd0]
    obtain ⟨m'', t'', e', hh⟩ := clear_lost (m := m') (t := t) (sz := sz) hr.core (h5 _ hr.hd_live) (fun x hx => h5 x (hr.live x hx)) hr.hdr
    exact ⟨m'', t'', e', hh.works hsz hA⟩
  · intro g
    have := Dense.destroy_dead hr.core (q := p) (by omega) (by intro e; rw [e] at hp; cases hp)
    unfold Table.destroy at this
    unfold OTable.destroy dead
    simp only at this ⊢
    cases e : ({ t.core with node := fun i => if i < p then none else t.core.node i } : Table k K V).clearData with
    | ok y => rw [e] at this; cases this
    | error f => rw [e] at this; cases this; rfl

/-! ## Assignments -/

/-- C82 is false for copy assignment, whichever element throws: the first element of the target is looked for as far behind the
target as the first element of the source is behind the source.  This is no node of the target, except by accident.  The source and
all other containers are untouched, and `clear` rescues the target. -/
theorem C82_copy_assign_false {hash : K → Nat} {sz : Int} (hsz : 0 < sz) {A : Alloc} (hA : A.Sound sz) {w : World k K V} {s : Seqs k K V}
    (h : Reached hash sz A w s) {i j : Nat} (hij : i ≠ j) {t u : OTable k K V} (ht : w.tab i = some t) (hu : w.tab j = some u)
    {q : List (Elem k K V)} (hq : s j = some q) {p : Nat} (hp : p < q.length) (prop : Bool) :
    ∃ m' t' a, t.copyAssignThrow sz A prop w.mem u p = .ok (some (m', t')) ∧ t'.core.size = p ∧ u.first w.mem = .ok a ∧
      t'.first m' = .ok (t.hd + (a - u.hd)) ∧ t.hd + (a - u.hd) ≠ t.hd ∧
      (t.hd + (a - u.hd) ∉ slots sz t'.base t'.core.cap → t'.elements sz m' = .error .dangling) ∧
      (∃ m'' t'', t'.clear m' = .ok (m'', t'') ∧ Works hash sz A m'' t'' []) ∧ Others hash sz A w s (· = i) m' := by
  have ha := (h.inv hsz hA).apart j i u t hij.symm hu ht
  obtain ⟨l, o, hr, rfl⟩ := h.holds hsz hA hu hq
  obtain ⟨q', hq', l', o', hr', rfl⟩ := (h.inv hsz hA).holds i t ht
  have hlen : (seq l o).length = l.length := by rw [seq_length hr.perm, hr.length]
  rw [hlen] at hp
  obtain ⟨m', c, b, e, hc, hlk, hlv, hsl, hdn, hf⟩ := copyAssignThrow_ok hsz hA hr' hr ha hp (prop := prop)
  have hfu := first_ok hr
  obtain ⟨x, o2, rfl⟩ : ∃ x o', o = x :: o' := List.exists_cons_of_ne_nil (fun g => by
    have := hr.length; rw [g] at this; simp at this; omega)
  simp only [List.map_cons, List.headD_cons] at hfu
  have hlu : (w.mem.link u.hd).next = u.addr sz x - u.hd := by
    unfold OTable.first at hfu
    rw [Mem.nextOf_ok hr.hd_live] at hfu
    have := Except.ok.inj hfu
    unfold Mem.nxt at this
    omega
  have hft : OTable.first m' ({ t with core := c, base := b } : OTable k K V) = .ok (t.hd + (u.addr sz x - u.hd)) := by
    unfold OTable.first
    simp only
    rw [Mem.nextOf_ok hlv]
    unfold Mem.nxt
    rw [hlk, hlu]
  have hne : t.hd + (u.addr sz x - u.hd) ≠ t.hd := by
    intro g
    refine hr.hdr ?_
    have : u.hd = u.addr sz x := by omega
    rw [this]
    exact hr.addr_slots (by simp)
  refine ⟨m', _, u.addr sz x, e, ?_, hfu, hft, hne, ?_, ?_, h.others1 hsz hA ht hf⟩
  · change c.size = p
    rw [hc.size, List.length_take]
    omega
  · intro g
    unfold OTable.elements
    rw [hft, bind_ok]
    unfold walk
    rw [if_neg hne, elemAt_none g]
    rfl
  · obtain ⟨m'', t'', e', hh⟩ := clear_lost (m := m') (t := ({ t with core := c, base := b } : OTable k K V)) (sz := sz) hc hlv hsl hdn
    exact ⟨m'', t'', e', hh.works hsz hA⟩

/-- A walk that ends reads all nodes. -/
theorem walk_reads {E : Type} {m : Mem} {hd : Int} {rd : Int → M E} : ∀ {r pre : List Int} {fuel : Nat} {s : List E},
    Ring m hd (pre ++ r) → walk m hd rd fuel (r.headD hd) = .ok s → ∀ x ∈ r, ∃ e, rd x = .ok e
  | [], _, _, _, _, _, _, hx => absurd hx List.not_mem_nil
  | a :: r, pre, fuel, s, h, hw, x, hx => by
    cases fuel with
    | zero => cases hw
    | succ fuel =>
      rw [List.headD_cons] at hw
      unfold walk at hw
      rw [if_neg h.head_ne] at hw
      obtain ⟨e, he, hw⟩ := Dense.bind_eq_ok hw
      have ha : a ∈ m.live := h.live a (by simp)
      rw [Mem.nextOf_ok ha, bind_ok, h.around.1] at hw
      obtain ⟨s', hs', _⟩ := Dense.bind_eq_ok hw
      rcases List.mem_cons.mp hx with g | g
      · exact ⟨e, g ▸ he⟩
      · exact walk_reads (r := r) (pre := pre ++ [a]) (by rw [List.append_assoc]; exact h) hs' x g

/-- C82 is false for move assignment between unequal allocators that do not propagate, whichever element throws: iterating the target
is undefined; the source yields nothing, though it counts all its elements. -/
theorem C82_move_assign_false {hash : K → Nat} {sz : Int} (hsz : 0 < sz) {A : Alloc} (hA : A.Sound sz) {w : World k K V} {s : Seqs k K V}
    (h : Reached hash sz A w s) {i j : Nat} (hij : i ≠ j) {t u : OTable k K V} (ht : w.tab i = some t) (hu : w.tab j = some u)
    {q : List (Elem k K V)} (hq : s j = some q) {p : Nat} (hp : p < q.length) :
    ∃ m' t' u', t.moveAssignThrow sz A w.mem u p = .ok (some (m', t', u')) ∧ t'.core.size = p ∧ (∀ x, t'.elements sz m' ≠ .ok x) ∧
      u'.core.size = q.length ∧ u'.elements sz m' = .ok [] ∧ Others hash sz A w s (fun n => n = i ∨ n = j) m' := by
  have ha := (h.inv hsz hA).apart i j t u hij ht hu
  obtain ⟨l, o, hr, rfl⟩ := h.holds hsz hA hu hq
  obtain ⟨q', hq', l', o', hr', rfl⟩ := (h.inv hsz hA).holds i t ht
  have hlen : (seq l o).length = l.length := by rw [seq_length hr.perm, hr.length]
  rw [hlen] at hp
  obtain ⟨m', c, b, e, hc, hcl, r1, r2, hub, hdn, hf⟩ := moveAssignThrow_ok hsz hA hr' hr ha hp
  have hcs : c.size = p := by rw [hc.size, List.length_take]; omega
  refine ⟨m', _, _, e, hcs, ?_, ?_, elements_alone r1, ?_⟩
  · intro x hx
    unfold OTable.elements OTable.first at hx
    rw [Mem.nextOf_ok (r2.live _ (by simp)), bind_ok] at hx
    have hpl := (Ring.place (l := []) r2).1
    rw [show m'.nxt t.hd = (o.map (fun i => if i < p + 1 then b + sz * (i : Int) else u.addr sz i)).headD t.hd from hpl] at hx
    obtain ⟨y, hy⟩ := walk_reads (pre := []) r2 hx (b + sz * (p : Int)) (List.mem_map.mpr ⟨p, hr.mem hp, by rw [if_pos (by omega)]⟩)
    unfold OTable.elemAt at hy
    have hso : OTable.slotOf sz ({ t with core := c, base := b } : OTable k K V) (b + sz * (p : Int)) = some p :=
      slotOf_ok (t := ({ t with core := c, base := b } : OTable k K V)) hsz (by show p < c.cap; omega)
    rw [hso] at hy
    simp only at hy
    obtain ⟨n, hn, _⟩ := Dense.bind_eq_ok hy
    unfold Table.readNode at hn
    rw [if_pos (by omega), hc.toArr.node_none (by rw [List.length_take]; omega)] at hn
    cases hn
  · change u.core.size = _
    rw [hr.core.size, hlen]
  · refine h.others hsz hA hf ?_
    intro n v hn hv x hx g
    rw [not_or] at hn
    rcases List.mem_append.mp g with g | g
    · exact (h.inv hsz hA).apart i n t v (fun e => hn.1 e.symm) ht hv x g hx
    · exact (h.inv hsz hA).apart j n u v (fun e => hn.2 e.symm) hu hv x g hx

/-! ## Erasing -/

/-- C82 is false if the assignment of the last element's value throws in `erase`: the element to be erased takes the place of the one
that is last in the array (`l`: the array), which is not yielded any more; both are still counted. -/
theorem C82_erase_false {hash : K → Nat} {sz : Int} (hsz : 0 < sz) {A : Alloc} (hA : A.Sound sz) {w : World k K V} {s : Seqs k K V}
    (h : Reached hash sz A w s) {i : Nat} {t : OTable k K V} (ht : w.tab i = some t) {q1 q2 : List (Elem k K V)} {x z : Elem k K V}
    (hq : s i = some (q1 ++ x :: q2)) {l : List (Elem k K V)} (hl : t.core.iterate = .ok (l ++ [z])) (hx : x ∈ l) (hk : 0 < k) :
    ∃ a m' t', t.nth w.mem q1.length = .ok a ∧ t.eraseMoveThrow sz w.mem a = .ok (some (m', t')) ∧
      t'.core.size = q1.length + q2.length + 1 ∧
      t'.elements sz m' = .ok ((q1 ++ q2).map fun e => if ∀ j, e.1 j = z.1 j then x else e) ∧ Others hash sz A w s (· = i) m' := by
  obtain ⟨l', o, hr, he⟩ := h.holds hsz hA ht hq
  have hll : l' = l ++ [z] := by
    have := Dense.iterate_ok hr.core.toArr
    rw [hl] at this
    exact (Except.ok.inj this).symm
  subst hll
  have hlen : (q1 ++ x :: q2).length = (l ++ [z]).length := by rw [← he, seq_length hr.perm, hr.length]
  obtain ⟨o1, pos, o2, rfl, hn1, hp, h1, h2, h3⟩ := split_at hr (n := q1.length) (by rw [← hlen]; simp)
  rw [he] at h1 h2 h3
  rw [List.take_left' rfl] at h1
  rw [List.getElem?_append_right (Nat.le_refl _), Nat.sub_self, List.getElem?_cons_zero] at h2
  rw [show q1 ++ x :: q2 = (q1 ++ [x]) ++ q2 by simp, List.drop_left' (by simp)] at h3
  have hu := hr.uniq
  have hzx : x ≠ z := by
    rintro rfl
    have := hu ⟨0, hk⟩
    rw [List.map_append, List.nodup_append] at this
    exact this.2.2 _ (List.mem_map_of_mem hx) _ (by simp) rfl
  have hpos : pos + 1 < (l ++ [z]).length := by
    rcases Nat.lt_or_ge (pos + 1) (l ++ [z]).length with g | g
    · exact g
    · exfalso
      rw [List.length_append, List.length_singleton] at g hp
      have : pos = l.length := by omega
      rw [this, List.getElem?_append_right (Nat.le_refl _), Nat.sub_self] at h2
      simp at h2
      exact hzx h2
  obtain ⟨m', c, e, hs, hring, hf⟩ := eraseMoveThrow_ok hsz hr hpos
  have hnth := nth_split hr
  rw [hn1] at hnth
  have hinv := hr.core.toArr.sameBut hs
  obtain ⟨hpl, hol, hnd, _⟩ := split_facts hr.perm
  refine ⟨_, m', _, hnth, e, ?_, ?_, h.others1 hsz hA ht hf⟩
  · change c.size = _
    rw [hinv.size, ← hlen]
    simp
    omega
  · have hrl : ∀ n ∈ (o1 ++ o2).map (ren ((l ++ [z]).length - 1) pos), n < (l ++ [z]).length := by
      intro n hn
      obtain ⟨n', hn', rfl⟩ := List.mem_map.mp hn
      unfold ren
      split
      · exact hp
      · exact (hol n' hn').1
    rw [elements_gen (l := l ++ [z]) (t := ({ t with core := c } : OTable k K V)) hring ?_ ?_]
    · congr 1
      have h12 : seq (l ++ [z]) (o1 ++ o2) = q1 ++ q2 := by rw [seq_append, h1, h3]
      rw [← h12]
      unfold seq
      rw [List.filterMap_map, List.map_filterMap]
      refine List.filterMap_congr ?_
      intro n hn
      obtain ⟨hn1, hn2⟩ := hol n hn
      simp only [Function.comp_apply]
      rw [List.getElem?_eq_getElem hn1]
      unfold ren
      simp only [Option.map_some]
      by_cases g : n = (l ++ [z]).length - 1
      · rw [if_pos g, ← h2, if_pos]
        intro j
        simp only [g]
        rw [List.getElem_append_right (by simp)]
        simp
      · rw [if_neg g, List.getElem?_eq_getElem hn1, if_neg]
        intro hz
        have hz0 := hz ⟨0, hk⟩
        have := hu ⟨0, hk⟩
        have hzz : (l ++ [z])[(l ++ [z]).length - 1]'(by simp) = z := by
          rw [List.getElem_append_right (by simp)]
          simp
        have hi := (List.Nodup.getElem_inj_iff this (i := n) (j := (l ++ [z]).length - 1) (hi := by simpa using hn1) (hj := by simp)).mp
          (by simp only [List.getElem_map]; rw [hz0, hzz])
        exact g hi
    · intro n hn
      refine ⟨hrl n hn, ?_⟩
      have hc : n < c.cap := Nat.lt_of_lt_of_le (by rw [hinv.size]; exact hrl n hn) hinv.le_cap
      unfold OTable.elemAt
      rw [slotOf_ok (t := ({ t with core := c } : OTable k K V)) hsz hc]
      obtain ⟨n', hr1, _, hr2⟩ := hinv.read (hrl n hn)
      simp only
      rw [hr1, bind_ok, hr2]
    · change _ ≤ c.size
      rw [hinv.size, List.length_map]
      have := hr.length
      simp only [List.length_append, List.length_cons] at this ⊢
      omega

/-! ## Examples -/

/-- The container with the elements 1, 2, 3, 4, whose array is full. -/
def w4 : World 1 Nat Nat := after (fill 0 4)

/-- The size of the container after the exception, and its sequence. -/
def seen (r : M (Mem × OTable 1 Nat Nat)) : M (Nat × List (Elem 1 Nat Nat)) := do
  let r ← r
  let l ← r.2.elements 24 r.1
  .ok (r.2.core.size, l)

/-- The result of a call that may not have got as far as the exception. -/
def part (r : M (Option (Mem × OTable 1 Nat Nat))) : M (Mem × OTable 1 Nat Nat) := do
  match ← r with
  | some r => .ok r
  | none => .error .assertFail

example : Reached h3 24 bump w4 (WSpec.run (fun _ => none) (fill 0 4)).1 ∧ (w4.get 0).core.size = (w4.get 0).core.cap :=
  ⟨after_reached (by decide), rfl⟩

/-- `C82_insert_call`: the array grew, the sequence is the old one; the hint is not used. -/
example : seen (do
    let r ← (w4.get 0).insertCall h3 24 bump 0 w4.mem (fun _ => 5) 50
    .ok (r.1, r.2.1)) = .ok (4, [el 1 10, el 2 20, el 3 30, el 4 40]) := rfl

/-- `C82_emplace_call_false`: five elements are counted. -/
example : seen (do
    let r ← (w4.get 0).emplaceCall h3 24 bump 0 (fun _ => 0) w4.mem (fun _ => 5) 50
    .ok (r.1, r.2.1)) = .ok (5, [el 1 10, el 2 20, el 3 30, el 4 40]) := rfl

/-- What follows: when the array grows again, `move_from` reads the links of the node that was never linked. -/
example : (do
    let r ← (w4.get 0).emplaceCall h3 24 bump 0 (fun _ => 0) w4.mem (fun _ => 5) 50
    let r ← r.2.1.reserve 24 bump r.1 20
    .ok r.2.core.size) = .error .dangling := rfl

/-- `C82_insert_throw_false`, `C82_insert_throw_partial`. -/
example : seen (do
    let r ← (w4.get 0).insertThrow h3 24 bump w4.mem (fun _ => 5)
    .ok (r.1, r.2.1)) = .ok (5, [el 1 10, el 2 20, el 3 30, el 4 40]) := rfl
example : seen (do
    let r ← (w4.get 0).insertThrow h3 24 bump w4.mem (fun _ => 2)
    .ok (r.1, r.2.1)) = .ok (4, [el 1 10, el 2 20, el 3 30, el 4 40]) := rfl

/-- `C82_room_false`, first and third element. -/
example : seen (part ((·.map (fun r => (r.1, r.2.1))) <$> (w4.get 0).insertRoomThrow 24 bump w4.mem 0)) = .error .dangling := rfl
example : seen (part ((·.map (fun r => (r.1, r.2.1))) <$> (w4.get 0).reserveThrow 24 bump w4.mem 9 2)) = .error .dangling := rfl

/-- `clear` after the first. -/
example : seen (do
    let r ← part ((·.map (fun r => (r.1, r.2.1))) <$> (w4.get 0).insertRoomThrow 24 bump w4.mem 0)
    r.2.clear r.1) = .ok (0, []) := rfl

/-- Two containers. -/
def w2 : World 1 Nat Nat := after (fill 0 3 ++ fill 1 1)

/-- `C82_copy_assign_false`: two of three elements are copied. -/
example : seen (part ((w2.get 1).copyAssignThrow 24 bump false w2.mem (w2.get 0) 2)) = .error .dangling := rfl
example : seen (do
    let r ← part ((w2.get 1).copyAssignThrow 24 bump false w2.mem (w2.get 0) 2)
    r.2.clear r.1) = .ok (0, []) := rfl

/-- `C82_move_assign_false`: two of three elements are moved. -/
example : seen (part ((·.map (fun r => (r.1, r.2.1))) <$> (w2.get 1).moveAssignThrow 24 bump w2.mem (w2.get 0) 2)) = .error .deadRead := rfl
example : seen (part ((·.map (fun r => (r.1, r.2.2))) <$> (w2.get 1).moveAssignThrow 24 bump w2.mem (w2.get 0) 2)) = .ok (3, []) := rfl

/-- `C82_erase_false`: 2 is erased, 4 disappears, 2 stays in its place. -/
example : seen (part (do
    let a ← (w4.get 0).nth w4.mem 1
    (w4.get 0).eraseMoveThrow 24 w4.mem a)) = .ok (4, [el 1 10, el 3 30, el 2 20]) := rfl

end Tpp.ODense
