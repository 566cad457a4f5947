import Verif.Ordered.SwissInv

/-!
# The index of ordered sparse and stable containers

What the operations of an ordered container do to its elements, without any assumption on the links: the memory may hold anything,
as after an exchange of linked nodes (C52).
-/

set_option linter.unusedSectionVars false

namespace Tpp.OSwiss

open Tpp.Swiss (Node Ev Table AllocP Inv Made)
open Tpp.Ordered

variable {K V : Type} [DecidableEq K] {c : Cfg K} {m : Mem} {t : OTable K V}

/-- What an operation may do to the elements `l` (as a set), and what it may answer, whatever the links are: operations on keys do what they
should, except that the iterator that `erase(key)` returns is unknown; operations that follow links never lose or invent an element
other than by erasing it, `erase_if` erases elements that satisfy the predicate only, iterations meet elements only. -/
def Spec.Loose (l l' : List (K × V)) (out : Out K V) : Op K V → Prop
  | .erase k => l'.Perm (Spec.erase l k)
  | .eraseNth _ => l'.Perm l ∨ ∃ e, l.Perm (e :: l')
  | .eraseRange _ _ => ∃ r, l.Perm (r ++ l')
  | .eraseIf p => ∃ r, l.Perm (r ++ l') ∧ (∀ e ∈ r, p e = true) ∧ out = .nat r.length
  | .front => l' = l ∧ ∃ e, out = .elem e ∧ ∀ x ∈ e, x ∈ l
  | .back => l' = l ∧ ∃ e, out = .elem e ∧ ∀ x ∈ e, x ∈ l
  | .iterate => l' = l ∧ ∃ s, out = .list s ∧ ∀ x ∈ s, x ∈ l
  | .reverse => l' = l ∧ ∃ s, out = .list s ∧ ∀ x ∈ s, x ∈ l
  | op => l'.Perm (Spec.step l op).1 ∧ out = (Spec.step l op).2

theorem lookup_find (l : List (K × V)) (k : K) : Tpp.Spec.lookup l k = (Spec.find l k).map Prod.snd := rfl

theorem find_key {l : List (K × V)} {k : K} {e : K × V} (h : Spec.find l k = some e) : e ∈ l ∧ e.1 = k :=
  ⟨List.mem_of_find?_eq_some h, by simpa using List.find?_some h⟩

theorem find_of_lookup {l : List (K × V)} {k : K} {v : V} (h : Tpp.Spec.lookup l k = some v) : Spec.find l k = some (k, v) := by
  rw [lookup_find] at h
  cases hf : Spec.find l k with
  | none => rw [hf] at h; cases h
  | some e =>
    rw [hf] at h
    cases h
    obtain ⟨_, rfl⟩ := find_key hf
    rfl

theorem find_of_lookup_none {l : List (K × V)} {k : K} (h : Tpp.Spec.lookup l k = none) : Spec.find l k = none := by
  rw [lookup_find] at h
  cases hf : Spec.find l k with
  | none => rfl
  | some e => rw [hf] at h; cases h

/-- The address of a slot. -/
theorem elemAt_slotX {sz : Int} (hsz : 0 < sz) {t : OTable K V} {p : Nat} {e : K × V} (h : t.core.At p e) :
    t.elemAt sz (t.base + sz * (p : Int)) = .ok e := by
  obtain ⟨hp, n, hn, rfl⟩ := h
  exact elemAt_ok hsz hp hn

theorem elemAt_mem {sz : Int} {t : OTable K V} {a : Int} {e : K × V} (h : t.elemAt sz a = .ok e) :
    ∃ i n, t.slotOf sz a = some i ∧ i < t.core.cap ∧ t.core.node i = some n ∧ e = (n.key, n.val) ∧ e ∈ t.core.contents := by
  unfold OTable.elemAt at h
  cases hs : t.slotOf sz a with
  | none => rw [hs] at h; cases h
  | some i =>
    rw [hs] at h
    obtain ⟨n, h1, h⟩ := Dense.bind_eq_ok h
    cases h
    obtain ⟨hi, hn⟩ := Swiss.readNode_eq h1
    exact ⟨i, n, rfl, hi, hn, rfl, List.mem_map.mpr ⟨n, mem_collect.mpr ⟨i, hi, hn⟩, rfl⟩⟩

/-- `insert`, whatever the links are. -/
theorem insert_index (hsz : 0 < c.sz) (h : Inv c.isa c.hash t.core) {k : K} {v : V} {hint : Option Int}
    {r : Mem × OTable K V × Int × Bool} (e : t.insert c m k v hint = .ok r) :
    Inv c.isa c.hash r.2.1.core ∧ r.2.1.core.contents.Perm (Spec.insert t.core.contents k v).1 ∧
      r.2.1.elemAt c.sz r.2.2.1 = .ok (Spec.insert t.core.contents k v).2.1 ∧ r.2.2.2 = (Spec.insert t.core.contents k v).2.2 := by
  unfold OTable.insert OTable.insertWith at e
  obtain ⟨t', p, b, h1, hi, _, hc⟩ := Swiss.insert_spec (fresh_inv h) k v
  simp only [h1, bind_ok] at e
  obtain ⟨g, _, e⟩ := Dense.bind_eq_ok e
  obtain ⟨m', _, e⟩ := Dense.bind_eq_ok e
  cases e
  unfold Spec.insert
  rcases hc with ⟨rfl, hl, hp, ha, _⟩ | ⟨w, rfl, hl, rfl, ha⟩
  · rw [find_of_lookup_none (show Tpp.Spec.lookup t.core.contents k = none from hl)]
    exact ⟨hi, hp.trans (List.perm_append_singleton _ _).symm, elemAt_slotX (t := { t with core := t', base := g.2 }) hsz ha, rfl⟩
  · rw [find_of_lookup (show Tpp.Spec.lookup t.core.contents k = some w from hl)]
    exact ⟨hi, List.Perm.refl _, elemAt_slotX (t := { t with core := fresh t.core, base := g.2 }) hsz ha, rfl⟩

/-- `insert_or_assign`, whatever the links are. -/
theorem assign_index (hsz : 0 < c.sz) (h : Inv c.isa c.hash t.core) {k : K} {v : V} {hint : Option Int}
    {r : Mem × OTable K V × Int × Bool} (e : t.assign c m k v hint = .ok r) :
    Inv c.isa c.hash r.2.1.core ∧ r.2.1.core.contents.Perm (Spec.assign t.core.contents k v).1 ∧
      r.2.1.elemAt c.sz r.2.2.1 = .ok (Spec.assign t.core.contents k v).2.1 ∧ r.2.2.2 = (Spec.assign t.core.contents k v).2.2 := by
  unfold OTable.assign OTable.insertWith at e
  obtain ⟨t', p, b, h1, hi, _, hc⟩ := Swiss.insertOrAssignWith_spec (fresh_inv h) k v (fun _ => v)
  have h1 : (fresh t.core).insertOrAssign c.isa c.hash k v = .ok (t', p, b) := h1
  simp only [h1, bind_ok] at e
  obtain ⟨g, _, e⟩ := Dense.bind_eq_ok e
  obtain ⟨m', _, e⟩ := Dense.bind_eq_ok e
  cases e
  unfold Spec.assign
  rcases hc with ⟨rfl, hl, hp, ha, _⟩ | ⟨w, rfl, hl, hp, ha, _⟩
  · rw [find_of_lookup_none (show Tpp.Spec.lookup t.core.contents k = none from hl)]
    exact ⟨hi, hp.trans (List.perm_append_singleton _ _).symm, elemAt_slotX (t := { t with core := t', base := g.2 }) hsz ha, rfl⟩
  · rw [find_of_lookup (show Tpp.Spec.lookup t.core.contents k = some w from hl)]
    refine ⟨hi, hp.trans ?_, elemAt_slotX (t := { t with core := t', base := g.2 }) hsz ha, rfl⟩
    have hmem := (find_key (find_of_lookup (show Tpp.Spec.lookup t.core.contents k = some w from hl))).1
    have hu : Spec.Uniq t.core.contents := h.contents_uniq
    obtain ⟨s1, s2, hs⟩ := List.append_of_mem hmem
    change List.Perm ((k, v) :: Spec.erase t.core.contents k) (t.core.contents.map fun e => if e.1 = k then (k, v) else e)
    rw [hs] at hu ⊢
    rw [show Spec.erase (s1 ++ (k, w) :: s2) k = s1 ++ s2 from erase_split hu]
    obtain ⟨n1, n2⟩ := split_uniq hu
    rw [List.map_append, List.map_cons, if_pos rfl]
    have m1 : s1.map (fun e => if e.1 = k then (k, v) else e) = s1 := by
      conv_rhs => rw [← List.map_id s1]
      exact List.map_congr_left fun e he => if_neg (n1 e he)
    have m2 : s2.map (fun e => if e.1 = k then (k, v) else e) = s2 := by
      conv_rhs => rw [← List.map_id s2]
      exact List.map_congr_left fun e he => if_neg (n2 e he)
    rw [m1, m2]
    exact List.perm_middle.symm

/-- Erasing a slot only ends normally if the slot holds an element. -/
theorem eraseNode_occ (h : Inv c.isa c.hash t.core) {pos : Nat} {x : Table K V} (e : (fresh t.core).eraseNode c.isa pos = .ok x) :
    ∃ n y, pos < t.core.cap ∧ t.core.node pos = some n ∧ x = { fresh t.core with ctl := y, size := t.core.size - 1 } ∧
      Inv c.isa c.hash { fresh t.core with ctl := y, size := t.core.size - 1, node := upd t.core.node pos none } ∧
      t.core.contents.Perm ((n.key, n.val) ::
        ({ fresh t.core with ctl := y, size := t.core.size - 1, node := upd t.core.node pos none } : Table K V).contents) := by
  have hp : pos < t.core.cap := by
    by_contra hp
    unfold Table.eraseNode at e
    rw [if_neg (show ¬ pos < (fresh t.core).cap from hp)] at e
    cases e
  have ho : (t.core.ctl pos).isOccupied = true := by
    by_contra ho
    unfold Table.eraseNode at e
    rw [if_pos (show pos < (fresh t.core).cap from hp)] at e
    obtain ⟨q, h1, e⟩ := Dense.bind_eq_ok e
    have h1 := Swiss.readCtl_eq h1
    subst h1
    rw [if_neg (show ¬ ((fresh t.core).ctl pos).isOccupied = true from ho)] at e
    cases e
  have hs := h.live pos hp
  rw [ho] at hs
  obtain ⟨n, hn⟩ := Option.isSome_iff_exists.mp hs
  obtain ⟨y, e1, h1, h2, h3⟩ := Swiss.eraseNode_spec (fresh_inv h) (show pos < (fresh t.core).cap from hp)
    (show (fresh t.core).node pos = some n from hn)
  rw [e1] at e
  cases e
  refine ⟨n, y, hp, hn, rfl, Swiss.doErase_inv (fresh_inv h) (show pos < (fresh t.core).cap from hp)
    (show (fresh t.core).node pos = some n from hn) h1 h2, ?_⟩
  exact (collect_fill (f := upd t.core.node pos none) (g := t.core.node) hp (by simp) hn (fun j _ hne => (upd_ne _ _ hne).symm)).map
    fun n : Node K V => (n.key, n.val)

/-- What erasing at a slot does to the elements. -/
theorem doErase_index (h : Inv c.isa c.hash t.core) {pos : Nat} {r : Mem × OTable K V × Int} (e : t.doErase c m pos = .ok r) :
    Inv c.isa c.hash r.2.1.core ∧ r.2.1.hd = t.hd ∧
      ∃ n, pos < t.core.cap ∧ t.core.node pos = some n ∧ t.core.contents.Perm ((n.key, n.val) :: r.2.1.core.contents) := by
  unfold OTable.doErase at e
  obtain ⟨g, _, e⟩ := Dense.bind_eq_ok e
  obtain ⟨x, h1, e⟩ := Dense.bind_eq_ok e
  cases e
  unfold OTable.eraseCore at h1
  obtain ⟨x', h3, h2⟩ := Dense.bind_eq_ok h1
  obtain ⟨n, y, hp, hn, rfl, hI, hperm⟩ := eraseNode_occ h h3
  obtain ⟨_, _, rfl⟩ := Swiss.destroy_eq h2
  exact ⟨hI, rfl, n, hp, hn, hperm⟩

/-- What extracting at a slot does to the elements. -/
theorem extractAt_index (h : Inv c.isa c.hash t.core) {pos : Nat} {r : Mem × OTable K V × Node K V} (e : t.extractAt c m pos = .ok r) :
    Inv c.isa c.hash r.2.1.core ∧ pos < t.core.cap ∧ t.core.node pos = some r.2.2 ∧
      t.core.contents.Perm ((r.2.2.key, r.2.2.val) :: r.2.1.core.contents) := by
  unfold OTable.extractAt at e
  obtain ⟨g, _, e⟩ := Dense.bind_eq_ok e
  obtain ⟨x, h0, e⟩ := Dense.bind_eq_ok e
  cases e
  unfold OTable.extractCore at h0
  obtain ⟨x', h1, h0⟩ := Dense.bind_eq_ok h0
  obtain ⟨n', h2, h0⟩ := Dense.bind_eq_ok h0
  obtain ⟨x'', h3, h0⟩ := Dense.bind_eq_ok h0
  cases h0
  obtain ⟨n, y, hp, hn, rfl, hI, hperm⟩ := eraseNode_occ h h1
  obtain ⟨_, _, rfl⟩ := Swiss.destroy_eq h3
  obtain ⟨_, hn'⟩ := Swiss.readNode_eq h2
  have hn' : t.core.node pos = some n' := hn'
  rw [hn] at hn'
  cases hn'
  exact ⟨hI, hp, hn, hperm⟩

/-- The element taken out by an iterator. -/
theorem eraseIter_index (h : Inv c.isa c.hash t.core) {a : Int} {r : Mem × OTable K V × Int} (e : t.eraseIter c m a = .ok r) :
    Inv c.isa c.hash r.2.1.core ∧ r.2.1.hd = t.hd ∧ ((a = t.hd ∧ r = (m, t, t.hd)) ∨
      ∃ x, t.elemAt c.sz a = .ok x ∧ t.core.contents.Perm (x :: r.2.1.core.contents)) := by
  unfold OTable.eraseIter at e
  by_cases ha : a = t.hd
  · rw [if_pos ha] at e
    cases e
    exact ⟨h, rfl, Or.inl ⟨ha, rfl⟩⟩
  · rw [if_neg ha] at e
    cases hs : t.slotOf c.sz a with
    | none => rw [hs] at e; cases e
    | some pos =>
      rw [hs] at e
      obtain ⟨h1, h2, n, hp, hn, h3⟩ := doErase_index h e
      refine ⟨h1, h2, Or.inr ⟨_, ?_, h3⟩⟩
      unfold OTable.elemAt
      rw [hs]
      simp only [Swiss.readNode_some hp hn, bind_ok]

theorem perm_erase {l l' : List (K × V)} {e : K × V} (hu : Spec.Uniq l) (h : l.Perm (e :: l')) : l'.Perm (Spec.erase l e.1) := by
  have h1 : (Spec.erase l e.1).Perm (Spec.erase (e :: l') e.1) := h.filter _
  have hu' : Spec.Uniq (e :: l') := (h.map Prod.fst).nodup_iff.mp hu
  have := erase_split (s1 := []) (s2 := l') (e := e) hu'
  rw [List.nil_append, List.nil_append] at this
  rw [this] at h1
  exact h1.symm

theorem mem_find {l : List (K × V)} (hu : Spec.Uniq l) {e : K × V} (he : e ∈ l) : Spec.find l e.1 = some e := find_some hu he

/-- `erase(key)`, whatever the links are. -/
theorem erase_index (h : Inv c.isa c.hash t.core) {k : K} {r : Mem × OTable K V × Int} (e : t.erase c m k = .ok r) :
    Inv c.isa c.hash r.2.1.core ∧ r.2.1.core.contents.Perm (Spec.erase t.core.contents k) := by
  unfold OTable.erase at e
  rcases Swiss.find_cases h k with ⟨i, n, hi, hn, hk, hf, hl⟩ | ⟨hno, hf, hl⟩
  · rw [hf, bind_ok, if_neg (by omega)] at e
    obtain ⟨h1, _, n', _, hn', h2⟩ := doErase_index h e
    rw [hn] at hn'
    cases hn'
    refine ⟨h1, ?_⟩
    have := perm_erase h.contents_uniq h2
    simp only [hk] at this
    exact this
  · rw [hf, bind_ok, if_pos rfl] at e
    cases e
    exact ⟨h, by rw [erase_absent (find_of_lookup_none hl)]⟩

/-- `extract(key)`, whatever the links are. -/
theorem extract_index (h : Inv c.isa c.hash t.core) {k : K} {r : Mem × OTable K V × Option (K × V)} (e : t.extract c m k = .ok r) :
    Inv c.isa c.hash r.2.1.core ∧ r.2.1.core.contents.Perm (Spec.erase t.core.contents k) ∧ r.2.2 = Spec.find t.core.contents k := by
  unfold OTable.extract at e
  rcases Swiss.find_cases h k with ⟨i, n, hi, hn, hk, hf, hl⟩ | ⟨hno, hf, hl⟩
  · rw [hf, bind_ok, if_neg (by omega)] at e
    obtain ⟨x, h1, e⟩ := Dense.bind_eq_ok e
    cases e
    obtain ⟨h1, _, hn', h2⟩ := extractAt_index h h1
    rw [hn] at hn'
    cases hn'
    have := perm_erase h.contents_uniq h2
    simp only [hk] at this
    refine ⟨h1, this, ?_⟩
    rw [find_of_lookup hl, hk]
  · rw [hf, bind_ok, if_pos rfl] at e
    cases e
    rw [find_of_lookup_none hl]
    exact ⟨h, by rw [erase_absent (find_of_lookup_none hl)], rfl⟩

/-- `reserve`, whatever the links are. -/
theorem reserve_index (h : Inv c.isa c.hash t.core) {n : Nat} {r : Mem × OTable K V} (e : t.reserve c m n = .ok r) :
    Inv c.isa c.hash r.2.core ∧ r.2.core.contents.Perm t.core.contents ∧ r.2.hd = t.hd := by
  unfold OTable.reserve at e
  obtain ⟨t', h1, hi, _, hp, _⟩ := Swiss.reserve_spec (fresh_inv h) n
  rw [h1, bind_ok] at e
  obtain ⟨g, _, e⟩ := Dense.bind_eq_ok e
  cases e
  exact ⟨hi, hp.map _, rfl⟩

/-- `rehash`, whatever the links are. -/
theorem rehash_index (h : Inv c.isa c.hash t.core) {n : Nat} (hn : n ≠ 0) {r : Mem × OTable K V} (e : t.rehash c m n = .ok r) :
    Inv c.isa c.hash r.2.core ∧ r.2.core.contents.Perm t.core.contents := by
  unfold OTable.rehash at e
  obtain ⟨t', h1, hi, _, hp, _⟩ := Swiss.rehash_spec (fresh_inv h) hn
  rw [h1, bind_ok] at e
  obtain ⟨g, _, e⟩ := Dense.bind_eq_ok e
  cases e
  exact ⟨hi, hp.map _⟩

/-- `clear`, whatever the links are. -/
theorem clear_index (h : Inv c.isa c.hash t.core) {r : Mem × OTable K V} (e : t.clear c m = .ok r) :
    Inv c.isa c.hash r.2.core ∧ r.2.core.contents = [] := by
  unfold OTable.clear at e
  obtain ⟨t', h1, hi, _, _, hp, _⟩ := Swiss.clear_spec h
  obtain ⟨m', _, e⟩ := Dense.bind_eq_ok e
  rw [h1, bind_ok] at e
  cases e
  exact ⟨hi, hp⟩

theorem insert_perm {l l' : List (K × V)} (hu : Spec.Uniq l) (h : l'.Perm l) (k : K) (v : V) :
    (Spec.insert l' k v).1.Perm (Spec.insert l k v).1 := by
  have hu' : Spec.Uniq l' := (h.map Prod.fst).nodup_iff.mpr hu
  unfold Spec.insert
  cases hf : Spec.find l k with
  | some e =>
    obtain ⟨hm, rfl⟩ := find_key hf
    rw [mem_find hu' (h.mem_iff.mpr hm)]
    exact h
  | none =>
    rw [find_none (s := l') (k := k)]
    · exact h.append_right _
    · intro e he hk
      subst hk
      rw [mem_find hu (h.mem_iff.mp he)] at hf
      cases hf

theorem insert_uniq {l : List (K × V)} (hu : Spec.Uniq l) (k : K) (v : V) : Spec.Uniq (Spec.insert l k v).1 := by
  unfold Spec.insert
  cases hf : Spec.find l k with
  | some e => exact hu
  | none =>
    unfold Spec.Uniq
    rw [List.map_append]
    refine List.nodup_append.mpr ⟨hu, by simp, ?_⟩
    intro a ha b hb hab
    simp only [List.map_cons, List.map_nil, List.mem_singleton] at hb
    subst hb hab
    obtain ⟨e, he, hek⟩ := List.mem_map.mp ha
    rw [← hek, mem_find hu he] at hf
    cases hf

/-- `insert(first, last)`, whatever the links are. -/
theorem insertAll_index (hsz : 0 < c.sz) : ∀ (xs : List (K × V)) {s r : Mem × OTable K V} {l : List (K × V)}, Inv c.isa c.hash s.2.core →
    s.2.core.contents.Perm l →
    xs.foldlM (fun (s : Mem × OTable K V) (x : K × V) => do
      let r ← s.2.insert c s.1 x.1 x.2
      .ok (r.1, r.2.1)) s = .ok r →
    Inv c.isa c.hash r.2.core ∧ r.2.core.contents.Perm (xs.foldl (fun l x => (Spec.insert l x.1 x.2).1) l)
  | [], s, r, l, h, hp, e => by
    rw [List.foldlM_nil] at e
    cases e
    exact ⟨h, hp⟩
  | x :: xs, s, r, l, h, hp, e => by
    rw [List.foldlM_cons] at e
    obtain ⟨s', h0, e⟩ := Dense.bind_eq_ok e
    obtain ⟨q, h1, h2⟩ := Dense.bind_eq_ok h0
    cases h2
    obtain ⟨i1, p1, _⟩ := insert_index hsz h h1
    have hu : Spec.Uniq l := (hp.map Prod.fst).nodup_iff.mp h.contents_uniq
    exact insertAll_index hsz xs i1 (p1.trans (insert_perm hu hp x.1 x.2)) e

theorem insertRange_index (hsz : 0 < c.sz) (h : Inv c.isa c.hash t.core) {ra : Bool} {xs : List (K × V)} {r : Mem × OTable K V}
    (e : t.insertRange c m ra xs = .ok r) :
    Inv c.isa c.hash r.2.core ∧ r.2.core.contents.Perm (xs.foldl (fun l x => (Spec.insert l x.1 x.2).1) t.core.contents) := by
  unfold OTable.insertRange at e
  obtain ⟨s, h1, e'⟩ := Dense.bind_eq_ok e
  cases ra with
  | true =>
    obtain ⟨i1, p1, _⟩ := reserve_index h h1
    exact insertAll_index hsz xs i1 p1 e'
  | false =>
    cases h1
    exact insertAll_index hsz xs h (List.Perm.refl _) e'

/-- `erase(first, last)`, whatever the links are. -/
theorem eraseRange_index {first : Int} : ∀ (fuel : Nat) {m : Mem} {t : OTable K V} {last result : Int} {r : Mem × OTable K V × Int},
    Inv c.isa c.hash t.core → t.eraseRange c first fuel m last result = .ok r →
    Inv c.isa c.hash r.2.1.core ∧ ∃ s, t.core.contents.Perm (s ++ r.2.1.core.contents)
  | 0, _, _, _, _, _, _, e => by cases e
  | fuel + 1, m, t, last, result, r, h, e => by
    unfold OTable.eraseRange at e
    by_cases hl : last = first
    · rw [if_pos hl] at e
      cases e
      exact ⟨h, [], List.Perm.refl _⟩
    · rw [if_neg hl] at e
      obtain ⟨p, _, e⟩ := Dense.bind_eq_ok e
      obtain ⟨q, h1, e⟩ := Dense.bind_eq_ok e
      obtain ⟨i1, _, hc⟩ := eraseIter_index h h1
      obtain ⟨i2, s, p2⟩ := eraseRange_index fuel i1 e
      refine ⟨i2, ?_⟩
      rcases hc with ⟨_, rfl⟩ | ⟨x, _, p1⟩
      · exact ⟨s, p2⟩
      · exact ⟨x :: s, p1.trans (p2.cons x)⟩

/-- `erase_if`, whatever the links are. -/
theorem eraseIf_index {p : K × V → Bool} : ∀ (fuel : Nat) {m : Mem} {t : OTable K V} {a : Int} {n : Nat} {r : Mem × OTable K V × Nat},
    Inv c.isa c.hash t.core → OTable.eraseIf c p fuel m t a n = .ok r →
    Inv c.isa c.hash r.2.1.core ∧ ∃ s, t.core.contents.Perm (s ++ r.2.1.core.contents) ∧ (∀ e ∈ s, p e = true) ∧ r.2.2 = n + s.length
  | 0, _, _, _, _, _, _, e => by cases e
  | fuel + 1, m, t, a, n, r, h, e => by
    unfold OTable.eraseIf at e
    by_cases ha : a = t.hd
    · rw [if_pos ha] at e
      cases e
      exact ⟨h, [], List.Perm.refl _, by simp, rfl⟩
    · rw [if_neg ha] at e
      obtain ⟨x, hx, e⟩ := Dense.bind_eq_ok e
      by_cases hp : p x = true
      · rw [if_pos hp] at e
        obtain ⟨q, h1, e⟩ := Dense.bind_eq_ok e
        obtain ⟨i1, _, hc⟩ := eraseIter_index h h1
        obtain ⟨i2, s, p2, hs, hn⟩ := eraseIf_index fuel i1 e
        rcases hc with ⟨hc, _⟩ | ⟨y, hy, p1⟩
        · exact absurd hc ha
        · rw [hx] at hy
          cases hy
          refine ⟨i2, x :: s, p1.trans (p2.cons x), ?_, by rw [hn, List.length_cons]; omega⟩
          intro z hz
          rcases List.mem_cons.mp hz with rfl | hz
          · exact hp
          · exact hs z hz
      · rw [if_neg hp] at e
        obtain ⟨b, _, e⟩ := Dense.bind_eq_ok e
        exact eraseIf_index fuel h e

/-- A walk meets elements only. -/
theorem walk_index {hd : Int} : ∀ (fuel : Nat) {a : Int} {l : List (K × V)}, walk m hd (t.elemAt c.sz) fuel a = .ok l →
    ∀ x ∈ l, x ∈ t.core.contents
  | 0, _, _, e => by cases e
  | fuel + 1, a, l, e => by
    unfold walk at e
    by_cases ha : a = hd
    · rw [if_pos ha] at e
      cases e
      simp
    · rw [if_neg ha] at e
      obtain ⟨x, hx, e⟩ := Dense.bind_eq_ok e
      obtain ⟨b, _, e⟩ := Dense.bind_eq_ok e
      obtain ⟨l', h1, e⟩ := Dense.bind_eq_ok e
      cases e
      intro y hy
      rcases List.mem_cons.mp hy with rfl | hy
      · obtain ⟨_, _, _, _, _, _, hm⟩ := elemAt_mem hx
        exact hm
      · exact walk_index fuel h1 y hy

theorem rwalk_index {b : Int} : ∀ (fuel : Nat) {a : Int} {l : List (K × V)}, rwalk m b (t.elemAt c.sz) fuel a = .ok l →
    ∀ x ∈ l, x ∈ t.core.contents
  | 0, _, _, e => by cases e
  | fuel + 1, a, l, e => by
    unfold rwalk at e
    by_cases ha : a = b
    · rw [if_pos ha] at e
      cases e
      simp
    · rw [if_neg ha] at e
      obtain ⟨q, _, e⟩ := Dense.bind_eq_ok e
      obtain ⟨x, hx, e⟩ := Dense.bind_eq_ok e
      obtain ⟨l', h1, e⟩ := Dense.bind_eq_ok e
      cases e
      intro y hy
      rcases List.mem_cons.mp hy with rfl | hy
      · obtain ⟨_, _, _, _, _, _, hm⟩ := elemAt_mem hx
        exact hm
      · exact rwalk_index fuel h1 y hy

/-! ## The header lies outside the array -/

/-- The header of the container is an object of its own, and no node of the array. -/
def Sep (c : Cfg K) (m : Mem) (t : OTable K V) : Prop := t.hd ∈ m.live ∧ t.hd ∉ slots c.sz t.base t.core.cap

section Live

variable {m m' : Mem}

theorem write_live {a : Int} {l : Link} (e : m.write a l = .ok m') : m'.live = m.live := by
  unfold Mem.write at e
  split at e
  · cases e; rfl
  · cases e

theorem setNext_live {a v : Int} (e : m.setNext a v = .ok m') : m'.live = m.live := by
  unfold Mem.setNext at e
  obtain ⟨l, _, e⟩ := Dense.bind_eq_ok e
  exact write_live e

theorem setPrev_live {a v : Int} (e : m.setPrev a v = .ok m') : m'.live = m.live := by
  unfold Mem.setPrev at e
  obtain ⟨l, _, e⟩ := Dense.bind_eq_ok e
  exact write_live e

theorem linkAfter_live {a p : Int} (e : m.linkAfter a p = .ok m') : m'.live = m.live := by
  unfold Mem.linkAfter at e
  obtain ⟨n, _, e⟩ := Dense.bind_eq_ok e
  unfold Mem.link2 at e
  obtain ⟨m1, h1, e⟩ := Dense.bind_eq_ok e
  obtain ⟨m2, h2, e⟩ := Dense.bind_eq_ok e
  obtain ⟨l, _, e⟩ := Dense.bind_eq_ok e
  obtain ⟨m3, h3, e⟩ := Dense.bind_eq_ok e
  obtain ⟨l, _, e⟩ := Dense.bind_eq_ok e
  rw [setNext_live e, setPrev_live h3, setPrev_live h2, setNext_live h1]

theorem relinkNext_live {a b : Int} (e : m.relinkNext a b = .ok m') : m'.live = m.live := by
  unfold Mem.relinkNext at e
  obtain ⟨l, _, e⟩ := Dense.bind_eq_ok e
  split at e
  · obtain ⟨m1, h1, e⟩ := Dense.bind_eq_ok e
    obtain ⟨m2, h2, e⟩ := Dense.bind_eq_ok e
    rw [setPrev_live e, setNext_live h2, setNext_live h1]
  · cases e; rfl

theorem relinkPrev_live {a b : Int} (e : m.relinkPrev a b = .ok m') : m'.live = m.live := by
  unfold Mem.relinkPrev at e
  obtain ⟨l, _, e⟩ := Dense.bind_eq_ok e
  split at e
  · obtain ⟨m1, h1, e⟩ := Dense.bind_eq_ok e
    obtain ⟨m2, h2, e⟩ := Dense.bind_eq_ok e
    rw [setNext_live e, setPrev_live h2, setPrev_live h1]
  · cases e; rfl

theorem relinkFrom_live {a b : Int} (e : m.relinkFrom a b = .ok m') : m'.live = m.live := by
  unfold Mem.relinkFrom at e
  obtain ⟨m1, h1, e⟩ := Dense.bind_eq_ok e
  obtain ⟨m2, h2, e⟩ := Dense.bind_eq_ok e
  rw [relinkPrev_live e, relinkNext_live h2, write_live h1]

theorem unlink_live {a : Int} (e : m.unlink a = .ok m') : m'.live = m.live := by
  unfold Mem.unlink at e
  obtain ⟨l, _, e⟩ := Dense.bind_eq_ok e
  obtain ⟨m2, h2, e⟩ := Dense.bind_eq_ok e
  rw [setNext_live e, setPrev_live h2]

theorem rawSwap_live {a b : Int} (e : m.rawSwap a b = .ok m') : m'.live = m.live := by
  unfold Mem.rawSwap at e
  obtain ⟨l, _, e⟩ := Dense.bind_eq_ok e
  obtain ⟨l', _, e⟩ := Dense.bind_eq_ok e
  obtain ⟨m2, h2, e⟩ := Dense.bind_eq_ok e
  rw [write_live e, write_live h2]

theorem replayEv_live {sz : Int} {st : Bool} {old new : Int} {ev : Ev} (e : replayEv sz st old new m ev = .ok m') : m'.live = m.live := by
  cases ev with
  | grow n => cases e; rfl
  | rel i j => exact relinkFrom_live e
  | mv i j => exact relinkFrom_live e
  | swp i j =>
    unfold replayEv at e
    cases st with
    | true => cases e
    | false => exact rawSwap_live e

theorem replayAll_live {sz : Int} {st : Bool} {old new : Int} : ∀ {es : List Ev} {m m' : Mem},
    es.foldlM (replayEv sz st old new) m = .ok m' → m'.live = m.live
  | [], _, _, e => by rw [List.foldlM_nil] at e; cases e; rfl
  | ev :: es, _, _, e => by
    rw [List.foldlM_cons] at e
    obtain ⟨m1, h1, e⟩ := Dense.bind_eq_ok e
    rw [replayAll_live e, replayEv_live h1]

theorem insertLink_live {hd a : Int} {hint : Option Int} (e : OTable.insertLink m hd a hint = .ok m') : m'.live = m.live := by
  cases hint with
  | some h => exact linkAfter_live e
  | none =>
    unfold OTable.insertLink at e
    obtain ⟨p, _, e⟩ := Dense.bind_eq_ok e
    exact linkAfter_live e

end Live

/-- The header stays outside when the nodes are moved. -/
theorem replay_sep (hA : c.A.Sound c.sz) (h : Sep c m t) {x t1 : Table K V} (hm : Made (fresh t.core) t1) (hl : x.log = t1.log)
    (hc : x.cap = t1.cap) {g : Mem × Int} (e : t.replay c m x.log.reverse = .ok g) : Sep c g.1 { t with core := x, base := g.2 } := by
  rw [hl] at e
  unfold Sep
  rw [hc]
  rcases hm with ⟨n, js, d, e1, e2, _, _⟩ | ⟨es, e1, e2, e3⟩
  · rw [e1] at e
    simp only [fresh, List.reverse_append, List.reverse_reverse, List.reverse_cons, List.reverse_nil, List.nil_append, List.append_assoc,
      List.singleton_append] at e
    unfold OTable.replay at e
    simp only at e
    obtain ⟨m1, h1, e⟩ := Dense.bind_eq_ok e
    obtain ⟨m2, h2, e⟩ := Dense.bind_eq_ok e
    cases e
    have hl1 := replayAll_live h1
    unfold Mem.free at h2
    split at h2
    · cases h2
      refine ⟨?_, ?_⟩
      · simp only [List.mem_filter, decide_eq_true_eq]
        refine ⟨?_, h.2⟩
        rw [hl1]
        exact List.mem_append_right _ h.1
      · rw [e2]
        intro hin
        exact hA _ _ _ _ hin h.1
    · cases h2
  · have hes : t1.log.reverse = es := by rw [e1]; simp [fresh]
    rw [hes, replay_steps e3] at e
    obtain ⟨m1, h1, e⟩ := Dense.bind_eq_ok e
    cases e
    rw [e2]
    exact ⟨by rw [replayAll_live h1]; exact h.1, h.2⟩

theorem Sep.live (h : Sep c m t) {m' : Mem} (hl : m'.live = m.live) : Sep c m' t := ⟨by rw [hl]; exact h.1, h.2⟩

theorem Sep.core (h : Sep c m t) {x : Table K V} (hc : x.cap = t.core.cap) : Sep c m { t with core := x } :=
  ⟨h.1, by simp only [hc]; exact h.2⟩

/-- The header stays outside in an insertion. -/
theorem insertWith_sep (hA : c.A.Sound c.sz) (h : Sep c m t) {op : Table K V → M (Table K V × Nat × Bool)} {hint : Option Int}
    (hop : ∀ x p b, op (fresh t.core) = .ok (x, p, b) → ∃ t1, Made (fresh t.core) t1 ∧ x.log = t1.log ∧ x.cap = t1.cap)
    {r : Mem × OTable K V × Int × Bool} (e : t.insertWith c m op hint = .ok r) : Sep c r.1 r.2.1 := by
  unfold OTable.insertWith at e
  obtain ⟨⟨x, p, b⟩, h1, e⟩ := Dense.bind_eq_ok e
  obtain ⟨g, h2, e⟩ := Dense.bind_eq_ok e
  obtain ⟨m', h3, e⟩ := Dense.bind_eq_ok e
  cases e
  obtain ⟨t1, hm, hl, hc⟩ := hop x p b h1
  have := replay_sep hA h hm hl hc h2
  refine this.live ?_
  cases b with
  | true => exact insertLink_live h3
  | false => cases h3; rfl

theorem insert_made {isa : Isa} {hash : K → Nat} {t x : Table K V} {k : K} {v : V} {p : Nat} {b : Bool}
    (e : t.insert isa hash k v = .ok (x, p, b)) : ∃ t1, Made t t1 ∧ x.log = t1.log ∧ x.cap = t1.cap := by
  unfold Table.insert at e
  simp only at e
  obtain ⟨pos, _, e⟩ := Dense.bind_eq_ok e
  split at e
  · obtain ⟨⟨a, q⟩, h1, e⟩ := Dense.bind_eq_ok e
    cases e
    obtain ⟨t1, hm, _, _, _, hc, hl⟩ := Swiss.emplaceNode_log h1
    exact ⟨t1, hm, hl, hc⟩
  · cases e
    exact ⟨_, Or.inr (.refl _), rfl, rfl⟩

theorem assign_made {isa : Isa} {hash : K → Nat} {t x : Table K V} {k : K} {v : V} {p : Nat} {b : Bool}
    (e : t.insertOrAssign isa hash k v = .ok (x, p, b)) : ∃ t1, Made t t1 ∧ x.log = t1.log ∧ x.cap = t1.cap := by
  unfold Table.insertOrAssign Table.insertOrAssignWith at e
  simp only at e
  obtain ⟨pos, _, e⟩ := Dense.bind_eq_ok e
  split at e
  · obtain ⟨⟨a, q⟩, h1, e⟩ := Dense.bind_eq_ok e
    cases e
    obtain ⟨t1, hm, _, _, _, hc, hl⟩ := Swiss.emplaceNode_log h1
    exact ⟨t1, hm, hl, hc⟩
  · obtain ⟨n, h1, e⟩ := Dense.bind_eq_ok e
    cases e
    exact ⟨_, Or.inr (.refl _), rfl, rfl⟩

theorem insert_sep (hA : c.A.Sound c.sz) (h : Sep c m t) {k : K} {v : V} {hint : Option Int} {r : Mem × OTable K V × Int × Bool}
    (e : t.insert c m k v hint = .ok r) : Sep c r.1 r.2.1 := insertWith_sep hA h (fun _ _ _ q => insert_made q) e

theorem assign_sep (hA : c.A.Sound c.sz) (h : Sep c m t) {k : K} {v : V} {hint : Option Int} {r : Mem × OTable K V × Int × Bool}
    (e : t.assign c m k v hint = .ok r) : Sep c r.1 r.2.1 := insertWith_sep hA h (fun _ _ _ q => assign_made q) e

theorem eraseNode_cap' {isa : Isa} {t x : Table K V} {pos : Nat} (e : t.eraseNode isa pos = .ok x) : x.cap = t.cap := by
  unfold Table.eraseNode at e
  split at e
  · obtain ⟨q, _, e⟩ := Dense.bind_eq_ok e
    split at e
    · obtain ⟨a, h1, e⟩ := Dense.bind_eq_ok e
      split at e
      · cases e
        exact (Swiss.setMetadata_node h1).2.1
      · cases e
    · cases e
  · cases e

theorem eraseLinks_live {pos : Nat} {r : Mem × Int} (e : t.eraseLinks c.sz m pos = .ok r) : r.1.live = m.live := by
  unfold OTable.eraseLinks at e
  obtain ⟨n, _, e⟩ := Dense.bind_eq_ok e
  obtain ⟨m', h1, e⟩ := Dense.bind_eq_ok e
  cases e
  exact unlink_live h1

theorem doErase_sep (h : Sep c m t) {pos : Nat} {r : Mem × OTable K V × Int} (e : t.doErase c m pos = .ok r) : Sep c r.1 r.2.1 := by
  unfold OTable.doErase at e
  obtain ⟨g, h1, e⟩ := Dense.bind_eq_ok e
  obtain ⟨x, h2, e⟩ := Dense.bind_eq_ok e
  cases e
  unfold OTable.eraseCore at h2
  obtain ⟨y, h3, h4⟩ := Dense.bind_eq_ok h2
  obtain ⟨_, _, rfl⟩ := Swiss.destroy_eq h4
  exact (h.live (eraseLinks_live h1)).core (show y.cap = (fresh t.core).cap from eraseNode_cap' h3)

theorem extractAt_sep (h : Sep c m t) {pos : Nat} {r : Mem × OTable K V × Node K V} (e : t.extractAt c m pos = .ok r) : Sep c r.1 r.2.1 := by
  unfold OTable.extractAt at e
  obtain ⟨g, h1, e⟩ := Dense.bind_eq_ok e
  obtain ⟨x, h2, e⟩ := Dense.bind_eq_ok e
  cases e
  unfold OTable.extractCore at h2
  obtain ⟨y, h3, h4⟩ := Dense.bind_eq_ok h2
  obtain ⟨n, _, h5⟩ := Dense.bind_eq_ok h4
  obtain ⟨z, h6, h7⟩ := Dense.bind_eq_ok h5
  cases h7
  obtain ⟨_, _, rfl⟩ := Swiss.destroy_eq h6
  exact (h.live (eraseLinks_live h1)).core (show y.cap = (fresh t.core).cap from eraseNode_cap' h3)

theorem eraseIter_sep (h : Sep c m t) {a : Int} {r : Mem × OTable K V × Int} (e : t.eraseIter c m a = .ok r) : Sep c r.1 r.2.1 := by
  unfold OTable.eraseIter at e
  split at e
  · cases e; exact h
  · split at e
    · cases e
    · exact doErase_sep h e

theorem extractIter_sep (h : Sep c m t) {a : Int} {r : Mem × OTable K V × Option (K × V)} (e : t.extractIter c m a = .ok r) :
    Sep c r.1 r.2.1 := by
  unfold OTable.extractIter at e
  split at e
  · cases e; exact h
  · split at e
    · cases e
    · obtain ⟨q, h1, e⟩ := Dense.bind_eq_ok e
      cases e
      exact extractAt_sep h h1

theorem reserve_sep (hA : c.A.Sound c.sz) (h : Sep c m t) {n : Nat} {r : Mem × OTable K V} (e : t.reserve c m n = .ok r) :
    Sep c r.1 r.2 := by
  unfold OTable.reserve at e
  obtain ⟨x, h1, e⟩ := Dense.bind_eq_ok e
  obtain ⟨g, h2, e⟩ := Dense.bind_eq_ok e
  cases e
  exact replay_sep hA h (Swiss.reserve_log h1) rfl rfl h2

theorem rehash_sep (hA : c.A.Sound c.sz) (h : Sep c m t) {n : Nat} {r : Mem × OTable K V} (e : t.rehash c m n = .ok r) :
    Sep c r.1 r.2 := by
  unfold OTable.rehash at e
  obtain ⟨x, h1, e⟩ := Dense.bind_eq_ok e
  obtain ⟨g, h2, e⟩ := Dense.bind_eq_ok e
  cases e
  exact replay_sep hA h (Swiss.rehash_log h1) rfl rfl h2

theorem clear_sep (hI : Inv c.isa c.hash t.core) (h : Sep c m t) {r : Mem × OTable K V} (e : t.clear c m = .ok r) : Sep c r.1 r.2 := by
  unfold OTable.clear at e
  obtain ⟨m', h1, e⟩ := Dense.bind_eq_ok e
  obtain ⟨x, h2, hi, hc, _⟩ := Swiss.clear_spec hI
  rw [h2, bind_ok] at e
  cases e
  have hl : m'.live = m.live := by
    split at h1
    · exact write_live h1
    · cases h1; rfl
  exact (h.live hl).core hc

theorem insertAll_sep (hA : c.A.Sound c.sz) : ∀ (xs : List (K × V)) {s r : Mem × OTable K V}, Sep c s.1 s.2 →
    xs.foldlM (fun (s : Mem × OTable K V) (x : K × V) => do
      let r ← s.2.insert c s.1 x.1 x.2
      .ok (r.1, r.2.1)) s = .ok r → Sep c r.1 r.2
  | [], s, r, h, e => by
    rw [List.foldlM_nil] at e
    cases e
    exact h
  | x :: xs, s, r, h, e => by
    rw [List.foldlM_cons] at e
    obtain ⟨s', h0, e⟩ := Dense.bind_eq_ok e
    obtain ⟨q, h1, h2⟩ := Dense.bind_eq_ok h0
    cases h2
    exact insertAll_sep hA xs (insert_sep hA h h1) e

theorem insertRange_sep (hA : c.A.Sound c.sz) (h : Sep c m t) {ra : Bool} {xs : List (K × V)} {r : Mem × OTable K V}
    (e : t.insertRange c m ra xs = .ok r) : Sep c r.1 r.2 := by
  unfold OTable.insertRange at e
  obtain ⟨s, h1, e'⟩ := Dense.bind_eq_ok e
  cases ra with
  | true => exact insertAll_sep hA xs (reserve_sep hA h h1) e'
  | false => cases h1; exact insertAll_sep hA xs h e'

theorem eraseRange_sep {first : Int} : ∀ (fuel : Nat) {m : Mem} {t : OTable K V} {last result : Int} {r : Mem × OTable K V × Int},
    Sep c m t → t.eraseRange c first fuel m last result = .ok r → Sep c r.1 r.2.1
  | 0, _, _, _, _, _, _, e => by cases e
  | fuel + 1, m, t, last, result, r, h, e => by
    unfold OTable.eraseRange at e
    split at e
    · cases e; exact h
    · obtain ⟨p, _, e⟩ := Dense.bind_eq_ok e
      obtain ⟨q, h1, e⟩ := Dense.bind_eq_ok e
      exact eraseRange_sep fuel (eraseIter_sep h h1) e

theorem eraseIf_sep {p : K × V → Bool} : ∀ (fuel : Nat) {m : Mem} {t : OTable K V} {a : Int} {n : Nat} {r : Mem × OTable K V × Nat},
    Sep c m t → OTable.eraseIf c p fuel m t a n = .ok r → Sep c r.1 r.2.1
  | 0, _, _, _, _, _, _, e => by cases e
  | fuel + 1, m, t, a, n, r, h, e => by
    unfold OTable.eraseIf at e
    split at e
    · cases e; exact h
    · obtain ⟨x, _, e⟩ := Dense.bind_eq_ok e
      split at e
      · obtain ⟨q, h1, e⟩ := Dense.bind_eq_ok e
        exact eraseIf_sep fuel (eraseIter_sep h h1) e
      · obtain ⟨b, _, e⟩ := Dense.bind_eq_ok e
        exact eraseIf_sep fuel h e

/-- The header stays outside the array in every operation. -/
theorem step_sep (hA : c.A.Sound c.sz) (hI : Inv c.isa c.hash t.core) (h : Sep c m t) {op : Op K V} {r : Mem × OTable K V × Out K V}
    (e : t.step c m op = .ok r) : Sep c r.1 r.2.1 := by
  cases op with
  | insert k v =>
    simp only [OTable.step] at e
    obtain ⟨q, h1, e⟩ := Dense.bind_eq_ok e
    obtain ⟨x, _, e⟩ := Dense.bind_eq_ok e
    cases e
    exact insert_sep hA h h1
  | assign k v =>
    simp only [OTable.step] at e
    obtain ⟨q, h1, e⟩ := Dense.bind_eq_ok e
    obtain ⟨x, _, e⟩ := Dense.bind_eq_ok e
    cases e
    exact assign_sep hA h h1
  | index k d =>
    simp only [OTable.step] at e
    obtain ⟨q, h1, e⟩ := Dense.bind_eq_ok e
    obtain ⟨x, _, e⟩ := Dense.bind_eq_ok e
    cases e
    exact insert_sep hA h h1
  | erase k =>
    simp only [OTable.step] at e
    obtain ⟨q, h1, e⟩ := Dense.bind_eq_ok e
    obtain ⟨x, _, e⟩ := Dense.bind_eq_ok e
    cases e
    unfold OTable.erase at h1
    obtain ⟨pos, _, h1⟩ := Dense.bind_eq_ok h1
    split at h1
    · cases h1; exact h
    · exact doErase_sep h h1
  | eraseNth n =>
    simp only [OTable.step] at e
    split at e
    · obtain ⟨a, _, e⟩ := Dense.bind_eq_ok e
      obtain ⟨q, h1, e⟩ := Dense.bind_eq_ok e
      obtain ⟨x, _, e⟩ := Dense.bind_eq_ok e
      cases e
      exact eraseIter_sep h h1
    · cases e; exact h
  | eraseRange i j =>
    simp only [OTable.step] at e
    split at e
    · obtain ⟨a, _, e⟩ := Dense.bind_eq_ok e
      obtain ⟨b, _, e⟩ := Dense.bind_eq_ok e
      obtain ⟨q, h1, e⟩ := Dense.bind_eq_ok e
      cases e
      exact eraseRange_sep _ h h1
    · cases e; exact h
  | eraseIf p =>
    simp only [OTable.step] at e
    obtain ⟨a, _, e⟩ := Dense.bind_eq_ok e
    obtain ⟨q, h1, e⟩ := Dense.bind_eq_ok e
    cases e
    exact eraseIf_sep _ h h1
  | extract k =>
    simp only [OTable.step] at e
    obtain ⟨q, h1, e⟩ := Dense.bind_eq_ok e
    cases e
    unfold OTable.extract at h1
    obtain ⟨pos, _, h1⟩ := Dense.bind_eq_ok h1
    split at h1
    · cases h1; exact h
    · obtain ⟨y, h2, h1⟩ := Dense.bind_eq_ok h1
      cases h1
      exact extractAt_sep h h2
  | insertRange ra xs =>
    simp only [OTable.step] at e
    obtain ⟨q, h1, e⟩ := Dense.bind_eq_ok e
    cases e
    exact insertRange_sep hA h h1
  | assignRange ra xs =>
    simp only [OTable.step] at e
    obtain ⟨q, h1, e⟩ := Dense.bind_eq_ok e
    obtain ⟨q', h2, e⟩ := Dense.bind_eq_ok e
    cases e
    exact insertRange_sep hA (clear_sep hI h h1) h2
  | clear =>
    simp only [OTable.step] at e
    obtain ⟨q, h1, e⟩ := Dense.bind_eq_ok e
    cases e
    exact clear_sep hI h h1
  | reserve n =>
    simp only [OTable.step] at e
    obtain ⟨q, h1, e⟩ := Dense.bind_eq_ok e
    cases e
    exact reserve_sep hA h h1
  | rehash n =>
    simp only [OTable.step] at e
    obtain ⟨q, h1, e⟩ := Dense.bind_eq_ok e
    cases e
    exact rehash_sep hA h h1
  | find k =>
    simp only [OTable.step] at e
    obtain ⟨q, h1, e⟩ := Dense.bind_eq_ok e
    obtain ⟨x, _, e⟩ := Dense.bind_eq_ok e
    cases e
    exact h
  | contains k =>
    simp only [OTable.step] at e
    obtain ⟨q, h1, e⟩ := Dense.bind_eq_ok e
    cases e
    exact h
  | size => cases e; exact h
  | front =>
    simp only [OTable.step] at e
    split at e
    · cases e; exact h
    · obtain ⟨a, _, e⟩ := Dense.bind_eq_ok e
      obtain ⟨x, h1, e⟩ := Dense.bind_eq_ok e
      cases e
      exact h
  | back =>
    simp only [OTable.step] at e
    split at e
    · cases e; exact h
    · obtain ⟨a, _, e⟩ := Dense.bind_eq_ok e
      obtain ⟨x, h1, e⟩ := Dense.bind_eq_ok e
      cases e
      exact h
  | iterate =>
    simp only [OTable.step] at e
    obtain ⟨a, _, e⟩ := Dense.bind_eq_ok e
    obtain ⟨x, h1, e⟩ := Dense.bind_eq_ok e
    cases e
    exact h
  | reverse =>
    simp only [OTable.step] at e
    obtain ⟨a, _, e⟩ := Dense.bind_eq_ok e
    obtain ⟨x, h1, e⟩ := Dense.bind_eq_ok e
    cases e
    exact h

/-- Every operation, whatever the links are. -/
theorem step_index (hsz : 0 < c.sz) (h : Inv c.isa c.hash t.core) (hs : Sep c m t) {op : Op K V} {r : Mem × OTable K V × Out K V}
    (e : t.step c m op = .ok r) :
    Inv c.isa c.hash r.2.1.core ∧ Spec.Loose t.core.contents r.2.1.core.contents r.2.2 op := by
  cases op with
  | insert k v =>
    simp only [OTable.step] at e
    obtain ⟨q, h1, e⟩ := Dense.bind_eq_ok e
    obtain ⟨i1, p1, e1, b1⟩ := insert_index hsz h h1
    rw [e1, bind_ok] at e
    cases e
    exact ⟨i1, p1, by rw [b1]; rfl⟩
  | assign k v =>
    simp only [OTable.step] at e
    obtain ⟨q, h1, e⟩ := Dense.bind_eq_ok e
    obtain ⟨i1, p1, e1, b1⟩ := assign_index hsz h h1
    rw [e1, bind_ok] at e
    cases e
    exact ⟨i1, p1, by rw [b1]; rfl⟩
  | index k d =>
    simp only [OTable.step] at e
    obtain ⟨q, h1, e⟩ := Dense.bind_eq_ok e
    obtain ⟨i1, p1, e1, b1⟩ := insert_index hsz h h1
    rw [e1, bind_ok] at e
    cases e
    exact ⟨i1, p1, rfl⟩
  | erase k =>
    simp only [OTable.step] at e
    obtain ⟨q, h1, e⟩ := Dense.bind_eq_ok e
    obtain ⟨x, _, e⟩ := Dense.bind_eq_ok e
    cases e
    exact erase_index h h1
  | eraseNth n =>
    simp only [OTable.step] at e
    split at e
    · obtain ⟨a, _, e⟩ := Dense.bind_eq_ok e
      obtain ⟨q, h1, e⟩ := Dense.bind_eq_ok e
      obtain ⟨x, _, e⟩ := Dense.bind_eq_ok e
      cases e
      obtain ⟨i1, _, hc⟩ := eraseIter_index h h1
      refine ⟨i1, ?_⟩
      rcases hc with ⟨_, rfl⟩ | ⟨x, _, p1⟩
      · exact Or.inl (List.Perm.refl _)
      · exact Or.inr ⟨x, p1⟩
    · cases e
      exact ⟨h, Or.inl (List.Perm.refl _)⟩
  | eraseRange i j =>
    simp only [OTable.step] at e
    split at e
    · obtain ⟨a, _, e⟩ := Dense.bind_eq_ok e
      obtain ⟨b, _, e⟩ := Dense.bind_eq_ok e
      obtain ⟨q, h1, e⟩ := Dense.bind_eq_ok e
      cases e
      exact eraseRange_index _ h h1
    · cases e
      exact ⟨h, [], List.Perm.refl _⟩
  | eraseIf p =>
    simp only [OTable.step] at e
    obtain ⟨a, _, e⟩ := Dense.bind_eq_ok e
    obtain ⟨q, h1, e⟩ := Dense.bind_eq_ok e
    cases e
    obtain ⟨i1, s, p1, hs, hn⟩ := eraseIf_index _ h h1
    exact ⟨i1, s, p1, hs, by rw [hn, Nat.zero_add]⟩
  | extract k =>
    simp only [OTable.step] at e
    obtain ⟨q, h1, e⟩ := Dense.bind_eq_ok e
    cases e
    obtain ⟨i1, p1, e1⟩ := extract_index h h1
    exact ⟨i1, p1, by rw [e1]; rfl⟩
  | insertRange ra xs =>
    simp only [OTable.step] at e
    obtain ⟨q, h1, e⟩ := Dense.bind_eq_ok e
    cases e
    obtain ⟨i1, p1⟩ := insertRange_index hsz h h1
    exact ⟨i1, p1, rfl⟩
  | assignRange ra xs =>
    simp only [OTable.step] at e
    obtain ⟨q, h1, e⟩ := Dense.bind_eq_ok e
    obtain ⟨q', h2, e⟩ := Dense.bind_eq_ok e
    cases e
    obtain ⟨i1, p1⟩ := clear_index h h1
    obtain ⟨i2, p2⟩ := insertRange_index hsz i1 h2
    rw [p1] at p2
    exact ⟨i2, p2, rfl⟩
  | clear =>
    simp only [OTable.step] at e
    obtain ⟨q, h1, e⟩ := Dense.bind_eq_ok e
    cases e
    obtain ⟨i1, p1⟩ := clear_index h h1
    exact ⟨i1, by simp only [p1]; exact List.Perm.refl _, rfl⟩
  | reserve n =>
    simp only [OTable.step] at e
    obtain ⟨q, h1, e⟩ := Dense.bind_eq_ok e
    cases e
    obtain ⟨i1, p1, _⟩ := reserve_index h h1
    exact ⟨i1, p1, rfl⟩
  | rehash n =>
    simp only [OTable.step] at e
    obtain ⟨q, h1, e⟩ := Dense.bind_eq_ok e
    cases e
    obtain ⟨i1, p1⟩ := rehash_index h (Nat.succ_ne_zero n) h1
    exact ⟨i1, p1, rfl⟩
  | find k =>
    simp only [OTable.step] at e
    rcases Swiss.find_cases h k with ⟨i, n, hi, hn, hk, hf, hl⟩ | ⟨hno, hf, hl⟩
    · rw [hf, bind_ok] at e
      obtain ⟨x, h1, e⟩ := Dense.bind_eq_ok e
      cases e
      refine ⟨h, List.Perm.refl _, ?_⟩
      unfold OTable.iterAt OTable.deref at h1
      rw [if_pos hi] at h1
      by_cases hd : t.addr c.sz i = t.hd
      · exact absurd (hd ▸ mem_slots.mpr ⟨i, hi, rfl⟩) hs.2
      · rw [if_neg hd, elemAt_ok hsz hi hn, bind_ok] at h1
        cases h1
        change Out.elem _ = Out.elem (Spec.find _ _)
        rw [find_of_lookup hl, hk]
    · rw [hf, bind_ok] at e
      unfold OTable.iterAt OTable.deref at e
      rw [if_neg (Nat.lt_irrefl _), if_pos rfl, bind_ok] at e
      cases e
      refine ⟨h, List.Perm.refl _, ?_⟩
      change Out.elem _ = Out.elem (Spec.find _ _)
      rw [find_of_lookup_none hl]
  | contains k =>
    simp only [OTable.step] at e
    rw [Swiss.contains_spec h k, bind_ok] at e
    cases e
    refine ⟨h, List.Perm.refl _, ?_⟩
    change Out.bool _ = Out.bool (Spec.find _ _).isSome
    rw [lookup_find, Option.isSome_map]
  | size =>
    simp only [OTable.step] at e
    cases e
    exact ⟨h, List.Perm.refl _, by rw [← h.contents_length]; rfl⟩
  | front =>
    simp only [OTable.step] at e
    split at e
    · cases e
      exact ⟨h, rfl, none, rfl, by simp⟩
    · obtain ⟨a, _, e⟩ := Dense.bind_eq_ok e
      obtain ⟨x, h1, e⟩ := Dense.bind_eq_ok e
      cases e
      obtain ⟨_, _, _, _, _, _, hm⟩ := elemAt_mem h1
      exact ⟨h, rfl, some x, rfl, by rintro _ ⟨⟩; exact hm⟩
  | back =>
    simp only [OTable.step] at e
    split at e
    · cases e
      exact ⟨h, rfl, none, rfl, by simp⟩
    · obtain ⟨a, _, e⟩ := Dense.bind_eq_ok e
      obtain ⟨x, h1, e⟩ := Dense.bind_eq_ok e
      cases e
      obtain ⟨_, _, _, _, _, _, hm⟩ := elemAt_mem h1
      exact ⟨h, rfl, some x, rfl, by rintro _ ⟨⟩; exact hm⟩
  | iterate =>
    simp only [OTable.step] at e
    obtain ⟨a, _, e⟩ := Dense.bind_eq_ok e
    obtain ⟨x, h1, e⟩ := Dense.bind_eq_ok e
    cases e
    exact ⟨h, rfl, x, rfl, walk_index _ h1⟩
  | reverse =>
    simp only [OTable.step] at e
    obtain ⟨a, _, e⟩ := Dense.bind_eq_ok e
    obtain ⟨x, h1, e⟩ := Dense.bind_eq_ok e
    cases e
    exact ⟨h, rfl, x, rfl, rwalk_index _ h1⟩

/-! ## merge -/

theorem extractIter_index (h : Inv c.isa c.hash t.core) {a : Int} {r : Mem × OTable K V × Option (K × V)}
    (e : t.extractIter c m a = .ok r) :
    Inv c.isa c.hash r.2.1.core ∧ ((a = t.hd ∧ r = (m, t, none)) ∨
      ∃ x, t.elemAt c.sz a = .ok x ∧ r.2.2 = some x ∧ t.core.contents.Perm (x :: r.2.1.core.contents)) := by
  unfold OTable.extractIter at e
  by_cases ha : a = t.hd
  · rw [if_pos ha] at e
    cases e
    exact ⟨h, Or.inl ⟨ha, rfl⟩⟩
  · rw [if_neg ha] at e
    cases hs : t.slotOf c.sz a with
    | none => rw [hs] at e; cases e
    | some pos =>
      rw [hs] at e
      obtain ⟨q, h1, e⟩ := Dense.bind_eq_ok e
      cases e
      obtain ⟨h1, hp, hn, h3⟩ := extractAt_index h h1
      refine ⟨h1, Or.inr ⟨_, ?_, rfl, h3⟩⟩
      unfold OTable.elemAt
      rw [hs]
      simp only [Swiss.readNode_some hp hn, bind_ok]

/-- What a merge may do to the elements of two containers: elements go from the one to the other, no element gets lost. -/
structure Moves (d s d' s' : List (K × V)) : Prop where
  all : (d' ++ s').Perm (d ++ s)
  sub : ∀ e ∈ d, e ∈ d'

theorem Moves.refl (d s : List (K × V)) : Moves d s d s := ⟨List.Perm.refl _, fun _ h => h⟩

theorem Moves.trans {d s d' s' d'' s'' : List (K × V)} (h : Moves d s d' s') (h' : Moves d' s' d'' s'') : Moves d s d'' s'' :=
  ⟨h'.all.trans h.all, fun e he => h'.sub e (h.sub e he)⟩

theorem transfer_index {dst src : OTable K V} (hd : Inv c.isa c.hash dst.core) (hs : Inv c.isa c.hash src.core) {a : Int}
    {r : Mem × OTable K V × OTable K V} (e : OTable.transfer c m dst src a = .ok r) :
    Inv c.isa c.hash r.2.1.core ∧ Inv c.isa c.hash r.2.2.core ∧
      Moves dst.core.contents src.core.contents r.2.1.core.contents r.2.2.core.contents := by
  unfold OTable.transfer at e
  obtain ⟨x, hx, e⟩ := Dense.bind_eq_ok e
  rcases Swiss.find_cases hd x.1 with ⟨i, n, hi, hn, hk, hf, hl⟩ | ⟨hno, hf, hl⟩
  · rw [hf, bind_ok, if_neg (by omega)] at e
    cases e
    exact ⟨hd, hs, .refl _ _⟩
  · rw [hf, bind_ok, if_pos rfl] at e
    obtain ⟨q, h1, e⟩ := Dense.bind_eq_ok e
    obtain ⟨i1, hc⟩ := extractIter_index hs h1
    rcases hc with ⟨_, rfl⟩ | ⟨y, hy, hq, hp⟩
    · cases e
      exact ⟨hd, hs, .refl _ _⟩
    · rw [hx] at hy
      cases hy
      rw [hq] at e
      simp only at e
      obtain ⟨z, h2, e⟩ := Dense.bind_eq_ok e
      cases e
      unfold OTable.insertWith at h2
      obtain ⟨t', p, he, hi', _, _, hperm, _⟩ := Swiss.emplaceNode_spec (fresh_inv hd) (n := ⟨x.1, x.2, c.hash x.1⟩) rfl hno
      simp only [he, bind_ok] at h2
      obtain ⟨g, _, h2⟩ := Dense.bind_eq_ok h2
      obtain ⟨m', _, h2⟩ := Dense.bind_eq_ok h2
      cases h2
      have hperm : t'.contents.Perm (x :: dst.core.contents) := hperm.map fun n : Node K V => (n.key, n.val)
      refine ⟨hi', i1, ?_, ?_⟩
      · refine (hperm.append_right _).trans ?_
        rw [List.cons_append]
        exact List.perm_middle.symm.trans (hp.symm.append_left _)
      · intro y hy
        exact hperm.mem_iff.mpr (List.mem_cons_of_mem _ hy)

theorem mergeLoop_index {last : Int} : ∀ (fuel : Nat) {m : Mem} {dst src : OTable K V} {pos : Int} {r : Mem × OTable K V × OTable K V},
    Inv c.isa c.hash dst.core → Inv c.isa c.hash src.core → OTable.mergeLoop c last fuel m dst src pos = .ok r →
    Inv c.isa c.hash r.2.1.core ∧ Inv c.isa c.hash r.2.2.core ∧
      Moves dst.core.contents src.core.contents r.2.1.core.contents r.2.2.core.contents
  | 0, _, _, _, _, _, _, _, e => by cases e
  | fuel + 1, m, dst, src, pos, r, hd, hs, e => by
    unfold OTable.mergeLoop at e
    obtain ⟨p, _, e⟩ := Dense.bind_eq_ok e
    split at e
    · cases e
      exact ⟨hd, hs, .refl _ _⟩
    · obtain ⟨q, h1, e⟩ := Dense.bind_eq_ok e
      obtain ⟨i1, i2, m1⟩ := transfer_index hd hs h1
      obtain ⟨i3, i4, m2⟩ := mergeLoop_index fuel i1 i2 e
      exact ⟨i3, i4, m1.trans m2⟩

/-- `merge`, whatever the links are. -/
theorem merge_index {dst src : OTable K V} (hd : Inv c.isa c.hash dst.core) (hs : Inv c.isa c.hash src.core)
    {r : Mem × OTable K V × OTable K V} (e : OTable.merge c m dst src = .ok r) :
    Inv c.isa c.hash r.2.1.core ∧ Inv c.isa c.hash r.2.2.core ∧
      Moves dst.core.contents src.core.contents r.2.1.core.contents r.2.2.core.contents := by
  unfold OTable.merge at e
  obtain ⟨d, h1, e⟩ := Dense.bind_eq_ok e
  obtain ⟨l, _, e⟩ := Dense.bind_eq_ok e
  obtain ⟨i1, p1, _⟩ := reserve_index hd h1
  obtain ⟨i2, i3, m2⟩ := mergeLoop_index _ i1 hs e
  exact ⟨i2, i3, m2.all.trans (p1.append_right _), fun x hx => m2.sub x (p1.mem_iff.mpr hx)⟩

end Tpp.OSwiss
