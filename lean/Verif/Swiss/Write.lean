import Verif.Swiss.Hist

/-!
# Writing mapped values in place (sparse and stable maps)

A map hands out references to the mapped values: through `at`, through `operator[]` and through its iterators
(`it->second`).  The table does not learn of a write through such a reference.  Here a write is a change of the value
in the node, nothing else; the programs mix such writes with all the operations of `Op`.
-/

set_option linter.unusedSectionVars false

namespace Tpp.Swiss

variable {K V : Type} [DecidableEq K]

namespace Table

/-- `it->second = v` for the iterator at `pos` (table_common.hpp 679-680: the address of `m_iter->value()`;
swiss_table.hpp 423-424 for the node the iterator refers to). -/
def write (t : Table K V) (pos : Nat) (v : V) : M (Table K V) := do
  let n ← t.readNode pos
  .ok { t with node := upd t.node pos (some { n with val := v }) }

/-- `m.at(k) = v` (sparse_map.hpp 501, 558-564): `find`, compare with `end()`, write; `false` means that
`std::out_of_range` was thrown. -/
def atWrite (isa : Isa) (hash : K → Nat) (t : Table K V) (k : K) (v : V) : M (Table K V × Bool) := do
  let pos ← t.findNode isa k (hash k)
  let it ← t.toIter isa pos
  let e ← t.end_ isa
  if it = e then .ok (t, false)
  else do
    let t ← t.write it v
    .ok (t, true)

/-- `m[k] = v` (sparse_map.hpp 515): `try_emplace(key)` with a default value, then a write. -/
def indexWrite (isa : Isa) (hash : K → Nat) (dflt : V) (t : Table K V) (k : K) (v : V) : M (Table K V) := do
  let (t, p, _) ← t.insert isa hash k dflt
  let it ← t.toIter isa p
  t.write it v

/-- The loop `for (; it != last; ++it) it->second = f(it->first, it->second)` (swiss_table.hpp 412-421 for the
increment). -/
def eachFrom (isa : Isa) (f : K → V → V) : (fuel : Nat) → Table K V → (pos last : Nat) → M (Table K V)
  | 0, _, _, _ => .error .diverge
  | fuel + 1, t, pos, last =>
    if pos = last then .ok t
    else do
      let n ← t.readNode pos
      let t ← t.write pos (f n.key n.val)
      let pos ← t.nextOccupied isa (t.cap + 1) (pos + 1)
      eachFrom isa f fuel t pos last

/-- `for (auto it = begin(); it != end(); ++it) it->second = f(it->first, it->second)`. -/
def each (isa : Isa) (f : K → V → V) (t : Table K V) : M (Table K V) := do
  let first ← t.begin_ isa
  let last ← t.end_ isa
  eachFrom isa f (t.cap + 1) t first last

end Table

/-- Operations including writes through references. -/
inductive WrOp (K V : Type)
  | op (o : Op K V)
  | atSet (k : K) (v : V)
  | indexSet (k : K) (dflt v : V)
  | each (f : K → V → V)

/-- The operations of a container (see the definitions above; simplification: a reference is written as soon as it is
obtained, how long it may be kept is C08, C09, C98). -/
def Table.wstep (isa : Isa) (hash : K → Nat) (t : Table K V) : WrOp K V → M (Table K V × Out K V)
  | .op o => t.step isa hash o
  | .atSet k v => do let (t, b) ← t.atWrite isa hash k v; .ok (t, .bool b)
  | .indexSet k d v => do let t ← t.indexWrite isa hash d k v; .ok (t, .unit)
  | .each f => do let t ← t.each isa f; .ok (t, .unit)

/-- A program. -/
def Table.wrun (isa : Isa) (hash : K → Nat) (t : Table K V) : List (WrOp K V) → M (Table K V × List (Out K V))
  | [] => .ok (t, [])
  | o :: os => do
    let (t, a) ← t.wstep isa hash o
    let (t, as) ← t.wrun isa hash os
    .ok (t, a :: as)

/-! ### Specification -/

end Tpp.Swiss

namespace Tpp.Spec

variable {K V : Type} [DecidableEq K]

/-- Overwrite the value of a key that is present; nothing otherwise. -/
def set (m : List (K × V)) (k : K) (v : V) : List (K × V) := m.map fun p => if p.1 = k then (k, v) else p

/-- What a mathematical map answers. -/
def wstep (m : List (K × V)) : Swiss.WrOp K V → List (K × V) × Out K V
  | .op o => step m o
  | .atSet k v => (set m k v, .bool (lookup m k).isSome)
  | .indexSet k _ v => (assign m k v, .unit)
  | .each f => (m.map fun p => (p.1, f p.1 p.2), .unit)

/-- The answers to a program. -/
def wrun (m : List (K × V)) : List (Swiss.WrOp K V) → List (K × V) × List (Out K V)
  | [] => (m, [])
  | o :: os =>
    let r := wstep m o
    let r' := wrun r.1 os
    (r'.1, r.2 :: r'.2)

end Tpp.Spec

namespace Tpp.Swiss

variable {K V : Type} [DecidableEq K]

/-! ### Proofs -/

/-- Tables that differ only in the values. -/
structure SameButVals (t t' : Table K V) : Prop where
  rest : t' = { t with node := t'.node }
  fwd : ∀ j, (t'.node j).map (fun n => (n.key, n.hash)) = (t.node j).map (fun n => (n.key, n.hash))

theorem SameButVals.refl (t : Table K V) : SameButVals t t := ⟨rfl, fun _ => rfl⟩

theorem SameButVals.inv {isa : Isa} {hash : K → Nat} {t t' : Table K V} (s : SameButVals t t') (h : Inv isa hash t) :
    Inv isa hash t' := by
  obtain ⟨hr, hf⟩ := s
  obtain ⟨g, hg⟩ : ∃ g, t'.node = g := ⟨_, rfl⟩
  rw [hg] at hr hf
  subst hr
  have key : ∀ j m, g j = some m → ∃ m', t.node j = some m' ∧ m'.key = m.key ∧ m'.hash = m.hash := by
    intro j m hm
    have := hf j
    rw [hm] at this
    cases ht : t.node j with
    | none => rw [ht] at this; simp at this
    | some m' =>
      rw [ht] at this
      simp only [Option.map_some, Option.some.injEq, Prod.mk.injEq] at this
      exact ⟨m', rfl, this.1.symm, this.2.symm⟩
  refine ⟨h.shape, ?_, ?_, ?_, ?_, ?_, h.size_eq, h.budget⟩
  · intro j hj
    have e := congrArg Option.isSome (hf j)
    simp only [Option.isSome_map] at e
    exact e.trans (h.live j hj)
  · intro j hj m hm
    obtain ⟨m', h1, h2, h3⟩ := key j m hm
    rw [← h3]; exact h.tag j hj m' h1
  · intro j hj m hm
    obtain ⟨m', h1, h2, h3⟩ := key j m hm
    rw [← h2, ← h3]; exact h.hash_ok j hj m' h1
  · intro j hj l hl a b ha hb e
    obtain ⟨a', h1, h2, h3⟩ := key j a ha
    obtain ⟨b', h4, h5, h6⟩ := key l b hb
    exact h.uniq j hj l hl a' b' h1 h4 (by rw [h2, h5, e])
  · intro j hj m hm
    obtain ⟨m', h1, h2, h3⟩ := key j m hm
    rw [← h3]; exact h.reach j hj m' h1

/-- Values changed by a function of key and value, in the slots a predicate tells. -/
def Table.mapVals (f : K → V → V) (p : Nat → Bool) (t : Table K V) : Table K V :=
  { t with node := fun i => (t.node i).map fun n => if p i then { n with val := f n.key n.val } else n }

theorem sameButVals_mapVals (f : K → V → V) (p : Nat → Bool) (t : Table K V) : SameButVals t (t.mapVals f p) where
  rest := rfl
  fwd j := by
    cases h : t.node j with
    | none => simp [Table.mapVals, h]
    | some n => by_cases hp : p j = true <;> simp [Table.mapVals, h, hp]

/-- Contents after changing values by a function that is the identity off the predicate. -/
theorem contents_mapVals (f g : K → V → V) (p : Nat → Bool) (t : Table K V)
    (hg : ∀ i, i < t.cap → ∀ n, t.node i = some n → g n.key n.val = if p i then f n.key n.val else n.val) :
    (t.mapVals f p).contents = t.contents.map fun e => (e.1, g e.1 e.2) := by
  unfold Table.contents Table.nodes collect
  rw [List.map_map, List.map_filterMap, List.map_filterMap]
  refine List.filterMap_congr fun i hi => ?_
  have hi' : i < t.cap := List.mem_range.mp hi
  cases h : t.node i with
  | none => simp [Table.mapVals, h]
  | some n =>
    have := hg i hi' n h
    by_cases hp : p i = true <;> simp [Table.mapVals, h, hp, this]

theorem write_eq {t : Table K V} {pos : Nat} {n : Node K V} (hp : pos < t.cap) (hn : t.node pos = some n) (v : V) :
    t.write pos v = .ok (t.mapVals (fun _ _ => v) (· == pos)) := by
  unfold Table.write
  rw [readNode_some hp hn]
  simp only [bind_ok]
  congr 1
  unfold Table.mapVals
  congr 1
  funext i
  by_cases e : i = pos
  · subst e; simp [hn]
  · rw [upd_ne _ _ e]
    cases t.node i <;> simp [e]

/-- Writing the value of the element with key `k`. -/
theorem write_spec {isa : Isa} {hash : K → Nat} {t : Table K V} (h : Inv isa hash t) {pos : Nat} {n : Node K V}
    (hp : pos < t.cap) (hn : t.node pos = some n) (v : V) :
    ∃ t', t.write pos v = .ok t' ∧ Inv isa hash t' ∧ SameButVals t t' ∧ t'.contents = Spec.set t.contents n.key v ∧
      (∀ i, i ≠ pos → t'.node i = t.node i) := by
  refine ⟨_, write_eq hp hn v, (sameButVals_mapVals _ _ t).inv h, sameButVals_mapVals _ _ t, ?_, ?_⟩
  · rw [contents_mapVals _ (fun k w => if k = n.key then v else w)]
    · unfold Spec.set
      refine List.map_congr_left fun e _ => ?_
      by_cases e1 : e.1 = n.key <;> simp [e1]
    · intro i hi m hm
      by_cases e : i = pos
      · subst e
        rw [hn] at hm
        cases hm
        simp
      · have : m.key ≠ n.key := fun e' => e (h.uniq i hi pos hp m n hm hn e')
        simp [this, e]
  · intro i hi
    cases hh : t.node i <;> simp [Table.mapVals, hh, hi]

theorem spec_set_absent {m : List (K × V)} {k : K} (h : Spec.lookup m k = none) (v : V) : Spec.set m k v = m := by
  unfold Spec.set
  conv_rhs => rw [← List.map_id m]
  refine List.map_congr_left fun e he => ?_
  rw [Spec.lookup_none] at h
  by_cases e1 : e.1 = k
  · exact absurd (by rw [← e1]; exact he) (h e.2)
  · simp [e1]

theorem atWrite_spec {isa : Isa} {hash : K → Nat} {t : Table K V} (h : Inv isa hash t) (k : K) (v : V) :
    ∃ t', t.atWrite isa hash k v = .ok (t', (Spec.lookup t.contents k).isSome) ∧ Inv isa hash t' ∧
      SameButVals t t' ∧ t'.contents = Spec.set t.contents k v := by
  rcases find_cases h k with ⟨i, n, hi, hn, hk, hf, hl⟩ | ⟨hno, hf, hl⟩
  · have ho : (t.ctl i).isOccupied = true := by rw [h.tag i hi n hn]; rfl
    obtain ⟨t', h1, h2, h3, h4, _⟩ := write_spec h hi hn v
    refine ⟨t', ?_, h2, h3, hk ▸ h4⟩
    simp [Table.atWrite, hf, hl, toIter_stay h (Or.inr ⟨hi, ho⟩), end_spec h, show i ≠ t.cap by omega, h1]
  · refine ⟨t, ?_, h, .refl t, (spec_set_absent hl v).symm⟩
    simp [Table.atWrite, hf, hl, toIter_stay h (Or.inl rfl), end_spec h]

theorem spec_lookup_set (m : List (K × V)) (k : K) (v : V) (k' : K) :
    Spec.lookup (Spec.set m k v) k' = if k' = k then (Spec.lookup m k).map fun _ => v else Spec.lookup m k' := by
  induction m with
  | nil => simp [Spec.set, Spec.lookup]
  | cons p m ih =>
    have e : Spec.set (p :: m) k v = (if p.1 = k then (k, v) else p) :: Spec.set m k v := rfl
    rw [e, Spec.lookup_cons, ih, Spec.lookup_cons, Spec.lookup_cons]
    by_cases h1 : p.1 = k
    · by_cases h2 : k' = k
      · simp [h1, h2]
      · have h3 : k ≠ k' := fun e => h2 e.symm
        simp [h1, h2, h3]
    · by_cases h2 : k' = k
      · simp [h1, h2]
      · simp [h1, h2]

theorem spec_set_keys (m : List (K × V)) (k : K) (v : V) : (Spec.set m k v).map Prod.fst = m.map Prod.fst := by
  unfold Spec.set
  rw [List.map_map]
  refine List.map_congr_left fun e _ => ?_
  by_cases h : e.1 = k <;> simp [h]

theorem spec_each_keys (m : List (K × V)) (f : K → V → V) :
    (m.map fun p => (p.1, f p.1 p.2)).map Prod.fst = m.map Prod.fst := by
  rw [List.map_map]
  exact List.map_congr_left fun e _ => rfl

theorem spec_assign_uniq {m : List (K × V)} (hu : Spec.Uniq m) (k : K) (v : V) : Spec.Uniq (Spec.assign m k v) := by
  unfold Spec.assign Spec.Uniq
  rw [List.map_cons, List.nodup_cons]
  constructor
  · intro hm
    obtain ⟨e, he, hk⟩ := List.mem_map.mp hm
    unfold Spec.erase at he
    rw [List.mem_filter] at he
    simp [hk] at he
  · exact hu.sublist (List.filter_sublist.map _)

theorem indexWrite_spec {isa : Isa} {hash : K → Nat} {t : Table K V} (h : Inv isa hash t) (dflt : V) (k : K) (v : V) :
    ∃ t', t.indexWrite isa hash dflt k v = .ok t' ∧ Inv isa hash t' ∧
      t'.contents.Perm (Spec.assign t.contents k v) := by
  obtain ⟨t1, p, b, h1, h2, _, h3⟩ := insert_spec h k dflt
  have key : ∀ w, t1.At p (k, w) → ∃ t', t.indexWrite isa hash dflt k v = .ok t' ∧ Inv isa hash t' ∧
      t'.contents = Spec.set t1.contents k v := by
    rintro w ⟨a1, n, a2, a3⟩
    have ho : (t1.ctl p).isOccupied = true := by rw [h2.tag p a1 n a2]; rfl
    have hk : n.key = k := (Prod.mk.inj a3).1
    obtain ⟨t', e1, e2, _, e4, _⟩ := write_spec h2 a1 a2 v
    refine ⟨t', ?_, e2, hk ▸ e4⟩
    simp [Table.indexWrite, h1, toIter_stay h2 (Or.inr ⟨a1, ho⟩), e1]
  have hu1 := h2.contents_uniq
  have hl1 : ∀ k', k' ≠ k → Spec.lookup t1.contents k' = Spec.lookup t.contents k' := by
    intro k' hk'
    rcases h3 with ⟨_, _, h5, _⟩ | ⟨w, _, _, h5, _⟩
    · rw [Spec.lookup_perm h5 hu1, Spec.lookup_cons, if_neg (fun e => hk' e.symm)]
    · rw [h5]
  obtain ⟨w, hw⟩ : ∃ w, t1.At p (k, w) := by
    rcases h3 with ⟨_, _, _, h6, _⟩ | ⟨w, _, _, h5, h6⟩
    · exact ⟨_, h6⟩
    · exact ⟨w, h5 ▸ h6⟩
  have hk1 : (Spec.lookup t1.contents k).isSome := by
    obtain ⟨a1, n, a2, a3⟩ := hw
    have : Spec.lookup t1.contents k = some w := by
      rw [Spec.lookup_some hu1, mem_contents]
      exact ⟨p, n, a1, a2, (Prod.mk.inj a3).1, (Prod.mk.inj a3).2⟩
    rw [this]; rfl
  obtain ⟨t', e1, e2, e3⟩ := key w hw
  refine ⟨t', e1, e2, Spec.perm_of_lookup e2.contents_uniq ?_ ?_⟩
  · exact spec_assign_uniq h.contents_uniq k v
  · intro k'
    rw [e3, spec_lookup_set, Spec.lookup_assign]
    by_cases e : k' = k
    · subst e
      obtain ⟨x, hx⟩ := Option.isSome_iff_exists.mp hk1
      simp [hx]
    · simp [e, hl1 k' e]

theorem eachFrom_spec {isa : Isa} {hash : K → Nat} {t : Table K V} (h : Inv isa hash t) (f : K → V → V) :
    ∀ (fuel pos : Nat) (q : Nat → Bool), pos ≤ t.cap → (pos < t.cap → (t.ctl pos).isOccupied = true) →
      t.cap - pos < fuel → (∀ i, i < t.cap → (t.node i).isSome → (q i = true ↔ i < pos)) →
      Ends isa (Table.eachFrom isa f fuel (t.mapVals f q) pos t.cap) (fun t' =>
        ∃ q', (∀ i, i < t.cap → (t.node i).isSome → q' i = true) ∧ t' = t.mapVals f q') := by
  intro fuel
  induction fuel with
  | zero => intro pos q _ _ hf; omega
  | succ fuel ih =>
    intro pos q hp ho hf hq
    unfold Table.eachFrom
    by_cases hl : pos = t.cap
    · rw [if_pos hl]
      exact Ends.of_ok rfl ⟨q, fun i hi hs => (hq i hi hs).mpr (by omega), rfl⟩
    · rw [if_neg hl]
      have hlt : pos < t.cap := by omega
      have hm := h.meta_ok (by omega)
      have hs := h.live pos hlt
      rw [ho hlt] at hs
      obtain ⟨n, hn⟩ := Option.isSome_iff_exists.mp hs
      have hqp : q pos = false := by
        cases hh : q pos with
        | false => rfl
        | true => have := (hq pos hlt hs).mp hh; omega
      have hn' : (t.mapVals f q).node pos = some n := by simp [Table.mapVals, hn, hqp]
      have hlt' : pos < (t.mapVals f q).cap := hlt
      rw [readNode_some hlt' hn']
      simp only [bind_ok]
      rw [write_eq hlt' hn']
      simp only [bind_ok]
      have e : (t.mapVals f q).mapVals (fun _ _ => f n.key n.val) (· == pos) = t.mapVals f (fun i => q i || i == pos) := by
        unfold Table.mapVals
        congr 1
        funext i
        by_cases e : i = pos
        · subst e; simp [hn, hqp]
        · cases hh : t.node i <;> simp [hh, e]
      rw [e]
      refine (nextOccupied_spec (t := t.mapVals f (fun i => q i || i == pos)) hm (t.cap + 1) (pos + 1)
        hlt (by show t.cap - _ < _; omega)).bind ?_
      intro r hr
      refine ih r _ hr.2.1 hr.2.2.2 (by have := hr.1; omega) ?_
      intro i hi hsi
      have h1 := hr.1
      have h3 := hr.2.2.1 i
      have hlv := h.live i hi
      rw [hsi] at hlv
      by_cases e1 : i = pos
      · subst e1; simp; omega
      · have e2 := hq i hi hsi
        by_cases e3 : i < pos
        · simp [e2.mpr e3]; omega
        · have e4 : q i = false := by
            cases hh : q i with
            | false => rfl
            | true => exact absurd (e2.mp hh) e3
          simp [e4, e1]
          by_contra e5
          have h6 : (t.ctl i).isOccupied = false := h3 (by omega) (by omega)
          rw [h6] at hlv
          cases hlv

theorem each_spec {isa : Isa} {hash : K → Nat} {t : Table K V} (h : Inv isa hash t) (f : K → V → V) :
    Ends isa (t.each isa f) (fun t' => Inv isa hash t' ∧ SameButVals t t' ∧
      t'.contents = t.contents.map fun e => (e.1, f e.1 e.2)) := by
  unfold Table.each Table.begin_
  refine (toIter_spec h (Nat.zero_le _)).bind ?_
  intro r hr
  rw [end_spec h]
  simp only [bind_ok]
  have e : t.mapVals f (fun _ => false) = t := by
    unfold Table.mapVals
    simp
  have := eachFrom_spec h f (t.cap + 1) r (fun _ => false) hr.2.1 hr.2.2.2 (by omega) (by
    intro i hi hsi
    have hlv := h.live i hi
    rw [hsi] at hlv
    refine Iff.intro (fun h => nomatch h) (fun h' => ?_)
    rw [hr.2.2.1 i (Nat.zero_le _) h'] at hlv
    cases hlv)
  rw [e] at this
  refine this.mono ?_
  rintro t' ⟨q', hq', rfl⟩
  refine ⟨(sameButVals_mapVals _ _ t).inv h, sameButVals_mapVals _ _ t, contents_mapVals f f q' t ?_⟩
  intro i hi n hn
  rw [hq' i hi (by rw [hn]; rfl)]
  rfl

theorem spec_set_perm {m m' : List (K × V)} (h : m.Perm m') (k : K) (v : V) : (Spec.set m k v).Perm (Spec.set m' k v) :=
  h.map _

theorem wstep_spec {isa : Isa} {hash : K → Nat} {t : Table K V} (h : Inv isa hash t) {m : List (K × V)}
    (hm : t.contents.Perm m) (o : WrOp K V) :
    Ends isa (t.wstep isa hash o) (fun r => Inv isa hash r.1 ∧ r.1.contents.Perm (Spec.wstep m o).1 ∧
      Out.Agree r.2 (Spec.wstep m o).2) := by
  have hl := fun k => Spec.lookup_perm hm h.contents_uniq k
  cases o with
  | op o => exact step_spec h hm o
  | atSet k v =>
    obtain ⟨t', h1, h2, _, h3⟩ := atWrite_spec h k v
    refine Ends.of_ok (a := (t', .bool (Spec.lookup t.contents k).isSome)) ?_ ⟨h2, ?_, ?_⟩
    · simp only [Table.wstep, h1, bind_ok]
    · rw [h3]; exact spec_set_perm hm k v
    · simp only [Spec.wstep, Out.Agree, hl]
  | indexSet k d v =>
    obtain ⟨t', h1, h2, h3⟩ := indexWrite_spec h d k v
    refine Ends.of_ok (a := (t', .unit)) ?_ ⟨h2, h3.trans ?_, trivial⟩
    · simp only [Table.wstep, h1, bind_ok]
    · exact (Spec.erase_perm hm k).cons _
  | each f =>
    refine (each_spec h f).bind ?_
    rintro t' ⟨h1, _, h2⟩
    refine Ends.of_ok rfl ⟨h1, ?_, trivial⟩
    rw [h2]; exact hm.map _

theorem wrun_spec {isa : Isa} {hash : K → Nat} (ops : List (WrOp K V)) :
    ∀ {t : Table K V}, Inv isa hash t → ∀ {m : List (K × V)}, t.contents.Perm m →
      Ends isa (t.wrun isa hash ops) (fun r => Inv isa hash r.1 ∧ r.1.contents.Perm (Spec.wrun m ops).1 ∧
        List.Forall₂ Out.Agree r.2 (Spec.wrun m ops).2) := by
  induction ops with
  | nil => intro t h m hm; exact Ends.of_ok rfl ⟨h, hm, .nil⟩
  | cons op ops ih =>
    intro t h m hm
    unfold Table.wrun
    refine (wstep_spec h hm op).bind ?_
    rintro ⟨t', o⟩ ⟨h1, h2, h3⟩
    refine (ih h1 h2).bind ?_
    rintro ⟨t'', os⟩ ⟨h4, h5, h6⟩
    exact Ends.of_ok rfl ⟨h4, h5, .cons h3 h6⟩

end Tpp.Swiss
