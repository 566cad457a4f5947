import Verif.Dense.Access
import Verif.Props.Dense

/-!
# C76, C77: `at`, `operator[]` and `operator==` of dense containers; what happens to the caller's keys
-/

set_option linter.unusedSectionVars false

namespace Tpp.Dense

variable {k : Nat} {K V : Type} [DecidableEq K]

/-! ## C76 -/

/-- C76: `at` gives the mapped value of the element with this key component and throws exactly if there is none. -/
theorem C76_at {hash : K → Nat} {t : Table k K V} (h : Reachable hash t) {l : List (Elem k K V)} (hl : t.iterate = .ok l)
    (j : Fin k) (x : K) :
    (∀ e ∈ l, e.1 j = x → t.at_ hash j x = .ok (.value e.2)) ∧
    ((∀ e ∈ l, e.1 j ≠ x) ↔ t.at_ hash j x = .ok .outOfRange) := by
  have hi := h.of_iterate hl
  rw [at_ok hi]
  have hu := hi.uniq j
  constructor
  · intro e he hx
    have : elemOf l j x = some e := by
      obtain ⟨i, hlt, rfl⟩ := List.getElem_of_mem he
      rw [elemOf_eq, ← hx, idxOf_of_uniq hu (List.getElem?_eq_getElem hlt), Option.bind_some, List.getElem?_eq_getElem hlt]
    rw [this]
  · constructor
    · intro ha
      rw [elemOf_eq, idxOf_none ha]
      rfl
    · intro hg e he hx
      cases hc : elemOf l j x with
      | some e => rw [hc] at hg; cases hg
      | none =>
        unfold elemOf at hc
        rw [List.find?_eq_none] at hc
        exact hc e he (by simp [hx])

/-- C76: reading `m[x]` of a constant (or temporary) key: the value of the element with that key; if there is none, one with the
default value has been appended. -/
theorem C76_index {hash : K → Nat} {t : Table 1 K V} (h : Reachable hash t) {l : List (Elem 1 K V)} (hl : t.iterate = .ok l)
    (mv : K → K) (dflt : V) (x : K) {p : Pass} (hp : p ≠ .var) :
    (∀ e ∈ l, e.1 0 = x → ∃ t', t.indexRead hash mv dflt p x = .ok (t', e.2, x) ∧ Behaves hash t' l) ∧
    ((∀ e ∈ l, e.1 0 ≠ x) → ∃ t', t.indexRead hash mv dflt p x = .ok (t', dflt, x) ∧ Behaves hash t' (l ++ [(fun _ => x, dflt)])) := by
  have hi := h.of_iterate hl
  have hu := hi.uniq 0
  obtain ⟨t', e1, i1⟩ := indexRead_ok hi mv dflt p x
  rw [if_neg (fun g => hp g.1)] at e1
  constructor
  · intro e he hx
    have : elemOf l 0 x = some e := by
      obtain ⟨i, hlt, rfl⟩ := List.getElem_of_mem he
      rw [elemOf_eq, ← hx, idxOf_of_uniq hu (List.getElem?_eq_getElem hlt), Option.bind_some, List.getElem?_eq_getElem hlt]
    rw [this] at e1 i1
    exact ⟨t', e1, i1.behaves⟩
  · intro ha
    rw [elemOf_eq, idxOf_none ha, Option.bind_none] at e1 i1
    exact ⟨t', e1, i1.behaves⟩

/-- C76: after `m[x] = v` with a constant (or temporary) key the element with that key, wherever it is, has the value `v`; if there
was none, one with that key and value has been appended. -/
theorem C76_index_assign {hash : K → Nat} {t : Table 1 K V} (h : Reachable hash t) {l : List (Elem 1 K V)} (hl : t.iterate = .ok l)
    (mv : K → K) (dflt : V) (x : K) (v : V) {p : Pass} (hp : p ≠ .var) :
    ∃ t', t.indexAssign hash mv dflt p x v = .ok (t', x) ∧
      (∀ i e, l[i]? = some e → e.1 0 = x → Behaves hash t' (l.set i (fun _ => x, v))) ∧
      ((∀ e ∈ l, e.1 0 ≠ x) → Behaves hash t' (l ++ [(fun _ => x, v)])) := by
  have hi := h.of_iterate hl
  obtain ⟨t', e1, i1⟩ := indexAssign_ok hi mv dflt p x v
  rw [if_neg (fun g => hp g.1)] at e1
  refine ⟨t', e1, ?_, ?_⟩
  · intro i e he hx
    have : Spec.put l x v = l.set i (fun _ => x, v) := by
      unfold Spec.put
      rw [show l.findIdx? (fun e => e.1 0 = x) = idxOf l 0 x from rfl, ← hx, idxOf_of_uniq (hi.uniq 0) he]
    exact this ▸ i1.behaves
  · intro ha
    have : Spec.put l x v = l ++ [(fun _ => x, v)] := by
      unfold Spec.put
      rw [show l.findIdx? (fun e => e.1 0 = x) = idxOf l 0 x from rfl, idxOf_none ha]
    exact this ▸ i1.behaves

theorem nodup_of_uniq {hash : K → Nat} {t : Table k K V} {l : List (Elem k K V)} (h : Inv hash t l) (hk : 0 < k) : l.Nodup :=
  List.Nodup.of_map _ (h.uniq ⟨0, hk⟩)

theorem find_mem_iff {l : List (Elem k K V)} (hu : ∀ j, (l.map (fun e => e.1 j)).Nodup) (j : Fin k) (e : Elem k K V) :
    elemOf l j (e.1 j) = some e ↔ e ∈ l := by
  constructor
  · exact List.mem_of_find?_eq_some
  · intro he
    obtain ⟨i, hlt, rfl⟩ := List.getElem_of_mem he
    rw [elemOf_eq, idxOf_of_uniq (hu j) (List.getElem?_eq_getElem hlt), Option.bind_some, List.getElem?_eq_getElem hlt]

/-- C76: `operator==` (whatever hash functions, orders and load factors the two containers have) tells whether they have the same
elements, that is, whether lookups by any component answer the same. -/
theorem C76_eq [DecidableEq V] {hash hash' : K → Nat} {a b : Table k K V} (ha : Reachable hash a) (hb : Reachable hash' b)
    {la lb : List (Elem k K V)} (hla : a.iterate = .ok la) (hlb : b.iterate = .ok lb) (hk : 0 < k) :
    ∃ r, a.eq b = .ok r ∧ (r = true ↔ ∀ e, e ∈ la ↔ e ∈ lb) ∧
      (r = true ↔ ∀ j x, a.lookup hash j x = b.lookup hash' j x) := by
  have ia := ha.of_iterate hla
  have ib := hb.of_iterate hlb
  have hmem : (decide (la.Perm lb) = true) ↔ ∀ e, e ∈ la ↔ e ∈ lb := by
    rw [decide_eq_true_iff]
    exact List.perm_ext_iff_of_nodup (nodup_of_uniq ia hk) (nodup_of_uniq ib hk)
  refine ⟨decide (la.Perm lb), ?_, hmem, ?_⟩
  · unfold Table.eq
    rw [hla, bind_ok, hlb, bind_ok]
  · rw [hmem]
    constructor
    · intro g j x
      rw [lookup_ok ia, lookup_ok ib]
      congr 1
      have key : ∀ {l l' : List (Elem k K V)} {e : Elem k K V}, (∀ j, (l'.map (fun e => e.1 j)).Nodup) → (∀ e, e ∈ l → e ∈ l') →
          elemOf l j x = some e → elemOf l' j x = some e := by
        intro l l' e hu hs he
        have hx : e.1 j = x := by simpa using List.find?_some he
        rw [← hx, find_mem_iff hu]
        exact hs e (List.mem_of_find?_eq_some he)
      cases h1 : elemOf la j x with
      | some e => rw [key ib.uniq (fun e => (g e).mp) h1]
      | none =>
        cases h2 : elemOf lb j x with
        | none => rfl
        | some e => rw [key ia.uniq (fun e => (g e).mpr) h2] at h1; cases h1
    · intro g e
      have := g ⟨0, hk⟩ (e.1 ⟨0, hk⟩)
      rw [lookup_ok ia, lookup_ok ib] at this
      injection this with this
      rw [← find_mem_iff ia.uniq ⟨0, hk⟩ e, ← find_mem_iff ib.uniq ⟨0, hk⟩ e, this]

example : demo.at_ h3 0 4 = .ok (.value 44) ∧ demo.at_ h3 0 5 = .ok .outOfRange := ⟨rfl, rfl⟩

example : demo.eq (after h3 LF.initial [.insert (el 7 0).1 70, .insert (el 4 0).1 44, .insert (el 3 0).1 30, .insert (el 2 0).1 20]) =
    .ok true := by decide +kernel

example : demo.eq (after h3 LF.initial [.insert (el 7 0).1 71, .insert (el 4 0).1 44, .insert (el 3 0).1 30, .insert (el 2 0).1 20]) =
    .ok false := by decide +kernel

example : ∃ t1, demo.indexAssign h3 id 9 .const 4 55 = .ok (t1, 4) ∧ t1.iterate = .ok [el 3 30, el 2 20, el 4 55, el 7 70] :=
  ⟨_, rfl, rfl⟩

/-! ## C77 -/

/-- C77 for `try_emplace` of a map: a temporary key is moved from exactly if the element is inserted; a variable or constant never
is.  The answer and the container are those of `insert`. -/
theorem C77_try_emplace {hash : K → Nat} {t : Table 1 K V} (h : Reachable hash t) {l : List (Elem 1 K V)} (hl : t.iterate = .ok l)
    (mv : K → K) (p : Pass) (x : K) (v : V) :
    ∃ t' r x', t.tryEmplaceVar hash mv p x v = .ok (t', r, x') ∧ t.insert hash (fun _ => x) v = .ok (t', r) ∧
      (p ≠ .temp → x' = x) ∧ ((∃ e ∈ l, e.1 0 = x) → x' = x) ∧ (p = .temp → (∀ e ∈ l, e.1 0 ≠ x) → x' = mv x) := by
  have hi := h.of_iterate hl
  obtain ⟨⟨t', r⟩, e, _⟩ := insert_ok hi (fun _ => x) v
  refine ⟨t', r, if p = .temp ∧ r.2 = true then mv x else x, ?_, e, ?_, ?_, ?_⟩
  · unfold Table.tryEmplaceVar
    rw [e, bind_ok]
  · intro hp
    rw [if_neg (fun g => hp g.1)]
  · rintro ⟨a, ha, hx⟩
    obtain ⟨i, hlt, rfl⟩ := List.getElem_of_mem ha
    obtain ⟨t2, e2, _⟩ := insert_present hi v (List.getElem?_eq_getElem hlt) hx
    rw [e2] at e
    injection e with e
    injection e with _ e
    rw [← e, if_neg (by simp)]
  · intro hp ha
    obtain ⟨t2, e2, _⟩ := insert_absent hi (key := fun _ => x) v (fun a he j => by
      rw [Subsingleton.elim j 0]
      exact ha a he)
    rw [e2] at e
    injection e with e
    injection e with _ e
    rw [← e, if_pos (by simp [hp])]

/-- C77 for `operator[]`, exactly: the caller's variable keeps its value unless it is a variable (not a constant), the key is new,
and a move changes it. -/
theorem C77_index_iff {hash : K → Nat} {t : Table 1 K V} (h : Reachable hash t) {l : List (Elem 1 K V)} (hl : t.iterate = .ok l)
    (mv : K → K) (dflt : V) (p : Pass) (x : K) (v : V) :
    ∃ t' x', t.indexAssign hash mv dflt p x v = .ok (t', x') ∧ Behaves hash t' (Spec.put l x v) ∧
      (x' = x ↔ p ≠ .var ∨ (∃ e ∈ l, e.1 0 = x) ∨ mv x = x) := by
  have hi := h.of_iterate hl
  obtain ⟨t', e, i'⟩ := indexAssign_ok hi mv dflt p x v
  refine ⟨t', _, e, i'.behaves, ?_⟩
  by_cases hp : p = .var
  · cases hc : idxOf l 0 x with
    | none =>
      rw [if_pos ⟨hp, rfl⟩]
      have ha := idxOf_eq_none hc
      constructor
      · intro g; exact Or.inr (Or.inr g)
      · rintro (g | ⟨a, ha', hx⟩ | g)
        · exact absurd hp g
        · exact absurd hx (ha a ha')
        · exact g
    | some i =>
      rw [if_neg (fun g => by cases g.2)]
      obtain ⟨a, ha, hx⟩ := idxOf_some hc
      simp only [true_iff]
      exact Or.inr (Or.inl ⟨a, List.mem_of_getElem? ha, hx⟩)
  · rw [if_neg (fun g => hp g.1)]
    simp only [true_iff]
    exact Or.inl hp

/-- C77 is false for `operator[]`, all maps, all new keys which a move changes (to another new key): `m[x] = v; m[x]` with a
variable `x` does not read `v` but inserts a second element. -/
theorem C77_index_false {hash : K → Nat} {t : Table 1 K V} (h : Reachable hash t) {l : List (Elem 1 K V)} (hl : t.iterate = .ok l)
    (mv : K → K) (dflt : V) (x : K) (v : V) (hx : ∀ e ∈ l, e.1 0 ≠ x) (hm : mv x ≠ x) (hm' : ∀ e ∈ l, e.1 0 ≠ mv x) :
    ∃ t1 t2, t.indexAssign hash mv dflt .var x v = .ok (t1, mv x) ∧
      t1.indexRead hash mv dflt .var (mv x) = .ok (t2, dflt, mv (mv x)) ∧
      t2.iterate = .ok (l ++ [(fun _ => x, v), (fun _ => mv x, dflt)]) := by
  have hi := h.of_iterate hl
  obtain ⟨t1, e1, i1⟩ := indexAssign_ok hi mv dflt .var x v
  rw [if_pos ⟨rfl, idxOf_none hx⟩] at e1
  have hput : Spec.put l x v = l ++ [((fun _ => x), v)] := by
    unfold Spec.put
    rw [show l.findIdx? (fun e => e.1 0 = x) = idxOf l 0 x from rfl, idxOf_none hx]
  rw [hput] at i1
  obtain ⟨t2, e2, i2⟩ := indexRead_ok i1 mv dflt .var (mv x)
  have hn : idxOf (l ++ [((fun _ => x), v)]) 0 (mv x) = none := idxOf_none (by
    intro e he
    rcases List.mem_append.mp he with g | g
    · exact hm' e g
    · rw [List.mem_singleton.mp g]
      exact fun g => hm g.symm)
  rw [elemOf_eq, hn, Option.bind_none] at e2 i2
  rw [if_pos ⟨rfl, rfl⟩] at e2
  refine ⟨t1, t2, e1, e2, ?_⟩
  have := iterate_ok i2.toArr
  rw [List.append_assoc] at this
  exact this

/-- C77 for `operator[]` where it holds: `m[x] = v; m[x]` reads `v` and inserts nothing more, if the key is constant, present, or
not changed by a move. -/
theorem C77_index_partial {hash : K → Nat} {t : Table 1 K V} (h : Reachable hash t) {l : List (Elem 1 K V)} (hl : t.iterate = .ok l)
    (mv : K → K) (dflt : V) (p : Pass) (x : K) (v : V) (hg : p ≠ .var ∨ (∃ e ∈ l, e.1 0 = x) ∨ mv x = x) :
    ∃ t1 t2, t.indexAssign hash mv dflt p x v = .ok (t1, x) ∧ t1.indexRead hash mv dflt p x = .ok (t2, v, x) ∧
      Behaves hash t2 (Spec.put l x v) := by
  obtain ⟨t1, x', e1, _, hx⟩ := C77_index_iff h hl mv dflt p x v
  have hx' := hx.mpr hg
  rw [hx'] at e1
  have hi := h.of_iterate hl
  obtain ⟨t1', e1', i1⟩ := indexAssign_ok hi mv dflt p x v
  rw [e1] at e1'
  injection e1' with e1'
  injection e1' with e1' _
  rw [← e1'] at i1
  obtain ⟨t2, e2, i2⟩ := indexRead_ok i1 mv dflt p x
  have hmem : ((fun _ => x), v) ∈ Spec.put l x v := by
    unfold Spec.put
    cases hc : l.findIdx? (fun e => e.1 0 = x) with
    | none => simp
    | some i =>
      have hlt : i < l.length := (List.findIdx?_eq_some_iff_getElem.mp hc).1
      exact List.mem_set hlt _
  have he : elemOf (Spec.put l x v) 0 x = some ((fun _ => x), v) := (find_mem_iff i1.uniq 0 ((fun _ => x), v)).mpr hmem
  have hs : idxOf (Spec.put l x v) 0 x ≠ none := fun g => by
    rw [elemOf_eq, g] at he
    cases he
  rw [he, if_neg (fun g => hs g.2)] at e2
  rw [he] at i2
  exact ⟨t1, t2, e1, e2, i2.behaves⟩

/-- C77 is false for `try_emplace` of a multimap, all containers: if any component of the key is taken, nothing is inserted, yet the
caller's temporary (or `std::move`d) key has been moved from. -/
theorem C77_multi_try_emplace_false {hash : K → Nat} {t : Table k K V} (h : Reachable hash t) {l : List (Elem k K V)}
    (hl : t.iterate = .ok l) (mv : K → K) (key : Fin k → K) (v : V) (hc : ∃ e ∈ l, ∃ j, e.1 j = key j) :
    ∃ t' pos, t.multiTryEmplaceVar hash mv .temp key v = .ok (t', (pos, false), fun j => mv (key j)) ∧ Behaves hash t' l := by
  have hi := h.of_iterate hl
  obtain ⟨⟨t', r⟩, e, hr⟩ := insert_ok hi key v
  cases hcf : conflict l key with
  | none =>
    obtain ⟨a, ha, j, hj⟩ := hc
    exact absurd hj (idxOf_eq_none (conflict_none hcf j) a ha)
  | some i =>
    obtain ⟨h1, h2⟩ := hr.dup i hcf
    simp only at h1
    refine ⟨t', i, ?_, h2.behaves⟩
    unfold Table.multiTryEmplaceVar
    simp only
    rw [e, bind_ok, h1]
    rfl

/-- Moving leaves 0 behind (as it empties a string): `m[x] = 55; m[x]` with `x = 5` reads the default value 9. -/
example : ∃ t1 t2, demo.indexAssign h3 (fun _ => 0) 9 .var 5 55 = .ok (t1, 0) ∧ t1.indexRead h3 (fun _ => 0) 9 .var 0 = .ok (t2, 9, 0) ∧
    t2.iterate = .ok [el 3 30, el 2 20, el 4 44, el 7 70, el 5 55, el 0 9] := ⟨_, _, rfl, rfl, rfl⟩

example : ∃ t1 t2, demo.indexAssign h3 (fun _ => 0) 9 .const 5 55 = .ok (t1, 5) ∧
    t1.indexRead h3 (fun _ => 0) 9 .const 5 = .ok (t2, 55, 5) ∧
    t2.iterate = .ok [el 3 30, el 2 20, el 4 44, el 7 70, el 5 55] := ⟨_, _, rfl, rfl, rfl⟩

example : (demo.tryEmplaceVar h3 (fun _ => 0) .temp 5 55).map (·.2) = .ok ((4, true), 0) ∧
    (demo.tryEmplaceVar h3 (fun _ => 0) .temp 4 55).map (·.2) = .ok ((2, false), 4) := ⟨rfl, rfl⟩

/-- The first component is taken. -/
example : (demo2.multiTryEmplaceVar h3 (fun _ => 0) .temp (el2 7 99 0).1 5).map (fun r => (r.2.1, r.2.2 0, r.2.2 1)) =
    .ok ((0, false), 0, 0) := rfl

end Tpp.Dense
