import Verif.Dense.Inv

/-!
# Insertion, erasure and clearing of `dense_table`
-/

set_option linter.unusedSectionVars false

namespace Tpp.Dense

variable {k : Nat} {K V : Type} [DecidableEq K]

/-! ## Insertion -/

/-- The element that shares a component with `key`, of the first such component. -/
def conflict (l : List (Elem k K V)) (key : Fin k → K) : Option Nat :=
  (List.finRange k).findSome? fun j => idxOf l j (key j)

theorem conflict_none {l : List (Elem k K V)} {key : Fin k → K} (h : conflict l key = none) (j : Fin k) :
    idxOf l j (key j) = none := by
  unfold conflict at h
  rw [List.findSome?_eq_none_iff] at h
  exact h j (List.mem_finRange j)

theorem idxOf_eq_none {l : List (Elem k K V)} {j : Fin k} {x : K} (h : idxOf l j x = none) : ∀ e ∈ l, e.1 j ≠ x := by
  unfold idxOf at h
  rw [List.findIdx?_eq_none_iff] at h
  intro e he
  simpa using h e he

theorem findNode_full {hash : K → Nat} {t : Table k K V} {l : List (Elem k K V)} (ha : Arr hash t l)
    (hu : ∀ j, (l.map (fun e => e.1 j)).Nodup) {j : Fin k} (hch : Chained t j (· < l.length)) (hb : 0 < t.bc) (x : K) :
    ∃ r, t.findNode hash j x = .ok (idxOf l j x, some r) ∧
      (idxOf l j x = none → ∃ c, Path (t.cell j) (.head (hash x % t.bc)) c ∧ c.Nodup ∧
        (∀ i, i ∈ c ↔ i < l.length ∧ ∃ n, t.node i = some n ∧ n.hash j % t.bc = hash x % t.bc) ∧
        r = endRef (.head (hash x % t.bc)) c) := by
  unfold Table.findNode
  rw [getChain_pos hb]
  simp only
  obtain ⟨c, h0, h1, h2, h3⟩ := findLoop_spec ha hch hb x
  rcases h3 with ⟨a, i, b, n, _, _, g1, g2, g3, g4⟩ | ⟨g1, g2⟩
  · rw [g4, bind_ok]
    have := idxOf_of_uniq (hu j) (ha.node_elem g2)
    rw [show (n.key, n.val).1 j = x from g3] at this
    rw [this]
    exact ⟨_, rfl, fun e => by cases e⟩
  · rw [g2, bind_ok, idxOf_none g1]
    exact ⟨_, rfl, fun _ => ⟨c, h0, h1, h2, rfl⟩⟩

theorem endRef_valid {hash : K → Nat} {t : Table k K V} {l : List (Elem k K V)} (ha : Arr hash t l) {b : Nat}
    (hb : b < t.bc) {c : List Nat} (hc : ∀ i ∈ c, i < l.length) : t.Valid (endRef (.head b) c) := by
  rcases endRef_cases (.head b) c with ⟨_, e⟩ | ⟨i, hi, e⟩
  · rw [e]; exact hb
  · rw [e]; exact ha.valid (hc i hi)

/-- The refs that `locate` finds when nothing conflicts. -/
def EndOf (hash : K → Nat) (t : Table k K V) (l : List (Elem k K V)) (j : Fin k) (x : K) (r : Ref) : Prop :=
  ∃ c, Path (t.cell j) (.head (hash x % t.bc)) c ∧ c.Nodup ∧
    (∀ i, i ∈ c ↔ i < l.length ∧ ∃ n, t.node i = some n ∧ n.hash j % t.bc = hash x % t.bc) ∧
    r = endRef (.head (hash x % t.bc)) c

theorem locate_ok {hash : K → Nat} {t : Table k K V} {l : List (Elem k K V)} (ha : Arr hash t l)
    (hu : ∀ j, (l.map (fun e => e.1 j)).Nodup) (hch : ∀ j, Chained t j (· < l.length)) (hb : 0 < t.bc) (key : Fin k → K) :
    ∃ r : Fin k → Ref, t.locate hash key = .ok ((List.finRange k).map fun j => (j, idxOf l j (key j), some (r j))) ∧
      ∀ j, idxOf l j (key j) = none → EndOf hash t l j (key j) (r j) := by
  have := fun j => findNode_full ha hu (hch j) hb (key j)
  choose r hr1 hr2 using this
  refine ⟨r, ?_, hr2⟩
  unfold Table.locate
  apply mapM_ok
  intro j _
  rw [hr1 j, bind_ok]

theorem commitNode_ok {hash : K → Nat} {t t1 : Table k K V} {l : List (Elem k K V)} (ha : Arr hash t l)
    (hch : ∀ j, Chained t j (· < l.length)) (hb : 0 < t.bc) (hcap : t.size < t.cap) {key : Fin k → K} {v : V}
    (h1 : t1 = { t with size := t.size + 1, node := upd t.node t.size (some ⟨key, v, fun _ => 0, fun _ => none⟩) })
    {r : Fin k → Ref} (hr : ∀ j, EndOf hash t l j (key j) (r j)) :
    ∃ t', t1.commitNode t.size ((List.finRange k).map fun j => (j, some (r j))) (fun j => hash (key j)) = .ok t' ∧
      Arr hash t' (l ++ [(key, v)]) ∧ (∀ j, Chained t' j (· < (l ++ [(key, v)]).length)) ∧ t'.bc = t.bc ∧ t'.cap = t.cap ∧
      t'.lf = t.lf := by
  have hpos : t.size = l.length := ha.size
  have hnone : t.node t.size = none := ha.node_none (by omega)
  have hcell : ∀ j, t1.cell j = t.cell j := by
    intro j
    subst h1
    funext x
    cases x with
    | head b => rfl
    | next i =>
      unfold Table.cell
      simp only [upd_apply]
      by_cases e : i = t.size
      · rw [if_pos e, e, hnone]; rfl
      · rw [if_neg e]
  have hvalid : ∀ x, t.Valid x → t1.Valid x := by
    subst h1
    intro x hx
    cases x with
    | head b => exact hx
    | next i =>
      refine ⟨hx.1, ?_⟩
      simp only [upd_apply]
      split
      · simp
      · exact hx.2
  have hlt : ∀ (j : Fin k) (c : List Nat), (∀ i, i ∈ c ↔ i < l.length ∧ ∃ n, t.node i = some n ∧ n.hash j % t.bc = hash (key j) % t.bc) →
      ∀ i ∈ c, i < l.length := fun j c h i hi => ((h i).mp hi).1
  have hrv : ∀ j, t1.Valid (r j) := by
    intro j
    obtain ⟨c, _, _, h3, e⟩ := hr j
    rw [e]
    exact hvalid _ (endRef_valid ha (Nat.mod_lt _ hb) (hlt j c h3))
  obtain ⟨t2, e2, s2, c2, _⟩ := fold_components (comp := fun a : Fin k × Option Ref => a.1)
    (step := fun (t : Table k K V) (jr : Fin k × Option Ref) => do
      let r ← Table.deref jr.2
      t.writeRef jr.1 r (some l.length))
    (F := fun a => setc (t.cell a.1) (r a.1) (some l.length)) (t := t1)
    (as := (List.finRange k).map fun j => (j, some (r j)))
    (by rw [List.map_map]; exact (List.map_id _).symm ▸ List.nodup_finRange k)
    (by
      intro t' a ha' hs hc
      obtain ⟨j, _, rfl⟩ := List.mem_map.mp ha'
      simp only [Table.deref, bind_ok] at hc ⊢
      obtain ⟨t2, e, s, c, f⟩ := writeRef_ok j (some l.length) (hs.valid (hrv j))
      exact ⟨t2, e, s, by rw [c, hc, hcell], f⟩)
  have hn1 : t1.node l.length = some ⟨key, v, fun _ => 0, fun _ => none⟩ := by
    rw [h1, ← hpos]; exact upd_same ..
  obtain ⟨n2, hn2, k2, v2, hh2⟩ := SameBut.node_some s2 hn1
  have hcap1 : t1.cap = t.cap := by rw [h1]
  have hbc1 : t1.bc = t.bc := by rw [h1]
  have hread : t2.readNode l.length = .ok n2 := readNode_ok (by rw [s2.cap, hcap1]; omega) hn2
  have hother : ∀ i, i ≠ l.length → t1.node i = t.node i := by
    intro i hi
    rw [h1]
    exact upd_ne _ _ (by omega)
  generalize ht3 : ({ t2 with node := upd t2.node l.length (some { n2 with hash := fun j => hash (key j) }) } : Table k K V)
    = t3
  have hn3 : t3.node l.length = some { n2 with hash := fun j => hash (key j) } := by rw [← ht3]; exact upd_same ..
  have ho3 : ∀ i, i ≠ l.length → t3.node i = t2.node i := by
    intro i hi
    rw [← ht3]
    exact upd_ne _ _ hi
  have hcell3 : ∀ j, t3.cell j = setc (t.cell j) (r j) (some l.length) := by
    intro j
    rw [← c2 (j, some (r j)) (List.mem_map.mpr ⟨j, List.mem_finRange j, rfl⟩), ← ht3]
    funext x
    cases x with
    | head b => rfl
    | next i =>
      unfold Table.cell
      simp only [upd_apply]
      by_cases e : i = l.length
      · rw [if_pos e, e, hn2]; rfl
      · rw [if_neg e]
  have hbc3 : t3.bc = t.bc := by rw [← ht3]; exact s2.bc.trans hbc1
  refine ⟨t3, ?_, ⟨?_, ?_, ?_, ?_⟩, ?_, hbc3, ?_, ?_⟩
  · unfold Table.commitNode
    rw [hpos, e2, bind_ok]
    unfold Table.setHashes
    rw [hread, bind_ok, ht3]
  · rw [← ht3]
    show t2.size = _
    rw [s2.size, h1]
    simp only [List.length_append, List.length_cons, List.length_nil]
    omega
  · intro i
    by_cases e : i = l.length
    · subst e
      rw [hn3]
      simp [k2, v2]
    · rw [ho3 i e]
      have h4 : (t2.node i).map (fun n => (n.key, n.val)) = l[i]? := by
        rw [← ha.rep i, ← hother i e]
        cases hn : t1.node i with
        | none =>
          have := s2.node i
          rw [hn] at this
          rw [Option.map_eq_none_iff.mp this]
        | some n =>
          obtain ⟨n', hn', e1, e2, _⟩ := SameBut.node_some s2 hn
          rw [hn']
          simp [e1, e2]
      rw [h4]
      by_cases hi : i < l.length
      · rw [List.getElem?_append_left hi]
      · rw [List.getElem?_eq_none (by omega), List.getElem?_eq_none]
        simp only [List.length_append, List.length_cons, List.length_nil]
        omega
  · rw [← ht3]
    show t2.size ≤ t2.cap
    rw [s2.size, s2.cap, h1]
    simp only
    omega
  · intro i n hn j
    by_cases e : i = l.length
    · subst e
      rw [hn3] at hn
      cases hn
      simp [k2]
    · rw [ho3 i e] at hn
      obtain ⟨n', hn', e1, _, e3⟩ := SameBut.node_some (SameBut.symm s2) hn
      rw [hother i e] at hn'
      rw [← e3, ← e1]
      exact ha.hashed i n' hn' j
  · intro j b hbb
    rw [hbc3] at hbb ⊢
    have hmem : ∀ i, i ≠ l.length → ((∃ n, t3.node i = some n ∧ n.hash j % t.bc = b) ↔
        ∃ n, t.node i = some n ∧ n.hash j % t.bc = b) := by
      intro i hi
      rw [ho3 i hi, ← hother i hi]
      constructor
      · rintro ⟨n, hn, e⟩
        obtain ⟨n', hn', _, _, e3⟩ := SameBut.node_some (SameBut.symm s2) hn
        exact ⟨n', hn', by rw [e3]; exact e⟩
      · rintro ⟨n, hn, e⟩
        obtain ⟨n', hn', _, _, e3⟩ := SameBut.node_some s2 hn
        exact ⟨n', hn', by rw [e3]; exact e⟩
    obtain ⟨c, p1, p2, p3, p4⟩ := hr j
    have hnotmem : l.length ∉ c := fun h => Nat.lt_irrefl _ ((p3 _).mp h).1
    by_cases e : hash (key j) % t.bc = b
    · refine ⟨c ++ [l.length], ?_, ?_, ?_⟩
      · rw [hcell3, p4, ← e]
        refine p1.snoc p2 ?_ hnotmem
        unfold Table.cell
        simp only
        rw [← hpos, hnone]
        rfl
      · rw [List.nodup_append]
        refine ⟨p2, by simp, ?_⟩
        intro a ha' b' hb' e'
        rw [List.mem_singleton] at hb'
        subst hb'
        exact hnotmem (e' ▸ ha')
      · intro i
        rw [List.mem_append, List.mem_singleton, p3 i]
        simp only [List.length_append, List.length_cons, List.length_nil]
        by_cases hi : i = l.length
        · subst hi
          constructor
          · intro _
            exact ⟨by omega, _, hn3, e⟩
          · intro _
            exact Or.inr rfl
        · rw [hmem i hi, e]
          constructor
          · rintro (h | h)
            · exact ⟨by omega, h.2⟩
            · exact absurd h hi
          · rintro ⟨h, h'⟩
            exact Or.inl ⟨by omega, h'⟩
    · obtain ⟨c', q1, q2, q3⟩ := hch j b hbb
      refine ⟨c', ?_, q2, ?_⟩
      · rw [hcell3]
        have hne : ∀ i ∈ c, i ∉ c' := by
          intro i hi hi'
          obtain ⟨n, hn, e1⟩ := ((p3 i).mp hi).2
          obtain ⟨n', hn', e2⟩ := ((q3 i).mp hi').2
          rw [hn] at hn'
          cases hn'
          exact e (e1.symm.trans e2)
        rcases endRef_cases (.head (hash (key j) % t.bc)) c with ⟨_, e'⟩ | ⟨x, hx, e'⟩
        · rw [p4, e']
          exact q1.frame (by intro h; injection h with h; exact e h) (by intro i _ h; cases h)
        · rw [p4, e']
          exact q1.frame (by simp) (by intro i hi h; injection h with h; exact hne x hx (h ▸ hi))
      · intro i
        rw [q3 i]
        simp only [List.length_append, List.length_cons, List.length_nil]
        by_cases hi : i = l.length
        · subst hi
          constructor
          · rintro ⟨h, _⟩; omega
          · rintro ⟨_, n, hn, e'⟩
            rw [hn3] at hn
            cases hn
            exact absurd e' e
        · rw [hmem i hi]
          constructor
          · rintro ⟨h, h'⟩; exact ⟨by omega, h'⟩
          · rintro ⟨h, h'⟩; exact ⟨by omega, h'⟩
  · rw [← ht3]; exact s2.cap.trans hcap1
  · rw [← ht3]
    refine s2.lf.trans ?_
    rw [h1]

theorem pushNode_ok {hash : K → Nat} {t : Table k K V} {l : List (Elem k K V)} (ha : Arr hash t l) (hcap : t.size < t.cap)
    (key : Fin k → K) (v : V) : t.pushNode key v =
      .ok ({ t with size := t.size + 1, node := upd t.node t.size (some ⟨key, v, fun _ => 0, fun _ => none⟩) }, t.size) := by
  unfold Table.pushNode
  simp only
  rw [if_pos hcap, ha.node_none (Nat.le_of_eq ha.size.symm)]

/-- The result of an insertion. -/
structure InsertOk (hash : K → Nat) (t : Table k K V) (l : List (Elem k K V)) (key : Fin k → K) (v : V)
    (r : Table k K V × Nat × Bool) : Prop where
  lf : r.1.lf = t.lf
  bc : 0 < r.1.bc
  cap : ∀ t1, t.maybeResize = .ok t1 → r.1.cap = t1.cap
  fresh : conflict l key = none → r.2 = (l.length, true) ∧ Inv hash r.1 (l ++ [(key, v)])
  dup : ∀ i, conflict l key = some i → r.2 = (i, false) ∧ Inv hash r.1 l

theorem findSome_map {α β γ : Type} (l : List α) (f : α → β) (g : β → Option γ) :
    (l.map f).findSome? g = l.findSome? (fun a => g (f a)) := by
  induction l with
  | nil => rfl
  | cons a l ih => rw [List.map_cons, List.findSome?_cons, List.findSome?_cons, ih]

theorem insert_ok {hash : K → Nat} {t : Table k K V} {l : List (Elem k K V)} (h : Inv hash t l) (key : Fin k → K) (v : V) :
    ∃ r, t.insert hash key v = .ok r ∧ InsertOk hash t l key v r := by
  obtain ⟨t1, e1, i1, c1, f1, b1, s1⟩ := maybeResize_ok h
  obtain ⟨t2, e2, i2, c2, f2, b2, p2⟩ := maybeRehash_ok i1
  obtain ⟨r, e3, hr⟩ := locate_ok i2.toArr i2.uniq i2.chained p2 key
  have hcap : t2.size < t2.cap := by rw [i2.size, ← i1.size, c2]; exact s1
  unfold Table.insert
  rw [e1, bind_ok, e2, bind_ok, e3, bind_ok, findSome_map]
  rw [show List.findSome? (fun a => (a, idxOf l a (key a), some (r a)).2.1) (List.finRange k) = conflict l key from rfl]
  cases hc : conflict l key with
  | some i =>
    refine ⟨_, rfl, f2.trans f1, p2, fun t' q => by rw [e1] at q; cases q; exact c2, fun e => ?_, ?_⟩
    · rw [hc] at e; cases e
    · intro i' e
      rw [hc] at e
      cases e
      exact ⟨rfl, i2⟩
  | none =>
    simp only
    rw [pushNode_ok i2.toArr hcap, bind_ok]
    simp only [List.map_map]
    have hn := conflict_none hc
    obtain ⟨t3, e4, a4, c4, b4, k4, f4⟩ := commitNode_ok i2.toArr i2.chained p2 hcap rfl (key := key) (v := v) (r := r)
      (fun j => hr j (hn j))
    have e4' := e4
    rw [show (List.finRange k).map (fun j => (j, some (r j))) = (List.finRange k).map ((fun x : Fin k × Option Nat × Option Ref =>
      (x.1, x.2.2)) ∘ fun j => (j, idxOf l j (key j), some (r j))) from rfl] at e4'
    rw [e4', bind_ok]
    refine ⟨_, rfl, f4.trans (f2.trans f1), b4 ▸ p2, fun t' q => by rw [e1] at q; cases q; exact k4.trans c2, ?_, ?_⟩
    · intro _
      refine ⟨by rw [i2.size], a4, ?_, ?_, c4⟩
      · intro j
        rw [List.map_append, List.nodup_append]
        refine ⟨h.uniq j, by simp, ?_⟩
        intro a ha b hb e
        simp only [List.map_cons, List.map_nil, List.mem_singleton] at hb
        subst hb
        obtain ⟨x, hx, hxe⟩ := List.mem_map.mp ha
        exact idxOf_eq_none (hn j) x hx (hxe.trans e)
      · intro e
        rw [b4] at e
        omega
    · intro i e
      rw [hc] at e
      cases e

/-! ### `emplace` -/

/-- A table with more nodes. -/
structure Extends (t t1 : Table k K V) : Prop where
  cap : t1.cap = t.cap
  bc : t1.bc = t.bc
  head : t1.head = t.head
  node : ∀ i n, t.node i = some n → t1.node i = some n

theorem Extends.readNode {t t1 : Table k K V} (h : Extends t t1) {i : Nat} {n : Node k K V} (hr : t.readNode i = .ok n) :
    t1.readNode i = .ok n := by
  unfold Table.readNode at hr ⊢
  rw [h.cap]
  split at hr
  · rename_i hi
    rw [if_pos hi]
    cases hn : t.node i with
    | none => rw [hn] at hr; cases hr
    | some m =>
      rw [hn] at hr
      rw [h.node i m hn]
      exact hr
  · cases hr

theorem bind_eq_ok {α β : Type} {x : M α} {f : α → M β} {b : β} (h : x >>= f = .ok b) : ∃ a, x = .ok a ∧ f a = .ok b := by
  cases x with
  | error e => cases h
  | ok a => exact ⟨a, rfl, h⟩

theorem Extends.readRef {t t1 : Table k K V} (h : Extends t t1) {j : Fin k} {r : Ref} {v : Option Nat}
    (hr : t.readRef j r = .ok v) : t1.readRef j r = .ok v := by
  cases r with
  | head b =>
    unfold Table.readRef at hr ⊢
    simp only at hr ⊢
    rw [h.bc, h.head]
    exact hr
  | next i =>
    unfold Table.readRef at hr ⊢
    simp only at hr ⊢
    obtain ⟨n, hn, e⟩ := bind_eq_ok hr
    rw [h.readNode hn, bind_ok]
    exact e

theorem Extends.findLoop {t t1 : Table k K V} (h : Extends t t1) {j : Fin k} {x : K} {hx : Nat} :
    ∀ {fuel : Nat} {r : Ref} {v : Option Nat × Ref}, t.findLoop j x hx fuel r = .ok v → t1.findLoop j x hx fuel r = .ok v := by
  intro fuel
  induction fuel with
  | zero => intro r v hv; cases hv
  | succ fuel ih =>
    intro r v hv
    unfold Table.findLoop at hv ⊢
    obtain ⟨o, ho, hv⟩ := bind_eq_ok hv
    rw [h.readRef ho, bind_ok]
    cases o with
    | none => exact hv
    | some i =>
      simp only at hv ⊢
      obtain ⟨n, hn, hv⟩ := bind_eq_ok hv
      rw [h.readNode hn, bind_ok]
      split
      · rename_i hc
        rw [if_pos hc] at hv
        exact hv
      · rename_i hc
        rw [if_neg hc] at hv
        exact ih hv

theorem Extends.findNode {t t1 : Table k K V} (h : Extends t t1) {hash : K → Nat} {j : Fin k} {x : K}
    {v : Option Nat × Option Ref} (hv : t.findNode hash j x = .ok v) : t1.findNode hash j x = .ok v := by
  unfold Table.findNode Table.getChain at hv ⊢
  rw [h.bc, h.cap]
  split at hv
  · exact hv
  · rename_i r _
    obtain ⟨o, ho, hv⟩ := bind_eq_ok hv
    rw [h.findLoop ho, bind_ok]
    exact hv

theorem mapM_congr_ok {α β : Type} {f g : α → M β} : ∀ {l : List α} {r : List β}, (∀ a ∈ l, ∀ b, f a = .ok b → g a = .ok b) →
    l.mapM f = .ok r → l.mapM g = .ok r := by
  intro l
  induction l with
  | nil => intro r _ h; exact h
  | cons a l ih =>
    intro r h hr
    rw [List.mapM_cons] at hr ⊢
    obtain ⟨b, hb, hr⟩ := bind_eq_ok hr
    obtain ⟨bs, hbs, hr⟩ := bind_eq_ok hr
    rw [h a List.mem_cons_self b hb, bind_ok, ih (fun a ha => h a (List.mem_cons_of_mem _ ha)) hbs, bind_ok]
    exact hr

theorem Extends.locate {t t1 : Table k K V} (h : Extends t t1) {hash : K → Nat} {key : Fin k → K}
    {v : List (Fin k × Option Nat × Option Ref)} (hv : t.locate hash key = .ok v) : t1.locate hash key = .ok v := by
  refine mapM_congr_ok ?_ hv
  intro j _ b hb
  obtain ⟨o, ho, hb⟩ := bind_eq_ok hb
  rw [h.findNode ho, bind_ok]
  exact hb

theorem emplace_ok {hash : K → Nat} {t : Table k K V} {l : List (Elem k K V)} (h : Inv hash t l) (key : Fin k → K) (v : V) :
    ∃ r, t.emplace hash key v = .ok r ∧ InsertOk hash t l key v r := by
  obtain ⟨t1, e1, i1, c1, f1, b1, s1⟩ := maybeResize_ok h
  obtain ⟨t2, e2, i2, c2, f2, b2, p2⟩ := maybeRehash_ok i1
  obtain ⟨r, e3, hr⟩ := locate_ok i2.toArr i2.uniq i2.chained p2 key
  have hcap : t2.size < t2.cap := by rw [i2.size, ← i1.size, c2]; exact s1
  have hnone : t2.node t2.size = none := i2.toArr.node_none (Nat.le_of_eq i2.size.symm)
  unfold Table.emplace
  rw [e1, bind_ok, e2, bind_ok, pushNode_ok i2.toArr hcap, bind_ok]
  simp only
  have hext : Extends t2
      { t2 with size := t2.size + 1, node := upd t2.node t2.size (some ⟨key, v, fun _ => 0, fun _ => none⟩) } := by
    refine ⟨rfl, rfl, rfl, ?_⟩
    intro i n hn
    simp only
    rw [upd_ne]
    · exact hn
    · intro e
      rw [e, hnone] at hn
      cases hn
  rw [hext.locate e3, bind_ok, findSome_map]
  rw [show List.findSome? (fun a => (a, idxOf l a (key a), some (r a)).2.1) (List.finRange k) = conflict l key from rfl]
  cases hc : conflict l key with
  | some i =>
    simp only
    unfold Table.popNode
    simp only
    rw [if_neg (by omega), Nat.add_sub_cancel, upd_same]
    simp only [bind_ok]
    have hback : upd (upd t2.node t2.size (some ⟨key, v, fun _ => 0, fun _ => none⟩)) t2.size none = t2.node := by
      funext i
      simp only [upd_apply]
      by_cases e : i = t2.size
      · rw [if_pos e, e, hnone]
      · rw [if_neg e, if_neg e]
    rw [hback]
    refine ⟨_, rfl, f2.trans f1, p2, fun t' q => by rw [e1] at q; cases q; exact c2, fun e => ?_, ?_⟩
    · rw [hc] at e; cases e
    · intro i' e
      rw [hc] at e
      cases e
      exact ⟨rfl, i2⟩
  | none =>
    simp only [List.map_map]
    have hn := conflict_none hc
    obtain ⟨t3, e4, a4, c4, b4, k4, f4⟩ := commitNode_ok i2.toArr i2.chained p2 hcap rfl (key := key) (v := v) (r := r)
      (fun j => hr j (hn j))
    have e4' := e4
    rw [show (List.finRange k).map (fun j => (j, some (r j))) = (List.finRange k).map ((fun x : Fin k × Option Nat × Option Ref =>
      (x.1, x.2.2)) ∘ fun j => (j, idxOf l j (key j), some (r j))) from rfl] at e4'
    rw [e4', bind_ok]
    refine ⟨_, rfl, f4.trans (f2.trans f1), b4 ▸ p2, fun t' q => by rw [e1] at q; cases q; exact k4.trans c2, ?_, ?_⟩
    · intro _
      refine ⟨by rw [i2.size], a4, ?_, ?_, c4⟩
      · intro j
        rw [List.map_append, List.nodup_append]
        refine ⟨h.uniq j, by simp, ?_⟩
        intro a ha b hb e
        simp only [List.map_cons, List.map_nil, List.mem_singleton] at hb
        subst hb
        obtain ⟨x, hx, hxe⟩ := List.mem_map.mp ha
        exact idxOf_eq_none (hn j) x hx (hxe.trans e)
      · intro e
        rw [b4] at e
        omega
    · intro i e
      rw [hc] at e
      cases e

/-! ### `insert_or_assign` -/

/-- Writing a mapped value. -/
theorem Inv.setVal {hash : K → Nat} {t : Table k K V} {l : List (Elem k K V)} (h : Inv hash t l) {i : Nat} {n : Node k K V}
    (hn : t.node i = some n) (v : V) :
    Inv hash { t with node := upd t.node i (some { n with val := v }) } (l.set i (n.key, v)) := by
  have hi := h.toArr.node_lt hn
  have hkeys : ∀ j, (l.set i (n.key, v)).map (fun e => e.1 j) = l.map (fun e => e.1 j) := by
    intro j
    rw [List.map_set]
    apply List.ext_getElem?
    intro x
    rw [List.getElem?_set]
    split
    · rename_i e
      subst e
      have := h.toArr.node_elem hn
      rw [List.getElem?_map, this, if_pos (by rw [List.length_map]; exact hi)]
      rfl
    · rfl
  have hcell : ∀ j, ({ t with node := upd t.node i (some { n with val := v }) } : Table k K V).cell j = t.cell j := by
    intro j
    funext x
    cases x with
    | head b => rfl
    | next y =>
      unfold Table.cell
      simp only [upd_apply]
      by_cases e : y = i
      · rw [if_pos e, e, hn]; rfl
      · rw [if_neg e]
  refine ⟨⟨?_, ?_, h.le_cap, ?_⟩, ?_, ?_, ?_⟩
  · rw [List.length_set]; exact h.size
  · intro x
    simp only [upd_apply]
    rw [List.getElem?_set]
    by_cases e : x = i
    · rw [if_pos e, if_pos e.symm, if_pos (e ▸ hi)]; rfl
    · rw [if_neg e, if_neg (Ne.symm e)]; exact h.rep x
  · intro x m hm j
    simp only [upd_apply] at hm
    by_cases e : x = i
    · rw [if_pos e] at hm
      cases hm
      exact h.hashed i n hn j
    · rw [if_neg e] at hm
      exact h.hashed x m hm j
  · intro j; rw [hkeys]; exact h.uniq j
  · intro e
    rw [h.empty e]; rfl
  · intro j b hb
    rw [hcell, List.length_set]
    obtain ⟨c, h1, h2, h3⟩ := h.chained j b hb
    refine ⟨c, h1, h2, ?_⟩
    intro x
    rw [h3 x]
    refine and_congr_right fun _ => ?_
    simp only [upd_apply]
    by_cases e : x = i
    · rw [if_pos e, e]
      constructor
      · rintro ⟨m, hm, e'⟩
        rw [hn] at hm
        cases hm
        exact ⟨_, rfl, e'⟩
      · rintro ⟨m, hm, e'⟩
        cases hm
        exact ⟨n, hn, e'⟩
    · rw [if_neg e]

/-- The result of `insert_or_assign`. -/
structure AssignOk (hash : K → Nat) (t : Table 1 K V) (l : List (Elem 1 K V)) (x : K) (v : V)
    (r : Table 1 K V × Nat × Bool) : Prop where
  lf : r.1.lf = t.lf
  bc : 0 < r.1.bc
  cap : ∀ t1, t.maybeResize = .ok t1 → r.1.cap = t1.cap
  fresh : idxOf l 0 x = none → r.2 = (l.length, true) ∧ Inv hash r.1 (l ++ [(fun _ => x, v)])
  dup : ∀ i, idxOf l 0 x = some i → r.2 = (i, false) ∧ Inv hash r.1 (l.set i (fun _ => x, v))

theorem insertOrAssign_ok {hash : K → Nat} {t : Table 1 K V} {l : List (Elem 1 K V)} (h : Inv hash t l) (x : K) (v : V) :
    ∃ r, t.insertOrAssign hash x v = .ok r ∧ AssignOk hash t l x v r := by
  obtain ⟨t1, e1, i1, c1, f1, b1, s1⟩ := maybeResize_ok h
  obtain ⟨t2, e2, i2, c2, f2, b2, p2⟩ := maybeRehash_ok i1
  have hcap : t2.size < t2.cap := by rw [i2.size, ← i1.size, c2]; exact s1
  obtain ⟨r, e3, hr⟩ := findNode_full i2.toArr i2.uniq (i2.chained 0) p2 x
  unfold Table.insertOrAssign
  rw [e1, bind_ok, e2, bind_ok, e3, bind_ok]
  simp only
  cases hc : idxOf l 0 x with
  | some i =>
    simp only
    obtain ⟨e, he, hx⟩ := idxOf_some hc
    obtain ⟨n, hr1, hn, hn2⟩ := i2.toArr.read (List.getElem?_eq_some_iff.mp he).1
    rw [hr1, bind_ok]
    refine ⟨_, rfl, f2.trans f1, p2, fun t' q => by rw [e1] at q; cases q; exact c2, fun e' => ?_, ?_⟩
    · rw [hc] at e'; cases e'
    · intro i' e'
      rw [hc] at e'
      cases e'
      refine ⟨rfl, ?_⟩
      have hk : n.key = fun _ => x := by
        have h3 := i2.toArr.node_elem hn
        rw [he] at h3
        cases h3
        funext j
        rw [Subsingleton.elim j 0]
        exact hx
      have := i2.setVal hn v
      rw [hk] at this
      have h4 : ({ n with val := v } : Node 1 K V) = { key := n.key, val := v, hash := n.hash, next := n.next } := rfl
      simp only [hk] at this ⊢
      exact this
  | none =>
    simp only
    rw [pushNode_ok i2.toArr hcap, bind_ok]
    simp only
    obtain ⟨t3, e4, a4, c4, b4, k4, f4⟩ := commitNode_ok i2.toArr i2.chained p2 hcap rfl (key := fun _ => x) (v := v)
      (r := fun _ => r) (fun j => by rw [Subsingleton.elim j 0]; exact hr hc)
    rw [show (List.finRange 1).map (fun j => (j, some r)) = [(0, some r)] from rfl] at e4
    rw [e4, bind_ok]
    refine ⟨_, rfl, f4.trans (f2.trans f1), b4 ▸ p2, fun t' q => by rw [e1] at q; cases q; exact k4.trans c2, ?_, ?_⟩
    · intro _
      refine ⟨by rw [i2.size], a4, ?_, ?_, c4⟩
      · intro j
        rw [Subsingleton.elim j 0, List.map_append, List.nodup_append]
        refine ⟨h.uniq 0, by simp, ?_⟩
        intro a ha b hb e
        simp only [List.map_cons, List.map_nil, List.mem_singleton] at hb
        subst hb
        obtain ⟨y, hy, hye⟩ := List.mem_map.mp ha
        exact idxOf_eq_none hc y hy (hye.trans e)
      · intro e
        rw [b4] at e
        omega
    · intro i e
      rw [hc] at e
      cases e

end Tpp.Dense
