import Verif.Dense.Hist

/-!
# Insertion and erasure of the same key in a dense container

Exact forms of the steps of `insert` and `erase`, used for C106.
-/

set_option linter.unusedSectionVars false

namespace Tpp.Dense

variable {k : Nat} {K V : Type} [DecidableEq K]

/-- A table is determined by its counters, its chain cells and the rest of its nodes. -/
theorem Table.ext_cells {a b : Table k K V} (hs : a.SameBut b) (hc : ∀ j, b.cell j = a.cell j) : b = a := by
  obtain ⟨s1, c1, b1, n1, h1, f1⟩ := a
  obtain ⟨s2, c2, b2, n2, h2, f2⟩ := b
  obtain ⟨q1, q2, q3, q4, q5⟩ := hs
  simp only at q1 q2 q3 q4 q5
  subst q1 q2 q3 q4
  have hh : h2 = h1 := by
    funext b j
    exact congrFun (hc j) (.head b)
  have hn : n2 = n1 := by
    funext i
    have hk := q5 i
    have hx : ∀ j, (n2 i).bind (·.next j) = (n1 i).bind (·.next j) := fun j => congrFun (hc j) (.next i)
    cases e2 : n2 i with
    | none =>
      rw [e2] at hk
      exact (Option.map_eq_none_iff.mp hk.symm).symm
    | some m2 =>
      cases e1 : n1 i with
      | none =>
        rw [e1, e2] at hk
        cases hk
      | some m1 =>
        rw [e1, e2] at hk hx
        obtain ⟨ka, va, ha, xa⟩ := m1
        obtain ⟨kb, vb, hb, xb⟩ := m2
        simp only [Option.map_some, Option.some.injEq, Prod.mk.injEq] at hk
        obtain ⟨rfl, rfl, rfl⟩ := hk
        have : xb = xa := by
          funext j
          exact hx j
        rw [this]
  rw [hh, hn]

/-- The cells after `push_node` and `commit_node`: the ends of the chains point to the new node. -/
theorem commitNode_cells {hash : K → Nat} {t t1 : Table k K V} {l : List (Elem k K V)} (ha : Arr hash t l)
    (hb : 0 < t.bc) (hcap : t.size < t.cap) {key : Fin k → K} {v : V}
    (h1 : t1 = { t with size := t.size + 1, node := upd t.node t.size (some ⟨key, v, fun _ => 0, fun _ => none⟩) })
    {r : Fin k → Ref} (hr : ∀ j, EndOf hash t l j (key j) (r j)) {t' : Table k K V}
    (e : t1.commitNode t.size ((List.finRange k).map fun j => (j, some (r j))) (fun j => hash (key j)) = .ok t') :
    (∀ j, t'.cell j = setc (t.cell j) (r j) (some t.size)) ∧ t'.size = t.size + 1 ∧ t'.cap = t.cap ∧ t'.bc = t.bc ∧ t'.lf = t.lf ∧
      ∀ i, (t'.node i).map (fun n => (n.key, n.val, n.hash)) =
        if i = t.size then some (key, v, fun j => hash (key j)) else (t.node i).map (fun n => (n.key, n.val, n.hash)) := by
  have hnone : t.node t.size = none := ha.node_none (Nat.le_of_eq ha.size.symm)
  have hcell : ∀ j, t1.cell j = t.cell j := by
    intro j
    subst h1
    funext x
    cases x with
    | head b => rfl
    | next i =>
      unfold Table.cell
      simp only [upd_apply]
      by_cases e : i = t.size
      · rw [if_pos e, e, hnone]; rfl
      · rw [if_neg e]
  have hvalid : ∀ x, t.Valid x → t1.Valid x := by
    subst h1
    intro x hx
    cases x with
    | head b => exact hx
    | next i =>
      refine ⟨hx.1, ?_⟩
      simp only [upd_apply]
      split
      · simp
      · exact hx.2
  have hrv : ∀ j, t1.Valid (r j) := by
    intro j
    obtain ⟨c, _, _, h3, e⟩ := hr j
    rw [e]
    exact hvalid _ (endRef_valid ha (Nat.mod_lt _ hb) (fun i hi => ((h3 i).mp hi).1))
  unfold Table.commitNode at e
  obtain ⟨t2, e1, s2, c2, f2⟩ := fold_components (comp := fun a : Fin k × Option Ref => a.1)
    (step := fun (t' : Table k K V) (jr : Fin k × Option Ref) => do
      let r ← Table.deref jr.2
      t'.writeRef jr.1 r (some t.size))
    (F := fun a => setc (t.cell a.1) (r a.1) (some t.size)) (t := t1)
    (as := (List.finRange k).map fun j => (j, some (r j)))
    (by rw [List.map_map]; exact (List.map_id _).symm ▸ List.nodup_finRange k)
    (by
      intro u a hau hs hc
      obtain ⟨j, _, rfl⟩ := List.mem_map.mp hau
      obtain ⟨t2, e, s, c, f⟩ := writeRef_ok j (some t.size) (hs.valid (hrv j))
      refine ⟨t2, ?_, s, ?_, f⟩
      · simp only [Table.deref, bind_ok]
        exact e
      · rw [c, hc, hcell])
  obtain ⟨u, e1', e⟩ := bind_eq_ok e
  rw [e1] at e1'
  have hu : t2 = u := Except.ok.inj e1'
  subst hu
  unfold Table.setHashes at e
  obtain ⟨n, hn, e⟩ := bind_eq_ok e
  have hnode : t2.node t.size = some n := by
    unfold Table.readNode at hn
    split at hn
    · cases hq : t2.node t.size with
      | none => rw [hq] at hn; cases hn
      | some m => rw [hq] at hn; cases hn; rfl
    · cases hn
  have hkv : n.key = key ∧ n.val = v := by
    have := s2.node t.size
    rw [hnode, h1] at this
    simp only [upd_apply, if_true, Option.map_some, Option.some.injEq, Prod.mk.injEq] at this
    exact ⟨this.1, this.2.1⟩
  have e := Except.ok.inj e
  subst e
  refine ⟨?_, ?_, ?_, ?_, ?_, ?_⟩
  · intro j
    rw [← c2 (j, some (r j)) (List.mem_map.mpr ⟨j, List.mem_finRange j, rfl⟩)]
    funext x
    cases x with
    | head b => rfl
    | next i =>
      unfold Table.cell
      simp only [upd_apply]
      by_cases e : i = t.size
      · rw [if_pos e, e, hnode]; rfl
      · rw [if_neg e]
  · rw [s2.size, h1]
  · rw [s2.cap, h1]
  · rw [s2.bc, h1]
  · rw [s2.lf, h1]
  · intro i
    simp only [upd_apply]
    by_cases e : i = t.size
    · rw [if_pos e, if_pos e, Option.map_some, hkv.1, hkv.2]
    · rw [if_neg e, if_neg e, s2.node i, h1]
      simp only [upd_apply, if_neg e]

/-- Erasure of the last node: its chain references take over its chain indices, nothing else changes. -/
theorem eraseLast_cells {hash : K → Nat} {t t' : Table k K V} {l : List (Elem k K V)} (h : Inv hash t l) {pos : Nat} {n : Node k K V}
    (hn : t.node pos = some n) (hlast : pos + 1 = t.size) {slice : List (Fin k × Ref)} (hnd : (slice.map (·.1)).Nodup)
    (hall : ∀ j, j ∈ slice.map (·.1)) (hsl : ∀ jr ∈ slice, RefTo t (· < l.length) n pos jr.1 jr.2)
    (e : t.eraseNode pos slice = .ok t') :
    (∀ jr ∈ slice, ∀ x, t'.cell jr.1 x =
        if x = .next pos then none else setc (t.cell jr.1) jr.2 (t.cell jr.1 (.next pos)) x) ∧
      t'.size = pos ∧ t'.cap = t.cap ∧ t'.bc = t.bc ∧ t'.lf = t.lf ∧
      ∀ i, (t'.node i).map (fun n => (n.key, n.val, n.hash)) =
        if i = pos then none else (t.node i).map (fun n => (n.key, n.val, n.hash)) := by
  have hp := h.toArr.node_lt hn
  have hb : 0 < t.bc := by
    rcases Nat.eq_zero_or_pos t.bc with e | e
    · rw [h.empty e] at hp; simp at hp
    · exact e
  have hle := h.le_cap
  obtain ⟨t1, e1, s1, c1, _⟩ := fold_components (comp := fun a : Fin k × Ref => a.1)
    (step := fun (t : Table k K V) (jr : Fin k × Ref) => do
      let n ← t.readNode pos
      t.writeRef jr.1 jr.2 (n.next jr.1))
    (F := fun a => setc (t.cell a.1) a.2 (t.cell a.1 (.next pos))) (t := t) (as := slice) hnd
    (by
      intro t1 a ha hs hc
      obtain ⟨n1, hn1, _⟩ := SameBut.node_some hs hn
      have hv : t1.Valid a.2 := hs.valid ((hsl a ha).valid h.toArr hb (fun i hi => hi))
      obtain ⟨t2, e, s, c, f⟩ := writeRef_ok a.1 (n1.next a.1) hv
      refine ⟨t2, ?_, s, ?_, f⟩
      · rw [readNode_ok (by rw [hs.cap]; omega) hn1, bind_ok]; exact e
      · rw [c, hc]
        congr 1
        rw [← hc]
        unfold Table.cell
        simp only
        rw [hn1]
        rfl)
  obtain ⟨n1, hn1, _⟩ := SameBut.node_some s1 hn
  have hsz : t1.size = pos + 1 := by rw [s1.size, hlast]
  unfold Table.eraseNode at e
  rw [e1, bind_ok, if_neg (by omega), if_neg (by omega), bind_ok] at e
  unfold Table.popNode at e
  rw [if_neg (by omega), hsz, Nat.add_sub_cancel, hn1] at e
  have e := Except.ok.inj e
  subst e
  refine ⟨?_, rfl, s1.cap, s1.bc, s1.lf, ?_⟩
  · intro jr hjr x
    rw [← c1 jr hjr]
    cases x with
    | head b => rw [if_neg (by simp)]; rfl
    | next i =>
      unfold Table.cell
      simp only [upd_apply]
      by_cases e : i = pos
      · simp [e]
      · simp [e]
  · intro i
    simp only [upd_apply]
    by_cases e : i = pos
    · simp [e]
    · simp only [if_neg e]
      exact s1.node i

/-- What `erase(key)` hands to `erase_node`. -/
theorem erase_slice {hash : K → Nat} {t : Table k K V} {l : List (Elem k K V)} (h : Inv hash t l) (hb : 0 < t.bc) {j : Fin k}
    {x : K} {i : Nat} (hi : idxOf l j x = some i) :
    ∃ n slice, t.node i = some n ∧ (slice.map (·.1)).Nodup ∧ (∀ j : Fin k, j ∈ slice.map (·.1)) ∧
      (∀ jr ∈ slice, RefTo t (· < l.length) n i jr.1 jr.2) ∧
      t.erase hash j x = (t.eraseNode i slice >>= fun t' => .ok (t', i, true)) := by
  unfold Table.erase
  rw [getChain_pos hb]
  unfold Table.deref
  simp only [bind_ok]
  obtain ⟨c, h0, h1, h2, h3⟩ := findLoop_spec h.toArr (h.chained j) hb x
  rcases h3 with ⟨a, i', b, n, ec, ia, g1, g2, g3, g4⟩ | ⟨g1, g2⟩
  · rw [g4, bind_ok]
    simp only
    have hidx : idxOf l j x = some i' := by
      have := idxOf_of_uniq (h.uniq j) (h.toArr.node_elem g2)
      rw [show (n.key, n.val).1 j = x from g3] at this
      exact this
    rw [hidx] at hi
    cases hi
    have hhash : n.hash j = hash x := by rw [h.hashed i n g2 j, g3]
    obtain ⟨n', hr', hn', _⟩ := h.toArr.read g1
    rw [g2] at hn'
    cases hn'
    rw [hr', bind_ok]
    obtain ⟨r, e1, hr1⟩ := slices_ok h hb g2 ((List.finRange k).filter (· ≠ j))
    rw [e1, bind_ok]
    refine ⟨n, (j, endRef (.head (hash x % t.bc)) a) :: ((List.finRange k).filter (· ≠ j)).map fun j => (j, r j), g2, ?_, ?_, ?_, rfl⟩
    · rw [List.map_cons, List.map_map]
      have : List.map ((fun x : Fin k × Ref => x.1) ∘ fun j => (j, r j)) ((List.finRange k).filter (· ≠ j))
          = (List.finRange k).filter (· ≠ j) := List.map_id _
      rw [this, List.nodup_cons]
      refine ⟨by simp, (List.nodup_finRange k).filter _⟩
    · intro j'
      rw [List.map_cons, List.map_map]
      by_cases e : j' = j
      · rw [e]; exact List.mem_cons_self
      · refine List.mem_cons_of_mem _ (List.mem_map.mpr ⟨j', ?_, rfl⟩)
        rw [List.mem_filter]
        exact ⟨List.mem_finRange j', by simpa using e⟩
    · intro jr hjr
      rcases List.mem_cons.mp hjr with e | e
      · rw [e]
        refine ⟨a, b, ?_, ?_, ?_, ?_⟩
        · rw [hhash, ← ec]; exact h0
        · rw [← ec]; exact h1
        · intro i'
          rw [← ec, hhash]; exact h2 i'
        · rw [hhash]
      · obtain ⟨j', _, rfl⟩ := List.mem_map.mp e
        exact hr1 j'
  · rw [idxOf_none g1] at hi
    cases hi

/-- Erasing the element just inserted (by any component of its key) restores the table as it was after making room. -/
theorem erase_inserted {hash : K → Nat} {t t3 : Table k K V} {l : List (Elem k K V)} (h : Inv hash t l) {key : Fin k → K} {v : V}
    {p : Nat} (e : t.insert hash key v = .ok (t3, p, true)) :
    ∃ t1 t2, t.maybeResize = .ok t1 ∧ t1.maybeRehash = .ok t2 ∧ Inv hash t2 l ∧ p = l.length ∧ t2.size < t2.cap ∧ 0 < t2.bc ∧
      ∀ j, t3.erase hash j (key j) = .ok (t2, p, true) := by
  obtain ⟨t1, e1, i1, c1, f1, b1, s1⟩ := maybeResize_ok h
  obtain ⟨t2, e2, i2, c2, f2, b2, p2⟩ := maybeRehash_ok i1
  obtain ⟨r, e3, hr⟩ := locate_ok i2.toArr i2.uniq i2.chained p2 key
  have hcap : t2.size < t2.cap := by rw [i2.size, ← i1.size, c2]; exact s1
  have hI3 : conflict l key = none ∧ (p, true) = (l.length, true) ∧ Inv hash t3 (l ++ [(key, v)]) := by
    obtain ⟨q, eq, hq⟩ := insert_ok h key v
    rw [e] at eq
    cases eq
    cases hc : conflict l key with
    | some i =>
      have := (hq.dup i hc).1
      simp at this
    | none => exact ⟨rfl, hq.fresh hc⟩
  obtain ⟨hc, hpl, i3⟩ := hI3
  have hpl : p = l.length := congrArg Prod.fst hpl
  have hn := conflict_none hc
  have hend : ∀ j, EndOf hash t2 l j (key j) (r j) := fun j => hr j (hn j)
  unfold Table.insert at e
  rw [e1, bind_ok, e2, bind_ok, e3, bind_ok, findSome_map] at e
  rw [show List.findSome? (fun a => (a, idxOf l a (key a), some (r a)).2.1) (List.finRange k) = conflict l key from rfl, hc] at e
  simp only at e
  rw [pushNode_ok i2.toArr hcap, bind_ok] at e
  simp only [List.map_map] at e
  rw [show (List.finRange k).map ((fun x : Fin k × Option Nat × Option Ref =>
      (x.1, x.2.2)) ∘ fun j => (j, idxOf l j (key j), some (r j))) = (List.finRange k).map (fun j => (j, some (r j))) from rfl] at e
  obtain ⟨u, e4, e⟩ := bind_eq_ok e
  have hu : u = t3 := congrArg Prod.fst (Except.ok.inj e)
  subst hu
  obtain ⟨d1, d2, d3, d4, d5, d6⟩ := commitNode_cells i2.toArr p2 hcap rfl hend e4
  have hsz2 : t2.size = l.length := i2.size
  refine ⟨t1, t2, e1, e2, i2, hpl, hcap, p2, ?_⟩
  intro j
  have hidx : idxOf (l ++ [(key, v)]) j (key j) = some p := by
    have := idxOf_of_uniq (i3.uniq j) (i := p) (e := (key, v)) (by rw [hpl]; simp)
    exact this
  obtain ⟨n, slice, g1, g2, g3, g4, g5⟩ := erase_slice i3 (by omega) hidx
  obtain ⟨t4, e5, _⟩ := eraseNode_ok i3 g1 g2 g3 g4
  obtain ⟨m1, m2, m3, m4, m5, m6⟩ := eraseLast_cells i3 g1 (by omega) g2 g3 g4 e5
  rw [g5, e5, bind_ok]
  have hnkey : ∀ j, n.hash j = hash (key j) := by
    intro j
    have := d6 p
    rw [g1, if_pos (by omega), Option.map_some] at this
    have := Option.some.inj this
    simp only [Prod.mk.injEq] at this
    rw [this.2.2]
  have hnone : t2.node p = none := i2.toArr.node_none (by omega)
  have hcells : ∀ j, t4.cell j = t2.cell j := by
    intro j
    obtain ⟨jr, hjr, hj⟩ := List.mem_map.mp (g3 j)
    subst hj
    obtain ⟨c, k1, k2, k3, k4⟩ := hend jr.1
    obtain ⟨x, y, q1, q2, q3, q4⟩ := g4 jr hjr
    rw [hnkey, d4, d1 jr.1, k4] at q1
    have hpc : p ∉ c := by
      intro hp
      have := ((k3 p).mp hp).1
      omega
    have hsn := Path.snoc k1 k2 (p := p) (by
      unfold Table.cell
      simp only [hnone]
      rfl) hpc
    rw [show t2.size = p by omega] at q1
    have huniq := Path.unique q1 hsn
    have hxc : x = c := by
      have hx : p ∉ x := not_mem_of_nodup q2
      rcases List.eq_nil_or_concat y with rfl | ⟨y', z, rfl⟩
      · exact (List.append_inj' huniq rfl).1
      · exfalso
        have hz : (x ++ p :: y') ++ [z] = c ++ [p] := by simpa using huniq
        have := (List.append_inj' hz rfl).1
        apply hpc
        rw [← this]
        simp
    have href : jr.2 = r jr.1 := by
      rw [q4, k4, hxc, hnkey, d4]
    funext z
    rw [m1 jr hjr z, d1 jr.1, href]
    have hnp : t2.cell jr.1 (.next p) = none := by
      unfold Table.cell
      simp only [hnone]
      rfl
    have hrp : r jr.1 ≠ .next p := by
      rw [k4]
      rcases endRef_cases (.head (hash (key jr.1) % t2.bc)) c with ⟨_, e⟩ | ⟨i, hi, e⟩
      · rw [e]; simp
      · rw [e]
        intro q
        cases q
        exact hpc hi
    have hrn : t2.cell jr.1 (r jr.1) = none := by
      rw [k4]
      exact k1.end_none
    by_cases hz : z = .next p
    · rw [if_pos hz, hz, hnp]
    · rw [if_neg hz]
      unfold setc
      by_cases hzr : z = r jr.1
      · rw [if_pos hzr, if_neg (fun q => hrp q.symm), hnp, hzr, hrn]
      · rw [if_neg hzr, if_neg hzr]
  have : t4 = t2 := by
    refine Table.ext_cells ⟨by omega, by omega, by omega, by rw [m5, d5], ?_⟩ hcells
    intro i
    rw [m6 i]
    by_cases hi : i = p
    · rw [if_pos hi, hi, hnone]
      rfl
    · rw [if_neg hi, d6 i, if_neg (by omega)]
  rw [this]

end Tpp.Dense
