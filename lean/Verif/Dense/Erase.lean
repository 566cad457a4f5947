import Verif.Dense.Ops
import Verif.Dense.Spec

/-!
# Erasure in `dense_table`: the last node is moved into the hole
-/

set_option linter.unusedSectionVars false

namespace Tpp.Dense

variable {k : Nat} {K V : Type} [DecidableEq K]

theorem swapRemove_eq {α : Type} {l : List α} {e : α} (h : l.getLast? = some e) (pos : Nat) :
    swapRemove l pos = (l.set pos e).dropLast := by
  unfold swapRemove
  rw [h]

theorem getLast?_idx {α : Type} {l : List α} (h : 0 < l.length) : l.getLast? = some l[l.length - 1] := by
  rw [List.getLast?_eq_getElem?, List.getElem?_eq_getElem (by omega)]

theorem swapRemove_length {α : Type} (l : List α) (pos : Nat) : (swapRemove l pos).length = l.length - 1 := by
  by_cases h : 0 < l.length
  · rw [swapRemove_eq (getLast?_idx h), List.length_dropLast, List.length_set]
  · have : l = [] := List.length_eq_zero_iff.mp (by omega)
    subst this
    rfl

theorem swapRemove_getElem? {α : Type} {l : List α} {pos : Nat} (hp : pos < l.length) (i : Nat) :
    (swapRemove l pos)[i]? = if i < l.length - 1 then (if i = pos then l[l.length - 1]? else l[i]?) else none := by
  rw [swapRemove_eq (getLast?_idx (by omega)), List.getElem?_dropLast, List.length_set]
  split
  · rw [List.getElem?_set]
    by_cases e : i = pos
    · rw [if_pos e.symm, if_pos e, if_pos (by omega), List.getElem?_eq_getElem (by omega)]
    · rw [if_neg (Ne.symm e), if_neg e]
  · rfl

theorem swapRemove_perm {α : Type} {l : List α} {pos : Nat} (hp : pos < l.length) :
    (l[pos] :: swapRemove l pos).Perm l := by
  rw [swapRemove_eq (getLast?_idx (by omega))]
  obtain ⟨a, x, hx⟩ : ∃ a x, l = a ++ [x] := by
    rcases List.eq_nil_or_concat l with h | ⟨a, x, h⟩
    · subst h; simp at hp
    · exact ⟨a, x, by rw [h, List.concat_eq_append]⟩
  subst hx
  simp only [List.length_append, List.length_cons, List.length_nil] at hp
  have hlast : (a ++ [x])[(a ++ [x]).length - 1] = x := by simp
  rw [hlast]
  by_cases e : pos = a.length
  · subst e
    rw [List.set_append_right _ _ (Nat.le_refl _)]
    simp only [Nat.sub_self, List.set_cons_zero, List.dropLast_concat, List.getElem_concat_length]
    exact (List.perm_append_comm (l₁ := [x]) (l₂ := a))
  · have hlt : pos < a.length := by omega
    rw [List.set_append_left _ _ hlt, List.dropLast_concat, List.getElem_append_left hlt]
    have h1 : a = a.take pos ++ a[pos] :: a.drop (pos + 1) := by
      rw [List.getElem_cons_drop, List.take_append_drop]
    have h2 : a.set pos x = a.take pos ++ x :: a.drop (pos + 1) := List.set_eq_take_append_cons_drop .. |>.trans (if_pos hlt)
    rw [h2]
    have h3 : (a ++ [x]).Perm (x :: a) := List.perm_append_comm (l₁ := a) (l₂ := [x])
    refine List.Perm.trans ?_ h3.symm
    have h4 : (a[pos] :: (a.take pos ++ x :: a.drop (pos + 1))).Perm (a[pos] :: x :: (a.take pos ++ a.drop (pos + 1))) :=
      List.Perm.cons _ List.perm_middle
    refine h4.trans ((List.Perm.swap _ _ _).trans (List.Perm.cons _ ?_))
    exact List.perm_middle.symm.trans (h1 ▸ List.Perm.refl _)

/-- The chain reference to `pos` of component `j`. -/
def RefTo (t : Table k K V) (S : Nat → Prop) (n : Node k K V) (pos : Nat) (j : Fin k) (r : Ref) : Prop :=
  ∃ x y, Path (t.cell j) (.head (n.hash j % t.bc)) (x ++ pos :: y) ∧ (x ++ pos :: y).Nodup ∧
    (∀ i, i ∈ x ++ pos :: y ↔ S i ∧ ∃ m, t.node i = some m ∧ m.hash j % t.bc = n.hash j % t.bc) ∧
    r = endRef (.head (n.hash j % t.bc)) x

theorem not_mem_of_nodup {x y : List Nat} {p : Nat} (h : (x ++ p :: y).Nodup) : p ∉ x :=
  fun hx => (List.nodup_append.mp h).2.2 p hx p List.mem_cons_self rfl

/-- `find_chain_ptr` from the bucket of a chained node. -/
theorem findRef {hash : K → Nat} {t : Table k K V} {l : List (Elem k K V)} (ha : Arr hash t l) (hb : 0 < t.bc) {j : Fin k}
    {S : Nat → Prop} (hS : ∀ i, S i → i < l.length) (hch : Chained t j S) {pos : Nat} (hp : S pos) {n : Node k K V}
    (hn : t.node pos = some n) :
    ∃ r, t.findChainPtr j pos (t.cap + 1) (.head (n.hash j % t.bc)) = .ok r ∧ RefTo t S n pos j r := by
  obtain ⟨c, h1, h2, h3⟩ := hch (n.hash j % t.bc) (Nat.mod_lt _ hb)
  have hmem : pos ∈ c := (h3 pos).mpr ⟨hp, n, hn, rfl⟩
  obtain ⟨x, y, e⟩ := List.append_of_mem hmem
  subst e
  have hlt : ∀ i ∈ x ++ pos :: y, i < l.length := fun i hi => hS i ((h3 i).mp hi).1
  refine ⟨endRef (.head (n.hash j % t.bc)) x, ?_, x, y, h1, h2, h3, rfl⟩
  refine findChainPtr_ok h1 (not_mem_of_nodup h2) (Nat.mod_lt _ hb)
    (fun i hi => ha.valid (hlt i (List.mem_append_left _ hi))) ?_
  have := Chained.length_le ha h2 hlt
  rw [List.length_append] at this
  omega

theorem RefTo.valid {hash : K → Nat} {t : Table k K V} {l : List (Elem k K V)} (ha : Arr hash t l) (hb : 0 < t.bc)
    {S : Nat → Prop} (hS : ∀ i, S i → i < l.length) {n : Node k K V} {pos : Nat} {j : Fin k} {r : Ref}
    (h : RefTo t S n pos j r) : t.Valid r := by
  obtain ⟨x, y, _, _, h3, e⟩ := h
  rw [e]
  exact endRef_valid ha (Nat.mod_lt _ hb) (fun i hi => hS i ((h3 i).mp (List.mem_append_left _ hi)).1)

/-- Two chains of different buckets share no cell. -/
theorem endRef_other {t : Table k K V} {j : Fin k} {b b' : Nat} (hbb : b ≠ b') {x c' : List Nat}
    (hx : ∀ i ∈ x, ∃ m, t.node i = some m ∧ m.hash j % t.bc = b)
    (hc : ∀ i ∈ c', ∃ m, t.node i = some m ∧ m.hash j % t.bc = b') :
    endRef (.head b) x ≠ .head b' ∧ ∀ i ∈ c', endRef (.head b) x ≠ .next i := by
  rcases endRef_cases (.head b) x with ⟨_, e⟩ | ⟨y, hy, e⟩
  · rw [e]
    exact ⟨fun h => (by injection h with h; exact hbb h), fun i _ h => (by cases h)⟩
  · rw [e]
    refine ⟨fun h => (by cases h), ?_⟩
    intro i hi h
    injection h with h
    subst h
    obtain ⟨m, hm, e1⟩ := hx y hy
    obtain ⟨m', hm', e2⟩ := hc y hi
    rw [hm] at hm'
    cases hm'
    exact hbb (e1.symm.trans e2)

theorem SameBut.mem {t t1 : Table k K V} (s1 : t.SameBut t1) (j : Fin k) (b i : Nat) :
    (∃ m, t1.node i = some m ∧ m.hash j % t1.bc = b) ↔ ∃ m, t.node i = some m ∧ m.hash j % t.bc = b := by
  constructor
  · rintro ⟨m, hm, e⟩
    obtain ⟨m', hm', _, _, e3⟩ := SameBut.node_some (SameBut.symm s1) hm
    exact ⟨m', hm', by rw [e3, ← s1.bc]; exact e⟩
  · rintro ⟨m, hm, e⟩
    obtain ⟨m', hm', _, _, e3⟩ := SameBut.node_some s1 hm
    exact ⟨m', hm', by rw [e3, s1.bc]; exact e⟩

/-- Unlinking one component. -/
theorem Chained.unlink {t t1 : Table k K V} {j : Fin k} {S : Nat → Prop} {pos : Nat} {n : Node k K V} {r : Ref}
    (hch : Chained t j S) (hn : t.node pos = some n) (hr : RefTo t S n pos j r) (s1 : t.SameBut t1)
    (hc : t1.cell j = setc (t.cell j) r (t.cell j (.next pos))) : Chained t1 j (fun i => S i ∧ i ≠ pos) := by
  intro b hb
  rw [s1.bc] at hb
  obtain ⟨x, y, h1, h2, h3, e⟩ := hr
  by_cases hbb : n.hash j % t.bc = b
  · subst hbb
    refine ⟨x ++ y, ?_, ?_, ?_⟩
    · rw [hc, e]; exact h1.unlink h2
    · exact h2.sublist (List.Sublist.append_left (List.sublist_cons_self _ _) _)
    · intro i
      rw [SameBut.mem s1]
      have hpn : pos ∉ x ++ y := by
        have := List.nodup_middle.mp h2
        exact (List.nodup_cons.mp this).1
      constructor
      · intro hi
        have hi' : i ∈ x ++ pos :: y := by
          rcases List.mem_append.mp hi with h | h
          · exact List.mem_append_left _ h
          · exact List.mem_append_right _ (List.mem_cons_of_mem _ h)
        obtain ⟨g1, g2⟩ := (h3 i).mp hi'
        exact ⟨⟨g1, fun e' => hpn (e' ▸ hi)⟩, g2⟩
      · rintro ⟨⟨g1, g2⟩, g3⟩
        rcases List.mem_append.mp ((h3 i).mpr ⟨g1, g3⟩) with h | h
        · exact List.mem_append_left _ h
        · rcases List.mem_cons.mp h with h | h
          · exact absurd h g2
          · exact List.mem_append_right _ h
  · obtain ⟨c', q1, q2, q3⟩ := hch b hb
    have := endRef_other (t := t) (j := j) hbb (x := x) (c' := c')
      (fun i hi => ((h3 i).mp (List.mem_append_left _ hi)).2) (fun i hi => ((q3 i).mp hi).2)
    refine ⟨c', ?_, q2, ?_⟩
    · rw [hc, e]
      exact q1.frame this.1 this.2
    · intro i
      rw [SameBut.mem s1, q3 i]
      constructor
      · rintro ⟨g1, m, hm, g2⟩
        refine ⟨⟨g1, ?_⟩, m, hm, g2⟩
        intro e'
        rw [e', hn] at hm
        cases hm
        exact hbb g2
      · rintro ⟨⟨g1, _⟩, g3⟩
        exact ⟨g1, g3⟩

theorem moveChain_ok {hash : K → Nat} {t : Table k K V} {l : List (Elem k K V)} (ha : Arr hash t l) (hb : 0 < t.bc) {j : Fin k}
    {S : Nat → Prop} (hS : ∀ i, S i → i < l.length) {src dst : Nat} {n : Node k K V} (hn : t.node src = some n)
    (hsrc : S src) (hch : Chained t j S) :
    ∃ r, RefTo t S n src j r ∧ ∃ t', t.moveChain src dst j = .ok t' ∧ t.SameBut t' ∧
      t'.cell j = setc (t.cell j) r (some dst) ∧ ∀ j', j' ≠ j → t'.cell j' = t.cell j' := by
  obtain ⟨r, e1, hr⟩ := findRef ha hb hS hch hsrc hn
  refine ⟨r, hr, ?_⟩
  unfold Table.moveChain
  have hsz := ha.size
  have hle := ha.le_cap
  have hlt := ha.node_lt hn
  rw [readNode_ok (by omega) hn, bind_ok, getChain_pos hb]
  unfold Table.deref
  simp only [bind_ok]
  rw [e1, bind_ok, readRef_ok j (hr.valid ha hb hS), bind_ok]
  have : t.cell j r = some src := by
    obtain ⟨x, y, h1, _, _, e⟩ := hr
    rw [e]
    exact h1.point
  rw [this]
  exact writeRef_ok j (some dst) (hr.valid ha hb hS)

/-- Moving the last node into the hole and dropping it. -/
theorem Chained.fill {t t4 : Table k K V} {j : Fin k} {N pos last : Nat} {n : Node k K V} {r : Ref} (hlast : last + 1 = N)
    (hpos : pos < last)
    (hch : Chained t j (fun i => i < N ∧ i ≠ pos)) (hn : t.node last = some n)
    (hr : RefTo t (fun i => i < N ∧ i ≠ pos) n last j r) (hbc : t4.bc = t.bc)
    (hcell : ∀ x, x ≠ .next last → x ≠ .next pos → t4.cell j x = setc (t.cell j) r (some pos) x)
    (hcellp : t4.cell j (.next pos) = t.cell j (.next last))
    (hnode : ∀ i, i ≠ last → i ≠ pos → ∀ b, (∃ m, t4.node i = some m ∧ m.hash j % t.bc = b) ↔
      ∃ m, t.node i = some m ∧ m.hash j % t.bc = b)
    (hnodep : ∀ b, (∃ m, t4.node pos = some m ∧ m.hash j % t.bc = b) ↔ n.hash j % t.bc = b) :
    Chained t4 j (· < last) := by
  intro b hb
  rw [hbc] at hb ⊢
  obtain ⟨x, y, h1, h2, h3, e⟩ := hr
  have hposn : pos ∉ x ++ last :: y := fun h => ((h3 pos).mp h).1.2 rfl
  by_cases hbb : n.hash j % t.bc = b
  · subst hbb
    refine ⟨x ++ pos :: y, ?_, ?_, ?_⟩
    · exact h1.rename h2 hposn (by rw [← e]; exact hcell) hcellp
    · rw [List.nodup_middle, List.nodup_cons]
      rw [List.nodup_middle, List.nodup_cons] at h2
      refine ⟨fun h => hposn ?_, h2.2⟩
      rcases List.mem_append.mp h with h | h
      · exact List.mem_append_left _ h
      · exact List.mem_append_right _ (List.mem_cons_of_mem _ h)
    · intro i
      have hl : last ∉ x ++ y := by
        have := List.nodup_middle.mp h2
        exact (List.nodup_cons.mp this).1
      have hmem : i ≠ last → i ≠ pos → (i ∈ x ++ pos :: y ↔ i ∈ x ++ last :: y) := by
        intro g1 g2
        simp [g1, g2]
      by_cases ep : i = pos
      · subst ep
        constructor
        · intro _; exact ⟨hpos, (hnodep _).mpr rfl⟩
        · intro _; simp
      · by_cases el : i = last
        · subst el
          constructor
          · intro h
            exfalso
            rcases List.mem_append.mp h with h | h
            · exact hl (List.mem_append_left _ h)
            · rcases List.mem_cons.mp h with h | h
              · omega
              · exact hl (List.mem_append_right _ h)
          · rintro ⟨h, _⟩; omega
        · rw [hmem el ep, h3 i, hnode i el ep]
          constructor
          · rintro ⟨g1, g2⟩; exact ⟨by omega, g2⟩
          · rintro ⟨g1, g2⟩; exact ⟨⟨by omega, ep⟩, g2⟩
  · obtain ⟨c', q1, q2, q3⟩ := hch b hb
    have := endRef_other (t := t) (j := j) hbb (x := x) (c' := c')
      (fun i hi => ((h3 i).mp (List.mem_append_left _ hi)).2) (fun i hi => ((q3 i).mp hi).2)
    have hlast' : last ∉ c' := by
      intro h
      obtain ⟨m, hm, e'⟩ := ((q3 last).mp h).2
      rw [hn] at hm
      cases hm
      exact hbb e'
    have hpos' : pos ∉ c' := fun h => ((q3 pos).mp h).1.2 rfl
    refine ⟨c', ?_, q2, ?_⟩
    · refine q1.congr ?_ ?_
      · rw [hcell _ (by simp) (by simp), e, setc_ne _ _ (Ne.symm this.1)]
      · intro i hi
        rw [hcell _ (by intro h; injection h with h; exact hlast' (h ▸ hi)) (by intro h; injection h with h; exact hpos' (h ▸ hi)),
          e, setc_ne _ _ (Ne.symm (this.2 i hi))]
    · intro i
      by_cases ep : i = pos
      · subst ep
        constructor
        · intro h; exact absurd h hpos'
        · rintro ⟨_, h⟩; exact absurd ((hnodep b).mp h) hbb
      · by_cases el : i = last
        · subst el
          constructor
          · intro h; exact absurd h hlast'
          · rintro ⟨h, _⟩; omega
        · rw [q3 i, hnode i el ep]
          constructor
          · rintro ⟨g1, g2⟩; exact ⟨by omega, g2⟩
          · rintro ⟨g1, g2⟩; exact ⟨⟨by omega, ep⟩, g2⟩

theorem nodup_of_perm_cons {α : Type} {a : α} {l l' : List α} (h : (a :: l').Perm l) (hn : l.Nodup) : l'.Nodup :=
  (List.nodup_cons.mp (h.nodup_iff.mpr hn)).2

theorem Inv.swapRemove_uniq {hash : K → Nat} {t : Table k K V} {l : List (Elem k K V)} (h : Inv hash t l) {pos : Nat}
    (hp : pos < l.length) (j : Fin k) : ((swapRemove l pos).map (fun e => e.1 j)).Nodup :=
  nodup_of_perm_cons (by simpa using (swapRemove_perm hp).map (fun e => e.1 j)) (h.uniq j)

theorem eraseNode_ok {hash : K → Nat} {t : Table k K V} {l : List (Elem k K V)} (h : Inv hash t l) {pos : Nat}
    {n : Node k K V} (hn : t.node pos = some n) {slice : List (Fin k × Ref)} (hnd : (slice.map (·.1)).Nodup)
    (hall : ∀ j, j ∈ slice.map (·.1)) (hsl : ∀ jr ∈ slice, RefTo t (· < l.length) n pos jr.1 jr.2) :
    ∃ t', t.eraseNode pos slice = .ok t' ∧ Inv hash t' (swapRemove l pos) ∧ t'.bc = t.bc ∧ t'.cap = t.cap ∧ t'.lf = t.lf := by
  have hp := h.toArr.node_lt hn
  have hb : 0 < t.bc := by
    rcases Nat.eq_zero_or_pos t.bc with e | e
    · rw [h.empty e] at hp; simp at hp
    · exact e
  have hsz := h.size
  have hle := h.le_cap
  obtain ⟨t1, e1, s1, c1, _⟩ := fold_components (comp := fun a : Fin k × Ref => a.1)
    (step := fun (t : Table k K V) (jr : Fin k × Ref) => do
      let n ← t.readNode pos
      t.writeRef jr.1 jr.2 (n.next jr.1))
    (F := fun a => setc (t.cell a.1) a.2 (t.cell a.1 (.next pos))) (t := t) (as := slice) hnd
    (by
      intro t1 a ha hs hc
      obtain ⟨n1, hn1, _⟩ := SameBut.node_some hs hn
      have hv : t1.Valid a.2 := hs.valid ((hsl a ha).valid h.toArr hb (fun i hi => hi))
      obtain ⟨t2, e, s, c, f⟩ := writeRef_ok a.1 (n1.next a.1) hv
      refine ⟨t2, ?_, s, ?_, f⟩
      · rw [readNode_ok (by rw [hs.cap]; omega) hn1, bind_ok]; exact e
      · rw [c, hc]
        congr 1
        rw [← hc]
        unfold Table.cell
        simp only
        rw [hn1]
        rfl)
  have a1 : Arr hash t1 l := h.toArr.sameBut s1
  have hb1 : 0 < t1.bc := by rw [s1.bc]; exact hb
  have ch1 : ∀ j, Chained t1 j (fun i => i < l.length ∧ i ≠ pos) := by
    intro j
    obtain ⟨a, ha, e⟩ := List.mem_map.mp (hall j)
    subst e
    exact (h.chained a.1).unlink hn (hsl a ha) s1 (c1 a ha)
  unfold Table.eraseNode
  rw [e1, bind_ok, if_neg (by rw [s1.size]; omega)]
  have hsz1 : t1.size = l.length := a1.size
  generalize hlast : t1.size - 1 = last
  have hN : last + 1 = l.length := by omega
  obtain ⟨ne, hne, hnee⟩ := a1.node_some (i := last) (by omega)
  by_cases ep : pos = last
  · -- the last node is erased
    rw [if_neg (by simpa using ep), bind_ok]
    unfold Table.popNode
    rw [if_neg (by omega), hlast, hne]
    simp only
    have hcell : ∀ j x, x ≠ .next last →
        ({ t1 with size := last, node := upd t1.node last none } : Table k K V).cell j x = t1.cell j x := by
      intro j x hx
      cases x with
      | head b => rfl
      | next i =>
        unfold Table.cell
        simp only
        rw [upd_ne _ _ (by intro e; exact hx (by rw [e]))]
    refine ⟨_, rfl, ⟨⟨?_, ?_, ?_, ?_⟩, fun j => h.swapRemove_uniq hp j, ?_, ?_⟩, s1.bc, s1.cap, s1.lf⟩
    · rw [swapRemove_length]; simp only; omega
    · intro i
      rw [swapRemove_getElem? hp]
      simp only [upd_apply]
      by_cases el : i = last
      · rw [if_pos el, if_neg (by omega)]; rfl
      · rw [if_neg el, a1.rep i]
        by_cases hi : i < l.length - 1
        · rw [if_pos hi, if_neg (by omega)]
        · rw [if_neg hi, List.getElem?_eq_none (by omega)]
    · simp only; rw [s1.cap]; omega
    · intro i m hm j
      simp only [upd_apply] at hm
      split at hm
      · cases hm
      · exact a1.hashed i m hm j
    · intro e
      simp only at e
      omega
    · intro j b hbb
      obtain ⟨c, g1, g2, g3⟩ := ch1 j b hbb
      have hl : last ∉ c := by
        intro hl
        exact ((g3 last).mp hl).1.2 ep.symm
      refine ⟨c, ?_, g2, ?_⟩
      · exact g1.congr (hcell j _ (by simp)) (fun i hi => hcell j _ (by intro e; injection e with e; exact hl (e ▸ hi)))
      · intro i
        rw [swapRemove_length, g3 i]
        simp only [upd_apply]
        by_cases el : i = last
        · rw [if_pos el]
          constructor
          · rintro ⟨⟨_, g⟩, _⟩; omega
          · rintro ⟨g, _⟩; omega
        · rw [if_neg el]
          constructor
          · rintro ⟨⟨g, _⟩, g'⟩; exact ⟨by omega, g'⟩
          · rintro ⟨g, g'⟩; exact ⟨⟨by omega, by omega⟩, g'⟩
  · -- the last node moves
    rw [if_pos (by simpa using ep)]
    have hplt : pos < last := by omega
    have hS : ∀ i, (i < l.length ∧ i ≠ pos) → i < l.length := fun i hi => hi.1
    have := fun j => moveChain_ok a1 hb1 hS hne ⟨by omega, Ne.symm ep⟩ (ch1 j) (dst := pos)
    choose r hr _ using this
    obtain ⟨t2, e2, s2, c2, _⟩ := fold_components (comp := id)
      (step := fun (t : Table k K V) j => t.moveChain (t.size - 1) pos j)
      (F := fun j => setc (t1.cell j) (r j) (some pos)) (t := t1) (as := slice.map (·.1)) (by rw [List.map_id]; exact hnd)
      (by
        intro t' j _ hs hc
        simp only [id_eq] at hc
        obtain ⟨n', hn', _, _, e3⟩ := SameBut.node_some hs hne
        obtain ⟨r', hr', t'', e, s, c, f⟩ := moveChain_ok (a1.sameBut hs) (hs.bc ▸ hb1) hS hn' ⟨by omega, Ne.symm ep⟩
          ((ch1 j).congr hs hc) (dst := pos)
        refine ⟨t'', ?_, s, ?_, f⟩
        · rw [hs.size, hlast]; exact e
        · simp only [id_eq]
          rw [c, hc]
          have : r' = r j := by
            obtain ⟨x, y, p1, p2, _, p4⟩ := hr'
            obtain ⟨x', y', q1, q2, _, q4⟩ := hr j
            rw [hc, e3, hs.bc] at p1
            have hxy := p1.unique q1
            rw [p4, q4, e3, hs.bc]
            congr 1
            have hx1 := not_mem_of_nodup p2
            have hx2 := not_mem_of_nodup q2
            have h1 := List.takeWhile_append_of_pos (p := fun i => decide (i ≠ last)) (l₁ := x) (l₂ := last :: y)
              (by intro a ha; simp only [decide_eq_true_eq]; exact fun e => hx1 (e ▸ ha))
            have h2 := List.takeWhile_append_of_pos (p := fun i => decide (i ≠ last)) (l₁ := x') (l₂ := last :: y')
              (by intro a ha; simp only [decide_eq_true_eq]; exact fun e => hx2 (e ▸ ha))
            rw [hxy, h2] at h1
            simpa using h1.symm
          rw [this])
    have a2 : Arr hash t2 l := a1.sameBut s2
    have s12 := s1.trans s2
    obtain ⟨n2, hn2, k2, v2, h2⟩ := SameBut.node_some s2 hne
    obtain ⟨np, hnp, _⟩ := a2.node_some hp
    unfold Table.fillHole
    rw [e2, bind_ok, s2.size, hlast, readNode_ok (by rw [s2.cap, s1.cap]; omega) hn2, bind_ok,
      readNode_ok (by rw [s2.cap, s1.cap]; omega) hnp, bind_ok, bind_ok]
    unfold Table.popNode
    simp only
    rw [if_neg (by omega), hlast, upd_ne _ _ (Ne.symm ep), hn2]
    simp only
    generalize ht4 : ({ t2 with size := last, node := upd (upd t2.node pos (some n2)) last none } : Table k K V) = t4
    have hnl : t4.node last = none := by rw [← ht4]; exact upd_same ..
    have hnpos : t4.node pos = some n2 := by
      rw [← ht4]
      show upd _ _ _ pos = _
      rw [upd_ne _ _ ep]
      exact upd_same ..
    have hno : ∀ i, i ≠ last → i ≠ pos → t4.node i = t2.node i := by
      intro i g1 g2
      rw [← ht4]
      show upd _ _ _ i = _
      rw [upd_ne _ _ g1, upd_ne _ _ g2]
    have hbc4 : t4.bc = t.bc := by rw [← ht4]; exact s12.bc
    have hcap4 : t4.cap = t.cap := by rw [← ht4]; exact s12.cap
    refine ⟨t4, rfl, ⟨⟨?_, ?_, ?_, ?_⟩, fun j => h.swapRemove_uniq hp j, ?_, ?_⟩, hbc4, hcap4, by rw [← ht4]; exact s12.lf⟩
    · rw [swapRemove_length, ← ht4]; simp only; omega
    · intro i
      rw [swapRemove_getElem? hp]
      by_cases el : i = last
      · rw [el, hnl, if_neg (by omega)]; rfl
      · by_cases ei : i = pos
        · rw [ei, hnpos, if_pos (by omega), if_pos rfl, show l.length - 1 = last by omega, ← a2.rep last, hn2]
        · rw [hno i el ei, a2.rep i]
          by_cases hi : i < l.length - 1
          · rw [if_pos hi, if_neg ei]
          · rw [if_neg hi, List.getElem?_eq_none (by omega)]
    · rw [hcap4, ← ht4]; simp only; omega
    · intro i m hm j
      by_cases el : i = last
      · rw [el, hnl] at hm; cases hm
      · by_cases ei : i = pos
        · rw [ei, hnpos] at hm
          cases hm
          exact a2.hashed last n2 hn2 j
        · rw [hno i el ei] at hm
          exact a2.hashed i m hm j
    · intro e; omega
    · intro j
      have : Chained t4 j (· < last) := by
        have hc2 : t2.cell j = setc (t1.cell j) (r j) (some pos) := c2 j (hall j)
        refine Chained.fill hN hplt (ch1 j) hne (hr j) (by rw [hbc4, s1.bc]) ?_ ?_ ?_ ?_
        · intro x g1 g2
          rw [← hc2]
          cases x with
          | head b => rw [← ht4]; rfl
          | next i =>
            unfold Table.cell
            simp only
            rw [hno i (fun e => g1 (by rw [e])) (fun e => g2 (by rw [e]))]
        · have hrl : r j ≠ .next last := by
            obtain ⟨x, y, p1, p2, _, p4⟩ := hr j
            rw [p4]
            rcases endRef_cases (.head (ne.hash j % t1.bc)) x with ⟨_, e⟩ | ⟨z, hz, e⟩
            · rw [e]; simp
            · rw [e]
              intro e'
              injection e' with e'
              exact not_mem_of_nodup p2 (e' ▸ hz)
          have : t2.cell j (.next last) = t1.cell j (.next last) := by
            rw [hc2, setc_ne _ _ (Ne.symm hrl)]
          rw [← this]
          unfold Table.cell
          simp only
          rw [hnpos, hn2]
        · intro i g1 g2 b
          rw [hno i g1 g2]
          have := SameBut.mem s2 j b i
          rw [s2.bc] at this
          exact this
        · intro b
          rw [hnpos]
          constructor
          · rintro ⟨m, hm, e⟩
            cases hm
            rw [← h2]; exact e
          · intro e
            exact ⟨n2, rfl, by rw [h2]; exact e⟩
      refine this.mono ?_
      intro i
      rw [swapRemove_length]
      omega

theorem slices_ok {hash : K → Nat} {t : Table k K V} {l : List (Elem k K V)} (h : Inv hash t l) (hb : 0 < t.bc) {pos : Nat}
    {n : Node k K V} (hn : t.node pos = some n) (js : List (Fin k)) :
    ∃ r : Fin k → Ref, t.slices n pos js = .ok (js.map fun j => (j, r j)) ∧ ∀ j, RefTo t (· < l.length) n pos j (r j) := by
  have := fun j => findRef h.toArr hb (fun i hi => hi) (h.chained j) (h.toArr.node_lt hn) hn
  choose r hr1 hr2 using this
  refine ⟨r, ?_, hr2⟩
  unfold Table.slices
  apply mapM_ok
  intro j _
  rw [getChain_pos hb]
  unfold Table.deref
  simp only [bind_ok]
  rw [hr1 j, bind_ok]

/-- `erase(iterator)`. -/
theorem eraseAt_ok {hash : K → Nat} {t : Table k K V} {l : List (Elem k K V)} (h : Inv hash t l) {pos : Nat}
    (hp : pos < l.length) :
    ∃ t', t.eraseAt pos = .ok (t', pos) ∧ Inv hash t' (swapRemove l pos) ∧ t'.bc = t.bc ∧ t'.cap = t.cap ∧ t'.lf = t.lf := by
  have hb : 0 < t.bc := by
    rcases Nat.eq_zero_or_pos t.bc with e | e
    · rw [h.empty e] at hp; simp at hp
    · exact e
  obtain ⟨n, hr, hn, _⟩ := h.toArr.read hp
  obtain ⟨r, e1, h1⟩ := slices_ok h hb hn (List.finRange k)
  obtain ⟨t', e2, h2⟩ := eraseNode_ok h hn (slice := (List.finRange k).map fun j => (j, r j))
    (by rw [List.map_map]; exact (List.map_id _).symm ▸ List.nodup_finRange k)
    (by intro j; rw [List.map_map]; exact List.mem_map.mpr ⟨j, List.mem_finRange j, rfl⟩)
    (by
      intro jr hjr
      obtain ⟨j, _, rfl⟩ := List.mem_map.mp hjr
      exact h1 j)
  unfold Table.eraseAt
  rw [if_neg (by have := h.size; omega), hr, bind_ok, e1, bind_ok, e2, bind_ok]
  exact ⟨t', rfl, h2⟩

/-- `erase(key)` of a table with buckets. -/
theorem erase_ok {hash : K → Nat} {t : Table k K V} {l : List (Elem k K V)} (h : Inv hash t l) (hb : 0 < t.bc) (j : Fin k)
    (x : K) :
    ∃ r, t.erase hash j x = .ok r ∧ r.1.bc = t.bc ∧ r.1.cap = t.cap ∧ r.1.lf = t.lf ∧
      (idxOf l j x = none → r = (t, l.length, false)) ∧
      ∀ i, idxOf l j x = some i → r.2 = (i, true) ∧ Inv hash r.1 (swapRemove l i) := by
  unfold Table.erase
  rw [getChain_pos hb]
  unfold Table.deref
  simp only [bind_ok]
  obtain ⟨c, h0, h1, h2, h3⟩ := findLoop_spec h.toArr (h.chained j) hb x
  rcases h3 with ⟨a, i, b, n, ec, ia, g1, g2, g3, g4⟩ | ⟨g1, g2⟩
  · rw [g4, bind_ok]
    simp only
    have hidx : idxOf l j x = some i := by
      have := idxOf_of_uniq (h.uniq j) (h.toArr.node_elem g2)
      rw [show (n.key, n.val).1 j = x from g3] at this
      exact this
    have hhash : n.hash j = hash x := by rw [h.hashed i n g2 j, g3]
    obtain ⟨n', hr', hn', _⟩ := h.toArr.read g1
    rw [g2] at hn'
    cases hn'
    rw [hr', bind_ok]
    obtain ⟨r, e1, hr1⟩ := slices_ok h hb g2 ((List.finRange k).filter (· ≠ j))
    rw [e1, bind_ok]
    obtain ⟨t', e2, h2'⟩ := eraseNode_ok h g2
      (slice := (j, endRef (.head (hash x % t.bc)) a) :: ((List.finRange k).filter (· ≠ j)).map fun j => (j, r j))
      (by
        rw [List.map_cons, List.map_map]
        have : List.map ((fun x : Fin k × Ref => x.1) ∘ fun j => (j, r j)) ((List.finRange k).filter (· ≠ j))
            = (List.finRange k).filter (· ≠ j) := List.map_id _
        rw [this, List.nodup_cons]
        refine ⟨by simp, (List.nodup_finRange k).filter _⟩)
      (by
        intro j'
        rw [List.map_cons, List.map_map]
        by_cases e : j' = j
        · rw [e]; exact List.mem_cons_self
        · refine List.mem_cons_of_mem _ (List.mem_map.mpr ⟨j', ?_, rfl⟩)
          rw [List.mem_filter]
          exact ⟨List.mem_finRange j', by simpa using e⟩)
      (by
        intro jr hjr
        rcases List.mem_cons.mp hjr with e | e
        · rw [e]
          refine ⟨a, b, ?_, ?_, ?_, ?_⟩
          · rw [hhash, ← ec]; exact h0
          · rw [← ec]; exact h1
          · intro i'
            rw [← ec, hhash]; exact h2 i'
          · rw [hhash]
        · obtain ⟨j', _, rfl⟩ := List.mem_map.mp e
          exact hr1 j')
    rw [e2, bind_ok]
    refine ⟨_, rfl, h2'.2.1, h2'.2.2.1, h2'.2.2.2, ?_, ?_⟩
    · intro e
      rw [hidx] at e; cases e
    · intro i' e
      rw [hidx] at e
      cases e
      exact ⟨rfl, h2'.1⟩
  · rw [g2, bind_ok]
    simp only
    refine ⟨_, rfl, rfl, rfl, rfl, ?_, ?_⟩
    · intro _
      rw [h.size]
    · intro i' e
      rw [idxOf_none g1] at e
      cases e

end Tpp.Dense
