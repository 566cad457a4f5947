import Verif.Ordered.DenseOps

/-!
# Ordered dense containers: iterators returned by erasure, hints, `erase_if`, ranges
-/

set_option linter.unusedSectionVars false

namespace Tpp.ODense

open Tpp.Dense (Elem LF Table Inv swapRemove conflict idxOf elemOf)
open Tpp.Ordered

variable {k : Nat} {K V : Type} [DecidableEq K]

/-- `std::next(begin(), n)` (table_common.hpp 545-549); `n = size()` gives `end()`. -/
def OTable.nth (m : Mem) (t : OTable k K V) (n : Nat) : M Int := do
  let b ← t.first m
  advance m n b

variable {hash : K → Nat} {sz : Int} {A : Alloc} {m : Mem} {t : OTable k K V} {l : List (Elem k K V)} {o : List Nat}

theorem nth_ok (h : Rep hash sz m t l o) {n : Nat} (hn : n ≤ l.length) :
    t.nth m n = .ok (((o.drop n).map (t.addr sz)).headD t.hd) := by
  unfold OTable.nth
  rw [first_ok h, bind_ok, advance_ok (l := []) h.ring (by rw [List.length_map, h.length]; exact hn), List.map_drop]

theorem nth_split {o1 o2 : List Nat} (h : Rep hash sz m t l (o1 ++ o2)) : t.nth m o1.length = .ok ((o2.map (t.addr sz)).headD t.hd) := by
  have hl := h.length
  rw [List.length_append] at hl
  rw [nth_ok h (by omega), List.drop_left]

theorem nth_end (h : Rep hash sz m t l o) : t.nth m l.length = .ok t.hd := by
  rw [nth_ok h (Nat.le_refl _), ← h.length, List.drop_length]
  rfl

/-- The order split at position `n`. -/
theorem split_at (h : Rep hash sz m t l o) {n : Nat} (hn : n < l.length) :
    ∃ o1 i o2, o = o1 ++ i :: o2 ∧ o1.length = n ∧ i < l.length ∧ seq l o1 = (seq l o).take n ∧ (seq l o)[n]? = l[i]? ∧
      seq l o2 = (seq l o).drop (n + 1) := by
  have ho : n < o.length := by rw [h.length]; exact hn
  have hsplit : o = o.take n ++ o[n] :: o.drop (n + 1) := by rw [← List.drop_eq_getElem_cons ho, List.take_append_drop]
  have hi : o[n] < l.length := h.lt (List.getElem_mem ho)
  have hlen : (o.take n).length = n := by rw [List.length_take]; omega
  have hall : ∀ i ∈ o.take n, i < l.length := fun i hi => h.lt (List.mem_of_mem_take hi)
  have hsl : (seq l (o.take n)).length = n := by
    have : ∀ r : List Nat, (∀ i ∈ r, i < l.length) → (seq l r).length = r.length := by
      intro r
      induction r with
      | nil => intro _; rfl
      | cons a r ih =>
        intro q
        rw [seq_cons (q a (by simp)), List.length_cons, ih (fun i hi => q i (List.mem_cons_of_mem _ hi)), List.length_cons]
    rw [this _ hall, hlen]
  have hseq : seq l o = seq l (o.take n) ++ l[o[n]] :: seq l (o.drop (n + 1)) := by
    conv => lhs; rw [hsplit]
    exact seq_split hi
  refine ⟨o.take n, o[n], o.drop (n + 1), hsplit, hlen, hi, ?_, ?_, ?_⟩
  · rw [hseq]
    exact (List.take_left' hsl).symm
  · rw [hseq, List.getElem?_append_right (by omega), hsl, Nat.sub_self, List.getElem?_cons_zero, List.getElem?_eq_getElem hi]
  · rw [hseq]
    rw [show seq l (o.take n) ++ l[o[n]] :: seq l (o.drop (n + 1)) = (seq l (o.take n) ++ [l[o[n]]]) ++ seq l (o.drop (n + 1)) by simp]
    exact (List.drop_left' (by rw [List.length_append, hsl]; rfl)).symm

/-! ## Erasure -/

/-- The iterator returned by an erasure designates the next element, unless this was in the last slot of the array: then the slot
is dead. -/
theorem ErasedAt.result (hsz : 0 < sz) {o1 o2 : List Nat} {pos : Nat} (h : Rep hash sz m t l (o1 ++ pos :: o2)) {m' : Mem}
    {c : Table k K V} {next : Int} (hcap : c.cap = t.core.cap) (he : ErasedAt hash sz m t l o1 o2 pos m' c next) :
    (t.nth m (o1.length + 1) ≠ .ok (t.addr sz (t.core.size - 1)) →
      OTable.nth m' ({ t with core := c } : OTable k K V) o1.length = .ok next) ∧
    (t.nth m (o1.length + 1) = .ok (t.addr sz (t.core.size - 1)) →
      next ≠ t.hd ∧ OTable.elemAt sz ({ t with core := c } : OTable k K V) next = .error .deadRead) := by
  obtain ⟨hp, hl, _, _⟩ := split_facts h.perm
  have hs := h.core.size
  have hnext : t.nth m (o1.length + 1) = .ok next := by
    have : Rep hash sz m t l ((o1 ++ [pos]) ++ o2) := by rw [List.append_assoc]; exact h
    have e := nth_split this
    rw [List.length_append, List.length_singleton] at e
    rw [e, he.next]
  have hr := he.rep
  rw [List.map_append] at hr
  have hnew := nth_split hr
  rw [List.length_map] at hnew
  rw [hnext]
  constructor
  · intro hg
    rw [hnew, he.next]
    cases o2 with
    | nil => rfl
    | cons i o2 =>
      have : i ≠ l.length - 1 := by
        rintro rfl
        refine hg ?_
        rw [he.next, hs]
        rfl
      simp only [List.map_cons, List.headD_cons]
      unfold ren
      rw [if_neg this]
      rfl
  · intro hg
    have hge : next = t.addr sz (l.length - 1) := by
      rw [hs] at hg
      exact Except.ok.inj hg
    have hcap' : l.length - 1 < t.core.cap := h.lt_cap (by omega)
    constructor
    · rw [hge]
      intro q
      exact h.hdr (q ▸ mem_slots.mpr ⟨_, hcap', rfl⟩)
    · have hso : OTable.slotOf sz ({ t with core := c } : OTable k K V) next = some (l.length - 1) := by
        rw [hge]
        exact slotOf_ok (t := ({ t with core := c } : OTable k K V)) hsz (by simp only; omega)
      unfold OTable.elemAt
      rw [hso]
      simp only
      have hn : c.node (l.length - 1) = none := by
        have := he.rep.core.rep (l.length - 1)
        simp only at this
        rw [List.getElem?_eq_none (by rw [Dense.swapRemove_length])] at this
        exact Option.map_eq_none_iff.mp this
      have : c.readNode (l.length - 1) = .error .deadRead := by
        unfold Table.readNode
        rw [if_pos (by omega), hn]
      rw [this]
      rfl

theorem ErasedAt.becomes {o1 o2 : List Nat} {pos : Nat} (h : Rep hash sz m t l (o1 ++ pos :: o2)) {m' : Mem}
    {c : Table k K V} {next : Int} (hcap : c.cap = t.core.cap) (he : ErasedAt hash sz m t l o1 o2 pos m' c next) :
    Becomes hash sz m t m' { t with core := c } (seq l o1 ++ seq l o2) := by
  refine ⟨⟨_, _, he.rep, ?_⟩, rfl, ?_⟩
  · rw [seq_ren h.perm (fun _ q => q), seq_append]
  · change Frame m m' _ (t.hd :: slots sz t.base c.cap)
    rw [hcap]
    exact he.frame

theorem idxOf_eq (h : Inv hash t.core l) {i : Nat} (hi : i < l.length) {j : Fin k} {x : K} (hx : (l[i]).1 j = x) :
    idxOf l j x = some i := by
  cases hc : idxOf l j x with
  | none => exact absurd hx (Dense.idxOf_eq_none hc _ (List.getElem_mem hi))
  | some n =>
    obtain ⟨e, he, hx'⟩ := Dense.idxOf_some hc
    obtain ⟨hn, he'⟩ := List.getElem?_eq_some_iff.mp he
    have hu := h.uniq j
    have := (List.nodup_iff_injective_get.mp hu) (a₁ := ⟨n, by simpa using hn⟩) (a₂ := ⟨i, by simpa using hi⟩) (by
      simp only [List.get_eq_getElem, List.getElem_map]
      rw [hx, he', hx'])
    rw [Fin.mk.injEq] at this
    rw [this]

/-- `erase(key)` of a present key. -/
theorem eraseKey_ok (hsz : 0 < sz) {o1 o2 : List Nat} {pos : Nat} (h : Rep hash sz m t l (o1 ++ pos :: o2)) {j : Fin k} {x : K}
    (hpos : pos < l.length) (hx : (l[pos]).1 j = x) :
    ∃ m' c next, t.erase hash sz m j x = .ok (m', { t with core := c }, next, true) ∧ c.cap = t.core.cap ∧
      ErasedAt hash sz m t l o1 o2 pos m' c next := by
  have hb : 0 < t.core.bc := by
    rcases Nat.eq_zero_or_pos t.core.bc with q | q
    · have := h.core.empty q
      rw [this] at hpos
      exact absurd hpos (by simp)
    · exact q
  obtain ⟨c, e, h2, h3, h4, h5, h6⟩ := Dense.erase_ok h.core hb j x
  obtain ⟨h7, h8⟩ := h6 pos (idxOf_eq h.core hpos hx)
  obtain ⟨m', next, e', h'⟩ := eraseLinks_ok hsz h h8 h3
  refine ⟨m', c.1, next, ?_, h3, h'⟩
  unfold OTable.erase
  rw [e, bind_ok, h7]
  simp only [if_true]
  rw [e', bind_ok]

/-- `erase(key)` of an absent key. -/
theorem eraseAbsent_ok (h : Rep hash sz m t l o) (hb : 0 < t.core.bc) {j : Fin k} {x : K}
    (hx : (seq l o).any (fun e => e.1 j = x) = false) : t.erase hash sz m j x = .ok (m, t, t.hd, false) := by
  obtain ⟨c, e, h2, h3, h4, h5, h6⟩ := Dense.erase_ok h.core hb j x
  have : idxOf l j x = none := by
    rw [any_perm (seq_perm h.perm), idxOf_any] at hx
    cases hc : idxOf l j x with
    | none => rfl
    | some i => rw [hc] at hx; cases hx
  unfold OTable.erase
  rw [e, bind_ok, h5 this]
  rfl

/-! ## `erase_if` -/

/-- Either the loop reads an erased element, or it does what it should. -/
theorem eraseIf_ok (hsz : 0 < sz) (p : Elem k K V → Bool) : ∀ (fuel : Nat) {m : Mem} {t : OTable k K V} {l : List (Elem k K V)}
    {o1 o2 : List Nat} (n : Nat), Rep hash sz m t l (o1 ++ o2) → o2.length < fuel →
    OTable.eraseIf sz p fuel m t ((o2.map (t.addr sz)).headD t.hd) n = .error .deadRead ∨
    ∃ m' t', OTable.eraseIf sz p fuel m t ((o2.map (t.addr sz)).headD t.hd) n = .ok (m', t', n + (seq l o2).countP p) ∧
      Becomes hash sz m t m' t' (seq l o1 ++ (seq l o2).filter (fun e => !p e))
  | 0, _, _, _, _, _, _, _, hf => absurd hf (Nat.not_lt_zero _)
  | fuel + 1, m, t, l, o1, [], n, h, _ => by
    right
    refine ⟨m, t, ?_, ?_⟩
    · simp [OTable.eraseIf, seq]
    · have := Becomes.refl h
      rw [seq_append] at this
      exact this
  | fuel + 1, m, t, l, o1, i :: o2, n, h, hf => by
    have hi : i < l.length := h.lt (by simp)
    have hne : t.addr sz i ≠ t.hd := fun q => h.hdr (q ▸ h.addr_slots (by simp))
    rw [seq_cons hi]
    simp only [List.map_cons, List.headD_cons, OTable.eraseIf]
    rw [if_neg hne, elemAt_ok hsz h.core hi, bind_ok]
    cases hp : p l[i] with
    | false =>
      simp only [Bool.false_eq_true, if_false]
      have hr : Ring m t.hd (o1.map (t.addr sz) ++ t.addr sz i :: o2.map (t.addr sz)) := by
        have := h.ring
        rwa [List.map_append, List.map_cons] at this
      rw [Mem.nextOf_ok (h.live _ (h.addr_slots (by simp))), bind_ok, hr.around.1]
      have h' : Rep hash sz m t l ((o1 ++ [i]) ++ o2) := by rw [List.append_assoc]; exact h
      have := eraseIf_ok hsz p fuel n h' (by simp at hf; omega)
      rw [List.countP_cons_of_neg (by simp [hp]), List.filter_cons_of_pos (by simp [hp])]
      rw [seq_append, seq_cons hi, List.append_assoc] at this
      exact this
    | true =>
      simp only [if_true]
      obtain ⟨m1, c, next, e1, _, hcap, _, he⟩ := eraseIter_ok hsz h
      rw [e1, bind_ok]
      have hbec := he.becomes h hcap
      obtain ⟨hr1, hr2⟩ := he.result hsz h hcap
      by_cases hg : t.nth m (o1.length + 1) = .ok (t.addr sz (t.core.size - 1))
      · left
        obtain ⟨q1, q2⟩ := hr2 hg
        have : 0 < o2.length := by
          cases o2 with
          | nil => exact absurd he.next q1
          | cons _ _ => simp
        cases fuel with
        | zero => rw [List.length_cons] at hf; omega
        | succ fuel =>
          simp only [OTable.eraseIf]
          rw [if_neg q1, q2]
          rfl
      · have hr := he.rep
        rw [List.map_append] at hr
        have hnx := nth_split hr
        rw [List.length_map, hr1 hg] at hnx
        have hnx' := Except.ok.inj hnx
        have ih := eraseIf_ok hsz p fuel (n + 1) hr (by simp at hf ⊢; omega)
        rw [← hnx'] at ih
        have hs1 : seq (swapRemove l i) (o1.map (ren (l.length - 1) i)) = seq l o1 :=
          seq_ren h.perm (fun x hx => List.mem_append_left _ hx)
        have hs2 : seq (swapRemove l i) (o2.map (ren (l.length - 1) i)) = seq l o2 :=
          seq_ren h.perm (fun x hx => List.mem_append_right _ hx)
        rw [hs1, hs2] at ih
        rw [List.countP_cons_of_pos hp, List.filter_cons_of_neg (by simp [hp])]
        rcases ih with q | ⟨m2, t2, e2, h2⟩
        · exact Or.inl q
        · right
          refine ⟨m2, t2, ?_, h2.holds, h2.hd, hbec.frame.trans h2.frame⟩
          rw [e2]
          simp only [Except.ok.injEq, Prod.mk.injEq, true_and]
          omega

/-- Nothing to erase. -/
theorem eraseIf_none (hsz : 0 < sz) (p : Elem k K V → Bool) : ∀ (fuel : Nat) {o1 o2 : List Nat} (n : Nat), Rep hash sz m t l (o1 ++ o2) →
    o2.length < fuel → (∀ e ∈ seq l o2, p e = false) →
    OTable.eraseIf sz p fuel m t ((o2.map (t.addr sz)).headD t.hd) n = .ok (m, t, n)
  | 0, _, _, _, _, hf, _ => absurd hf (Nat.not_lt_zero _)
  | fuel + 1, o1, [], n, h, _, _ => by simp [OTable.eraseIf]
  | fuel + 1, o1, i :: o2, n, h, hf, hp => by
    have hi : i < l.length := h.lt (by simp)
    have hne : t.addr sz i ≠ t.hd := fun q => h.hdr (q ▸ h.addr_slots (by simp))
    rw [seq_cons hi] at hp
    simp only [List.map_cons, List.headD_cons, OTable.eraseIf]
    rw [if_neg hne, elemAt_ok hsz h.core hi, bind_ok, hp _ (by simp)]
    simp only [Bool.false_eq_true, if_false]
    have hr : Ring m t.hd (o1.map (t.addr sz) ++ t.addr sz i :: o2.map (t.addr sz)) := by
      have := h.ring
      rwa [List.map_append, List.map_cons] at this
    rw [Mem.nextOf_ok (h.live _ (h.addr_slots (by simp))), bind_ok, hr.around.1]
    exact eraseIf_none hsz p fuel (o1 := o1 ++ [i]) n (by rw [List.append_assoc]; exact h) (by simp at hf; omega)
      (fun e he => hp e (List.mem_cons_of_mem _ he))

/-! ## Hints -/

/-- Insertion behind the element `i` of the order, also if the array grows. -/
theorem insertAfter_ok (hsz : 0 < sz) (hA : A.Sound sz) {o1 o2 : List Nat} {i : Nat} (h : Rep hash sz m t l (o1 ++ i :: o2))
    {op : Table k K V → M (Table k K V × Nat × Bool)} {r : Table k K V × Nat × Bool} {l' : List (Elem k K V)} (e : op t.core = .ok r)
    (hr : OpOk hash t.core l r l') (hnew : r.2.2 = true) :
    ∃ m' t', t.insertWith sz A m op (some (t.addr sz i)) = .ok (m', t', t'.addr sz l.length, true) ∧ t'.core = r.1 ∧ t'.hd = t.hd ∧
      Rep hash sz m' t' l' (o1 ++ i :: l.length :: o2) ∧ Frame m m' (t.foot sz) (t'.foot sz) := by
  obtain ⟨m1, b, t1, e1, e2, hlt, h1, h2, h3, h4, _⟩ := maybeGrow_ok hsz hA h
  have hcap := hr.cap t1 e2
  unfold OTable.insertWith
  rw [e1, bind_ok, e, bind_ok]
  obtain ⟨d1, d2⟩ := hr.fresh hnew
  rw [hnew]
  simp only [if_true, Option.map_some]
  rw [d1]
  have hin : b + sz * (l.length : Int) ∈ slots sz b t1.cap := mem_slots.mpr ⟨_, hlt, rfl⟩
  have hnot : b + sz * (l.length : Int) ∉ t.hd :: (o1 ++ i :: o2).map (fun i : Nat => b + sz * (i : Int)) := by
    intro q
    rcases List.mem_cons.mp q with q | q
    · exact h3 (q ▸ hin)
    · rw [List.mem_map] at q
      obtain ⟨i, hi, q⟩ := q
      have := slot_inj hsz q
      have := h.lt hi
      omega
  have hsp : (o1 ++ i :: o2).map (fun i : Nat => b + sz * (i : Int)) =
      (o1 ++ [i]).map (fun i : Nat => b + sz * (i : Int)) ++ o2.map (fun i : Nat => b + sz * (i : Int)) := by
    rw [← List.map_append, List.append_assoc]
    rfl
  rw [hsp] at h1 hnot
  obtain ⟨m2, e3, h5, s2⟩ := h1.insert (h2 _ hin) hnot
  have hlast : ((o1 ++ [i]).map (fun i : Nat => b + sz * (i : Int))).getLastD t.hd = t.addr sz i + (b - t.base) := by
    rw [List.map_append, List.map_singleton]
    simp [OTable.addr]
    omega
  rw [hlast] at e3
  unfold OTable.linkNew
  simp only
  rw [e3, bind_ok]
  refine ⟨m2, { t with core := r.1, base := b }, rfl, rfl, rfl, ⟨hr.inv, ?_, ?_, ?_, ?_⟩, ?_⟩
  · rw [d2, List.range_succ]
    have q : (o1 ++ i :: l.length :: o2).Perm ((o1 ++ i :: o2) ++ [l.length]) := by
      rw [show o1 ++ i :: l.length :: o2 = (o1 ++ [i]) ++ l.length :: o2 by simp,
        show (o1 ++ i :: o2) ++ [l.length] = (o1 ++ [i]) ++ (o2 ++ [l.length]) by simp]
      refine List.Perm.append_left _ ?_
      exact (List.perm_append_singleton _ _).symm
    exact q.trans (h.perm.append_right _)
  · have : (o1 ++ i :: l.length :: o2).map (OTable.addr sz ({ t with core := r.1, base := b } : OTable k K V)) =
        (o1 ++ [i]).map (fun i : Nat => b + sz * (i : Int)) ++ (b + sz * (l.length : Int)) :: o2.map (fun i : Nat => b + sz * (i : Int)) := by
      rw [show OTable.addr sz ({ t with core := r.1, base := b } : OTable k K V) = fun i : Nat => b + sz * (i : Int) from rfl]
      simp
    rw [this]
    exact h5
  · change ∀ x ∈ slots sz b r.1.cap, _
    rw [hcap, s2.live]; exact h2
  · change t.hd ∉ slots sz b r.1.cap
    rw [hcap]; exact h3
  · change Frame m m2 _ (t.hd :: slots sz b r.1.cap)
    rw [hcap]
    refine h4.trans (s2.frame ?_)
    intro x hx
    rw [List.mem_cons, not_or] at hx
    refine ⟨fun q => hx.2 (q ▸ hin), ?_⟩
    rw [← hsp]
    intro q
    rcases List.mem_cons.mp q with q | q
    · exact hx.1 q
    · rw [List.mem_map] at q
      obtain ⟨i, hi, q⟩ := q
      have := h.lt hi
      exact hx.2 (q ▸ mem_slots.mpr ⟨i, by omega, rfl⟩)

/-- Insertion with the hint `end()` without growth: the element becomes the first one. -/
theorem insertEnd_ok (hsz : 0 < sz) (h : Rep hash sz m t l o)
    {op : Table k K V → M (Table k K V × Nat × Bool)} {r : Table k K V × Nat × Bool} {l' : List (Elem k K V)} (e : op t.core = .ok r)
    (hr : OpOk hash t.core l r l') (hnew : r.2.2 = true) (hroom : t.core.size < t.core.cap) :
    ∃ m' t', t.insertWith sz A m op (some t.hd) = .ok (m', t', t'.addr sz l.length, true) ∧ t'.core = r.1 ∧ t'.hd = t.hd ∧
      Rep hash sz m' t' l' (l.length :: o) := by
  have hmr : t.core.maybeResize = .ok t.core := by
    unfold Table.maybeResize
    rw [if_neg (by omega)]
  have hcap := hr.cap _ hmr
  have hs := h.core.size
  unfold OTable.insertWith OTable.maybeGrow
  rw [if_neg (by omega), bind_ok, e, bind_ok]
  obtain ⟨d1, d2⟩ := hr.fresh hnew
  rw [hnew]
  simp only [if_true, Option.map_some]
  rw [d1]
  have hin : t.addr sz l.length ∈ slots sz t.base t.core.cap := mem_slots.mpr ⟨_, by omega, rfl⟩
  have hnot : t.addr sz l.length ∉ t.hd :: ([] ++ o.map (t.addr sz)) := by
    intro q
    rcases List.mem_cons.mp q with q | q
    · exact h.hdr (q ▸ hin)
    · rw [List.nil_append, List.mem_map] at q
      obtain ⟨i, hi, q⟩ := q
      have := addr_inj hsz q
      have := h.lt hi
      omega
  obtain ⟨m2, e3, h5, s2⟩ := Ring.insert (l := []) h.ring (h.live _ hin) hnot
  rw [List.getLastD_nil] at e3
  unfold OTable.linkNew
  have e3' : m.linkAfter (t.base + sz * (l.length : Int)) (t.hd + (t.base - t.base)) = .ok m2 := by
    rw [Int.sub_self, Int.add_zero]
    exact e3
  simp only
  rw [e3', bind_ok]
  refine ⟨m2, { t with core := r.1, base := t.base }, rfl, rfl, rfl, ⟨hr.inv, ?_, ?_, ?_, ?_⟩⟩
  · rw [d2, List.range_succ]
    exact (List.perm_append_singleton _ _).symm.trans (h.perm.append_right _)
  · exact h5
  · change ∀ x ∈ slots sz t.base r.1.cap, _
    rw [hcap, s2.live]; exact h.live
  · change t.hd ∉ slots sz t.base r.1.cap
    rw [hcap]; exact h.hdr

/-! ## Ranges -/

/-- A range of one element. -/
theorem eraseRange_one (hsz : 0 < sz) {o1 o2 : List Nat} {pos : Nat} (h : Rep hash sz m t l (o1 ++ pos :: o2)) {fuel : Nat} (hf : 2 ≤ fuel)
    (res : Int) :
    ∃ m' c next, OTable.eraseRange sz (t.addr sz pos) fuel m t ((o2.map (t.addr sz)).headD t.hd) res = .ok (m', { t with core := c }, next) ∧
      c.cap = t.core.cap ∧ ErasedAt hash sz m t l o1 o2 pos m' c next := by
  obtain ⟨m1, c, next, e1, _, hcap, _, he⟩ := eraseIter_ok hsz h
  refine ⟨m1, c, next, ?_, hcap, he⟩
  have hr : Ring m t.hd ((o1 ++ [pos]).map (t.addr sz) ++ o2.map (t.addr sz)) := by
    rw [← List.map_append, List.append_assoc]
    exact h.ring
  have hlive := hr.live _ (Ring.right_mem _ _)
  have hp := hr.place.2
  have hl : ((o1 ++ [pos]).map (t.addr sz)).getLastD t.hd = t.addr sz pos := by simp
  rw [hl] at hp
  have hne : (o2.map (t.addr sz)).headD t.hd ≠ t.addr sz pos := by
    have := h.ring.nodup
    rw [List.map_append, List.map_cons] at this
    exact (Ring.ne_around this).1
  obtain ⟨f, rfl⟩ : ∃ f, fuel = f + 2 := ⟨fuel - 2, by omega⟩
  simp only [OTable.eraseRange]
  rw [if_neg hne, Mem.prevOf_ok hlive, bind_ok, hp, e1, bind_ok]
  simp

end Tpp.ODense
