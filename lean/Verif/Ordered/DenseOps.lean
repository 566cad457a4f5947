import Verif.Ordered.DenseInv

/-!
# Ordered dense containers: erasure, growth, iteration, and whole histories
-/

set_option linter.unusedSectionVars false

namespace Tpp.ODense

open Tpp.Dense (Elem LF Table Inv swapRemove conflict idxOf elemOf)
open Tpp.Ordered

variable {k : Nat} {K V : Type} [DecidableEq K]

/-! ## Erasing from the sequence -/

/-- The index of an element after the last one was moved to `pos`. -/
def ren (last pos i : Nat) : Nat := if i = last then pos else i

theorem split_facts {o1 o2 : List Nat} {pos n : Nat} (h : (o1 ++ pos :: o2).Perm (List.range n)) :
    pos < n ∧ (∀ i ∈ o1 ++ o2, i < n ∧ i ≠ pos) ∧ (o1 ++ o2).Nodup ∧ (∀ i, i < n → i ≠ pos → i ∈ o1 ++ o2) := by
  have h' : (pos :: (o1 ++ o2)).Perm (List.range n) := List.perm_middle.symm.trans h
  have hn := h'.nodup_iff.mpr List.nodup_range
  rw [List.nodup_cons] at hn
  have hm : ∀ i, i ∈ pos :: (o1 ++ o2) ↔ i < n := fun i => by rw [h'.mem_iff, List.mem_range]
  refine ⟨(hm pos).mp (by simp), ?_, hn.2, ?_⟩
  · intro i hi
    exact ⟨(hm i).mp (List.mem_cons_of_mem _ hi), fun e => hn.1 (e ▸ hi)⟩
  · intro i hi hne
    rcases List.mem_cons.mp ((hm i).mpr hi) with e | e
    · exact absurd e hne
    · exact e

theorem ren_perm {o1 o2 : List Nat} {pos n : Nat} (h : (o1 ++ pos :: o2).Perm (List.range n)) :
    ((o1 ++ o2).map (ren (n - 1) pos)).Perm (List.range (n - 1)) := by
  obtain ⟨hp, hl, hn, hm⟩ := split_facts h
  refine (List.perm_ext_iff_of_nodup ?_ List.nodup_range).mpr ?_
  · refine List.Nodup.map_on ?_ hn
    intro a ha b hb e
    have := hl a ha
    have := hl b hb
    unfold ren at e
    split at e <;> split at e <;> omega
  · intro x
    rw [List.mem_map, List.mem_range]
    constructor
    · rintro ⟨i, hi, e⟩
      have := hl i hi
      unfold ren at e
      split at e <;> omega
    · intro hx
      by_cases e : x = pos
      · exact ⟨n - 1, hm _ (by omega) (by omega), by simp [ren, e]⟩
      · exact ⟨x, hm x (by omega) e, by unfold ren; rw [if_neg (by omega)]⟩

theorem seq_ren {E : Type} {l : List E} {o1 o2 : List Nat} {pos : Nat} (h : (o1 ++ pos :: o2).Perm (List.range l.length))
    {r : List Nat} (hr : ∀ i ∈ r, i ∈ o1 ++ o2) :
    seq (swapRemove l pos) (r.map (ren (l.length - 1) pos)) = seq l r := by
  obtain ⟨hp, hl, _, _⟩ := split_facts h
  unfold seq
  rw [List.filterMap_map]
  refine List.filterMap_congr ?_
  intro i hi
  have := hl i (hr i hi)
  simp only [Function.comp_apply]
  rw [Dense.swapRemove_getElem? hp]
  unfold ren
  by_cases e : i = l.length - 1
  · rw [if_pos e, if_pos (by omega), if_pos rfl, e]
  · rw [if_neg e, if_pos (by omega), if_neg this.2]

theorem seq_split {E : Type} {l : List E} {o1 o2 : List Nat} {pos : Nat} (hp : pos < l.length) :
    seq l (o1 ++ pos :: o2) = seq l o1 ++ l[pos] :: seq l o2 := by
  rw [seq_append, seq_cons hp]

variable {hash : K → Nat} {sz : Int} {A : Alloc} {m : Mem} {t : OTable k K V} {l : List (Elem k K V)} {o : List Nat}

/-- The state after erasing element `pos`, the successor read by `erase_node` being the former address of the next element. -/
structure ErasedAt (hash : K → Nat) (sz : Int) (m : Mem) (t : OTable k K V) (l : List (Elem k K V)) (o1 o2 : List Nat) (pos : Nat)
    (m' : Mem) (c : Table k K V) (next : Int) : Prop where
  rep : Rep hash sz m' { t with core := c } (swapRemove l pos) ((o1 ++ o2).map (ren (l.length - 1) pos))
  next : next = (o2.map (t.addr sz)).headD t.hd
  frame : Frame m m' (t.foot sz) (t.foot sz)
  /-- the erased node's own link is stale, unless another node was moved there -/
  stale : pos = l.length - 1 → m'.link (t.addr sz pos) = m.link (t.addr sz pos)

theorem eraseLinks_ok (hsz : 0 < sz) {o1 o2 : List Nat} {pos : Nat} (h : Rep hash sz m t l (o1 ++ pos :: o2)) {c : Table k K V}
    (hc : Inv hash c (swapRemove l pos)) (hcap : c.cap = t.core.cap) :
    ∃ m' next, t.eraseLinks sz m pos = .ok (m', next) ∧ ErasedAt hash sz m t l o1 o2 pos m' c next := by
  obtain ⟨hp, hl, hn, _⟩ := split_facts h.perm
  have hin : pos ∈ o1 ++ pos :: o2 := by simp
  have hn1 : pos ∉ o1 := fun q => (hl pos (List.mem_append_left _ q)).2 rfl
  have hs := h.core.size
  have hlive : t.addr sz pos ∈ m.live := h.live _ (h.addr_slots hin)
  have hr := h.ring
  obtain ⟨m1, e1, r1, s1⟩ := hr.unlinkAt hin
  rw [List.erase_append_right _ hn1, List.erase_cons_head] at r1 s1
  rw [List.map_append, List.map_cons] at hr
  unfold OTable.eraseLinks
  rw [Mem.nextOf_ok hlive, bind_ok, hr.around.1, e1, bind_ok]
  have hf1 : Frame m m1 (t.foot sz) (t.foot sz) := by
    refine s1.frame ?_
    intro x hx
    right
    intro q
    refine hx (h.ring_foot x ?_)
    rw [List.mem_cons, List.mem_map] at q ⊢
    rcases q with q | ⟨i, hi, q⟩
    · exact Or.inl q
    · refine Or.inr ⟨i, ?_, q⟩
      rw [List.mem_append] at hi ⊢
      exact hi.imp_right (List.mem_cons_of_mem _)
  have hperm : ((o1 ++ o2).map (ren (l.length - 1) pos)).Perm (List.range (swapRemove l pos).length) := by
    rw [Dense.swapRemove_length]
    exact ren_perm h.perm
  by_cases e : pos = l.length - 1
  · have hmap : (o1 ++ o2).map (ren (l.length - 1) pos) = o1 ++ o2 := by
      conv => rhs; rw [← List.map_id (o1 ++ o2)]
      refine List.map_congr_left ?_
      intro i hi
      have := (hl i hi).2
      unfold ren
      rw [if_neg (by omega)]
      rfl
    rw [if_neg (by rw [hs]; simpa using e), bind_ok]
    refine ⟨m1, _, rfl, ⟨hc, hperm, ?_, ?_, ?_⟩, rfl, hf1, fun _ => s1.link _ (Or.inl rfl)⟩
    · rw [hmap]
      exact r1
    · change ∀ x ∈ slots sz t.base c.cap, _
      rw [hcap, s1.live]; exact h.live
    · change t.hd ∉ slots sz t.base c.cap
      rw [hcap]; exact h.hdr
  · have hlast : l.length - 1 ∈ o1 ++ o2 := (split_facts h.perm).2.2.2 _ (by omega) (Ne.symm e)
    have hfresh : t.addr sz pos ∉ t.hd :: (o1 ++ o2).map (t.addr sz) := by
      intro q
      rw [List.mem_cons, List.mem_map] at q
      rcases q with q | ⟨i, hi, q⟩
      · exact h.hdr (q ▸ h.addr_slots hin)
      · exact (hl i hi).2 (addr_inj hsz q)
    obtain ⟨m2, e2, r2, s2⟩ := r1.relinkAt hlast (b := t.addr sz pos) (by rw [s1.live]; exact hlive) hfresh
    rw [if_pos (by rw [hs]; simpa using e), hs, e2, bind_ok]
    refine ⟨m2, _, rfl, ⟨hc, hperm, ?_, ?_, ?_⟩, rfl, ?_, fun q => absurd q e⟩
    · rw [List.map_map]
      have : (o1 ++ o2).map (upd (t.addr sz) (l.length - 1) (t.addr sz pos)) =
          (o1 ++ o2).map (OTable.addr sz ({ t with core := c } : OTable k K V) ∘ ren (l.length - 1) pos) := by
        refine List.map_congr_left ?_
        intro i _
        simp only [Function.comp_apply, upd, ren]
        split <;> rfl
      rw [← this]
      exact r2
    · change ∀ x ∈ slots sz t.base c.cap, _
      rw [hcap, s2.live, s1.live]; exact h.live
    · change t.hd ∉ slots sz t.base c.cap
      rw [hcap]; exact h.hdr
    · refine hf1.trans (s2.frame ?_)
      intro x hx
      refine ⟨fun q => hx (q ▸ List.mem_cons_of_mem _ (h.addr_slots hin)), ?_⟩
      intro q
      refine hx (h.ring_foot x ?_)
      rw [List.mem_cons, List.mem_map] at q ⊢
      rcases q with q | ⟨i, hi, q⟩
      · exact Or.inl q
      · refine Or.inr ⟨i, ?_, q⟩
        rw [List.mem_append] at hi ⊢
        exact hi.imp_right (List.mem_cons_of_mem _)

/-- `erase(iterator)`. -/
theorem eraseIter_ok (hsz : 0 < sz) {o1 o2 : List Nat} {pos : Nat} (h : Rep hash sz m t l (o1 ++ pos :: o2)) :
    ∃ m' c next, t.eraseIter sz m (t.addr sz pos) = .ok (m', { t with core := c }, next) ∧ c.bc = t.core.bc ∧ c.cap = t.core.cap ∧
      c.lf = t.core.lf ∧ ErasedAt hash sz m t l o1 o2 pos m' c next := by
  have hp := (split_facts h.perm).1
  obtain ⟨c, e, h1, h2, h3, h4⟩ := Dense.eraseAt_ok h.core hp
  obtain ⟨m', next, e', h'⟩ := eraseLinks_ok hsz h h1 h3
  refine ⟨m', c, next, ?_, h2, h3, h4, h'⟩
  unfold OTable.eraseIter
  rw [slotOf_ok hsz (h.lt_cap hp)]
  simp only
  rw [if_pos (by rw [h.core.size]; exact hp), e', bind_ok, e, bind_ok]

theorem Rep.split (h : Rep hash sz m t l o) {i : Nat} (hi : i < l.length) : ∃ o1 o2, o = o1 ++ i :: o2 := List.append_of_mem (h.mem hi)

/-- Erasing one element of a sequence without two equal components. -/
theorem filter_erase {s1 s2 : List (Elem k K V)} {e : Elem k K V} {j : Fin k} {x : K} (hu : Uniq (s1 ++ e :: s2)) (he : e.1 j = x) :
    (s1 ++ e :: s2).filter (fun e => e.1 j ≠ x) = s1 ++ s2 := by
  have h := hu j
  rw [List.map_append, List.map_cons] at h
  have h' := (List.perm_middle (a := e.1 j) (l₁ := s1.map (fun e => e.1 j)) (l₂ := s2.map (fun e => e.1 j))).nodup_iff.mp h
  rw [List.nodup_cons, ← List.map_append] at h'
  rw [List.filter_append, List.filter_cons, if_neg (by simpa using he), ← List.filter_append, List.filter_eq_self]
  intro a ha
  simp only [decide_eq_true_eq]
  intro q
  exact h'.1 (List.mem_map.mpr ⟨a, ha, q.trans he.symm⟩)

theorem filter_absent {s : List (Elem k K V)} {j : Fin k} {x : K} (h : s.any (fun e => e.1 j = x) = false) :
    s.filter (fun e => e.1 j ≠ x) = s := by
  rw [List.filter_eq_self]
  intro a ha
  rw [List.any_eq_false] at h
  have := h a ha
  simpa using this

/-- `erase(key)`. -/
theorem erase_ok (hsz : 0 < sz) (h : Rep hash sz m t l o) (hb : 0 < t.core.bc) (j : Fin k) (x : K) :
    ∃ m' t' a, t.erase hash sz m j x = .ok (m', t', a, (seq l o).any (fun e => e.1 j = x)) ∧ t'.core.bc = t.core.bc ∧
      Becomes hash sz m t m' t' ((seq l o).filter (fun e => e.1 j ≠ x)) := by
  obtain ⟨c, e, h2, h3, h4, h5, h6⟩ := Dense.erase_ok h.core hb j x
  have hany : (seq l o).any (fun e => e.1 j = x) = (idxOf l j x).isSome := by rw [any_perm (seq_perm h.perm), idxOf_any]
  unfold OTable.erase
  rw [e, bind_ok]
  cases hc : idxOf l j x with
  | none =>
    rw [h5 hc]
    rw [hc, Option.isSome_none] at hany
    simp only [Bool.false_eq_true, if_false]
    rw [hany, filter_absent hany]
    exact ⟨m, t, t.hd, rfl, rfl, Becomes.refl h⟩
  | some i =>
    obtain ⟨h7, h8⟩ := h6 i hc
    obtain ⟨a, ha, hx⟩ := Dense.idxOf_some hc
    obtain ⟨hi, ha'⟩ := List.getElem?_eq_some_iff.mp ha
    rw [hc, Option.isSome_some] at hany
    rw [hany, h7]
    obtain ⟨o1, o2, ho⟩ := h.split hi
    rw [ho] at h ⊢
    obtain ⟨m', next, e', h'⟩ := eraseLinks_ok hsz h h8 h3
    simp only [if_true]
    rw [e', bind_ok]
    refine ⟨m', { t with core := c.1 }, next, rfl, h2, ⟨_, _, h'.rep, ?_⟩, rfl, ?_⟩
    · have hu : Uniq (seq l (o1 ++ i :: o2)) := h.uniq.perm (seq_perm h.perm).symm
      rw [seq_split hi] at hu ⊢
      rw [filter_erase hu (by rw [ha']; exact hx), seq_ren h.perm (fun _ q => q), seq_append]
    · have := h'.frame
      change Frame m m' _ (t.hd :: slots sz t.base c.1.cap)
      rw [h3]
      exact this

/-! ## The other operations -/

theorem clear_ok (h : Rep hash sz m t l o) :
    ∃ m' t', t.clear m = .ok (m', t') ∧ t'.core.bc = t.core.bc ∧ Rep hash sz m' t' [] [] ∧ t'.hd = t.hd ∧
      Frame m m' (t.foot sz) (t'.foot sz) := by
  obtain ⟨c, e, h1, h2, h3, _⟩ := Dense.clear_ok h.core.toArr
  unfold OTable.clear
  have hw : m.reset t.hd = _ := Mem.write_ok h.hd_live ⟨0, 0⟩
  rw [hw, bind_ok, e, bind_ok]
  refine ⟨_, { t with core := c }, rfl, h2, ⟨h1, ?_, ?_, ?_, ?_⟩, rfl, ?_, ?_⟩
  · simp
  · rw [List.map_nil, Ring.nil_iff]
    exact ⟨h.hd_live, by simp⟩
  · change ∀ x ∈ slots sz t.base c.cap, _
    rw [h3]
    exact h.live
  · change t.hd ∉ slots sz t.base c.cap
    rw [h3]; exact h.hdr
  · intro x hx hn
    refine ⟨hx, ?_⟩
    have : x ≠ t.hd := fun q => hn (q ▸ List.mem_cons_self)
    simp [this]
  · intro x hx
    left
    have : OTable.foot sz ({ t with core := c } : OTable k K V) = t.foot sz := by
      unfold OTable.foot
      simp only
      rw [h3]
    rw [← this]
    exact hx

theorem core_reserve_cap {t : Table k K V} (h : Inv hash t l) {n : Nat} {t' : Table k K V} (e : t.reserve n = .ok t') :
    t'.cap = if n > t.cap then n else t.cap := by
  unfold Table.reserve at e
  obtain ⟨t1, e1, e2⟩ := Dense.bind_eq_ok e
  have hle := h.le_cap
  have hs := h.size
  have : t1.cap = (if n > t.cap then n else t.cap) ∧ Inv hash t1 l := by
    by_cases q : n > t.cap
    · obtain ⟨t2, e3, h1, h2, _⟩ := Dense.resizeData_ok h (c := n) (by omega)
      rw [if_pos q, e3] at e1
      cases e1
      rw [if_pos q]
      exact ⟨h2, h1⟩
    · rw [if_neg q] at e1
      cases e1
      rw [if_neg q]
      exact ⟨rfl, h⟩
  obtain ⟨t2, e3, _, h2, _⟩ := Dense.rehash_ok this.2 (t1.lf.div n)
  rw [e3] at e2
  cases e2
  rw [h2, this.1]

theorem reserve_ok (hsz : 0 < sz) (hA : A.Sound sz) (h : Rep hash sz m t l o) (n : Nat) :
    ∃ m' t', t.reserve sz A m n = .ok (m', t') ∧ t.core.bc ≤ t'.core.bc ∧ Rep hash sz m' t' l o ∧ t'.hd = t.hd ∧ n ≤ t'.core.cap ∧
      Frame m m' (t.foot sz) (t'.foot sz) := by
  obtain ⟨c, e, h1, h2, _, _, h3, _⟩ := Dense.reserve_ok h.core n
  have hcap := core_reserve_cap h.core e
  unfold OTable.reserve
  by_cases q : n > t.core.cap
  · have := h.core.le_cap
    have := h.core.size
    obtain ⟨m', b, e2, r1, r2, r3, r4⟩ := growLinks_ok hsz hA h (c := n) (by omega)
    rw [if_pos q] at hcap
    rw [if_pos q, e2, bind_ok, e, bind_ok]
    refine ⟨m', { t with core := c, base := b }, rfl, h3, ⟨h1, h.perm, r1, ?_, ?_⟩, rfl, h2, ?_⟩
    · change ∀ x ∈ slots sz b c.cap, _
      rw [hcap]; exact r2
    · change t.hd ∉ slots sz b c.cap
      rw [hcap]; exact r3
    · change Frame m m' _ (t.hd :: slots sz b c.cap)
      rw [hcap]; exact r4
  · rw [if_neg q] at hcap
    rw [if_neg q, bind_ok, e, bind_ok]
    refine ⟨m, { t with core := c }, rfl, h3, ⟨h1, h.perm, h.ring, ?_, ?_⟩, rfl, h2, ?_⟩
    · change ∀ x ∈ slots sz t.base c.cap, _
      rw [hcap]; exact h.live
    · change t.hd ∉ slots sz t.base c.cap
      rw [hcap]; exact h.hdr
    · change Frame m m _ (t.hd :: slots sz t.base c.cap)
      rw [hcap]; exact Frame.refl _ _

/-- Replacing the unordered part by one with the same array. -/
theorem Rep.recore (h : Rep hash sz m t l o) {c : Table k K V} (hc : Inv hash c l) (hcap : c.cap = t.core.cap) :
    Rep hash sz m { t with core := c } l o := by
  refine ⟨hc, h.perm, h.ring, ?_, ?_⟩
  · change ∀ x ∈ slots sz t.base c.cap, _
    rw [hcap]; exact h.live
  · change t.hd ∉ slots sz t.base c.cap
    rw [hcap]; exact h.hdr

theorem Becomes.recore (h : Rep hash sz m t l o) {c : Table k K V} (hc : Inv hash c l) (hcap : c.cap = t.core.cap) :
    Becomes hash sz m t m { t with core := c } (seq l o) := by
  refine ⟨⟨l, o, h.recore hc hcap, rfl⟩, rfl, ?_⟩
  change Frame m m _ (t.hd :: slots sz t.base c.cap)
  rw [hcap]
  exact Frame.refl _ _

theorem Becomes.trans {m' m'' : Mem} {t' t'' : OTable k K V} {s s' : List (Elem k K V)} (h : Becomes hash sz m t m' t' s)
    (h' : Becomes hash sz m' t' m'' t'' s') : Becomes hash sz m t m'' t'' s' :=
  ⟨h'.holds, h'.hd.trans h.hd, h.frame.trans h'.frame⟩

theorem insertAll_ok (hsz : 0 < sz) (hA : A.Sound sz) : ∀ (xs : List (Elem k K V)) {m : Mem} {t : OTable k K V} {s : List (Elem k K V)},
    Holds hash sz m t s →
    ∃ m' t', xs.foldlM (fun (s : Mem × OTable k K V) x => do
        let r ← s.2.insert hash sz A s.1 x.1 x.2
        Except.ok (r.1, r.2.1)) (m, t) = (.ok (m', t') : M (Mem × OTable k K V)) ∧
      (xs ≠ [] ∨ 0 < t.core.bc → 0 < t'.core.bc) ∧
      Becomes hash sz m t m' t' (xs.foldl (fun l x => (Spec.insert l x.1 x.2).1) s)
  | [], m, t, s, h => by
    obtain ⟨l, o, h, rfl⟩ := h
    exact ⟨m, t, rfl, fun q => q.resolve_left (by simp), Becomes.refl h⟩
  | x :: xs, m, t, s, h => by
    obtain ⟨l, o, h, rfl⟩ := h
    obtain ⟨r, e, hr⟩ := Dense.insert_ok h.core x.1 x.2
    obtain ⟨m1, t1, a, e1, _, hb, h1⟩ := insertStep_ok (op := fun c => c.insert hash x.1 x.2) hsz hA h e hr
    obtain ⟨m2, t2, e2, hb2, h2⟩ := insertAll_ok hsz hA xs h1.holds
    refine ⟨m2, t2, ?_, fun _ => hb2 (Or.inr hb), h1.trans h2⟩
    rw [List.foldlM_cons]
    unfold OTable.insert
    rw [e1, bind_ok, bind_ok]
    exact e2

theorem insertRange_ok (hsz : 0 < sz) (hA : A.Sound sz) (h : Rep hash sz m t l o) (ra : Bool) (xs : List (Elem k K V)) :
    ∃ m' t', t.insertRange hash sz A m ra xs = .ok (m', t') ∧ (xs ≠ [] ∨ 0 < t.core.bc → 0 < t'.core.bc) ∧
      Becomes hash sz m t m' t' (xs.foldl (fun l x => (Spec.insert l x.1 x.2).1) (seq l o)) := by
  unfold OTable.insertRange
  cases ra with
  | false =>
    simp only [Bool.false_eq_true, if_false, bind_ok]
    exact insertAll_ok hsz hA xs ⟨l, o, h, rfl⟩
  | true =>
    obtain ⟨m1, t1, e1, hb, h1, h2, _, h3⟩ := reserve_ok hsz hA h (t.core.size + xs.length)
    obtain ⟨m2, t2, e2, hb2, h4⟩ := insertAll_ok hsz hA xs ⟨l, o, h1, rfl⟩
    simp only [if_true]
    rw [e1, bind_ok]
    refine ⟨m2, t2, e2, fun q => hb2 (q.imp_right (fun g => Nat.lt_of_lt_of_le g hb)), h4.holds, h4.hd.trans h2, h3.trans h4.frame⟩

/-! ## Iteration -/

/-- The element at an address. -/
def valAt (sz : Int) (t : OTable k K V) (l : List (Elem k K V)) (e : Elem k K V) (a : Int) : Elem k K V :=
  ((t.slotOf sz a).bind (fun i => l[i]?)).getD e

theorem valAt_addr (hsz : 0 < sz) (h : Rep hash sz m t l o) {i : Nat} (hi : i < l.length) (e : Elem k K V) :
    valAt sz t l e (t.addr sz i) = l[i] := by
  unfold valAt
  rw [slotOf_ok hsz (h.lt_cap hi), Option.bind_some, List.getElem?_eq_getElem hi, Option.getD_some]

theorem map_valAt (hsz : 0 < sz) (h : Rep hash sz m t l o) (e : Elem k K V) : ∀ {r : List Nat}, (∀ i ∈ r, i < l.length) →
    (r.map (t.addr sz)).map (valAt sz t l e) = seq l r
  | [], _ => rfl
  | i :: r, hr => by
    have hi := hr i (by simp)
    rw [List.map_cons, List.map_cons, map_valAt hsz h e (fun j hj => hr j (List.mem_cons_of_mem _ hj)), seq_cons hi,
      valAt_addr hsz h hi]

theorem elemAt_val (hsz : 0 < sz) (h : Rep hash sz m t l o) (e : Elem k K V) : ∀ x ∈ o.map (t.addr sz),
    t.elemAt sz x = .ok (valAt sz t l e x) := by
  intro x hx
  rw [List.mem_map] at hx
  obtain ⟨i, hi, rfl⟩ := hx
  rw [elemAt_ok hsz h.core (h.lt hi), valAt_addr hsz h (h.lt hi)]

theorem first_ok (h : Rep hash sz m t l o) : t.first m = .ok ((o.map (t.addr sz)).headD t.hd) := by
  unfold OTable.first
  rw [Mem.nextOf_ok h.hd_live]
  have := (Ring.place (l := []) h.ring).1
  rw [← this]
  rfl

theorem last_ok (h : Rep hash sz m t l o) : m.prevOf t.hd = .ok ((o.map (t.addr sz)).getLastD t.hd) := by
  rw [Mem.prevOf_ok h.hd_live]
  have := (Ring.place (r := []) (by rw [List.append_nil]; exact h.ring)).2
  rw [← this]
  rfl

/-- Forward iteration. -/
theorem iterate_ok (hsz : 0 < sz) (h : Rep hash sz m t l o) :
    walk m t.hd (t.elemAt sz) (t.core.size + 1) ((o.map (t.addr sz)).headD t.hd) = .ok (seq l o) := by
  cases hl : l with
  | nil =>
    have : o = [] := List.length_eq_zero_iff.mp (by rw [h.length, hl]; rfl)
    subst this
    simp [walk, seq]
  | cons e l' =>
    rw [← hl, ← map_valAt hsz h e (fun i hi => h.lt hi)]
    refine walk_ok (l := []) h.ring (elemAt_val hsz h e) ?_
    rw [List.length_map, h.length, h.core.size]
    omega

/-- Backward iteration. -/
theorem reverse_ok (hsz : 0 < sz) (h : Rep hash sz m t l o) :
    rwalk m ((o.map (t.addr sz)).headD t.hd) (t.elemAt sz) (t.core.size + 1) t.hd = .ok (seq l o).reverse := by
  cases hl : l with
  | nil =>
    have : o = [] := List.length_eq_zero_iff.mp (by rw [h.length, hl]; rfl)
    subst this
    simp [rwalk, seq]
  | cons e l' =>
    rw [← hl, ← map_valAt hsz h e (fun i hi => h.lt hi), ← List.map_reverse]
    refine rwalk_ok h.ring (elemAt_val hsz h e) (l := (o.map (t.addr sz)).reverse) (r := []) (by simp) ?_
    rw [List.length_reverse, List.length_map, h.length, h.core.size]
    omega

/-! ## Histories -/

/-- Whether there are buckets after an operation, if `b` tells whether there were before. -/
def Op.buckets (b : Bool) : Op k K V → Bool
  | .insert _ _ => true
  | .emplace _ _ => true
  | .assign _ _ _ => true
  | .insertRange _ xs => b || !xs.isEmpty
  | .assignRange _ xs => b || !xs.isEmpty
  | .rehash n => b || n ≠ 0
  | _ => b

theorem step_ok (hsz : 0 < sz) (hA : A.Sound sz) {s : List (Elem k K V)} (h : Holds hash sz m t s) (op : Op k K V)
    (hg : ∀ j x, op = .erase j x → 0 < t.core.bc) :
    ∃ m' t', t.step hash sz A m op = .ok (m', t', (Spec.step s op).2) ∧ Becomes hash sz m t m' t' (Spec.step s op).1 ∧
      ∀ b, (b = true → 0 < t.core.bc) → op.buckets b = true → 0 < t'.core.bc := by
  obtain ⟨l, o, h, rfl⟩ := h
  cases op with
  | insert key v =>
    obtain ⟨r, e, hr⟩ := Dense.insert_ok h.core key v
    obtain ⟨m1, t1, a, e1, e2, hb, h1⟩ := insertStep_ok (op := fun c => c.insert hash key v) hsz hA h e hr
    simp only [OTable.step, OTable.insert, Spec.step]
    rw [e1, bind_ok, e2, bind_ok]
    exact ⟨m1, t1, rfl, h1, fun _ _ _ => hb⟩
  | emplace key v =>
    obtain ⟨r, e, hr⟩ := Dense.emplace_ok h.core key v
    obtain ⟨m1, t1, a, e1, e2, hb, h1⟩ := insertStep_ok (op := fun c => c.emplace hash key v) hsz hA h e hr
    simp only [OTable.step, OTable.emplace, Spec.step]
    rw [e1, bind_ok, e2, bind_ok]
    exact ⟨m1, t1, rfl, h1, fun _ _ _ => hb⟩
  | assign hk x v =>
    clear hg
    cases hk
    obtain ⟨m1, t1, a, e1, e2, hb, h1⟩ := assignStep_ok hsz hA h x v
    simp only [OTable.step, OTable.assign, Table.assignStep, Spec.step]
    rw [e1, bind_ok]
    simp only
    rw [e2, bind_ok]
    exact ⟨m1, t1, rfl, h1, fun _ _ _ => hb⟩
  | erase j x =>
    obtain ⟨m1, t1, a, e1, e2, h1⟩ := erase_ok hsz h (hg j x rfl) j x
    simp only [OTable.step, Spec.step]
    rw [e1, bind_ok]
    exact ⟨m1, t1, rfl, h1, fun b hb hb' => e2 ▸ hb hb'⟩
  | eraseNth n =>
    simp only [OTable.step, Spec.step]
    rw [h.core.size, seq_length h.perm, h.length]
    by_cases hn : n < l.length
    · obtain ⟨o1, i, o2, ho, hlen⟩ : ∃ o1 i o2, o = o1 ++ i :: o2 ∧ o1.length = n := by
        have hn' : n < o.length := by rw [h.length]; exact hn
        refine ⟨o.take n, o[n], o.drop (n + 1), ?_, by rw [List.length_take]; omega⟩
        rw [List.getElem_cons_drop, List.take_append_drop]
      subst ho
      have hi := (split_facts h.perm).1
      obtain ⟨m', c, next, e, hb, hcap, _, h'⟩ := eraseIter_ok hsz h
      have hadv := advance_ok (l := []) (n := n) (r := (o1 ++ i :: o2).map (t.addr sz)) h.ring (by simp; omega)
      rw [← List.map_drop, ← hlen, List.drop_left, List.map_cons, List.headD_cons] at hadv
      rw [if_pos hn, first_ok h, bind_ok, ← hlen, hadv, bind_ok, e, bind_ok]
      refine ⟨m', { t with core := c }, by simp [hlen, hn], ⟨⟨_, _, h'.rep, ?_⟩, rfl, ?_⟩, fun b hb1 hb2 => hb ▸ hb1 hb2⟩
      · rw [seq_ren h.perm (fun _ q => q), seq_append, seq_split hi]
        have : o1.length = (seq l o1).length := by
          have := seq_getElem? (l := l) (o := o1) (fun j hj => h.lt (List.mem_append_left _ hj))
          apply Nat.le_antisymm
          · rw [← Nat.not_lt]
            intro q
            have h0 := this (seq l o1).length
            rw [List.getElem?_eq_none (Nat.le_refl _), List.getElem?_eq_getElem q, Option.bind_some,
              List.getElem?_eq_getElem (h.lt (List.mem_append_left _ (List.getElem_mem q)))] at h0
            cases h0
          · exact List.length_filterMap_le _ _
        rw [this, List.eraseIdx_append_of_length_le (Nat.le_refl _), Nat.sub_self, List.eraseIdx_cons_zero]
      · change Frame m m' _ (t.hd :: slots sz t.base c.cap)
        rw [hcap]
        exact h'.frame
    · rw [if_neg hn, List.eraseIdx_of_length_le (by rw [seq_length h.perm, h.length]; omega)]
      exact ⟨m, t, by simp [hn], Becomes.refl h, fun b hb hb' => hb hb'⟩
  | insertRange ra xs =>
    obtain ⟨m1, t1, e1, hb, h1⟩ := insertRange_ok hsz hA h ra xs
    simp only [OTable.step, Spec.step]
    rw [e1, bind_ok]
    refine ⟨m1, t1, rfl, h1, fun b hb1 hb2 => hb ?_⟩
    simp only [Op.buckets, Bool.or_eq_true, Bool.not_eq_true', List.isEmpty_eq_false_iff] at hb2
    exact hb2.symm.imp_right hb1
  | assignRange ra xs =>
    obtain ⟨m0, t0, e0, hb0, h0, hd0, f0⟩ := clear_ok h
    obtain ⟨m1, t1, e1, hb, h1⟩ := insertRange_ok hsz hA h0 ra xs
    simp only [OTable.step, Spec.step]
    rw [e0, bind_ok, e1, bind_ok]
    refine ⟨m1, t1, rfl, ⟨h1.holds, h1.hd.trans hd0, f0.trans h1.frame⟩, fun b hb1 hb2 => hb ?_⟩
    simp only [Op.buckets, Bool.or_eq_true, Bool.not_eq_true', List.isEmpty_eq_false_iff] at hb2
    exact hb2.symm.imp_right (fun q => hb0 ▸ hb1 q)
  | clear =>
    obtain ⟨m0, t0, e0, hb0, h0, hd0, f0⟩ := clear_ok h
    simp only [OTable.step, Spec.step]
    rw [e0, bind_ok]
    exact ⟨m0, t0, rfl, ⟨⟨_, _, h0, rfl⟩, hd0, f0⟩, fun b hb1 hb2 => hb0 ▸ hb1 hb2⟩
  | reserve n =>
    obtain ⟨m0, t0, e0, hb0, h0, hd0, _, f0⟩ := reserve_ok hsz hA h n
    simp only [OTable.step, Spec.step]
    rw [e0, bind_ok]
    exact ⟨m0, t0, rfl, ⟨⟨_, _, h0, rfl⟩, hd0, f0⟩, fun b hb1 hb2 => Nat.lt_of_lt_of_le (hb1 hb2) hb0⟩
  | rehash n =>
    obtain ⟨c, e, h1, h2, _, h3, h4⟩ := Dense.rehash_ok h.core n
    simp only [OTable.step, Spec.step]
    rw [e, bind_ok]
    refine ⟨m, { t with core := c }, rfl, Becomes.recore h h1 h2, fun b hb1 hb2 => ?_⟩
    simp only [Op.buckets, Bool.or_eq_true, decide_eq_true_eq] at hb2
    rcases hb2 with g | g
    · exact Nat.lt_of_lt_of_le (hb1 g) h3
    · exact Nat.lt_of_lt_of_le (by omega) h4
  | setLoad lf =>
    exact ⟨m, { t with core := t.core.setLoad lf }, rfl, Becomes.recore h (h.core.setLoad lf) rfl, fun b hb1 hb2 => hb1 hb2⟩
  | find j x =>
    simp only [OTable.step, Spec.step]
    rw [Dense.lookup_ok h.core, bind_ok]
    refine ⟨m, t, ?_, Becomes.refl h, fun b hb1 hb2 => hb1 hb2⟩
    rw [show elemOf l j x = l.find? (fun e => e.1 j = x) from rfl, h.uniq.find (seq_perm h.perm).symm j x]
  | contains j x =>
    simp only [OTable.step, Spec.step]
    rw [Dense.contains_ok h.core, bind_ok]
    refine ⟨m, t, ?_, Becomes.refl h, fun b hb1 hb2 => hb1 hb2⟩
    rw [any_perm (seq_perm h.perm), ← Dense.any_eq_elemOf]
  | size =>
    simp only [OTable.step, Spec.step]
    rw [h.core.size, seq_length h.perm, h.length]
    exact ⟨m, t, rfl, Becomes.refl h, fun b hb1 hb2 => hb1 hb2⟩
  | front =>
    simp only [OTable.step, Spec.step]
    rw [h.core.size]
    refine ⟨m, t, ?_, Becomes.refl h, fun b hb1 hb2 => hb1 hb2⟩
    by_cases e : l.length = 0
    · have : o = [] := List.length_eq_zero_iff.mp (by rw [h.length, e])
      subst this
      rw [if_pos e]
      rfl
    · obtain ⟨i, o', ho⟩ : ∃ i o', o = i :: o' := List.exists_cons_of_ne_nil (fun q => e (by rw [← h.length, q]; rfl))
      have hi : i < l.length := h.lt (by rw [ho]; simp)
      rw [if_neg e, first_ok h, bind_ok, ho, List.map_cons, List.headD_cons, elemAt_ok hsz h.core hi, bind_ok, seq_cons hi]
      rfl
  | back =>
    simp only [OTable.step, Spec.step]
    rw [h.core.size]
    refine ⟨m, t, ?_, Becomes.refl h, fun b hb1 hb2 => hb1 hb2⟩
    by_cases e : l.length = 0
    · have : o = [] := List.length_eq_zero_iff.mp (by rw [h.length, e])
      subst this
      rw [if_pos e]
      rfl
    · obtain ⟨o', i, ho⟩ : ∃ o' i, o = o' ++ [i] := by
        rcases List.eq_nil_or_concat o with q | ⟨o', i, q⟩
        · exact absurd (by rw [← h.length, q]; rfl) e
        · exact ⟨o', i, by rw [q, List.concat_eq_append]⟩
      have hi : i < l.length := h.lt (by rw [ho]; simp)
      rw [if_neg e, last_ok h, bind_ok, ho, List.map_append, List.map_singleton, List.getLastD_concat, elemAt_ok hsz h.core hi,
        bind_ok, seq_append, seq_cons hi]
      simp [seq]
  | iterate =>
    simp only [OTable.step, Spec.step]
    rw [first_ok h, bind_ok, iterate_ok hsz h, bind_ok]
    exact ⟨m, t, rfl, Becomes.refl h, fun b hb1 hb2 => hb1 hb2⟩
  | reverse =>
    simp only [OTable.step, Spec.step]
    rw [first_ok h, bind_ok, reverse_ok hsz h, bind_ok]
    exact ⟨m, t, rfl, Becomes.refl h, fun b hb1 hb2 => hb1 hb2⟩

end Tpp.ODense
