import Verif.Ordered.SwissCopy
import Verif.Ordered.SwissStrict

/-!
# Ordered sparse containers: insertion with a hint
-/

set_option linter.unusedSectionVars false

namespace Tpp.OSwiss

open Tpp.Swiss (Node Ev Table Inv NoTomb Made)
open Tpp.Ordered

variable {K V : Type} [DecidableEq K] {c : Cfg K} {m : Mem} {t : OTable K V} {o : List Nat}

/-- What the insertion of a new key does to the unordered table: `t1` is the table after a possible growth. -/
structure Fresh (c : Cfg K) (x : Table K V) (k : K) (v : V) (t' : Table K V) (p : Nat) (t1 : Table K V) : Prop where
  run : x.insert c.isa c.hash k v = .ok (t', p, true)
  inv : Inv c.isa c.hash t'
  made : Made x t1
  noTomb : NoTomb x → t1 = x ∨ ∃ n, x.doRehash c.isa n = .ok t1
  room : 0 < x.numEmpty → 0 < x.cap → t1 = x
  full : x.numEmpty = 0 → NoTomb x → ∃ n, x.doRehash c.isa n = .ok t1
  lt : p < t1.cap
  free : t1.node p = none
  node : t'.node = upd t1.node p (some ⟨k, v, c.hash k⟩)
  cap : t'.cap = t1.cap
  log : t'.log = t1.log

theorem prepare_full {isa : Isa} {hash : K → Nat} {t t' : Table K V} {hh p : Nat} (h : t.prepare isa hh = .ok (t', p)) (hI : Inv isa hash t)
    (hn : NoTomb t) (h0 : t.numEmpty = 0) (hp : p < t'.cap) : ∃ n, t.doRehash isa n = .ok t' := by
  rcases Swiss.prepare_noTomb h hI hn with e | e
  case inr => exact e
  subst e
  unfold Table.prepare at h
  split at h
  · obtain ⟨a, h1, h⟩ := Dense.bind_eq_ok h
    obtain ⟨q, _, h⟩ := Dense.bind_eq_ok h
    cases h
    exact ⟨_, h1⟩
  · rename_i hcap
    obtain ⟨q, hq, h⟩ := Dense.bind_eq_ok h
    obtain ⟨b, hb, h⟩ := Dense.bind_eq_ok h
    split at h
    · rename_i hne
      simp only at h
      split at h
      · rename_i hcond
        exfalso
        have hb := hI.budget (by omega)
        have h0 : cnt (fun i => (t'.ctl i).isDeleted) t'.cap = 0 := by
          refine cnt_eq_zero ?_
          intro i hi
          cases hc : t'.ctl i <;> simp [Swiss.Ctl.isDeleted]
          exact absurd hc (hn i hi)
        rw [h0, hne.1] at hb
        have hW := isa.W_pos
        unfold maxSize at hb
        split at hb <;> omega
      · obtain ⟨a, h1, h⟩ := Dense.bind_eq_ok h
        obtain ⟨q, _, h⟩ := Dense.bind_eq_ok h
        cases h
        exact ⟨_, h1⟩
    · rename_i hne
      cases h
      exfalso
      unfold Table.readCtl at hb
      split at hb
      · cases hb
        exact hne ⟨h0, hn p hp⟩
      · cases hb

theorem fresh_insert (h : Rep c m t o) {k : K} (v : V) (hnew : Spec.find (seqOf t.core.node o) k = none) :
    ∃ t' p t1, Fresh c (fresh t.core) k v t' p t1 := by
  rcases h.fresh.cases k with ⟨i, n, hio, hi, hn, hk, hf, hl⟩ | ⟨hno, hf, hl⟩
  · rw [show Spec.find (seqOf t.core.node o) _ = _ from hl] at hnew
    cases hnew
  · obtain ⟨t', p, e1, hI, hp, hnp, _, _, hg, _⟩ := Swiss.emplaceNode_spec (n := ⟨k, v, c.hash k⟩) (fresh_inv h.core) rfl hno
    have hop : (fresh t.core).insert c.isa c.hash k v = .ok (t', p, true) := by
      unfold Table.insert
      simp only
      have hf' : (fresh t.core).findNode c.isa k (c.hash k) = .ok t.core.cap := hf
      rw [hf', bind_ok, if_pos (show t.core.cap = (fresh t.core).cap from rfl), e1, bind_ok]
    have e2 := e1
    unfold Table.emplaceNode at e2
    obtain ⟨⟨a, q⟩, h1, h2⟩ := Dense.bind_eq_ok e2
    obtain ⟨e, h3⟩ := Swiss.commit_log h2
    subst e
    exact ⟨t', p, a, hop, hI, Swiss.prepare_log h1, fun hn => Swiss.prepare_noTomb h1 (fresh_inv h.core) hn,
      fun h0 hc => Swiss.prepare_room h1 h0 hc, fun h0 hn => prepare_full h1 (fresh_inv h.core) hn h0 h3.1, h3.1, h3.2.1, h3.2.2.1, h3.2.2.2.1, h3.2.2.2.2⟩

/-- The new node is linked behind `o1`. -/
theorem Fresh.link (hsz : 0 < c.sz) {k : K} {v : V} {t' t1 : Table K V} {p : Nat} (hf : Fresh c (fresh t.core) k v t' p t1) {b : Int} {o1 o2 : List Nat}
    (h : Linked c.sz m t.hd b t1.cap t1.node (o1 ++ o2)) :
    ∃ m', m.linkAfter (b + c.sz * (p : Int)) ((o1.map fun i : Nat => b + c.sz * (i : Int)).getLastD t.hd) = .ok m' ∧
      Holds c m' { t with core := t', base := b } (seqOf t1.node o1 ++ (k, v) :: seqOf t1.node o2) ∧
      Frame m m' (t.hd :: slots c.sz b t1.cap) (t.hd :: slots c.sz b t1.cap) := by
  have hin : b + c.sz * (p : Int) ∈ slots c.sz b t1.cap := mem_slots.mpr ⟨_, hf.lt, rfl⟩
  have hpo : p ∉ o1 ++ o2 := fun q => by
    obtain ⟨y, hy⟩ := h.get q
    rw [hf.free] at hy
    cases hy
  have hnot : b + c.sz * (p : Int) ∉ t.hd :: (o1 ++ o2).map (fun i : Nat => b + c.sz * (i : Int)) := by
    intro q
    rcases List.mem_cons.mp q with q | q
    · exact h.hdr (q ▸ hin)
    · rw [List.mem_map] at q
      obtain ⟨i, hi, q⟩ := q
      exact hpo (slot_inj hsz q ▸ hi)
  have hr := h.ring
  rw [List.map_append] at hr hnot
  obtain ⟨m2, e3, h5, s2⟩ := hr.insert (h.live _ hin) hnot
  have hs : ∀ r : List Nat, (∀ i ∈ r, i ∈ o1 ++ o2) → seqOf t'.node r = seqOf t1.node r := by
    intro r hr
    refine seqOf_congr ?_
    intro i hi
    rw [hf.node, upd_ne _ _ (show i ≠ p from fun q => hpo (q ▸ hr i hi))]
  refine ⟨m2, e3, ⟨o1 ++ p :: o2, ⟨hf.inv, ?_, ?_, ?_, ?_⟩, ?_⟩, ?_⟩
  · intro i
    change _ ↔ i < t'.cap ∧ (t'.node i).isSome
    have := h.occ i
    rw [List.mem_append] at this
    rw [hf.cap, hf.node, List.mem_append, List.mem_cons]
    by_cases e : i = p
    · cases e
      rw [upd_same]
      simp [hf.lt]
    · rw [upd_ne _ _ e, ← this]
      simp [e]
  · rw [List.map_append, List.map_cons]
    exact h5
  · change ∀ x ∈ slots c.sz b t'.cap, _
    rw [hf.cap, s2.live]; exact h.live
  · change t.hd ∉ slots c.sz b t'.cap
    rw [hf.cap]; exact h.hdr
  · change seqOf t'.node (o1 ++ p :: o2) = _
    rw [seqOf_append, seqOf_cons (n := ⟨k, v, c.hash k⟩) (by rw [hf.node, upd_same]), hs o1 (fun i hi => List.mem_append_left _ hi),
      hs o2 (fun i hi => List.mem_append_right _ hi)]
  · refine s2.frame ?_
    intro x hx
    refine ⟨fun q => hx (List.mem_cons_of_mem _ (q ▸ hin)), fun q => hx ?_⟩
    rw [← List.map_append] at q
    exact h.foot x q

theorem Fresh.elem (hsz : 0 < c.sz) {k : K} {v : V} {t' t1 : Table K V} {p : Nat} (hf : Fresh c (fresh t.core) k v t' p t1) (b : Int) :
    OTable.elemAt c.sz { t with core := t', base := b } (b + c.sz * (p : Int)) = .ok (k, v) := by
  have := elemAt_ok (t := { t with core := t', base := b }) (sz := c.sz) hsz (i := p) (n := ⟨k, v, c.hash k⟩)
    (by change p < t'.cap; rw [hf.cap]; exact hf.lt) (by change t'.node p = _; rw [hf.node, upd_same])
  exact this

/-- Insertion of a new key with a hint while there is room: the element is put behind the hint. -/
theorem insertHint_room (hsz : 0 < c.sz) {o1 o2 : List Nat} (h : Rep c m t (o1 ++ o2)) {k : K} (v : V)
    (hnew : Spec.find (seqOf t.core.node (o1 ++ o2)) k = none) (h0 : 0 < t.core.numEmpty) (hc : 0 < t.core.cap) :
    ∃ m' t' a, t.insert c m k v (some ((o1.map (t.addr c.sz)).getLastD t.hd)) = .ok (m', t', a, true) ∧ t'.elemAt c.sz a = .ok (k, v) ∧
      Holds c m' t' (seqOf t.core.node o1 ++ (k, v) :: seqOf t.core.node o2) := by
  obtain ⟨t', p, t1, hf⟩ := fresh_insert h v hnew
  have e1 : t1 = fresh t.core := hf.room h0 hc
  cases e1
  obtain ⟨m', e2, h2, _⟩ := hf.link hsz h.link
  unfold OTable.insert OTable.insertWith
  beta_reduce
  rw [hf.run, bind_ok]
  simp only
  rw [hf.log]
  refine ⟨m', _, _, ?_, hf.elem hsz t.base, h2⟩
  have : t.replay c m (fresh t.core).log.reverse = .ok (m, t.base) := rfl
  rw [this, bind_ok]
  simp only [if_true, OTable.insertLink]
  have e3 : m.linkAfter (t.base + c.sz * (p : Int)) ((o1.map (t.addr c.sz)).getLastD t.hd) = .ok m' := e2
  rw [e3, bind_ok]

/-- Insertion of a new key with the hint `end()`: the element is put in front of the others. -/
theorem insertHint_end (hsz : 0 < c.sz) (hA : c.A.Sound c.sz) (hst : c.strict = true) (h : Rep c m t o) {k : K} (v : V)
    (hnew : Spec.find (seqOf t.core.node o) k = none) (hb : NoTomb t.core ∨ 0 < t.core.numEmpty) :
    ∃ m' t' a, t.insert c m k v (some t.hd) = .ok (m', t', a, true) ∧ t'.elemAt c.sz a = .ok (k, v) ∧
      Holds c m' t' ((k, v) :: seqOf t.core.node o) := by
  obtain ⟨t', p, t1, hf⟩ := fresh_insert h v hnew
  have hb' : False ∨ t1 = fresh t.core ∨ ∃ n, (fresh t.core).doRehash c.isa n = .ok t1 := by
    right
    rcases hb with q | q
    · exact hf.noTomb q
    · rcases Nat.eq_zero_or_pos t.core.cap with q' | q'
      · exact hf.noTomb (fun i hi => absurd (show i < t.core.cap from hi) (by omega))
      · exact Or.inl (hf.room q q')
  obtain ⟨⟨m1, b⟩, e1, o', h1, h2, h3⟩ := (replay_ok hsz hA hst h hf.made hb').get id
  obtain ⟨m', e2, h4, _⟩ := hf.link (o1 := []) hsz h1
  unfold OTable.insert OTable.insertWith
  beta_reduce
  rw [hf.run, bind_ok]
  simp only
  rw [hf.log, e1, bind_ok]
  simp only [if_true, OTable.insertLink]
  have e3 : m1.linkAfter (b + c.sz * (p : Int)) t.hd = .ok m' := e2
  rw [e3, bind_ok]
  refine ⟨m', _, _, rfl, hf.elem hsz b, ?_⟩
  rw [h2] at h4
  exact h4

theorem free_gone {sz : Int} {m m' : Mem} {a : Int} {n : Nat} (h : m.free sz a n = .ok m') : ∀ x ∈ slots sz a n, x ∉ m'.live := by
  unfold Mem.free at h
  split at h
  · cases h
    intro x hx q
    simp only [List.mem_filter, decide_eq_true_eq] at q
    exact q.2 hx
  · cases h

/-- Insertion of a new key with a hint that designates an element, when the nodes move: the code goes on to use the old place. -/
theorem insertHint_grow (hsz : 0 < c.sz) (hA : c.A.Sound c.sz) (hst : c.strict = true) (h : Rep c m t o) {k : K} (v : V)
    (hnew : Spec.find (seqOf t.core.node o) k = none) (h0 : t.core.numEmpty = 0) (hn : NoTomb t.core) {i : Nat} (hi : i ∈ o) :
    t.insert c m k v (some (t.addr c.sz i)) = .error .dangling := by
  obtain ⟨t', p, t1, hf⟩ := fresh_insert h v hnew
  obtain ⟨n, hr⟩ := hf.full h0 hn
  obtain ⟨⟨m1, b⟩, e1, _⟩ := (replay_ok (b := False) hsz hA hst h hf.made (Or.inr (Or.inr ⟨n, hr⟩))).get id
  obtain ⟨js, d, hlog, _⟩ := Swiss.doRehash_log hr
  have hgone : t.addr c.sz i ∉ m1.live := by
    rw [hlog] at e1
    simp only [List.reverse_append, List.reverse_cons, List.reverse_reverse, fresh, List.reverse_nil, List.nil_append, List.cons_append] at e1
    unfold OTable.replay at e1
    simp only at e1
    obtain ⟨m2, _, e1⟩ := Dense.bind_eq_ok e1
    obtain ⟨m3, e3, e1⟩ := Dense.bind_eq_ok e1
    cases e1
    exact free_gone e3 _ (h.link.slot hi)
  unfold OTable.insert OTable.insertWith
  beta_reduce
  rw [hf.run, bind_ok]
  simp only
  rw [hf.log, e1, bind_ok]
  simp only [if_true, OTable.insertLink]
  unfold Mem.linkAfter Mem.nextOf Mem.read
  rw [if_neg hgone]
  rfl

end Tpp.OSwiss
