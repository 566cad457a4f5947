import Verif.Ordered.SwissInv

/-!
# Ordered sparse containers: insertion, erasure, growth and iteration
-/

set_option linter.unusedSectionVars false

namespace Tpp.OSwiss

open Tpp.Swiss (Node Ev Table Inv NoTomb Steps StepsTo Made Carried rels)
open Tpp.Ordered

variable {K V : Type} [DecidableEq K] {c : Cfg K} {m : Mem} {t : OTable K V} {o : List Nat}

namespace Rep

theorem ring (h : Rep c m t o) : Ring m t.hd (o.map (t.addr c.sz)) := h.link.ring

theorem hd_live (h : Rep c m t o) : t.hd ∈ m.live := h.link.hd_live

theorem addr_live (h : Rep c m t o) {i : Nat} (hi : i ∈ o) : t.addr c.sz i ∈ m.live := h.link.live _ (h.link.slot hi)

theorem addr_ne (h : Rep c m t o) {i : Nat} (hi : i ∈ o) : t.addr c.sz i ≠ t.hd := fun q => h.link.hdr (q ▸ h.link.slot hi)

theorem elem (hsz : 0 < c.sz) (h : Rep c m t o) {i : Nat} (hi : i ∈ o) {n : Node K V} (hn : t.core.node i = some n) :
    t.elemAt c.sz (t.addr c.sz i) = .ok (n.key, n.val) := elemAt_ok hsz (h.link.lt hi) hn

/-- The log does not matter. -/
theorem fresh (h : Rep c m t o) : Rep c m { t with core := OSwiss.fresh t.core } o := ⟨fresh_inv h.core, h.link⟩

end Rep

/-- A container `t` becomes `t'` and holds the sequence `s`; other storage is left alone. -/
structure Becomes (c : Cfg K) (m : Mem) (t : OTable K V) (m' : Mem) (t' : OTable K V) (s : List (K × V)) : Prop where
  holds : Holds c m' t' s
  hd : t'.hd = t.hd
  frame : Frame m m' (t.foot c.sz) (t'.foot c.sz)

theorem Becomes.refl (h : Rep c m t o) : Becomes c m t m t (seqOf t.core.node o) := ⟨⟨o, h, rfl⟩, rfl, Frame.refl _ _⟩

theorem Becomes.trans {m' m'' : Mem} {t' t'' : OTable K V} {s s' : List (K × V)} (h : Becomes c m t m' t' s)
    (h' : Becomes c m' t' m'' t'' s') : Becomes c m t m'' t'' s' := ⟨h'.holds, h'.hd.trans h.hd, h.frame.trans h'.frame⟩

/-! ## Insertion -/

/-- `emplaceNode_log` with the remark that without erased slots or with a slot left the buffer is either kept or replaced. -/
theorem emplace_log {isa : Isa} {hash : K → Nat} {x t' : Table K V} {n : Node K V} {p : Nat} (h : x.emplaceNode isa n = .ok (t', p))
    (hI : Inv isa hash x) :
    ∃ t1, Made x t1 ∧ (NoTomb x → t1 = x ∨ ∃ n, x.doRehash isa n = .ok t1) ∧ (0 < x.numEmpty → 0 < x.cap → t1 = x) ∧
      p < t1.cap ∧ t1.node p = none ∧
      t'.node = upd t1.node p (some n) ∧ t'.cap = t1.cap ∧ t'.log = t1.log := by
  unfold Table.emplaceNode at h
  obtain ⟨⟨a, q⟩, h1, h⟩ := Dense.bind_eq_ok h
  obtain ⟨e, h2⟩ := Swiss.commit_log h
  subst e
  exact ⟨a, Swiss.prepare_log h1, fun hn => Swiss.prepare_noTomb h1 hI hn, fun h0 hc => Swiss.prepare_room h1 h0 hc, h2⟩

/-- Inserting a node behind the last one; `b` is implied if nodes may be exchanged. -/
theorem emplace_gen (hsz : 0 < c.sz) (hA : c.A.Sound c.sz) (hst : c.strict = true) (h : Rep c m t o) {b : Prop}
    (hb0 : b ∨ NoTomb t.core ∨ 0 < t.core.numEmpty) {op : Table K V → M (Table K V × Nat × Bool)} {t' : Table K V} {p : Nat} {n : Node K V}
    (hop : op (fresh t.core) = .ok (t', p, true)) (he : (fresh t.core).emplaceNode c.isa n = .ok (t', p)) (hI : Inv c.isa c.hash t') :
    Okay b (t.insertWith c m op none) (fun r => r.2.1.core = t' ∧ r.2.2 = (r.2.1.addr c.sz p, true) ∧
      p < t'.cap ∧ t'.node p = some n ∧
      Becomes c m t r.1 r.2.1 (seqOf t.core.node o ++ [(n.key, n.val)])) := by
  obtain ⟨t1, hm, hb, hroom, hp, hp0, hnode, hcap, hlog⟩ := emplace_log he (fresh_inv h.core)
  have hb' : b ∨ t1 = fresh t.core ∨ ∃ n, (fresh t.core).doRehash c.isa n = .ok t1 := by
    rcases hb0 with q | q | q
    · exact Or.inl q
    · exact Or.inr (hb q)
    · rcases Nat.eq_zero_or_pos t.core.cap with q' | q'
      · exact Or.inr (hb (fun i hi => absurd (show i < t.core.cap from hi) (by omega)))
      · exact Or.inr (Or.inl (hroom q q'))
  have hr := replay_ok hsz hA hst h hm hb'
  unfold OTable.insertWith
  rw [hop, bind_ok]
  simp only
  rw [hlog]
  refine Okay.bind hr id ?_
  rintro ⟨m1, b⟩ ⟨o', h1, h2, h3⟩
  simp only at h1 h3 ⊢
  have hin : b + c.sz * (p : Int) ∈ slots c.sz b t1.cap := mem_slots.mpr ⟨_, hp, rfl⟩
  have hpo : p ∉ o' := fun q => by
    obtain ⟨y, hy⟩ := h1.get q
    rw [hp0] at hy
    cases hy
  have hnot : b + c.sz * (p : Int) ∉ t.hd :: o'.map (fun i : Nat => b + c.sz * (i : Int)) := by
    intro q
    rcases List.mem_cons.mp q with q | q
    · exact h1.hdr (q ▸ hin)
    · rw [List.mem_map] at q
      obtain ⟨i, hi, q⟩ := q
      exact hpo (slot_inj hsz q ▸ hi)
  obtain ⟨m2, e3, h5, s2⟩ := h1.ring.appendAt (i := p) (h1.live _ hin) hnot
  unfold OTable.insertLink
  simp only [if_true]
  rw [e3, bind_ok]
  have hs : seqOf t'.node (o' ++ [p]) = seqOf t.core.node o ++ [(n.key, n.val)] := by
    rw [seqOf_append, ← h2, seqOf_cons (n := n) (by rw [hnode, upd_same])]
    congr 1
    refine seqOf_congr ?_
    intro i hi
    rw [hnode, upd_ne _ _ (show i ≠ p from fun q => hpo (q ▸ hi))]
  refine Okay.ok ⟨rfl, rfl, by rw [hcap]; exact hp, by rw [hnode, upd_same], ⟨o' ++ [p], ⟨hI, ?_, h5, ?_, ?_⟩, hs⟩, rfl, ?_⟩
  · intro i
    change _ ↔ i < t'.cap ∧ (t'.node i).isSome
    rw [hcap, hnode, List.mem_append, List.mem_singleton, h1.occ i]
    by_cases e : i = p
    · subst e
      rw [upd_same]
      simp [hp]
    · rw [upd_ne _ _ e]
      simp [e]
  · change ∀ x ∈ slots c.sz b t'.cap, _
    rw [hcap, s2.live]; exact h1.live
  · change t.hd ∉ slots c.sz b t'.cap
    rw [hcap]; exact h1.hdr
  · change Frame m m2 _ (t.hd :: slots c.sz b t'.cap)
    rw [hcap]
    refine h3.trans (s2.frame ?_)
    intro x hx
    exact ⟨fun q => hx (List.mem_cons_of_mem _ (q ▸ hin)), fun q => hx (h1.foot x q)⟩

theorem fresh_noTomb {t : Table K V} : NoTomb (fresh t) ↔ NoTomb t := Iff.rfl

/-- An operation that keeps the array and reports a slot in it. -/
theorem keep_ok (h : Rep c m t o) {op : Table K V → M (Table K V × Nat × Bool)} {t' : Table K V} {p : Nat} {hint : Option Int}
    (hop : op (fresh t.core) = .ok (t', p, false)) (hlog : t'.log = []) :
    t.insertWith c m op hint = .ok (m, { t with core := t' }, t.addr c.sz p, false) := by
  unfold OTable.insertWith
  rw [hop, bind_ok]
  simp only
  rw [hlog]
  rfl

theorem insert_gen (hsz : 0 < c.sz) (hA : c.A.Sound c.sz) (hst : c.strict = true) (h : Rep c m t o) {b : Prop} {k : K}
    (hb : Spec.find (seqOf t.core.node o) k = none → b ∨ NoTomb t.core ∨ 0 < t.core.numEmpty) (v : V) :
    Okay b (t.insert c m k v) (fun r =>
      r.2.1.elemAt c.sz r.2.2.1 = .ok (Spec.insert (seqOf t.core.node o) k v).2.1 ∧
      r.2.2.2 = (Spec.insert (seqOf t.core.node o) k v).2.2 ∧
      Becomes c m t r.1 r.2.1 (Spec.insert (seqOf t.core.node o) k v).1 ∧ (NoTomb t.core → NoTomb r.2.1.core)) := by
  unfold OTable.insert Spec.insert
  rcases h.fresh.cases k with ⟨i, n, hio, hi, hn, hk, hf, hl⟩ | ⟨hno, hf, hl⟩
  · have hop : (fresh t.core).insert c.isa c.hash k v = .ok (fresh t.core, i, false) := by
      unfold Table.insert
      simp only
      have hf' : (fresh t.core).findNode c.isa k (c.hash k) = .ok i := hf
      rw [hf', bind_ok, if_neg (show i ≠ (fresh t.core).cap from Nat.ne_of_lt hi)]
    rw [keep_ok (hint := none) (op := fun x => x.insert c.isa c.hash k v) h hop rfl, show Spec.find (seqOf t.core.node o) _ = _ from hl]
    refine Okay.ok ⟨h.fresh.elem hsz hio hn, rfl, ⟨⟨o, h.fresh, rfl⟩, rfl, Frame.refl _ _⟩, fun q => q⟩
  · obtain ⟨t', p, e1, hI, hp, hnp, _, _, hg, _⟩ := Swiss.emplaceNode_spec (n := ⟨k, v, c.hash k⟩) (fresh_inv h.core) rfl hno
    have hop : (fresh t.core).insert c.isa c.hash k v = .ok (t', p, true) := by
      unfold Table.insert
      simp only
      have hf' : (fresh t.core).findNode c.isa k (c.hash k) = .ok t.core.cap := hf
      rw [hf', bind_ok, if_pos (show t.core.cap = (fresh t.core).cap from rfl), e1, bind_ok]
    change Spec.find (seqOf t.core.node o) k = none at hl
    rw [hl]
    refine Okay.mono (emplace_gen (op := fun x => x.insert c.isa c.hash k v) hsz hA hst h (hb hl) hop e1 hI) id ?_
    rintro ⟨m', t1, a, b⟩ ⟨q1, q2, q3, q4, q5⟩
    simp only at q1 q2 q5 ⊢
    cases q2
    refine ⟨?_, rfl, q5, fun q => q1 ▸ hg.2 q⟩
    exact elemAt_ok hsz (by rw [q1]; exact hp) (by rw [q1]; exact hnp)

theorem insert_ok (hsz : 0 < c.sz) (hA : c.A.Sound c.sz) (hst : c.strict = true) (h : Rep c m t o) {b : Prop}
    (hb : b ∨ NoTomb t.core ∨ 0 < t.core.numEmpty) (k : K) (v : V) :
    Okay b (t.insert c m k v) (fun r =>
      r.2.1.elemAt c.sz r.2.2.1 = .ok (Spec.insert (seqOf t.core.node o) k v).2.1 ∧
      r.2.2.2 = (Spec.insert (seqOf t.core.node o) k v).2.2 ∧
      Becomes c m t r.1 r.2.1 (Spec.insert (seqOf t.core.node o) k v).1 ∧ (NoTomb t.core → NoTomb r.2.1.core)) :=
  insert_gen hsz hA hst h (fun _ => hb) v

theorem assign_gen (hsz : 0 < c.sz) (hA : c.A.Sound c.sz) (hst : c.strict = true) (h : Rep c m t o) {b : Prop} {k : K}
    (hb : Spec.find (seqOf t.core.node o) k = none → b ∨ NoTomb t.core ∨ 0 < t.core.numEmpty) (v : V) :
    Okay b (t.assign c m k v) (fun r =>
      r.2.1.elemAt c.sz r.2.2.1 = .ok (Spec.assign (seqOf t.core.node o) k v).2.1 ∧
      r.2.2.2 = (Spec.assign (seqOf t.core.node o) k v).2.2 ∧
      Becomes c m t r.1 r.2.1 (Spec.assign (seqOf t.core.node o) k v).1 ∧ (NoTomb t.core → NoTomb r.2.1.core)) := by
  unfold OTable.assign Spec.assign
  rcases h.fresh.cases k with ⟨i, n, hio, hi, hn, hk, hf, hl⟩ | ⟨hno, hf, hl⟩
  · subst hk
    change t.core.node i = some n at hn
    change i < t.core.cap at hi
    have hop : (fresh t.core).insertOrAssign c.isa c.hash n.key v =
        .ok ({ fresh t.core with node := upd t.core.node i (some { n with val := v }) }, i, false) := by
      unfold Table.insertOrAssign Table.insertOrAssignWith
      simp only
      have hf' : (fresh t.core).findNode c.isa n.key (c.hash n.key) = .ok i := hf
      rw [hf', bind_ok, if_neg (show i ≠ (fresh t.core).cap from Nat.ne_of_lt hi),
        Swiss.readNode_some (show i < (fresh t.core).cap from hi) (show (fresh t.core).node i = some n from hn), bind_ok]
      rfl
    rw [keep_ok (hint := none) (op := fun x => x.insertOrAssign c.isa c.hash n.key v) h hop rfl, show Spec.find (seqOf t.core.node o) _ = _ from hl]
    simp only [Option.isSome_some, if_true]
    have hI := Swiss.setVal_inv (fresh_inv h.core) (show i < (fresh t.core).cap from hi) (show (fresh t.core).node i = some n from hn) v
    refine Okay.ok ⟨?_, rfl, ⟨⟨o, ⟨hI, ?_, h.link.ring, h.link.live, h.link.hdr⟩, ?_⟩, rfl, Frame.refl _ _⟩, fun q => q⟩
    · exact elemAt_ok (t := { t with core := { fresh t.core with node := upd t.core.node i (some { n with val := v }) } })
        hsz hi (upd_same _ _ _)
    · intro j
      rw [h.link.occ j]
      change _ ↔ j < t.core.cap ∧ (upd t.core.node i _ j).isSome
      by_cases e : j = i
      · subst e; rw [upd_same, hn]; simp
      · rw [upd_ne _ _ e]
    · change seqOf (upd t.core.node i _) o = _
      unfold seqOf
      rw [List.map_filterMap]
      refine List.filterMap_congr ?_
      intro j hj
      by_cases e : j = i
      · subst e
        rw [upd_same, hn]
        simp
      · rw [upd_ne _ _ e]
        obtain ⟨n', hn'⟩ := h.link.get hj
        rw [hn']
        have : n'.key ≠ n.key := fun q => e (h.core.uniq j (h.link.lt hj) i hi n' n hn' hn q)
        simp [this]
  · obtain ⟨t', p, e1, hI, hp, hnp, _, _, hg, _⟩ := Swiss.emplaceNode_spec (n := ⟨k, v, c.hash k⟩) (fresh_inv h.core) rfl hno
    have hop : (fresh t.core).insertOrAssign c.isa c.hash k v = .ok (t', p, true) := by
      unfold Table.insertOrAssign Table.insertOrAssignWith
      simp only
      have hf' : (fresh t.core).findNode c.isa k (c.hash k) = .ok t.core.cap := hf
      rw [hf', bind_ok, if_pos (show t.core.cap = (fresh t.core).cap from rfl), e1, bind_ok]
    change Spec.find (seqOf t.core.node o) k = none at hl
    rw [hl]
    simp only [Option.isSome_none, Bool.false_eq_true, if_false]
    refine Okay.mono (emplace_gen (op := fun x => x.insertOrAssign c.isa c.hash k v) hsz hA hst h (hb hl) hop e1 hI) id ?_
    rintro ⟨m', t1, a, b⟩ ⟨q1, q2, q3, q4, q5⟩
    simp only at q1 q2 q5 ⊢
    cases q2
    refine ⟨?_, rfl, q5, fun q => q1 ▸ hg.2 q⟩
    exact elemAt_ok hsz (by rw [q1]; exact hp) (by rw [q1]; exact hnp)

theorem assign_ok (hsz : 0 < c.sz) (hA : c.A.Sound c.sz) (hst : c.strict = true) (h : Rep c m t o) {b : Prop}
    (hb : b ∨ NoTomb t.core ∨ 0 < t.core.numEmpty) (k : K) (v : V) :
    Okay b (t.assign c m k v) (fun r =>
      r.2.1.elemAt c.sz r.2.2.1 = .ok (Spec.assign (seqOf t.core.node o) k v).2.1 ∧
      r.2.2.2 = (Spec.assign (seqOf t.core.node o) k v).2.2 ∧
      Becomes c m t r.1 r.2.1 (Spec.assign (seqOf t.core.node o) k v).1 ∧ (NoTomb t.core → NoTomb r.2.1.core)) :=
  assign_gen hsz hA hst h (fun _ => hb) v

/-! ## Growth and clearing -/

theorem regrow_ok (hsz : 0 < c.sz) (hA : c.A.Sound c.sz) (hst : c.strict = true) (h : Rep c m t o) {t1 : Table K V}
    (hm : Made (fresh t.core) t1) (hb : t1 = fresh t.core ∨ ∃ n, (fresh t.core).doRehash c.isa n = .ok t1)
    (hI : Inv c.isa c.hash t1) :
    ∃ m' b, t.replay c m t1.log.reverse = .ok (m', b) ∧
      Becomes c m t m' { t with core := t1, base := b } (seqOf t.core.node o) := by
  obtain ⟨⟨m', b⟩, e, o', h1, h2, h3⟩ := (replay_ok (b := False) hsz hA hst h hm (Or.inr hb)).get id
  exact ⟨m', b, e, ⟨o', ⟨hI, h1⟩, h2⟩, rfl, h3⟩

theorem reserve_ok (hsz : 0 < c.sz) (hA : c.A.Sound c.sz) (hst : c.strict = true) (h : Rep c m t o) (n : Nat) :
    ∃ m' t', t.reserve c m n = .ok (m', t') ∧ Becomes c m t m' t' (seqOf t.core.node o) ∧ (NoTomb t.core → NoTomb t'.core) ∧
      n ≤ t'.core.size + t'.core.numEmpty ∧ t.core.numEmpty ≤ t'.core.numEmpty ∧ (0 < t.core.cap → 0 < t'.core.cap) := by
  obtain ⟨t1, e1, h1, hs, _, h4, _, h5⟩ := Swiss.reserve_spec (fresh_inv h.core) n
  have hne : t.core.numEmpty ≤ t1.numEmpty := by
    change t1.size = t.core.size at hs
    unfold Table.reserve at e1
    split at e1
    · rename_i q
      change n > t.core.size + t.core.numEmpty at q
      omega
    · cases e1; exact Nat.le_refl _
  have hcp : 0 < t.core.cap → 0 < t1.cap := by
    intro hc
    unfold Table.reserve at e1
    split at e1
    · rename_i q
      obtain ⟨_, _, _, hcap, _⟩ := Swiss.doRehash_log e1
      rw [hcap]
      have := Swiss.reserve_fits c.isa n
      rcases Nat.eq_zero_or_pos (alignCapacity (minCapacity c.isa n)) with z | z
      · rw [z] at this
        change n > t.core.size + t.core.numEmpty at q
        simp [maxSize] at this
        omega
      · exact z
    · cases e1; exact hc
  have hb : t1 = fresh t.core ∨ ∃ n, (fresh t.core).doRehash c.isa n = .ok t1 := by
    unfold Table.reserve at e1
    split at e1
    · exact Or.inr ⟨_, e1⟩
    · cases e1; exact Or.inl rfl
  obtain ⟨m', b, e2, h2⟩ := regrow_ok hsz hA hst h (Swiss.reserve_log e1) hb h1
  unfold OTable.reserve
  rw [e1, bind_ok, e2, bind_ok]
  exact ⟨_, _, rfl, h2, h5, h4, hne, hcp⟩

theorem rehash_ok (hsz : 0 < c.sz) (hA : c.A.Sound c.sz) (hst : c.strict = true) (h : Rep c m t o) {n : Nat} (hn : n ≠ 0) :
    ∃ m' t', t.rehash c m n = .ok (m', t') ∧ Becomes c m t m' t' (seqOf t.core.node o) ∧ (NoTomb t.core → NoTomb t'.core) ∧
      n ≤ t'.core.cap := by
  obtain ⟨t1, e1, h1, _, _, _, h4, h5⟩ := Swiss.rehash_spec (fresh_inv h.core) hn
  have hb : t1 = fresh t.core ∨ ∃ n, (fresh t.core).doRehash c.isa n = .ok t1 := by
    unfold Table.rehash at e1
    split at e1
    · cases e1; exact Or.inl rfl
    · simp only at e1
      split at e1
      · exact Or.inr ⟨_, e1⟩
      · cases e1; exact Or.inl rfl
  obtain ⟨m', b, e2, h2⟩ := regrow_ok hsz hA hst h (Swiss.rehash_log e1) hb h1
  unfold OTable.rehash
  rw [e1, bind_ok, e2, bind_ok]
  exact ⟨_, _, rfl, h2, h5, h4⟩

theorem Linked.ofRaw {sz : Int} {m : Mem} {hd base : Int} {cap : Nat} {f : Nat → Option (Node K V)} (hr : Ring m hd [])
    (hl : ∀ x ∈ slots sz base cap, x ∈ m.live) (hh : hd ∉ slots sz base cap) (hf : ∀ i, i < cap → f i = none) :
    Linked sz m hd base cap f [] := by
  refine ⟨?_, hr, hl, hh⟩
  intro i
  constructor
  · intro q; cases q
  · rintro ⟨h1, h2⟩
    rw [hf i h1] at h2
    cases h2

theorem clear_ok (h : Rep c m t o) :
    ∃ m' t', t.clear c m = .ok (m', t') ∧ Rep c m' t' [] ∧ t'.hd = t.hd ∧ Frame m m' (t.foot c.sz) (t'.foot c.sz) ∧
      (NoTomb t.core → NoTomb t'.core) ∧ t'.core.cap = t.core.cap ∧ (0 < t.core.cap → t.core.numEmpty ≤ t'.core.numEmpty) := by
  obtain ⟨x, e, h1, h2, h3, _, h5⟩ := Swiss.clear_spec h.core
  have hne : 0 < t.core.cap → t.core.numEmpty ≤ x.numEmpty := by
    intro hc
    have b1 := h.core.budget hc
    unfold Table.clear at e
    split at e
    · obtain ⟨y, e1, e⟩ := Dense.bind_eq_ok e
      obtain ⟨f, e2, _⟩ := Swiss.eraseNodes_spec (isa := c.isa) (Or.inr (h.core.meta_ok hc)) h.core.live
      rw [e2] at e1
      cases e1
      unfold Table.fill at e
      split at e
      · rw [bind_ok] at e
        cases e
        change t.core.numEmpty ≤ maxSize c.isa t.core.cap
        omega
      · cases e
    · cases e; exact Nat.le_refl _
  have hraw : ∀ i, i < x.cap → x.node i = none := h1.raw_of_size h3
  unfold OTable.clear
  by_cases hz : t.core.size = 0
  · have ho : o = [] := List.length_eq_zero_iff.mp (by rw [h.length, hz])
    rw [if_neg (by simpa using hz), bind_ok, e, bind_ok]
    subst ho
    refine ⟨m, { t with core := x }, rfl, ⟨h1, Linked.ofRaw h.ring ?_ ?_ hraw⟩, rfl, ?_, h5, h2, hne⟩
    · change ∀ y ∈ slots c.sz t.base x.cap, _
      rw [h2]; exact h.link.live
    · change t.hd ∉ slots c.sz t.base x.cap
      rw [h2]; exact h.link.hdr
    · change Frame m m _ (t.hd :: slots c.sz t.base x.cap)
      rw [h2]; exact Frame.refl _ _
  · rw [if_pos hz]
    have hw : m.reset t.hd = _ := Mem.write_ok h.hd_live ⟨0, 0⟩
    rw [hw, bind_ok, e, bind_ok]
    refine ⟨_, { t with core := x }, rfl, ⟨h1, Linked.ofRaw (Ring.nil_iff.mpr ⟨h.hd_live, by simp⟩) ?_ ?_ hraw⟩, rfl, ?_, h5, h2, hne⟩
    · change ∀ y ∈ slots c.sz t.base x.cap, _
      rw [h2]; exact h.link.live
    · change t.hd ∉ slots c.sz t.base x.cap
      rw [h2]; exact h.link.hdr
    · change Frame m _ _ (t.hd :: slots c.sz t.base x.cap)
      rw [h2]
      refine ⟨?_, fun _ hx => Or.inl hx⟩
      intro y hy hn
      refine ⟨hy, ?_⟩
      have : y ≠ t.hd := fun q => hn (q ▸ List.mem_cons_self)
      simp [this]

/-! How much room insertions take. -/

theorem setMetadata_numEmpty {isa : Isa} {t t' : Table K V} {i : Nat} {x : Swiss.Ctl} (h : t.setMetadata isa i x = .ok t') :
    t'.numEmpty = t.numEmpty := by
  unfold Table.setMetadata Table.writeCtl at h
  obtain ⟨a, h1, h2⟩ := Dense.bind_eq_ok h
  split at h1
  · cases h1
    split at h2
    · cases h2; rfl
    · cases h2
  · cases h1

theorem emplace_room {isa : Isa} {t t' : Table K V} {n : Node K V} {p : Nat} (h : t.emplaceNode isa n = .ok (t', p)) (hc : 0 < t.cap)
    (h0 : 0 < t.numEmpty) : t.numEmpty ≤ t'.numEmpty + 1 ∧ t'.cap = t.cap := by
  unfold Table.emplaceNode at h
  obtain ⟨⟨a, q⟩, h1, h⟩ := Dense.bind_eq_ok h
  cases Swiss.prepare_room h1 h0 hc
  refine ⟨?_, (Swiss.commit_log h).2.2.2.2.1⟩
  unfold Table.commit at h
  obtain ⟨b, h2, h⟩ := Dense.bind_eq_ok h
  obtain ⟨x, _, h⟩ := Dense.bind_eq_ok h
  obtain ⟨_, _, rfl⟩ := Swiss.construct_eq h2
  simp only at h
  have hdec : (if x = Swiss.Ctl.empty then 1 else 0) ≤ 1 := by split <;> omega
  generalize (if x = Swiss.Ctl.empty then 1 else 0) = dec at h hdec
  split at h
  · obtain ⟨d, h3, h⟩ := Dense.bind_eq_ok h
    have := setMetadata_numEmpty h3
    cases h
    change t.numEmpty ≤ d.numEmpty + 1
    rw [this]
    change t.numEmpty ≤ t.numEmpty - dec + 1
    omega
  · cases h

theorem insert_room {isa : Isa} {hash : K → Nat} {t t' : Table K V} {k : K} {v : V} {p : Nat} {b : Bool}
    (h : t.insert isa hash k v = .ok (t', p, b)) (hc : 0 < t.cap) (h0 : 0 < t.numEmpty) : t.numEmpty ≤ t'.numEmpty + 1 ∧ t'.cap = t.cap := by
  unfold Table.insert at h
  simp only at h
  obtain ⟨q, _, h⟩ := Dense.bind_eq_ok h
  split at h
  · obtain ⟨⟨a, r⟩, h1, h⟩ := Dense.bind_eq_ok h
    cases h
    exact emplace_room h1 hc h0
  · cases h
    exact ⟨Nat.le_succ _, rfl⟩

theorem assign_room {isa : Isa} {hash : K → Nat} {t t' : Table K V} {k : K} {v : V} {p : Nat} {b : Bool}
    (h : t.insertOrAssign isa hash k v = .ok (t', p, b)) (hc : 0 < t.cap) (h0 : 0 < t.numEmpty) :
    t.numEmpty ≤ t'.numEmpty + 1 ∧ t'.cap = t.cap := by
  unfold Table.insertOrAssign Table.insertOrAssignWith at h
  simp only at h
  obtain ⟨q, _, h⟩ := Dense.bind_eq_ok h
  split at h
  · obtain ⟨⟨a, r⟩, h1, h⟩ := Dense.bind_eq_ok h
    cases h
    exact emplace_room h1 hc h0
  · obtain ⟨n, _, h⟩ := Dense.bind_eq_ok h
    cases h
    exact ⟨Nat.le_succ _, rfl⟩

theorem insertWith_core {op : Table K V → M (Table K V × Nat × Bool)} {hint : Option Int} {r : Mem × OTable K V × Int × Bool}
    (h : t.insertWith c m op hint = .ok r) : ∃ p, op (fresh t.core) = .ok (r.2.1.core, p, r.2.2.2) := by
  unfold OTable.insertWith at h
  obtain ⟨x, h1, h⟩ := Dense.bind_eq_ok h
  obtain ⟨g, _, h⟩ := Dense.bind_eq_ok h
  simp only at h
  obtain ⟨m', _, h⟩ := Dense.bind_eq_ok h
  cases h
  exact ⟨x.2.1, h1⟩

/-- There is room for `k` insertions. -/
def Room (t : OTable K V) (k : Nat) : Prop := k ≤ t.core.numEmpty ∧ (k = 0 ∨ 0 < t.core.cap)

theorem Room.mono {k k' : Nat} (h : Room t k) (hk : k' ≤ k) : Room t k' :=
  ⟨Nat.le_trans hk h.1, h.2.imp_left (fun q => by omega)⟩

theorem Room.insert {k : K} {v : V} {n : Nat} {hint : Option Int} {r : Mem × OTable K V × Int × Bool}
    (h : t.insert c m k v hint = .ok r) (hr : Room t (n + 1)) : Room r.2.1 n := by
  obtain ⟨p, e⟩ := insertWith_core h
  have hc : 0 < t.core.cap := hr.2.resolve_left (by omega)
  obtain ⟨h1, h2⟩ := insert_room e hc (show 0 < t.core.numEmpty by have := hr.1; omega)
  have h3 : t.core.numEmpty ≤ r.2.1.core.numEmpty + 1 := h1
  exact ⟨by have := hr.1; omega, Or.inr (h2 ▸ hc)⟩

theorem Room.assign {k : K} {v : V} {n : Nat} {hint : Option Int} {r : Mem × OTable K V × Int × Bool}
    (h : t.assign c m k v hint = .ok r) (hr : Room t (n + 1)) : Room r.2.1 n := by
  obtain ⟨p, e⟩ := insertWith_core h
  have hc : 0 < t.core.cap := hr.2.resolve_left (by omega)
  obtain ⟨h1, h2⟩ := assign_room e hc (show 0 < t.core.numEmpty by have := hr.1; omega)
  have h3 : t.core.numEmpty ≤ r.2.1.core.numEmpty + 1 := h1
  exact ⟨by have := hr.1; omega, Or.inr (h2 ▸ hc)⟩

theorem Okay.with {α : Type} {b : Prop} {x : M α} {P Q : α → Prop} (h : Okay b x P) (hq : ∀ a, x = .ok a → Q a) :
    Okay b x (fun a => P a ∧ Q a) := by
  rcases h with h | ⟨a, h, hp⟩
  · exact Or.inl h
  · exact Or.inr ⟨a, h, hp, hq a h⟩

theorem insertAll_ok (hsz : 0 < c.sz) (hA : c.A.Sound c.sz) (hst : c.strict = true) {b : Prop} : ∀ (xs : List (K × V)) {m : Mem}
    {t : OTable K V} {s : List (K × V)}, Holds c m t s → (b ∨ NoTomb t.core ∨ Room t xs.length) →
    Okay b (xs.foldlM (fun (s : Mem × OTable K V) (x : K × V) => do
        let r ← s.2.insert c s.1 x.1 x.2
        Except.ok (r.1, r.2.1)) (m, t) : M (Mem × OTable K V)) (fun r =>
      Becomes c m t r.1 r.2 (xs.foldl (fun l x => (Spec.insert l x.1 x.2).1) s) ∧ (NoTomb t.core → NoTomb r.2.core) ∧
        ∀ n, Room t (xs.length + n) → Room r.2 n)
  | [], m, t, s, h, _ => by
    obtain ⟨o, h, rfl⟩ := h
    exact Okay.ok ⟨Becomes.refl h, id, fun n q => q.mono (by simp)⟩
  | x :: xs, m, t, s, h, hb => by
    obtain ⟨o, h, rfl⟩ := h
    rw [List.foldlM_cons]
    refine Okay.bind (P := fun r => Becomes c m t r.1 r.2 (Spec.insert (seqOf t.core.node o) x.1 x.2).1 ∧ (NoTomb t.core → NoTomb r.2.core) ∧
        ∀ n, Room t (n + 1) → Room r.2 n)
      (Okay.bind ((insert_ok hsz hA hst h (hb.imp_right (Or.imp_right fun q => by have := q.1; simp at this; omega)) x.1 x.2).with
        (Q := fun r => ∀ n, Room t (n + 1) → Room r.2.1 n) (fun r e n q => Room.insert e q)) id ?_) id ?_
    · rintro r ⟨⟨_, _, h3, h4⟩, h5⟩
      exact Okay.ok ⟨h3, h4, h5⟩
    · rintro ⟨m1, t1⟩ ⟨h1, h2, h3⟩
      refine Okay.mono (insertAll_ok hsz hA hst xs h1.holds (hb.imp_right (Or.imp h2 (h3 _)))) id ?_
      rintro r ⟨h4, h5, h6⟩
      refine ⟨h1.trans h4, fun q => h5 (h2 q), fun n q => h6 n (h3 _ (q.mono ?_))⟩
      rw [List.length_cons]
      omega

theorem insertRange_ok (hsz : 0 < c.sz) (hA : c.A.Sound c.sz) (hst : c.strict = true) (h : Rep c m t o) (ra : Bool) (xs : List (K × V))
    {b : Prop} (hb : b ∨ NoTomb t.core ∨ Room t xs.length) :
    Okay b (t.insertRange c m ra xs) (fun r =>
      Becomes c m t r.1 r.2 (xs.foldl (fun l x => (Spec.insert l x.1 x.2).1) (seqOf t.core.node o)) ∧ (NoTomb t.core → NoTomb r.2.core) ∧
        ∀ n, Room t (xs.length + n) → Room r.2 n) := by
  unfold OTable.insertRange
  cases ra with
  | false =>
    simp only [Bool.false_eq_true, if_false, bind_ok]
    exact insertAll_ok hsz hA hst xs ⟨o, h, rfl⟩ hb
  | true =>
    obtain ⟨m1, t1, e1, h1, h2, _, h3, h4⟩ := reserve_ok hsz hA hst h (t.core.size + xs.length)
    simp only [if_true]
    rw [e1, bind_ok]
    have hroom : ∀ n, Room t n → Room t1 n := fun n q => ⟨Nat.le_trans q.1 h3, q.2.imp_right h4⟩
    refine Okay.mono (insertAll_ok hsz hA hst xs h1.holds (hb.imp_right (Or.imp h2 (hroom _)))) id ?_
    rintro r ⟨h5, h6, h7⟩
    exact ⟨h1.trans h5, fun q => h6 (h2 q), fun n q => h7 n (hroom _ q)⟩

/-! ## Erasure -/

/-- What erasing the node `pos` between `o1` and `o2` leaves. -/
structure Erased (c : Cfg K) (m : Mem) (t : OTable K V) (o1 : List Nat) (pos : Nat) (o2 : List Nat) (m' : Mem) (t' : OTable K V) : Prop where
  rep : Rep c m' t' (o1 ++ o2)
  hd : t'.hd = t.hd
  base : t'.base = t.base
  cap : t'.core.cap = t.core.cap
  node : t'.core.node = upd t.core.node pos none
  frame : Frame m m' (t.foot c.sz) (t.foot c.sz)
  /-- the link of the erased node is not written -/
  stale : m'.link (t.addr c.sz pos) = m.link (t.addr c.sz pos)
  size : t'.core.size + 1 = t.core.size

theorem Erased.seq {o1 o2 : List Nat} {pos : Nat} {m' : Mem} {t' : OTable K V} (h : Rep c m t (o1 ++ pos :: o2))
    (e : Erased c m t o1 pos o2 m' t') {r : List Nat} (hr : ∀ i ∈ r, i ∈ o1 ++ o2) : seqOf t'.core.node r = seqOf t.core.node r := by
  have hn := List.perm_middle.nodup_iff.mp h.link.nodup
  rw [List.nodup_cons] at hn
  refine seqOf_congr ?_
  intro i hi
  rw [e.node, upd_ne _ _ (show i ≠ pos from fun q => hn.1 (q ▸ hr i hi))]

theorem Erased.addr {o1 o2 : List Nat} {pos : Nat} {m' : Mem} {t' : OTable K V} (e : Erased c m t o1 pos o2 m' t') :
    t'.addr c.sz = t.addr c.sz := by
  funext i
  unfold OTable.addr
  rw [e.base]

theorem Erased.becomes {o1 o2 : List Nat} {pos : Nat} {m' : Mem} {t' : OTable K V} (h : Rep c m t (o1 ++ pos :: o2))
    (e : Erased c m t o1 pos o2 m' t') : Becomes c m t m' t' (seqOf t.core.node o1 ++ seqOf t.core.node o2) := by
  refine ⟨⟨_, e.rep, ?_⟩, e.hd, ?_⟩
  · rw [e.seq h (fun _ q => q), seqOf_append]
  · have : t'.foot c.sz = t.foot c.sz := by unfold OTable.foot; rw [e.hd, e.base, e.cap]
    rw [this]
    exact e.frame

/-- Removing the links of a node, and the node from the table. -/
theorem erased_ok (hsz : 0 < c.sz) {o1 o2 : List Nat} {pos : Nat} (h : Rep c m t (o1 ++ pos :: o2)) {n : Node K V}
    (hn : t.core.node pos = some n) :
    ∃ m' x, t.eraseLinks c.sz m pos = .ok (m', (o2.map (t.addr c.sz)).headD t.hd) ∧
      (fresh t.core).eraseNode c.isa pos = .ok { fresh t.core with ctl := x, size := t.core.size - 1 } ∧
      Erased c m t o1 pos o2 m' { t with core := { fresh t.core with ctl := x, size := t.core.size - 1, node := upd t.core.node pos none } } := by
  have hin : pos ∈ o1 ++ pos :: o2 := by simp
  have hp := h.link.lt hin
  have hnd := List.perm_middle.nodup_iff.mp h.link.nodup
  rw [List.nodup_cons] at hnd
  have hn1 : pos ∉ o1 := fun q => hnd.1 (List.mem_append_left _ q)
  obtain ⟨x, e1, h1, h2, h3⟩ := Swiss.eraseNode_spec (fresh_inv h.core) (show pos < (fresh t.core).cap from hp)
    (show (fresh t.core).node pos = some n from hn)
  have hI := Swiss.doErase_inv (fresh_inv h.core) (show pos < (fresh t.core).cap from hp)
    (show (fresh t.core).node pos = some n from hn) h1 h2
  have hr := h.ring
  obtain ⟨m1, e2, r1, s1⟩ := hr.unlinkAt hin
  rw [List.erase_append_right _ hn1, List.erase_cons_head] at r1 s1
  rw [List.map_append, List.map_cons] at hr
  refine ⟨m1, x, ?_, e1, ⟨hI, ?_, r1, ?_, h.link.hdr⟩, rfl, rfl, rfl, rfl, ?_, s1.link _ (Or.inl rfl), ?_⟩
  · unfold OTable.eraseLinks
    rw [Mem.nextOf_ok (h.addr_live hin), bind_ok, hr.around.1, e2, bind_ok]
  · intro i
    change _ ↔ i < t.core.cap ∧ (upd t.core.node pos none i).isSome
    have := h.link.occ i
    by_cases e : i = pos
    · subst e
      rw [upd_same]
      simpa using hnd.1
    · rw [upd_ne _ _ e, ← this]
      simp [e]
  · intro y hy
    rw [s1.live]
    exact h.link.live y hy
  · refine s1.frame ?_
    intro y hy
    right
    intro q
    refine hy (h.link.foot y ?_)
    rw [List.mem_cons, List.mem_map] at q ⊢
    rcases q with q | ⟨i, hi, q⟩
    · exact Or.inl q
    · refine Or.inr ⟨i, ?_, q⟩
      rw [List.mem_append] at hi ⊢
      exact hi.imp_right (List.mem_cons_of_mem _)
  · change t.core.size - 1 + 1 = t.core.size
    have : 1 ≤ t.core.size := h3
    omega

theorem doErase_ok (hsz : 0 < c.sz) {o1 o2 : List Nat} {pos : Nat} (h : Rep c m t (o1 ++ pos :: o2)) :
    ∃ m' t', t.doErase c m pos = .ok (m', t', (o2.map (t.addr c.sz)).headD t.hd) ∧ Erased c m t o1 pos o2 m' t' := by
  have hin : pos ∈ o1 ++ pos :: o2 := by simp
  obtain ⟨n, hn⟩ := h.link.get hin
  obtain ⟨m', x, e1, e2, he⟩ := erased_ok hsz h hn
  refine ⟨m', _, ?_, he⟩
  unfold OTable.doErase OTable.eraseCore
  rw [e1, bind_ok, e2, bind_ok]
  have : Table.destroy ({ fresh t.core with ctl := x, size := t.core.size - 1 } : Table K V) pos =
      .ok { fresh t.core with ctl := x, size := t.core.size - 1, node := upd t.core.node pos none } := by
    unfold Table.destroy
    simp only
    rw [if_pos (show pos < (fresh t.core).cap from h.link.lt hin)]
    have : (fresh t.core).node pos = some n := hn
    rw [this]
    rfl
  rw [this, bind_ok]

theorem extractAt_ok (hsz : 0 < c.sz) {o1 o2 : List Nat} {pos : Nat} (h : Rep c m t (o1 ++ pos :: o2)) {n : Node K V}
    (hn : t.core.node pos = some n) :
    ∃ m' t', t.extractAt c m pos = .ok (m', t', n) ∧ Erased c m t o1 pos o2 m' t' := by
  have hin : pos ∈ o1 ++ pos :: o2 := by simp
  obtain ⟨m', x, e1, e2, he⟩ := erased_ok hsz h hn
  refine ⟨m', _, ?_, he⟩
  unfold OTable.extractAt OTable.extractCore
  rw [e1, bind_ok, e2, bind_ok]
  have hcap : pos < (fresh t.core).cap := h.link.lt hin
  have hnode : (fresh t.core).node pos = some n := hn
  have h1 : Table.readNode ({ fresh t.core with ctl := x, size := t.core.size - 1 } : Table K V) pos = .ok n :=
    Swiss.readNode_some hcap hnode
  have h2 : Table.destroy ({ fresh t.core with ctl := x, size := t.core.size - 1 } : Table K V) pos =
      .ok { fresh t.core with ctl := x, size := t.core.size - 1, node := upd t.core.node pos none } := by
    unfold Table.destroy
    simp only
    rw [if_pos hcap, hnode]
    rfl
  rw [h1, bind_ok, h2, bind_ok, bind_ok]

theorem eraseIter_ok (hsz : 0 < c.sz) {o1 o2 : List Nat} {pos : Nat} (h : Rep c m t (o1 ++ pos :: o2)) :
    ∃ m' t', t.eraseIter c m (t.addr c.sz pos) = .ok (m', t', (o2.map (t.addr c.sz)).headD t.hd) ∧ Erased c m t o1 pos o2 m' t' := by
  have hin : pos ∈ o1 ++ pos :: o2 := by simp
  unfold OTable.eraseIter
  rw [if_neg (h.addr_ne hin), slotOf_ok hsz (h.link.lt hin)]
  exact doErase_ok hsz h

/-- The element an iterator to the head of the rest designates. -/
theorem deref_ok (hsz : 0 < c.sz) {o1 o2 : List Nat} (h : Rep c m t (o1 ++ o2)) :
    t.deref c.sz ((o2.map (t.addr c.sz)).headD t.hd) = .ok (seqOf t.core.node o2).head? := by
  unfold OTable.deref
  cases o2 with
  | nil => simp [seqOf]
  | cons i o2 =>
    have hi : i ∈ o1 ++ i :: o2 := by simp
    obtain ⟨n, hn⟩ := h.link.get hi
    rw [List.map_cons, List.headD_cons, if_neg (h.addr_ne hi), h.elem hsz hi hn, bind_ok, seqOf_cons hn]
    rfl

theorem Erased.deref (hsz : 0 < c.sz) {o1 o2 : List Nat} {pos : Nat} {m' : Mem} {t' : OTable K V} (h : Rep c m t (o1 ++ pos :: o2))
    (e : Erased c m t o1 pos o2 m' t') : t'.deref c.sz ((o2.map (t.addr c.sz)).headD t.hd) = .ok (seqOf t.core.node o2).head? := by
  have := deref_ok hsz e.rep
  rw [e.addr, e.hd, e.seq h (fun i hi => List.mem_append_right _ hi)] at this
  exact this

/-! Sequences without one element. -/

theorem next_split {s1 s2 : List (K × V)} {e : K × V} (h : Spec.Uniq (s1 ++ e :: s2)) : Spec.next (s1 ++ e :: s2) e.1 = s2.head? := by
  obtain ⟨h1, _⟩ := split_uniq h
  unfold Spec.next
  rw [List.dropWhile_append_of_pos (by simpa using h1), List.dropWhile_cons_of_neg (by simp)]
  rfl

theorem next_absent {s : List (K × V)} {k : K} (h : Spec.find s k = none) : Spec.next s k = none := by
  unfold Spec.find at h
  rw [List.find?_eq_none] at h
  unfold Spec.next
  have : s.dropWhile (fun e => e.1 ≠ k) = [] := by
    have : ∀ r : List (K × V), (∀ a ∈ r, a.1 ≠ k) → r.dropWhile (fun e => e.1 ≠ k) = [] := by
      intro r
      induction r with
      | nil => intro _; rfl
      | cons b r ih =>
        intro q
        rw [List.dropWhile_cons_of_pos (by simpa using q b (by simp))]
        exact ih (fun a ha => q a (List.mem_cons_of_mem _ ha))
    exact this s (fun a ha => by simpa using h a ha)
  rw [this]
  rfl

theorem Rep.split (h : Rep c m t o) {i : Nat} (hi : i ∈ o) {n : Node K V} (hn : t.core.node i = some n) :
    ∃ o1 o2, o = o1 ++ i :: o2 ∧ seqOf t.core.node o = seqOf t.core.node o1 ++ (n.key, n.val) :: seqOf t.core.node o2 := by
  obtain ⟨o1, o2, e⟩ := List.append_of_mem hi
  exact ⟨o1, o2, e, by rw [e, seqOf_append, seqOf_cons hn]⟩

theorem erase_ok (hsz : 0 < c.sz) (h : Rep c m t o) (k : K) :
    ∃ m' t' a, t.erase c m k = .ok (m', t', a) ∧ t'.deref c.sz a = .ok (Spec.next (seqOf t.core.node o) k) ∧
      Becomes c m t m' t' (Spec.erase (seqOf t.core.node o) k) := by
  unfold OTable.erase
  rcases h.cases k with ⟨i, n, hio, hi, hn, hk, hf, hl⟩ | ⟨hno, hf, hl⟩
  · obtain ⟨o1, o2, rfl, hs⟩ := h.split hio hn
    obtain ⟨m', t', e1, he⟩ := doErase_ok hsz h
    rw [hf, bind_ok, if_neg (Nat.ne_of_lt hi), e1]
    have hu := h.uniq
    rw [hs] at hu ⊢
    subst hk
    refine ⟨m', t', _, rfl, ?_, ?_⟩
    · rw [next_split hu]
      exact he.deref hsz h
    · rw [erase_split hu]
      exact he.becomes h
  · rw [hf, bind_ok, if_pos rfl, erase_absent hl, next_absent hl]
    refine ⟨m, t, _, rfl, ?_, Becomes.refl h⟩
    unfold OTable.deref
    rw [if_pos rfl]

theorem extract_ok (hsz : 0 < c.sz) (h : Rep c m t o) (k : K) :
    ∃ m' t', t.extract c m k = .ok (m', t', Spec.find (seqOf t.core.node o) k) ∧
      Becomes c m t m' t' (Spec.erase (seqOf t.core.node o) k) := by
  unfold OTable.extract
  rcases h.cases k with ⟨i, n, hio, hi, hn, hk, hf, hl⟩ | ⟨hno, hf, hl⟩
  · obtain ⟨o1, o2, rfl, hs⟩ := h.split hio hn
    obtain ⟨m', t', e1, he⟩ := extractAt_ok hsz h hn
    rw [hf, bind_ok, if_neg (Nat.ne_of_lt hi), e1, bind_ok, hl]
    have hu := h.uniq
    rw [hs] at hu ⊢
    subst hk
    refine ⟨m', t', rfl, ?_⟩
    rw [erase_split hu]
    exact he.becomes h
  · rw [hf, bind_ok, if_pos rfl, erase_absent hl, hl]
    exact ⟨m, t, rfl, Becomes.refl h⟩

end Tpp.OSwiss
