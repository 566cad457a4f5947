import Verif.Swiss.Grow
import Verif.Swiss.Log

/-!
# What rehashes cost altogether

The ghost log of `Verif/Swiss/Model.lean` records every allocation of a buffer and every relocation of an element.  Here: how much
one operation adds to it, charged against a potential that grows with the number of used slots.
-/

set_option linter.unusedSectionVars false

namespace Tpp.Swiss

open Tpp.Dense (bind_eq_ok)

variable {K V : Type} [DecidableEq K]

/-- What a log costs: `g` for each slot of an allocated buffer, one for each relocation or exchange of elements. -/
def cost (g : Nat) : List Ev → Nat
  | [] => 0
  | .grow n :: l => g * n + cost g l
  | _ :: l => 1 + cost g l

theorem cost_append (g : Nat) (a b : List Ev) : cost g (a ++ b) = cost g a + cost g b := by
  induction a with
  | nil => simp [cost]
  | cons e a ih => cases e <;> simp only [List.cons_append, cost, ih] <;> omega

theorem cost_rels (g : Nat) (js : List Nat) (d : Nat → Nat) : cost g (rels js d).reverse = js.length := by
  induction js with
  | nil => rfl
  | cons j js ih =>
    show cost g (rels (j :: js) d).reverse = _
    simp only [rels, List.map_cons, List.reverse_cons] at ih ⊢
    rw [cost_append, ih]
    simp only [cost, List.length_cons]

theorem doRehash_cost {isa : Isa} {hash : K → Nat} {t t' : Table K V} {n : Nat} (g : Nat) (hI : Inv isa hash t)
    (h : t.doRehash isa n = .ok t') : cost g t'.log = cost g t.log + g * n + t.size := by
  obtain ⟨js, d, h1, _, h3, h4⟩ := doRehash_log h
  have hl : js.length = t.size := by
    rw [hI.size_eq, cnt_eq_length]
    refine List.Perm.length_eq ?_
    rw [List.perm_ext_iff_of_nodup h3.nodup ((List.nodup_range).filter _)]
    intro a
    rw [h4 a]
    simp [List.mem_filter]
  rw [h1, cost_append, cost_rels, hl]
  simp only [cost]
  omega

/-! ## Reclaiming in place -/

/-- The number of slots marked for relocation. -/
def Table.marked (t : Table K V) : Nat := cnt (fun j => (t.ctl j).isDeleted) t.cap

theorem processNode_cost {isa : Isa} {hash : K → Nat} {src : Table K V} {i : Nat} (hi : i < src.cap) (g : Nat) :
    ∀ (fuel : Nat) (t t' : Table K V), Reclaim isa hash src i t → t.ctl i = .deleted →
      Table.processNode isa fuel t i = .ok t' → cost g t'.log + t'.marked ≤ cost g t.log + t.marked := by
  intro fuel
  induction fuel with
  | zero => intro t t' _ _ e; cases e
  | succ fuel ih =>
    intro t t' h hdel e
    have hic : i < t.cap := by rw [h.cap_eq]; exact hi
    have hsome := h.live i hic
    rw [hdel] at hsome
    obtain ⟨n, hn⟩ := Option.isSome_iff_exists.mp (by rw [hsome]; rfl)
    obtain ⟨target, hf1, htl, hta, htr⟩ :=
      findAvailable_place h.md n.hash ⟨i, hic, deleted_available _ hdel⟩
    unfold Table.processNode at e
    rw [readNode_some hic hn] at e
    simp only [bind_ok] at e
    rw [hf1] at e
    simp only [bind_ok] at e
    by_cases hsame : Table.blockIdx isa t.cap (hashHi n.hash) target = Table.blockIdx isa t.cap (hashHi n.hash) i
    · simp only [hsame, if_true] at e
      obtain ⟨c, hc1, hc2, hc3⟩ := setMetadata_spec (isa := isa) (t := t) h.md hic (v := .full (hashLo n.hash)) (by simp)
      rw [hc1] at e
      cases e
      have := cnt_update (p := fun j => (t.ctl j).isDeleted) (q := fun j => (c j).isDeleted) (n := t.cap) (i := i)
        hic (by intro j hj hne; rw [hc2 j hj, if_neg hne])
      have e1 : (t.ctl i).isDeleted = true := by rw [hdel]; rfl
      have e2 : (c i).isDeleted = false := by rw [hc2 i hic]; simp [Ctl.isDeleted]
      simp only [e1, e2, if_true, Bool.false_eq_true, if_false] at this
      show cost g t.log + cnt (fun j => (c j).isDeleted) t.cap ≤ cost g t.log + cnt (fun j => (t.ctl j).isDeleted) t.cap
      omega
    · simp only [hsame, if_false] at e
      rw [readCtl_ok h.md (by omega)] at e
      simp only [bind_ok] at e
      have hne : target ≠ i := by intro e; rw [e] at hsame; exact hsame rfl
      by_cases hempty : t.ctl target = .empty
      · have hraw : t.node target = none := by
          have := h.live target htl
          rw [hempty] at this
          cases hx : t.node target with
          | none => rfl
          | some x => rw [hx] at this; simp [Ctl.isEmpty] at this
        have hn' : upd t.node target (some n) i = some n := by rw [upd_ne _ _ (Ne.symm hne)]; exact hn
        simp only [hempty, if_true, Table.construct, htl, hraw, bind_ok, Table.destroy, hic, hn'] at e
        obtain ⟨c, hc1, hc2, hc3⟩ := setMetadata_spec (isa := isa)
          (t := { t with node := upd (upd t.node target (some n)) i none }) h.md hic (v := .empty) (by simp)
        rw [hc1] at e
        simp only [bind_ok] at e
        obtain ⟨d, hd1, hd2, hd3⟩ := setMetadata_spec (isa := isa)
          (t := { t with node := upd (upd t.node target (some n)) i none, ctl := c }) hc3 htl
          (v := .full (hashLo n.hash)) (by simp)
        rw [hd1] at e
        simp only [bind_ok] at e
        cases e
        have k1 := cnt_update (p := fun j => (t.ctl j).isDeleted) (q := fun j => (c j).isDeleted) (n := t.cap) (i := i)
          hic (by intro j hj hne; rw [hc2 j hj, if_neg hne])
        have e1 : (t.ctl i).isDeleted = true := by rw [hdel]; rfl
        have e2 : (c i).isDeleted = false := by rw [hc2 i hic]; simp [Ctl.isDeleted]
        simp only [e1, e2, if_true, Bool.false_eq_true, if_false] at k1
        have k2 := cnt_update (p := fun j => (c j).isDeleted) (q := fun j => (d j).isDeleted) (n := t.cap) (i := target)
          htl (by intro j hj hne; rw [hd2 j hj, if_neg hne])
        have e4 : (d target).isDeleted = false := by rw [hd2 target htl]; simp [Ctl.isDeleted]
        simp only [e4, Bool.false_eq_true, if_false] at k2
        show 1 + cost g t.log + cnt (fun j => (d j).isDeleted) t.cap ≤ cost g t.log + cnt (fun j => (t.ctl j).isDeleted) t.cap
        omega
      · have htd : t.ctl target = .deleted := by
          revert hta hempty; cases t.ctl target <;> simp [Ctl.isAvailable]
        have hts := h.live target htl
        rw [htd] at hts
        obtain ⟨x', hx'⟩ := Option.isSome_iff_exists.mp (by rw [hts]; rfl)
        simp only [hempty, if_false] at e
        rw [readNode_some htl hx'] at e
        simp only [bind_ok] at e
        obtain ⟨d, hd1, hR, hdi, hlt⟩ := h.swap hic hdel hn htl htd htr hne hx'
        rw [hd1] at e
        simp only [bind_ok] at e
        have := ih _ t' hR hdi e
        have k : cost g t'.log + t'.marked ≤ 1 + cost g t.log + cnt (fun j => (d j).isDeleted) t.cap := this
        show cost g t'.log + t'.marked ≤ cost g t.log + cnt (fun j => (t.ctl j).isDeleted) t.cap
        omega

theorem rehashDeleted_cost {isa : Isa} {hash : K → Nat} {t t' : Table K V} (g : Nat) (h : Inv isa hash t)
    (hW : isa.W ≤ t.cap + 1) (e : t.rehashDeleted isa = .ok t') : cost g t'.log ≤ cost g t.log + t.size := by
  obtain ⟨m, hm⟩ := h.pow
  obtain ⟨m', hN⟩ : ∃ m', t.cap + 1 = 2 ^ m' * isa.W := by
    rcases pow_cases isa hm with h1 | ⟨c, h1, h2⟩
    · exact h1
    · have : (t.cap + 1) * 2 ≤ (t.cap + 1) * c := Nat.mul_le_mul_left _ h2
      omega
  obtain ⟨t0, hr0, hR0⟩ := reset_spec h hN
  unfold Table.rehashDeleted at e
  obtain ⟨a, h1, ea⟩ := bind_eq_ok e
  obtain ⟨b, h2, eb⟩ := bind_eq_ok ea
  obtain ⟨c, h3, ec⟩ := bind_eq_ok eb
  rw [h1, bind_ok, h2] at hr0
  cases hr0
  have hlog : t0.log = t.log := by
    have ha : a.log = t.log := by
      refine foldlM_range_inv (fun _ s => s.log = t.log) _ ?_ rfl h1
      intro i _ s s' hs e
      unfold Table.resetBlock at e
      split at e
      · cases e; exact hs
      · cases e
    unfold Table.cloneTail at h2
    split at h2
    · cases h2; exact ha
    · cases h2
  have hmk : t0.marked ≤ t.size := by
    have e1 : t.nodes.length = t.size := h.nodes_length
    rw [← e1, ← hR0.nodes.length_eq, collect_length]
    have : t0.marked = cnt (fun i => (t0.ctl i).isDeleted) t0.cap := rfl
    rw [this]
    have mono : ∀ {p q : Nat → Bool} (n : Nat), (∀ i, i < n → p i = true → q i = true) → cnt p n ≤ cnt q n := by
      intro p q n
      induction n with
      | zero => intro _; exact Nat.le_refl _
      | succ n ih =>
        intro hpq
        simp only [cnt]
        have := ih (fun i hi => hpq i (by omega))
        have hx := hpq n (by omega)
        by_cases hp : p n = true
        · rw [if_pos hp, if_pos (hx hp)]; omega
        · rw [if_neg hp]; omega
    refine mono t0.cap ?_
    intro i hi hd
    rw [hR0.live i hi]
    revert hd
    cases t0.ctl i <;> simp [Ctl.isDeleted, Ctl.isEmpty]
  have hcap : t0.cap = t.cap := hR0.cap_eq
  have key := foldlM_range_inv (f := Table.processSlot isa)
    (fun i s => Reclaim isa hash t i s ∧ cost g s.log + s.marked ≤ cost g t0.log + t0.marked) t0.cap (by
      rintro i hi s s' ⟨hs, hk⟩ e
      have hc : s.cap = t.cap := hs.cap_eq
      have hlt : i < t.cap := by omega
      unfold Table.processSlot at e
      rw [readCtl_ok hs.md (by omega)] at e
      simp only [bind_ok] at e
      by_cases hd : s.ctl i = .deleted
      · simp only [hd, if_true] at e
        obtain ⟨s2, f1, f2⟩ := processNode_spec hN hlt (s.cap + 1) s hs hd (by
          have := cnt_le (fun j => (s.ctl j).isDeleted) s.cap; omega)
        have := processNode_cost hlt g _ s s' hs hd e
        rw [e] at f1
        cases f1
        exact ⟨f2, by omega⟩
      · simp only [hd, if_false] at e
        cases e
        refine ⟨⟨hs.cap_eq, hs.size_eq, hs.md, hs.live, hs.tag, hs.hash_ok, hs.uniq, hs.reach, ?_, hs.nodes⟩, hk⟩
        intro j hj hj2
        by_cases e : j = i
        · subst e; exact hd
        · exact hs.done j (by omega) hj2) ⟨hR0, Nat.le_refl _⟩ h3
  have hfin : t'.log = c.log := by
    split at ec
    · cases ec; rfl
    · cases ec
  rw [hfin]
  have := key.2
  rw [hlog] at this
  omega

/-! ## The potential -/

/-- The slots that hold an element or are marked erased. -/
def Table.used (isa : Isa) (t : Table K V) : Nat := maxSize isa t.cap - t.numEmpty

/-- What has been saved for the next rehash, `c` for each two used slots beyond half of the admitted ones. -/
def Table.saved (isa : Isa) (c : Nat) (t : Table K V) : Nat := c * (2 * t.used isa - maxSize isa t.cap)

/-- What happens before an element is added. -/
inductive Room (isa : Isa) (g : Nat) (t t' : Table K V) : Prop
  | same (h : t' = t)
  | first (h0 : t.cap = 0) (h1 : t'.cap = 1) (h2 : t'.numEmpty = 1) (h3 : cost g t'.log = cost g t.log + g)
  | grow (h0 : 0 < t.cap) (h1 : t.numEmpty = 0) (h2 : t'.cap = 2 * t.cap + 1) (h3 : t'.numEmpty = maxSize isa t'.cap - t.size)
      (h4 : cost g t'.log = cost g t.log + g * (2 * t.cap + 1) + t.size)
  | reclaim (h0 : isa.W < t.cap) (h1 : t.numEmpty = 0) (h2 : t'.cap = t.cap) (h3 : t'.numEmpty = maxSize isa t.cap - t.size)
      (h4 : t.size * 32 ≤ t.cap * 25) (h5 : cost g t'.log ≤ cost g t.log + t.size) (h6 : ¬ NoTomb t)

theorem prepare_cost {isa : Isa} {hash : K → Nat} {t t' : Table K V} {hh p : Nat} (g : Nat) (hI : Inv isa hash t)
    (h : t.prepare isa hh = .ok (t', p)) : Room isa g t t' := by
  have h' := h
  unfold Table.prepare at h
  split at h
  · rename_i h0
    obtain ⟨a, h1, h⟩ := bind_eq_ok h
    obtain ⟨q, _, h⟩ := bind_eq_ok h
    cases h
    have hsz : t.size = 0 := by have := hI.size_eq; rw [h0, cnt] at this; exact this
    have hm1 : maxSize isa 1 = 1 := by simp [maxSize]
    obtain ⟨b, k1, k2, k3, k4, k5, k6, k7⟩ := doRehash_spec hI (n := 1) (m := 1) (by rfl) (by omega)
    have hc := doRehash_cost g hI h1
    rw [h1] at k1
    cases k1
    exact .first h0 k3 (by omega) (by rw [hc, hsz]; omega)
  · rename_i hcap
    obtain ⟨q, _, h⟩ := bind_eq_ok h
    obtain ⟨c, _, h⟩ := bind_eq_ok h
    split at h
    · rename_i hne
      simp only at h
      split at h
      · rename_i hcond
        obtain ⟨a, h1, h⟩ := bind_eq_ok h
        obtain ⟨q, _, h⟩ := bind_eq_ok h
        cases h
        obtain ⟨b, k1, k2, k3, k4, k5, k6, k7⟩ := rehashDeleted_spec hI (by omega)
        have hc := rehashDeleted_cost g hI (by omega) h1
        rw [h1] at k1
        cases k1
        refine .reclaim hcond.1 hne.1 k3 k5 hcond.2 hc ?_
        intro hnt
        rcases prepare_noTomb h' hI hnt with e | ⟨n, e⟩
        · have hb := hI.budget (by omega)
          rw [← e] at hb
          have h0 : cnt (fun i => (t'.ctl i).isDeleted) t'.cap = 0 := by
            refine cnt_eq_zero ?_
            intro i hi
            rw [k3] at hi
            exact k7 i hi
          have hn0 := hne.1
          rw [← e] at hn0
          have hW := isa.W_pos
          have hcc := hcond
          rw [← e] at hcc
          rw [h0, hn0] at hb
          unfold maxSize at hb
          split at hb <;> omega
        · have hb := hI.budget (by omega)
          have h0 : cnt (fun i => (t.ctl i).isDeleted) t.cap = 0 := by
            refine cnt_eq_zero ?_
            intro i hi
            cases hc : t.ctl i <;> simp [Ctl.isDeleted]
            exact absurd hc (hnt i hi)
          rw [h0, hne.1] at hb
          have hW := isa.W_pos
          unfold maxSize at hb
          split at hb <;> omega
      · obtain ⟨a, h1, h⟩ := bind_eq_ok h
        obtain ⟨q, _, h⟩ := bind_eq_ok h
        cases h
        have hsz := hI.size_le
        have hgt : t.size < maxSize isa ((t.cap + 1) * 2 - 1) := by
          revert hsz
          unfold maxSize
          split <;> split <;> omega
        obtain ⟨m, hmp⟩ := (hI.meta_ok (by omega)).pow
        obtain ⟨b, k1, k2, k3, k4, k5, k6, k7⟩ := doRehash_spec hI (n := (t.cap + 1) * 2 - 1) (m := m + 1)
          (by rw [Nat.pow_succ, ← hmp]; omega) (by omega)
        have hc := doRehash_cost g hI h1
        rw [h1] at k1
        cases k1
        have hn : (t.cap + 1) * 2 - 1 = 2 * t.cap + 1 := by omega
        rw [hn] at hc k3 k5
        exact .grow (by omega) hne.1 k3 (by rw [k3, k5]) hc
    · cases h
      exact .same rfl

/-- The arithmetic of a growth: the elements fill half of the new buffer. -/
theorem maxSize_double {isa : Isa} {cap m : Nat} (hm : cap + 1 = 2 ^ m) (hc : 0 < cap) :
    2 * maxSize isa cap ≤ maxSize isa (2 * cap + 1) ∧ cap + 1 ≤ 2 * maxSize isa cap ∧ maxSize isa cap ≤ cap := by
  have h8 : cap = 1 ∨ cap = 3 ∨ ∃ q, cap = 8 * q + 7 := by
    match m, hm with
    | 0, hm => simp at hm; omega
    | 1, hm => left; omega
    | 2, hm => right; left; omega
    | k + 3, hm =>
      right; right
      refine ⟨2 ^ k - 1, ?_⟩
      have := Nat.two_pow_pos k
      rw [Nat.pow_add] at hm
      omega
  unfold maxSize
  rcases h8 with rfl | rfl | ⟨q, rfl⟩
  · simp
  · simp; split <;> omega
  · split <;> split <;> omega

/-- Two costs are charged together: slots allocated and elements relocated, at ten for an insertion. -/
theorem Room.pay {isa : Isa} {hash : K → Nat} {t t1 t2 : Table K V} (hI : Inv isa hash t) (h : Room isa 1 t t1) (hc : t2.cap = t1.cap)
    (he : t1.numEmpty ≤ t2.numEmpty + 1) (hl : t2.log = t1.log) :
    cost 1 t2.log + t2.saved isa 5 ≤ cost 1 t.log + t.saved isa 5 + 10 := by
  unfold Table.saved Table.used
  rw [hl, hc]
  cases h with
  | same h => subst h; omega
  | first h0 h1 h2 h3 =>
    have hm1 : maxSize isa 1 = 1 := by simp [maxSize]
    rw [h1, h3, hm1]
    omega
  | grow h0 h1 h2 h3 h4 =>
    obtain ⟨m, hm⟩ := (hI.meta_ok h0).pow
    obtain ⟨a1, a2, a3⟩ := maxSize_double (isa := isa) hm h0
    have hb := hI.budget h0
    rw [h2] at h3 ⊢
    rw [h4]
    omega
  | reclaim h0 h1 h2 h3 h4 h5 h6 =>
    have hb := hI.budget (by omega)
    have hx : 28 * t.cap ≤ 32 * maxSize isa t.cap := by
      have hW := isa.W_pos
      unfold maxSize
      split <;> omega
    rw [h2]
    omega

/-- Without erased slots, two relocations for an insertion. -/
theorem Room.pay_two {isa : Isa} {hash : K → Nat} {t t1 t2 : Table K V} (hI : Inv isa hash t) (hn : NoTomb t) (h : Room isa 0 t t1)
    (hc : t2.cap = t1.cap) (he : t1.numEmpty ≤ t2.numEmpty + 1) (hl : t2.log = t1.log) :
    cost 0 t2.log + t2.saved isa 1 ≤ cost 0 t.log + t.saved isa 1 + 2 := by
  unfold Table.saved Table.used
  rw [hl, hc]
  cases h with
  | same h => subst h; omega
  | first h0 h1 h2 h3 =>
    have hm1 : maxSize isa 1 = 1 := by simp [maxSize]
    rw [h1, h3, hm1]
    omega
  | grow h0 h1 h2 h3 h4 =>
    obtain ⟨m, hm⟩ := (hI.meta_ok h0).pow
    obtain ⟨a1, a2, a3⟩ := maxSize_double (isa := isa) hm h0
    have hb := hI.budget h0
    rw [h2] at h3 ⊢
    rw [h4]
    omega
  | reclaim h0 h1 h2 h3 h4 h5 h6 => exact absurd hn h6

/-! ## Operations -/

theorem writeCtl_numEmpty {t t' : Table K V} {i : Nat} {c : Ctl} (h : t.writeCtl i c = .ok t') : t'.numEmpty = t.numEmpty := by
  unfold Table.writeCtl at h
  split at h
  · cases h; rfl
  · cases h

theorem setMetadata_numEmpty {isa : Isa} {t t' : Table K V} {i : Nat} {c : Ctl} (h : t.setMetadata isa i c = .ok t') :
    t'.numEmpty = t.numEmpty := by
  unfold Table.setMetadata at h
  obtain ⟨a, h1, h2⟩ := bind_eq_ok h
  rw [writeCtl_numEmpty h2, writeCtl_numEmpty h1]

theorem commit_numEmpty {isa : Isa} {t t' : Table K V} {n : Node K V} {p q : Nat} (h : t.commit isa p n = .ok (t', q)) :
    t.numEmpty ≤ t'.numEmpty + 1 := by
  unfold Table.commit at h
  obtain ⟨a, h1, h⟩ := bind_eq_ok h
  obtain ⟨c, _, h⟩ := bind_eq_ok h
  obtain ⟨_, _, q3⟩ := construct_eq h1
  subst q3
  simp only at h
  have hd : (if c = Ctl.empty then 1 else 0) ≤ 1 := by split <;> omega
  generalize (if c = Ctl.empty then 1 else 0) = dec at h hd
  split at h
  · obtain ⟨b, h2, h⟩ := bind_eq_ok h
    cases h
    have := setMetadata_numEmpty h2
    simp only at this ⊢
    omega
  · cases h

/-- An insertion: the buffer is made ready, and at most one empty slot is taken. -/
def Adds (isa : Isa) (g : Nat) (t t' : Table K V) : Prop :=
  ∃ t1, Room isa g t t1 ∧ t'.cap = t1.cap ∧ t1.numEmpty ≤ t'.numEmpty + 1 ∧ t'.log = t1.log

/-- Nothing is relocated and no empty slot is taken. -/
def Keeps (t t' : Table K V) : Prop := t'.cap = t.cap ∧ t.numEmpty ≤ t'.numEmpty ∧ t'.log = t.log

theorem Keeps.refl (t : Table K V) : Keeps t t := ⟨rfl, Nat.le_refl _, rfl⟩

theorem Keeps.trans {a b c : Table K V} (h : Keeps a b) (h' : Keeps b c) : Keeps a c :=
  ⟨h'.1.trans h.1, Nat.le_trans h.2.1 h'.2.1, h'.2.2.trans h.2.2⟩

theorem Keeps.adds {isa : Isa} {g : Nat} {t t' : Table K V} (h : Keeps t t') : Adds isa g t t' :=
  ⟨t, .same rfl, h.1, by have := h.2.1; omega, h.2.2⟩

theorem emplaceNode_adds {isa : Isa} {hash : K → Nat} {t t' : Table K V} {n : Node K V} {p : Nat} (g : Nat) (hI : Inv isa hash t)
    (h : t.emplaceNode isa n = .ok (t', p)) : Adds isa g t t' := by
  unfold Table.emplaceNode at h
  obtain ⟨⟨a, q⟩, h1, h⟩ := bind_eq_ok h
  obtain ⟨_, _, _, _, h2, h3⟩ := commit_log h
  exact ⟨a, prepare_cost g hI h1, h2, commit_numEmpty h, h3⟩

theorem insert_adds {isa : Isa} {hash : K → Nat} {t t' : Table K V} {k : K} {v : V} {r : Nat × Bool} (g : Nat) (hI : Inv isa hash t)
    (h : t.insert isa hash k v = .ok (t', r)) : Adds isa g t t' := by
  unfold Table.insert at h
  simp only at h
  obtain ⟨pos, _, h⟩ := bind_eq_ok h
  split at h
  · obtain ⟨⟨a, q⟩, h1, h⟩ := bind_eq_ok h
    cases h
    exact emplaceNode_adds g hI h1
  · cases h; exact (Keeps.refl _).adds

theorem eraseNode_keeps {isa : Isa} {t t' : Table K V} {pos : Nat} (h : t.eraseNode isa pos = .ok t') : Keeps t t' := by
  unfold Table.eraseNode at h
  split at h
  · obtain ⟨c, _, h⟩ := bind_eq_ok h
    split at h
    · obtain ⟨a, h1, h⟩ := bind_eq_ok h
      split at h
      · cases h
        obtain ⟨_, m2, m3⟩ := setMetadata_node h1
        exact ⟨m2, Nat.le_of_eq (setMetadata_numEmpty h1).symm, m3⟩
      · cases h
    · cases h
  · cases h

theorem destroy_keeps {t t' : Table K V} {i : Nat} (h : t.destroy i = .ok t') : Keeps t t' := by
  obtain ⟨_, _, e⟩ := destroy_eq h
  subst e
  exact ⟨rfl, Nat.le_refl _, rfl⟩

theorem doErase_keeps {isa : Isa} {t t' : Table K V} {pos q : Nat} (h : t.doErase isa pos = .ok (t', q)) : Keeps t t' := by
  unfold Table.doErase at h
  obtain ⟨a, h1, h⟩ := bind_eq_ok h
  obtain ⟨_, _, h⟩ := bind_eq_ok h
  obtain ⟨b, h2, h⟩ := bind_eq_ok h
  cases h
  exact (eraseNode_keeps h1).trans (destroy_keeps h2)

theorem eraseIter_keeps {isa : Isa} {t t' : Table K V} {it q : Nat} (h : t.eraseIter isa it = .ok (t', q)) : Keeps t t' := by
  unfold Table.eraseIter at h
  obtain ⟨_, _, h⟩ := bind_eq_ok h
  split at h
  · exact doErase_keeps h
  · cases h; exact Keeps.refl _

theorem eraseIfLoop_keeps {isa : Isa} {pred : K × V → Bool} : ∀ {fuel : Nat} {t t' : Table K V} {pos last count : Nat}
    {calls : List (K × V)} {r : Nat × List (K × V)},
    Table.eraseIfLoop isa pred fuel t pos last count calls = .ok (t', r) → Keeps t t'
  | 0, _, _, _, _, _, _, _, h => by cases h
  | fuel + 1, t, t', pos, last, count, calls, r, h => by
    unfold Table.eraseIfLoop at h
    split at h
    · cases h; exact Keeps.refl _
    · obtain ⟨n, _, h⟩ := bind_eq_ok h
      split at h
      · obtain ⟨⟨a, q⟩, h1, h⟩ := bind_eq_ok h
        exact (eraseIter_keeps h1).trans (eraseIfLoop_keeps h)
      · obtain ⟨_, _, h⟩ := bind_eq_ok h
        exact eraseIfLoop_keeps h

/-- Operations that may add an element. -/
def _root_.Tpp.Op.adds {K V : Type} : Op K V → Nat
  | .insert _ _ => 1
  | .assign _ _ => 1
  | .index _ _ => 1
  | .insertNode _ => 1
  | .insertThrow _ => 1
  | .insertRange _ xs => xs.length
  | _ => 0

theorem step_adds {isa : Isa} {hash : K → Nat} {t t' : Table K V} (g : Nat) (h : Inv isa hash t) {op : Op K V} {o : Out K V}
    (hop : op.churn = true) (hs : t.step isa hash op = .ok (t', o)) : (op.adds = 1 ∧ Adds isa g t t') ∨ (op.adds = 0 ∧ Keeps t t') := by
  cases op with
  | insert k v =>
    left
    simp only [Table.step] at hs
    obtain ⟨⟨a, p, b⟩, h1, hs⟩ := bind_eq_ok hs
    obtain ⟨_, _, hs⟩ := bind_eq_ok hs
    obtain ⟨_, _, hs⟩ := bind_eq_ok hs
    cases hs
    exact ⟨rfl, insert_adds g h h1⟩
  | assign k v =>
    left
    simp only [Table.step, Table.insertOrAssign, Table.insertOrAssignWith] at hs
    obtain ⟨⟨a, p, b⟩, h1, hs⟩ := bind_eq_ok hs
    obtain ⟨_, _, hs⟩ := bind_eq_ok hs
    obtain ⟨_, _, hs⟩ := bind_eq_ok hs
    cases hs
    refine ⟨rfl, ?_⟩
    obtain ⟨pos, _, h1⟩ := bind_eq_ok h1
    split at h1
    · obtain ⟨⟨a, q⟩, h2, h1⟩ := bind_eq_ok h1
      cases h1
      exact emplaceNode_adds g h h2
    · obtain ⟨n, _, h1⟩ := bind_eq_ok h1
      cases h1
      exact Keeps.adds ⟨rfl, Nat.le_refl _, rfl⟩
  | erase k =>
    right
    simp only [Table.step] at hs
    obtain ⟨⟨a, p⟩, h1, hs⟩ := bind_eq_ok hs
    cases hs
    refine ⟨rfl, ?_⟩
    unfold Table.erase at h1
    obtain ⟨pos, _, h1⟩ := bind_eq_ok h1
    split at h1
    · exact doErase_keeps h1
    · obtain ⟨_, _, h1⟩ := bind_eq_ok h1
      cases h1; exact Keeps.refl _
  | clear =>
    right
    refine ⟨rfl, ?_⟩
    simp only [Table.step] at hs
    obtain ⟨a, h1, hs⟩ := bind_eq_ok hs
    cases hs
    unfold Table.clear at h1
    split at h1
    · rename_i hsz
      obtain ⟨b, h2, h1⟩ := bind_eq_ok h1
      obtain ⟨c, h3, h1⟩ := bind_eq_ok h1
      cases h1
      have hb : Keeps t b := by
        unfold Table.eraseNodes at h2
        obtain ⟨d, h4, h2⟩ := bind_eq_ok h2
        cases h2
        have hd := foldlM_range_inv (fun _ s => Keeps t s) _ (by
          intro i _ s s' hs e
          obtain ⟨c, _, e⟩ := bind_eq_ok e
          split at e
          · exact hs.trans (destroy_keeps e)
          · cases e; exact hs) (Keeps.refl t) h4
        exact hd
      have hc : Keeps b c := by
        unfold Table.fill at h3
        split at h3
        · cases h3; exact ⟨rfl, Nat.le_refl _, rfl⟩
        · cases h3
      have hcap : 0 < t.cap := by
        rcases Nat.eq_zero_or_pos t.cap with h0 | h0
        · have := h.size_eq; rw [h0, cnt] at this; exact absurd this hsz
        · exact h0
      have hbud := h.budget hcap
      obtain ⟨k1, _, k3⟩ := hb.trans hc
      refine ⟨k1, ?_, k3⟩
      simp only
      rw [k1]
      omega
    · cases h1; exact Keeps.refl _
  | reserve n => cases hop
  | rehash n => cases hop
  | find k =>
    right
    simp only [Table.step] at hs
    obtain ⟨_, _, hs⟩ := bind_eq_ok hs
    cases hs; exact ⟨rfl, Keeps.refl _⟩
  | contains k =>
    right
    simp only [Table.step] at hs
    obtain ⟨_, _, hs⟩ := bind_eq_ok hs
    cases hs; exact ⟨rfl, Keeps.refl _⟩
  | size => cases hs; exact .inr ⟨rfl, Keeps.refl _⟩
  | iterate =>
    right
    simp only [Table.step] at hs
    obtain ⟨_, _, hs⟩ := bind_eq_ok hs
    cases hs; exact ⟨rfl, Keeps.refl _⟩
  | index k d =>
    left
    simp only [Table.step, Table.index] at hs
    obtain ⟨⟨a, v⟩, h1, hs⟩ := bind_eq_ok hs
    cases hs
    obtain ⟨⟨b, p, q⟩, h2, h1⟩ := bind_eq_ok h1
    obtain ⟨_, _, h1⟩ := bind_eq_ok h1
    obtain ⟨_, _, h1⟩ := bind_eq_ok h1
    cases h1
    exact ⟨rfl, insert_adds g h h2⟩
  | extract k =>
    right
    simp only [Table.step, Table.extract] at hs
    obtain ⟨⟨a, v⟩, h1, hs⟩ := bind_eq_ok hs
    cases hs
    refine ⟨rfl, ?_⟩
    obtain ⟨pos, _, h1⟩ := bind_eq_ok h1
    split at h1
    · obtain ⟨⟨b, n⟩, h2, h1⟩ := bind_eq_ok h1
      cases h1
      unfold Table.extractAt at h2
      obtain ⟨c, h3, h2⟩ := bind_eq_ok h2
      obtain ⟨_, _, h2⟩ := bind_eq_ok h2
      obtain ⟨_, _, h2⟩ := bind_eq_ok h2
      obtain ⟨d, h4, h2⟩ := bind_eq_ok h2
      cases h2
      exact (eraseNode_keeps h3).trans (destroy_keeps h4)
    · cases h1; exact Keeps.refl _
  | insertNode x =>
    left
    simp only [Table.step, Table.insertNode] at hs
    obtain ⟨⟨a, p, b, l⟩, h1, hs⟩ := bind_eq_ok hs
    obtain ⟨_, _, hs⟩ := bind_eq_ok hs
    obtain ⟨_, _, hs⟩ := bind_eq_ok hs
    cases hs
    refine ⟨rfl, ?_⟩
    obtain ⟨pos, _, h1⟩ := bind_eq_ok h1
    split at h1
    · obtain ⟨⟨a, q⟩, h2, h1⟩ := bind_eq_ok h1
      cases h1
      exact emplaceNode_adds g h h2
    · cases h1; exact (Keeps.refl _).adds
  | eraseIf p =>
    right
    simp only [Table.step, Table.eraseIf] at hs
    obtain ⟨⟨a, n, cs⟩, h1, hs⟩ := bind_eq_ok hs
    cases hs
    obtain ⟨_, _, h1⟩ := bind_eq_ok h1
    obtain ⟨_, _, h1⟩ := bind_eq_ok h1
    exact ⟨rfl, eraseIfLoop_keeps h1⟩
  | insertThrow k =>
    left
    simp only [Table.step, Table.insertThrow] at hs
    obtain ⟨⟨a, b⟩, h1, hs⟩ := bind_eq_ok hs
    cases hs
    refine ⟨rfl, ?_⟩
    obtain ⟨pos, _, h1⟩ := bind_eq_ok h1
    split at h1
    · obtain ⟨⟨a, q⟩, h2, h1⟩ := bind_eq_ok h1
      cases h1
      exact ⟨_, prepare_cost g h h2, rfl, Nat.le_succ _, rfl⟩
    · cases h1; exact (Keeps.refl _).adds
  | insertRange ra xs => cases hop

theorem Keeps.saved {isa : Isa} {t t' : Table K V} (c : Nat) (h : Keeps t t') : t'.saved isa c ≤ t.saved isa c := by
  unfold Table.saved Table.used
  rw [h.1]
  have := h.2.1
  exact Nat.mul_le_mul_left _ (by omega)

theorem step_pay {isa : Isa} {hash : K → Nat} {t t' : Table K V} (h : Inv isa hash t) {op : Op K V} {o : Out K V}
    (hop : op.churn = true) (hs : t.step isa hash op = .ok (t', o)) :
    cost 1 t'.log + t'.saved isa 5 ≤ cost 1 t.log + t.saved isa 5 + 10 * op.adds := by
  rcases step_adds 1 h hop hs with ⟨e, t1, h1, h2, h3, h4⟩ | ⟨e, hk⟩
  · rw [e]; exact h1.pay h h2 h3 h4
  · rw [e, hk.2.2]
    have := hk.saved (isa := isa) 5
    omega

theorem step_pay_two {isa : Isa} {hash : K → Nat} {t t' : Table K V} (h : Inv isa hash t) {op : Op K V} {o : Out K V}
    (hop : op.churn = true) (hn : NoTomb t) (hs : t.step isa hash op = .ok (t', o)) :
    cost 0 t'.log + t'.saved isa 1 ≤ cost 0 t.log + t.saved isa 1 + 2 * op.adds := by
  rcases step_adds 0 h hop hs with ⟨e, t1, h1, h2, h3, h4⟩ | ⟨e, hk⟩
  · rw [e]; exact h1.pay_two h hn h2 h3 h4
  · rw [e, hk.2.2]
    have := hk.saved (isa := isa) 1
    omega

/-- Operations that neither ask for a bucket count or a capacity nor insert a range through random access iterators. -/
def _root_.Tpp.Op.plain {K V : Type} : Op K V → Bool
  | .insertRange ra _ => !ra
  | op => op.churn

theorem insertRange_pay {isa : Isa} {hash : K → Nat} : ∀ (xs : List (K × V)) {t t' : Table K V}, Inv isa hash t →
    t.insertRange isa hash false xs = .ok t' →
      cost 1 t'.log + t'.saved isa 5 ≤ cost 1 t.log + t.saved isa 5 + 10 * xs.length
  | [], t, t', _, e => by cases e; omega
  | x :: xs, t, t', h, e => by
    simp only [Table.insertRange, Bool.false_eq_true, if_false, bind_ok, List.foldlM_cons] at e
    obtain ⟨b, h1, e⟩ := bind_eq_ok e
    obtain ⟨⟨c, p, q⟩, h2, h1⟩ := bind_eq_ok h1
    cases h1
    obtain ⟨t1, k1, k2, k3, k4⟩ := insert_adds 1 h h2
    have k5 := k1.pay h k2 k3 k4
    obtain ⟨d, dp, db, d1, d2, _⟩ := insert_spec h x.1 x.2
    rw [h2] at d1
    cases d1
    have k6 := insertRange_pay xs (t' := t') d2 (by
      simp only [Table.insertRange, Bool.false_eq_true, if_false, bind_ok]
      exact e)
    rw [List.length_cons]
    omega

theorem insertRange_pay_two {isa : Isa} {hash : K → Nat} : ∀ (xs : List (K × V)) {t t' : Table K V}, Inv isa hash t → NoTomb t →
    t.insertRange isa hash false xs = .ok t' →
      cost 0 t'.log + t'.saved isa 1 ≤ cost 0 t.log + t.saved isa 1 + 2 * xs.length
  | [], t, t', _, _, e => by cases e; omega
  | x :: xs, t, t', h, hn, e => by
    simp only [Table.insertRange, Bool.false_eq_true, if_false, bind_ok, List.foldlM_cons] at e
    obtain ⟨b, h1, e⟩ := bind_eq_ok e
    obtain ⟨⟨c, p, q⟩, h2, h1⟩ := bind_eq_ok h1
    cases h1
    obtain ⟨t1, k1, k2, k3, k4⟩ := insert_adds 0 h h2
    have k5 := k1.pay_two h hn k2 k3 k4
    obtain ⟨d, dp, db, d1, d2, d3, _⟩ := insert_spec h x.1 x.2
    rw [h2] at d1
    cases d1
    have k6 := insertRange_pay_two xs (t' := t') d2 (d3.2 hn) (by
      simp only [Table.insertRange, Bool.false_eq_true, if_false, bind_ok]
      exact e)
    rw [List.length_cons]
    omega

theorem plain_cases {op : Op K V} (h : op.plain = true) : op.churn = true ∨ ∃ xs, op = .insertRange false xs := by
  cases op with
  | insertRange ra xs =>
    cases ra
    · exact .inr ⟨xs, rfl⟩
    · cases h
  | _ => exact .inl h

theorem step_pay' {isa : Isa} {hash : K → Nat} {t t' : Table K V} (h : Inv isa hash t) {op : Op K V} {o : Out K V}
    (hop : op.plain = true) (hs : t.step isa hash op = .ok (t', o)) :
    cost 1 t'.log + t'.saved isa 5 ≤ cost 1 t.log + t.saved isa 5 + 10 * op.adds := by
  rcases plain_cases hop with hc | ⟨xs, rfl⟩
  · exact step_pay h hc hs
  · simp only [Table.step] at hs
    obtain ⟨a, h1, hs⟩ := bind_eq_ok hs
    cases hs
    exact insertRange_pay xs h h1

theorem step_pay_two' {isa : Isa} {hash : K → Nat} {t t' : Table K V} (h : Inv isa hash t) {op : Op K V} {o : Out K V}
    (hop : op.plain = true) (hn : NoTomb t) (hs : t.step isa hash op = .ok (t', o)) :
    cost 0 t'.log + t'.saved isa 1 ≤ cost 0 t.log + t.saved isa 1 + 2 * op.adds := by
  rcases plain_cases hop with hc | ⟨xs, rfl⟩
  · exact step_pay_two h hc hn hs
  · simp only [Table.step] at hs
    obtain ⟨a, h1, hs⟩ := bind_eq_ok hs
    cases hs
    exact insertRange_pay_two xs h hn h1

/-- The number of insertions asked for by a history. -/
def addCount (ops : List (Op K V)) : Nat := (ops.map Op.adds).sum

theorem run_pay {isa : Isa} {hash : K → Nat} (ops : List (Op K V)) : (∀ op ∈ ops, op.plain = true) →
    ∀ {t t' : Table K V} {o : List (Out K V)}, Inv isa hash t → t.run isa hash ops = .ok (t', o) →
      cost 1 t'.log + t'.saved isa 5 ≤ cost 1 t.log + t.saved isa 5 + 10 * addCount ops := by
  induction ops with
  | nil => intro _ t t' o _ e; cases e; simp [addCount]
  | cons op ops ih =>
    intro hops t t' o h e
    unfold Table.run at e
    obtain ⟨⟨b, o1⟩, hs, e⟩ := bind_eq_ok e
    obtain ⟨⟨c, os⟩, hr, e⟩ := bind_eq_ok e
    cases e
    have h1 := step_pay' h (hops op (by simp)) hs
    have h2 := ih (fun x hx => hops x (by simp [hx])) (ends_ok (step_spec h (List.Perm.refl _) op) hs).1 hr
    simp only [addCount, List.map_cons, List.sum_cons] at h2 ⊢
    omega

theorem run_pay_two {isa : Isa} {hash : K → Nat} (ops : List (Op K V)) : (∀ op ∈ ops, op.plain = true ∧ op.noErase = true) →
    ∀ {t t' : Table K V} {o : List (Out K V)}, Inv isa hash t → NoTomb t → t.run isa hash ops = .ok (t', o) →
      cost 0 t'.log + t'.saved isa 1 ≤ cost 0 t.log + t.saved isa 1 + 2 * addCount ops := by
  induction ops with
  | nil => intro _ t t' o _ _ e; cases e; simp [addCount]
  | cons op ops ih =>
    intro hops t t' o h hn e
    unfold Table.run at e
    obtain ⟨⟨b, o1⟩, hs, e⟩ := bind_eq_ok e
    obtain ⟨⟨c, os⟩, hr, e⟩ := bind_eq_ok e
    cases e
    have h1 := step_pay_two' h (hops op (by simp)).1 hn hs
    have h2 := ih (fun x hx => hops x (by simp [hx])) (ends_ok (step_spec h (List.Perm.refl _) op) hs).1
      (step_noTomb h (hops op (by simp)).2 hs hn) hr
    simp only [addCount, List.map_cons, List.sum_cons] at h2 ⊢
    omega

end Tpp.Swiss
