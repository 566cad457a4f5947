import Verif.Swiss.Hist
import Verif.Swiss.Log
import Verif.Swiss.Iters

/-!
# Insertion and erasure of the same key in a sparse container

Exact forms of the steps of `insert` and `erase(key)`, used for C106.
-/

set_option linter.unusedSectionVars false

namespace Tpp.Swiss

variable {K V : Type} [DecidableEq K]

/-- The index of the copy of control byte `pos` (swiss_table.hpp 1248-1254), as computed by `Table.setMetadata`. -/
def mirrorIdx (isa : Isa) (cap pos : Nat) : Nat :=
  ((pos + (isa.W - 1) * (cap + 1) - (isa.W - 1)) &&& cap) + ((isa.W - 1) &&& cap)

theorem setMetadata_eq {isa : Isa} {t t' : Table K V} {pos : Nat} {v : Ctl} (h : t.setMetadata isa pos v = .ok t') :
    mirrorIdx isa t.cap pos < t.len ∧ pos < t.len ∧
      t' = { t with ctl := upd (upd t.ctl (mirrorIdx isa t.cap pos) v) pos v } := by
  unfold Table.setMetadata at h
  obtain ⟨a, h1, h⟩ := ok_of_bind h
  unfold Table.writeCtl at h1 h
  split at h1
  · rename_i hm
    cases h1
    split at h
    · rename_i hp
      cases h
      exact ⟨hm, hp, rfl⟩
    · cases h
  · cases h1

theorem setMetadata_of {isa : Isa} {t : Table K V} {pos : Nat} (v : Ctl) (h1 : mirrorIdx isa t.cap pos < t.len) (h2 : pos < t.len) :
    t.setMetadata isa pos v = .ok { t with ctl := upd (upd t.ctl (mirrorIdx isa t.cap pos) v) pos v } := by
  unfold mirrorIdx at h1
  simp [Table.setMetadata, Table.writeCtl, h1, h2, mirrorIdx, bind_ok]

/-- Writing the byte and its copy twice leaves the second value. -/
theorem upd_twice {α : Type} (f : Nat → α) (m p : Nat) (a b : α) :
    upd (upd (upd (upd f m a) p a) m b) p b = upd (upd f m b) p b := by
  funext i
  simp only [upd_apply]
  split
  · rfl
  · split <;> rfl

/-- The search for a free slot depends only on which bytes are available. -/
theorem availLoop_congr {isa : Isa} {a b : Table K V} (hc : a.cap = b.cap) (hl : a.len = b.len)
    (hav : ∀ i, (a.ctl i).isAvailable = (b.ctl i).isAvailable) :
    ∀ fuel pos idx, a.availLoop isa fuel pos idx = b.availLoop isa fuel pos idx := by
  intro fuel
  induction fuel with
  | zero => intro _ _; rfl
  | succ fuel ih =>
    intro pos idx
    have hm : a.matches_ isa pos (·.isAvailable) = b.matches_ isa pos (·.isAvailable) := by
      unfold Table.matches_
      congr 1
      funext i
      exact hav _
    simp only [Table.availLoop, Table.loadBlock, hl, hm, hc, ih]

theorem findAvailable_congr {isa : Isa} {a b : Table K V} (hc : a.cap = b.cap) (hl : a.len = b.len)
    (hav : ∀ i, (a.ctl i).isAvailable = (b.ctl i).isAvailable) (h : Nat) :
    a.findAvailable isa h = b.findAvailable isa h := by
  unfold Table.findAvailable
  rw [availLoop_congr hc hl hav, hc]

/-- Making an iterator depends only on the control bytes. -/
theorem toIter_congr {isa : Isa} {a b : Table K V} (hc : a.cap = b.cap) (hl : a.len = b.len) (hm : a.ctl = b.ctl) (pos : Nat) :
    a.toIter isa pos = b.toIter isa pos := by
  have : ∀ fuel pos, a.nextOccupied isa fuel pos = b.nextOccupied isa fuel pos := by
    intro fuel
    induction fuel with
    | zero => intro _; rfl
    | succ fuel ih =>
      intro pos
      simp only [Table.nextOccupied, Table.readCtl, Table.countAvailable, Table.loadBlock, hl, hm, ih]
  unfold Table.toIter
  rw [hl, hc, this]

/-- Whatever `emplace_node` did to make room, the slot is the one `find_available` yields afterwards. -/
theorem prepare_avail {isa : Isa} {t w : Table K V} {h p : Nat} (e : t.prepare isa h = .ok (w, p)) :
    w.findAvailable isa h = .ok p := by
  unfold Table.prepare at e
  split at e
  · obtain ⟨a, _, e⟩ := ok_of_bind e
    obtain ⟨q, h2, e⟩ := ok_of_bind e
    cases e
    exact h2
  · obtain ⟨q, h1, e⟩ := ok_of_bind e
    obtain ⟨c, _, e⟩ := ok_of_bind e
    split at e
    · simp only at e
      split at e <;>
      · obtain ⟨a, _, e⟩ := ok_of_bind e
        obtain ⟨q', h2, e⟩ := ok_of_bind e
        cases e
        exact h2
    · cases e
      exact h1

/-- The result of the construction part of `emplace_node`. -/
theorem commit_eq {isa : Isa} {w t1 : Table K V} {n : Node K V} {p q : Nat} (e : w.commit isa p n = .ok (t1, q)) :
    q = p ∧ p < w.cap ∧ w.node p = none ∧ mirrorIdx isa w.cap p < w.len ∧ p < w.len ∧
      t1 = { w with
        node := upd w.node p (some n)
        ctl := upd (upd w.ctl (mirrorIdx isa w.cap p) (.full (hashLo n.hash))) p (.full (hashLo n.hash))
        numEmpty := w.numEmpty - (if w.ctl p = .empty then 1 else 0)
        size := w.size + 1 } := by
  unfold Table.commit at e
  obtain ⟨a, h1, e⟩ := ok_of_bind e
  obtain ⟨c, hc, e⟩ := ok_of_bind e
  obtain ⟨q1, q2, q3⟩ := construct_eq h1
  subst q3
  have hc := readCtl_eq hc
  simp only at e hc
  subst hc
  generalize (if w.ctl p = Ctl.empty then 1 else 0) = dec at e ⊢
  split at e
  · obtain ⟨b, h2, e⟩ := ok_of_bind e
    obtain ⟨m1, m2, m3⟩ := setMetadata_eq h2
    subst m3
    cases e
    exact ⟨rfl, q1, q2, m1, m2, rfl⟩
  · cases e

/-- The result of `do_erase`. -/
theorem doErase_eq {isa : Isa} {t t' : Table K V} {p it : Nat} (e : t.doErase isa p = .ok (t', it)) :
    p < t.cap ∧ (t.ctl p).isOccupied = true ∧ 1 ≤ t.size ∧ (t.node p).isSome ∧ mirrorIdx isa t.cap p < t.len ∧ p < t.len ∧
      t' = { t with
        node := upd t.node p none
        ctl := upd (upd t.ctl (mirrorIdx isa t.cap p) .deleted) p .deleted
        size := t.size - 1 } ∧ t'.toIter isa p = .ok it := by
  unfold Table.doErase at e
  obtain ⟨a, h1, e⟩ := ok_of_bind e
  obtain ⟨i, h2, e⟩ := ok_of_bind e
  obtain ⟨b, h3, e⟩ := ok_of_bind e
  cases e
  unfold Table.eraseNode at h1
  split at h1
  · rename_i hp
    obtain ⟨c, hc, h1⟩ := ok_of_bind h1
    have hc := readCtl_eq hc
    subst hc
    split at h1
    · rename_i ho
      obtain ⟨b', h4, h1⟩ := ok_of_bind h1
      obtain ⟨m1, m2, m3⟩ := setMetadata_eq h4
      subst m3
      simp only at h1
      split at h1
      · rename_i hs
        cases h1
        obtain ⟨_, q2, q3⟩ := destroy_eq h3
        subst q3
        refine ⟨hp, ho, hs, q2, m1, m2, rfl, ?_⟩
        rw [← h2]
        apply toIter_congr <;> rfl
      · cases h1
    · cases h1
  · cases h1

theorem doErase_of {isa : Isa} {t : Table K V} {p it : Nat} (hp : p < t.cap) (ho : (t.ctl p).isOccupied = true) (hs : 1 ≤ t.size)
    (hn : (t.node p).isSome) (hm : mirrorIdx isa t.cap p < t.len) (hl : p < t.len)
    (hit : ({ t with
        node := upd t.node p none
        ctl := upd (upd t.ctl (mirrorIdx isa t.cap p) .deleted) p .deleted
        size := t.size - 1 } : Table K V).toIter isa p = .ok it) :
    t.doErase isa p = .ok ({ t with
        node := upd t.node p none
        ctl := upd (upd t.ctl (mirrorIdx isa t.cap p) .deleted) p .deleted
        size := t.size - 1 }, it) := by
  obtain ⟨n, hn⟩ := Option.isSome_iff_exists.1 hn
  unfold Table.doErase Table.eraseNode
  rw [if_pos hp]
  simp only [Table.readCtl, if_pos hl, bind_ok, ho, if_true, setMetadata_of _ hm hl, if_pos hs]
  have hit' : ({ t with
        ctl := upd (upd t.ctl (mirrorIdx isa t.cap p) .deleted) p .deleted
        size := t.size - 1 } : Table K V).toIter isa p = .ok it := by
    rw [← hit]
    apply toIter_congr <;> rfl
  rw [hit']
  simp [Table.destroy, hp, hn, bind_ok]

/-- Marking an available slot erased changes no byte's availability. -/
theorem avail_mark {isa : Isa} {w : Table K V} (hm : MetaOk isa w.cap w.len w.ctl) {p : Nat} (hp : p < w.cap)
    (hmi : mirrorIdx isa w.cap p < w.len) (ha : (w.ctl p).isAvailable = true) (i : Nat) :
    (upd (upd w.ctl (mirrorIdx isa w.cap p) .deleted) p .deleted i).isAvailable = (w.ctl i).isAvailable := by
  obtain ⟨m, hpow⟩ := hm.pow
  simp only [upd_apply]
  split
  · rename_i h
    rw [h, ha]
    rfl
  · split
    · rename_i hne h
      have hmir := mirror_eq isa hpow hp
      unfold mirrorIdx at h hmi
      rw [hmir] at h hmi
      split at h
      · rename_i hc
        rw [if_pos hc] at hmi
        have := hm.tail i (by omega) (by have := hm.len_eq; omega)
        rw [this, if_pos (by omega), show i - (w.cap + 1) = p by omega, ha]
        rfl
      · omega
    · rfl

end Tpp.Swiss
