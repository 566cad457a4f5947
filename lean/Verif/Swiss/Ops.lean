import Verif.Swiss.Rehash

/-!
# Insertion, erasure, iteration, clear, reserve, rehash: effect on the invariant and the contents
-/

set_option linter.unusedSectionVars false

namespace Tpp.Swiss

variable {K V : Type} [DecidableEq K]

/-- `x` ends with a value satisfying `P`; or, in a build with 8-byte blocks only, it computes `ctz(0)` while
making an iterator. -/
def Ends {α : Type} (isa : Isa) (x : M α) (P : α → Prop) : Prop :=
  (∃ a, x = .ok a ∧ P a) ∨ (isa.W = 8 ∧ x = .error .ctzZero)

theorem Ends.of_ok {α : Type} {isa : Isa} {x : M α} {P : α → Prop} {a : α} (h : x = .ok a) (hp : P a) : Ends isa x P :=
  Or.inl ⟨a, h, hp⟩

theorem Ends.bind {α β : Type} {isa : Isa} {x : M α} {f : α → M β} {P : α → Prop} {Q : β → Prop}
    (h : Ends isa x P) (hf : ∀ a, P a → Ends isa (f a) Q) : Ends isa (x >>= f) Q := by
  rcases h with ⟨a, h, hp⟩ | ⟨h1, h2⟩
  · subst h; exact hf a hp
  · subst h2; exact Or.inr ⟨h1, rfl⟩

theorem Ends.mono {α : Type} {isa : Isa} {x : M α} {P Q : α → Prop} (h : Ends isa x P) (hf : ∀ a, P a → Q a) :
    Ends isa x Q := by
  rcases h with ⟨a, h, hp⟩ | h
  · exact Or.inl ⟨a, h, hf a hp⟩
  · exact Or.inr h

theorem Ends.sse2 {α : Type} {x : M α} {P : α → Prop} (h : Ends .sse2 x P) : ∃ a, x = .ok a ∧ P a := by
  rcases h with h | ⟨h, _⟩
  · exact h
  · exact absurd h (by decide)

/-! ### Insertion -/

theorem Inv.size_le {isa : Isa} {hash : K → Nat} {t : Table K V} (h : Inv isa hash t) :
    t.size ≤ maxSize isa t.cap := by
  rcases Nat.eq_zero_or_pos t.cap with h0 | h0
  · have := h.size_eq; rw [h0, cnt] at this; omega
  · have := h.budget h0; omega

theorem Inv.avail_of_numEmpty {isa : Isa} {hash : K → Nat} {t : Table K V} (h : Inv isa hash t) (hc : 0 < t.cap)
    (hne : 0 < t.numEmpty) : ∃ i, i < t.cap ∧ (t.ctl i).isAvailable = true := by
  have h1 := (h.meta_ok hc).total
  have h2 := h.budget hc
  have h3 := h.size_eq
  have h4 := maxSize_le isa t.cap
  obtain ⟨i, hi, hp⟩ := cnt_pos (p := fun i => (t.ctl i).isEmpty) (n := t.cap) (by omega)
  exact ⟨i, hi, empty_available _ hp⟩

theorem Inv.nodes_length {isa : Isa} {hash : K → Nat} {t : Table K V} (h : Inv isa hash t) :
    t.nodes.length = t.size := by
  rw [h.size_eq, Table.nodes, collect_length]
  exact cnt_congr (fun i hi => h.live i hi)

/-- No slot is marked erased. -/
def NoTomb (t : Table K V) : Prop := ∀ i, i < t.cap → t.ctl i ≠ .deleted

/-- The bucket count is kept; or a first buffer is made; or it doubles because the table is small or at least
25/32 full. -/
def GrowCap (isa : Isa) (t t' : Table K V) : Prop :=
  t'.cap = t.cap ∨ (t.cap = 0 ∧ t'.cap = 1) ∨
  (0 < t.cap ∧ t.numEmpty = 0 ∧ t'.cap = 2 * t.cap + 1 ∧ (t.cap ≤ isa.W ∨ t.cap * 25 < t.size * 32))

/-- How an insertion changes the buckets; it makes no slot erased. -/
def GrowOk (isa : Isa) (t t' : Table K V) : Prop := GrowCap isa t t' ∧ (NoTomb t → NoTomb t')

theorem GrowOk.refl (isa : Isa) (t : Table K V) : GrowOk isa t t := ⟨Or.inl rfl, id⟩

theorem noTomb_of {t : Table K V} {n : Nat} (hn : t.cap = n) (h : ∀ j, j < n → (t.ctl j).isDeleted = false) : NoTomb t := by
  intro i hi e
  have := h i (by omega)
  rw [e] at this
  cases this

theorem prepare_spec {isa : Isa} {hash : K → Nat} {t : Table K V} (h : Inv isa hash t) (hh : Nat) :
    ∃ t' target, t.prepare isa hh = .ok (t', target) ∧ Inv isa hash t' ∧ t'.nodes.Perm t.nodes ∧ t'.size = t.size ∧
      target < t'.cap ∧ (t'.ctl target).isAvailable = true ∧
      Reach isa t'.cap t'.ctl (·.isEmpty) (hashHi hh) target ∧
      (t'.ctl target = .deleted ∨ 0 < t'.numEmpty) ∧ (0 < t.cap → 0 < t.numEmpty → t' = t) ∧ GrowOk isa t t' := by
  have hmW := isa.W_pos
  have after : ∀ t' : Table K V, Inv isa hash t' → 0 < t'.cap → 0 < t'.numEmpty →
      ∃ target, t'.findAvailable isa hh = .ok target ∧ target < t'.cap ∧ (t'.ctl target).isAvailable = true ∧
      Reach isa t'.cap t'.ctl (·.isEmpty) (hashHi hh) target := by
    intro t' hI hc hne
    obtain ⟨target, h1, h2, h3, h4⟩ := findAvailable_place (hI.meta_ok hc) hh (hI.avail_of_numEmpty hc hne)
    exact ⟨target, h1, h2, h3, h4.weaken empty_available⟩
  unfold Table.prepare
  by_cases hc : t.cap = 0
  · simp only [hc, if_true]
    have hsz : t.size = 0 := by have := h.size_eq; rw [hc, cnt] at this; exact this
    have hm1 : maxSize isa 1 = 1 := by simp [maxSize]
    obtain ⟨t', h1, h2, h3, h4, h5, h6, h7⟩ := doRehash_spec h (n := 1) (m := 1) (by rfl) (by omega)
    obtain ⟨target, g1, g2, g3, g4⟩ := after t' h2 (by omega) (by omega)
    rw [h1]
    simp only [bind_ok, g1]
    exact ⟨t', target, rfl, h2, h6, h4, g2, g3, g4, Or.inr (by omega), fun _ hp => by omega,
      Or.inr (Or.inl ⟨hc, h3⟩), fun _ => noTomb_of h3 h7⟩
  · simp only [hc, if_false]
    have hc0 : 0 < t.cap := by omega
    have hm := h.meta_ok hc0
    obtain ⟨target, f1, f2, f3, f4, s, f5, f6⟩ := findAvailable_spec hm hh (h.hasStep hc0 (P := (·.isAvailable)) rfl (hashHi hh))
    rw [f1]
    simp only [bind_ok]
    rw [readCtl_ok hm f2]
    simp only [bind_ok]
    by_cases hgrow : t.numEmpty = 0 ∧ t.ctl target ≠ .deleted
    · rw [if_pos hgrow]
      by_cases hrec : t.cap > isa.W ∧ t.size * 32 ≤ t.cap * 25
      · rw [if_pos hrec]
        obtain ⟨t', h1, h2, h3, h4, h5, h6, h7⟩ := rehashDeleted_spec h (by omega)
        have hpos : 0 < t'.numEmpty := by
          rw [h5]
          unfold maxSize
          split <;> omega
        obtain ⟨target', g1, g2, g3, g4⟩ := after t' h2 (by omega) hpos
        rw [h1]
        simp only [bind_ok, g1]
        exact ⟨t', target', rfl, h2, h6, h4, g2, g3, g4, Or.inr hpos, fun _ hp => by omega, Or.inl h3,
          fun _ => noTomb_of h3 h7⟩
      · rw [if_neg hrec]
        have hsz := h.size_le
        have hgt : t.size < maxSize isa ((t.cap + 1) * 2 - 1) := by
          revert hsz
          unfold maxSize
          split <;> split <;> omega
        obtain ⟨m, hmp⟩ := hm.pow
        obtain ⟨t', h1, h2, h3, h4, h5, h6, h7⟩ := doRehash_spec h (n := (t.cap + 1) * 2 - 1) (m := m + 1)
          (by rw [Nat.pow_succ, ← hmp]; omega) (by omega)
        obtain ⟨target', g1, g2, g3, g4⟩ := after t' h2 (by omega) (by omega)
        rw [h1]
        simp only [bind_ok, g1]
        refine ⟨t', target', rfl, h2, h6, h4, g2, g3, g4, Or.inr (by omega), fun _ hp => by omega, ?_, fun _ => noTomb_of h3 h7⟩
        right; right
        refine ⟨hc0, hgrow.1, by omega, ?_⟩
        omega
    · rw [if_neg hgrow]
      have hcase : t.ctl target = .deleted ∨ 0 < t.numEmpty := by
        by_cases e : t.ctl target = .deleted
        · exact Or.inl e
        · right
          rcases Nat.eq_zero_or_pos t.numEmpty with h0 | h0
          · exact absurd ⟨h0, e⟩ hgrow
          · exact h0
      have hlt : target < t.cap := by
        rcases hcase with e | e
        · by_contra hge
          have : target = t.cap := by omega
          rw [this, hm.sent] at e
          cases e
        · exact f4 (h.avail_of_numEmpty hc0 e)
      have hr : Reach isa t.cap t.ctl (·.isAvailable) (hashHi hh) target := ⟨s, f5 hlt, f6⟩
      exact ⟨t, target, rfl, h, List.Perm.refl _, rfl, hlt, f3 hlt, hr.weaken empty_available, hcase,
        fun _ _ => rfl, GrowOk.refl isa t⟩

theorem commit_spec {isa : Isa} {hash : K → Nat} {t : Table K V} (h : Inv isa hash t) {target : Nat} {n : Node K V}
    (ht : target < t.cap) (hav : (t.ctl target).isAvailable = true)
    (hreach : Reach isa t.cap t.ctl (·.isEmpty) (hashHi n.hash) target)
    (hcase : t.ctl target = .deleted ∨ 0 < t.numEmpty) (hh : n.hash = hash n.key)
    (hfresh : ∀ i, i < t.cap → ∀ m, t.node i = some m → m.key ≠ n.key) :
    ∃ t', t.commit isa target n = .ok (t', target) ∧ Inv isa hash t' ∧ t'.cap = t.cap ∧ t'.size = t.size + 1 ∧
      t'.node target = some n ∧ (∀ i, i ≠ target → t'.node i = t.node i) ∧ t'.nodes.Perm (n :: t.nodes) ∧
      t'.numEmpty + 1 ≥ t.numEmpty ∧ (NoTomb t → NoTomb t') := by
  have hc0 : 0 < t.cap := by omega
  have hcore := h.core hc0
  obtain ⟨hraw, hcons, hset⟩ := hcore.place ht hav hh hfresh hreach
  unfold Table.commit
  rw [hcons]
  simp only [bind_ok]
  rw [readCtl_ok (isa := isa) (t := { t with node := upd t.node target (some n) }) hcore.md (by simp only; omega)]
  simp only [bind_ok]
  have hdec : (if t.ctl target = .empty then 1 else 0) ≤ t.numEmpty := by
    split
    · rename_i e
      rcases hcase with e' | e'
      · rw [e] at e'; cases e'
      · exact e'
    · omega
  rw [if_pos hdec]
  obtain ⟨c, hs1, hs2, hs3⟩ := hset (t.numEmpty - if t.ctl target = .empty then 1 else 0)
  rw [hs1]
  simp only [bind_ok]
  have hocc := cnt_update (p := fun j => (t.ctl j).isOccupied) (q := fun j => (c j).isOccupied) (n := t.cap) (i := target)
    ht (by intro j hj hne; rw [hs2 j hj, if_neg hne])
  have hdel := cnt_update (p := fun j => (t.ctl j).isDeleted) (q := fun j => (c j).isDeleted) (n := t.cap) (i := target)
    ht (by intro j hj hne; rw [hs2 j hj, if_neg hne])
  have e1 : (t.ctl target).isOccupied = false := by
    revert hav; cases t.ctl target <;> simp [Ctl.isAvailable, Ctl.isOccupied]
  have e2 : (c target).isOccupied = true := by rw [hs2 target ht]; simp [Ctl.isOccupied]
  have e3 : (c target).isDeleted = false := by rw [hs2 target ht]; simp [Ctl.isDeleted]
  simp only [e1, e2, if_true, Bool.false_eq_true, if_false] at hocc
  simp only [e3, Bool.false_eq_true, if_false] at hdel
  have hsz := h.size_eq
  have hb := h.budget (by omega)
  refine ⟨_, rfl, ?_, rfl, rfl, by simp, ?_, ?_, ?_, ?_⟩
  · have hc' : Core isa hash { t with
        node := upd t.node target (some n)
        numEmpty := t.numEmpty - (if t.ctl target = .empty then 1 else 0)
        ctl := c
        size := t.size + 1 } :=
      ⟨hs3.md, hs3.live, hs3.tag, hs3.hash_ok, hs3.uniq, hs3.reach⟩
    refine hc'.inv ?_ ?_
    · show t.size + 1 = cnt (fun j => (c j).isOccupied) t.cap
      omega
    · show (t.numEmpty - if t.ctl target = .empty then 1 else 0) + (t.size + 1) + cnt (fun j => (c j).isDeleted) t.cap = maxSize isa t.cap
      by_cases hE : t.ctl target = .empty
      · have : (t.ctl target).isDeleted = false := by rw [hE]; rfl
        simp only [this, Bool.false_eq_true, if_false] at hdel
        simp only [hE, if_true] at hdec ⊢
        omega
      · have : (t.ctl target).isDeleted = true := by
          revert hav hE; cases t.ctl target <;> simp [Ctl.isAvailable, Ctl.isDeleted]
        simp only [this, if_true] at hdel
        simp only [hE, if_false]
        omega
  · intro i hi; exact upd_ne _ _ hi
  · exact collect_fill ht hraw (by simp) (fun j _ hne => upd_ne _ _ hne)
  · show (t.numEmpty - if t.ctl target = .empty then 1 else 0) + 1 ≥ t.numEmpty
    split <;> omega
  · intro hnt i hi e
    have hi' : i < t.cap := hi
    have e' : c i = .deleted := e
    rw [hs2 i hi'] at e'
    split at e'
    · cases e'
    · exact hnt i hi' e'

/-- Everything `emplace_node` guarantees when the key is new. -/
theorem emplaceNode_spec {isa : Isa} {hash : K → Nat} {t : Table K V} (h : Inv isa hash t) {n : Node K V}
    (hh : n.hash = hash n.key) (hfresh : ∀ i, i < t.cap → ∀ m, t.node i = some m → m.key ≠ n.key) :
    ∃ t' p, t.emplaceNode isa n = .ok (t', p) ∧ Inv isa hash t' ∧ p < t'.cap ∧ t'.node p = some n ∧
      t'.nodes.Perm (n :: t.nodes) ∧ t'.size = t.size + 1 ∧ GrowOk isa t t' ∧
      (0 < t.cap → 0 < t.numEmpty → t'.cap = t.cap ∧ t'.numEmpty + 1 ≥ t.numEmpty ∧
        ∀ i, i ≠ p → t'.node i = t.node i) := by
  obtain ⟨t1, target, p1, p2, p3, p4, p5, p6, p7, p8, p9, p10⟩ := prepare_spec h n.hash
  have hfresh1 : ∀ i, i < t1.cap → ∀ m, t1.node i = some m → m.key ≠ n.key := by
    intro i hi m hm
    have hmem : m ∈ t1.nodes := mem_collect.mpr ⟨i, hi, hm⟩
    obtain ⟨j, hj, hjm⟩ := mem_collect.mp (p3.mem_iff.mp hmem)
    exact hfresh j hj m hjm
  obtain ⟨t2, c1, c2, c3, c4, c5, c5', c6, c7, c8⟩ := commit_spec p2 p5 p6 p7 p8 hh hfresh1
  unfold Table.emplaceNode
  rw [p1]
  simp only [bind_ok]
  refine ⟨t2, target, c1, c2, by omega, c5, c6.trans (p3.cons n), by omega, ?_, ?_⟩
  · refine ⟨?_, fun hn => c8 (p10.2 hn)⟩
    have := p10.1
    unfold GrowCap at this ⊢
    rw [c3]; exact this
  · intro hp0 hp
    have := p9 hp0 hp
    subst this
    exact ⟨c3, c7, c5'⟩

/-! ### Iterators -/

/-- `r` is the first occupied slot at or after `pos`, or the capacity. -/
def IsNext (t : Table K V) (pos r : Nat) : Prop :=
  pos ≤ r ∧ r ≤ t.cap ∧ (∀ j, pos ≤ j → j < r → (t.ctl j).isOccupied = false) ∧
    (r < t.cap → (t.ctl r).isOccupied = true)

theorem countAvailable_spec {isa : Isa} {t : Table K V} (h : MetaOk isa t.cap t.len t.ctl) {pos : Nat} (hp : pos < t.cap)
    (hav : (t.ctl pos).isAvailable = true) :
    Ends isa (t.countAvailable isa pos) (fun off => 0 < off ∧ pos + off ≤ t.cap ∧
      ∀ j, pos ≤ j → j < pos + off → (t.ctl j).isAvailable = true) := by
  have hlen := h.len_eq
  unfold Table.countAvailable
  simp only [Table.loadBlock, show pos + isa.W ≤ t.len by omega, if_true, bind_ok]
  have hsent : ∀ i, (∀ j, j < i → (t.ctl (pos + j)).isAvailable = true) → pos + i ≤ t.cap := by
    intro i hi
    by_contra hc
    have := hi (t.cap - pos) (by omega)
    rw [show pos + (t.cap - pos) = t.cap by omega, h.sent] at this
    simp [Ctl.isAvailable] at this
  cases hf : (List.range isa.W).find? (fun i => !(t.ctl (pos + i)).isAvailable) with
  | some i =>
    rw [List.find?_range_eq_some] at hf
    obtain ⟨h1, h2, h3⟩ := hf
    have hall : ∀ j, j < i → (t.ctl (pos + j)).isAvailable = true := by
      intro j hj
      have := h3 j hj
      simpa using this
    refine Ends.of_ok rfl ⟨?_, hsent i hall, ?_⟩
    · rcases Nat.eq_zero_or_pos i with e | e
      · subst e; simp [hav] at h1
      · exact e
    · intro j hj1 hj2
      have := hall (j - pos) (by omega)
      rwa [show pos + (j - pos) = j by omega] at this
  | none =>
    rw [List.find?_range_eq_none] at hf
    have hall : ∀ j, j < isa.W → (t.ctl (pos + j)).isAvailable = true := by
      intro j hj
      have := hf j hj
      simpa using this
    cases isa with
    | sse2 =>
      refine Ends.of_ok rfl ⟨by simp [Isa.W], hsent _ hall, ?_⟩
      intro j hj1 hj2
      have := hall (j - pos) (by omega)
      rwa [show pos + (j - pos) = j by omega] at this
    | neon => exact Or.inr ⟨rfl, rfl⟩
    | portable => exact Or.inr ⟨rfl, rfl⟩

theorem nextOccupied_spec {isa : Isa} {t : Table K V} (h : MetaOk isa t.cap t.len t.ctl) :
    ∀ (fuel pos : Nat), pos ≤ t.cap → t.cap - pos < fuel → Ends isa (t.nextOccupied isa fuel pos) (IsNext t pos) := by
  intro fuel
  induction fuel with
  | zero => intro pos _ hf; omega
  | succ fuel ih =>
    intro pos hp hf
    unfold Table.nextOccupied
    rw [readCtl_ok h hp]
    simp only [bind_ok]
    by_cases hav : (t.ctl pos).isAvailable = true
    · simp only [hav, if_true]
      have hlt : pos < t.cap := by
        rcases Nat.lt_or_ge pos t.cap with h1 | h1
        · exact h1
        · have : pos = t.cap := by omega
          rw [this, h.sent] at hav
          simp [Ctl.isAvailable] at hav
      refine (countAvailable_spec h hlt hav).bind ?_
      rintro off ⟨h1, h2, h3⟩
      refine (ih (pos + off) h2 (by omega)).mono ?_
      rintro r ⟨r1, r2, r3, r4⟩
      refine ⟨by omega, r2, ?_, r4⟩
      intro j hj1 hj2
      by_cases hjo : j < pos + off
      · have := h3 j hj1 hjo
        revert this
        cases t.ctl j <;> simp [Ctl.isAvailable, Ctl.isOccupied]
      · exact r3 j (by omega) hj2
    · rw [if_neg hav]
      refine Ends.of_ok rfl ⟨Nat.le_refl _, hp, fun j h1 h2 => by omega, ?_⟩
      intro hlt
      have := h.slot pos hlt
      revert this hav
      cases t.ctl pos <;> simp [Ctl.isAvailable, Ctl.isOccupied]

theorem IsNext.eq_self {t : Table K V} {pos r : Nat} (h : IsNext t pos r) (ho : (t.ctl pos).isOccupied = true) : r = pos := by
  obtain ⟨h1, h2, h3, h4⟩ := h
  by_contra hne
  have := h3 pos (Nat.le_refl _) (by omega)
  rw [ho] at this
  exact absurd this (by simp)

/-- An iterator to an occupied slot, or the end iterator, is made without scanning. -/
theorem toIter_stay {isa : Isa} {hash : K → Nat} {t : Table K V} (h : Inv isa hash t) {pos : Nat}
    (hp : pos = t.cap ∨ (pos < t.cap ∧ (t.ctl pos).isOccupied = true)) : t.toIter isa pos = .ok pos := by
  unfold Table.toIter
  rcases h.shape with ⟨h1, h2⟩ | hm
  · simp [h1]
  · have hl := hm.len_eq
    have := isa.W_pos
    rw [if_neg (by omega)]
    unfold Table.nextOccupied
    rw [readCtl_ok hm (by omega)]
    simp only [bind_ok]
    have : (t.ctl pos).isAvailable = false := by
      rcases hp with e | ⟨_, e⟩
      · rw [e, hm.sent]; rfl
      · revert e; cases t.ctl pos <;> simp [Ctl.isAvailable, Ctl.isOccupied]
    simp [this]

theorem end_spec {isa : Isa} {hash : K → Nat} {t : Table K V} (h : Inv isa hash t) : t.end_ isa = .ok t.cap :=
  toIter_stay h (Or.inl rfl)

theorem toIter_spec {isa : Isa} {hash : K → Nat} {t : Table K V} (h : Inv isa hash t) {pos : Nat} (hp : pos ≤ t.cap) :
    Ends isa (t.toIter isa pos) (IsNext t pos) := by
  unfold Table.toIter
  rcases h.shape with ⟨h1, h2⟩ | hm
  · rw [if_pos h1]
    exact Ends.of_ok rfl ⟨Nat.le_refl _, hp, fun j h1 h2 => by omega, fun hh => by omega⟩
  · have hl := hm.len_eq
    have := isa.W_pos
    rw [if_neg (by omega)]
    exact nextOccupied_spec hm _ _ hp (by omega)

/-- Elements in the slots from `pos` on. -/
def Table.elemsFrom (t : Table K V) (pos : Nat) : List (K × V) :=
  ((List.range' pos (t.cap - pos)).filterMap t.node).map fun n => (n.key, n.val)

theorem elemsFrom_zero (t : Table K V) : t.elemsFrom 0 = t.contents := by
  simp [Table.elemsFrom, Table.contents, Table.nodes, collect, List.range_eq_range']

theorem elemsFrom_end (t : Table K V) {pos : Nat} (h : t.cap ≤ pos) : t.elemsFrom pos = [] := by
  simp [Table.elemsFrom, Nat.sub_eq_zero_of_le h]

theorem elemsFrom_step (t : Table K V) {pos : Nat} (h : pos < t.cap) :
    t.elemsFrom pos = ((t.node pos).toList.map fun n => (n.key, n.val)) ++ t.elemsFrom (pos + 1) := by
  unfold Table.elemsFrom
  rw [show t.cap - pos = (t.cap - (pos + 1)) + 1 by omega, List.range'_succ, List.filterMap_cons]
  cases t.node pos <;> simp

theorem elemsFrom_next {t : Table K V} (hlive : ∀ i, i < t.cap → (t.node i).isSome = (t.ctl i).isOccupied)
    {pos r : Nat} (h : IsNext t pos r) : t.elemsFrom pos = t.elemsFrom r := by
  obtain ⟨h1, h2, h3, h4⟩ := h
  clear h4
  obtain ⟨d, rfl⟩ : ∃ d, r = pos + d := ⟨r - pos, by omega⟩
  induction d with
  | zero => rfl
  | succ d ih =>
    rw [ih (by omega) (by omega) (fun j hj1 hj2 => h3 j hj1 (by omega)), elemsFrom_step t (by omega)]
    have := hlive (pos + d) (by omega)
    rw [h3 (pos + d) (by omega) (by omega)] at this
    cases hn : t.node (pos + d) with
    | none => simp; rfl
    | some x => rw [hn] at this; simp at this

theorem walk_spec {isa : Isa} {hash : K → Nat} {t : Table K V} (h : Inv isa hash t) :
    ∀ (fuel pos : Nat), pos ≤ t.cap → (pos < t.cap → (t.ctl pos).isOccupied = true) → t.cap - pos < fuel →
      Ends isa (t.walk isa fuel pos t.cap) (· = t.elemsFrom pos) := by
  intro fuel
  induction fuel with
  | zero => intro pos _ _ hf; omega
  | succ fuel ih =>
    intro pos hp ho hf
    unfold Table.walk
    by_cases hl : pos = t.cap
    · rw [if_pos hl]
      exact Ends.of_ok rfl (elemsFrom_end t (by omega)).symm
    · rw [if_neg hl]
      have hlt : pos < t.cap := by omega
      have hm := h.meta_ok (by omega)
      have hs := h.live pos hlt
      rw [ho hlt] at hs
      obtain ⟨n, hn⟩ := Option.isSome_iff_exists.mp hs
      rw [readNode_some hlt hn]
      simp only [bind_ok]
      refine (nextOccupied_spec hm (t.cap + 1) (pos + 1) (by omega) (by omega)).bind ?_
      intro r hr
      refine (ih r hr.2.1 hr.2.2.2 (by have := hr.1; omega)).bind ?_
      intro rest hrest
      refine Ends.of_ok rfl ?_
      rw [elemsFrom_step t hlt, hn, elemsFrom_next h.live hr, hrest]
      rfl

/-- Iterating from an iterator yields the elements in the slots from there on. -/
theorem iterateFrom_spec {isa : Isa} {hash : K → Nat} {t : Table K V} (h : Inv isa hash t) {pos : Nat} (hp : pos ≤ t.cap)
    (ho : pos < t.cap → (t.ctl pos).isOccupied = true) : Ends isa (t.iterateFrom isa pos) (· = t.elemsFrom pos) := by
  unfold Table.iterateFrom
  rw [end_spec h]
  simp only [bind_ok]
  exact walk_spec h _ _ hp ho (by omega)

/-- Iteration yields exactly the elements. -/
theorem iterate_spec {isa : Isa} {hash : K → Nat} {t : Table K V} (h : Inv isa hash t) :
    Ends isa (t.iterate isa) (· = t.contents) := by
  unfold Table.iterate Table.begin_
  refine (toIter_spec h (Nat.zero_le _)).bind ?_
  intro r hr
  refine (iterateFrom_spec h hr.2.1 hr.2.2.2).mono ?_
  intro l hl
  rw [hl, ← elemsFrom_next h.live hr, elemsFrom_zero]

/-! ### Erasure -/

/-- Erasing the element at `pos`, without the returned iterator. -/
theorem eraseNode_spec {isa : Isa} {hash : K → Nat} {t : Table K V} (h : Inv isa hash t) {pos : Nat} {n : Node K V}
    (hp : pos < t.cap) (hn : t.node pos = some n) :
    ∃ c, t.eraseNode isa pos = .ok { t with ctl := c, size := t.size - 1 } ∧
      (∀ i, i < t.cap → c i = if i = pos then .deleted else t.ctl i) ∧
      MetaOk isa t.cap t.len c ∧ 1 ≤ t.size := by
  have hm := h.meta_ok (by omega)
  have ho := h.live pos hp
  rw [hn] at ho
  have ho : (t.ctl pos).isOccupied = true := ho.symm
  have hsz : 1 ≤ t.size := by
    rw [h.size_eq]
    exact cnt_pos_of (p := fun i => (t.ctl i).isOccupied) hp ho
  obtain ⟨c, h1, h2, h3⟩ := setMetadata_spec (isa := isa) hm hp (v := .deleted) (by simp)
  unfold Table.eraseNode
  rw [if_pos hp, readCtl_ok hm (by omega)]
  simp only [bind_ok, ho, if_true]
  rw [h1]
  simp only [bind_ok]
  rw [if_pos hsz]
  exact ⟨c, rfl, h2, h3, hsz⟩

theorem doErase_inv {isa : Isa} {hash : K → Nat} {t : Table K V} (h : Inv isa hash t) {pos : Nat} {n : Node K V}
    (hp : pos < t.cap) (hn : t.node pos = some n) {c : Nat → Ctl}
    (hc : ∀ i, i < t.cap → c i = if i = pos then .deleted else t.ctl i) (hm' : MetaOk isa t.cap t.len c) :
    Inv isa hash { t with ctl := c, size := t.size - 1, node := upd t.node pos none } := by
  have hm := h.meta_ok (by omega)
  have ho := h.live pos hp
  rw [hn] at ho
  have ho : (t.ctl pos).isOccupied = true := ho.symm
  have hmono : ∀ i, i < t.cap → (c i).isEmpty = true → (t.ctl i).isEmpty = true := by
    intro i hi he
    rw [hc i hi] at he
    split at he
    · simp [Ctl.isEmpty] at he
    · exact he
  have hocc := cnt_update (p := fun j => (t.ctl j).isOccupied) (q := fun j => (c j).isOccupied) (n := t.cap) (i := pos)
    hp (by intro j hj hne; rw [hc j hj, if_neg hne])
  have hdel := cnt_update (p := fun j => (t.ctl j).isDeleted) (q := fun j => (c j).isDeleted) (n := t.cap) (i := pos)
    hp (by intro j hj hne; rw [hc j hj, if_neg hne])
  have e2 : (c pos).isOccupied = false := by rw [hc pos hp]; simp [Ctl.isOccupied]
  have e3 : (c pos).isDeleted = true := by rw [hc pos hp]; simp [Ctl.isDeleted]
  have e4 : (t.ctl pos).isDeleted = false := by
    revert ho; cases t.ctl pos <;> simp [Ctl.isOccupied, Ctl.isDeleted]
  simp only [ho, e2, if_true, Bool.false_eq_true, if_false] at hocc
  simp only [e3, e4, if_true, Bool.false_eq_true, if_false] at hdel
  have hsz := h.size_eq
  have hb := h.budget (by omega)
  have back : ∀ i x, upd t.node pos none i = some x → i ≠ pos ∧ t.node i = some x := by
    intro i x hx
    rw [upd_apply] at hx
    split at hx
    · cases hx
    · rename_i hne; exact ⟨hne, hx⟩
  refine ⟨Or.inr hm', ?_, ?_, ?_, ?_, ?_, ?_, ?_⟩
  · intro i hi
    show (upd t.node pos none i).isSome = (c i).isOccupied
    rw [upd_apply, hc i hi]
    split
    · rfl
    · exact h.live i hi
  · intro i hi x hx
    obtain ⟨h1, h2⟩ := back i x hx
    show c i = _
    rw [hc i hi, if_neg h1]
    exact h.tag i hi x h2
  · intro i hi x hx
    exact h.hash_ok i hi x (back i x hx).2
  · intro i hi j hj a b ha hb hk
    exact h.uniq i hi j hj a b (back i a ha).2 (back j b hb).2 hk
  · intro i hi x hx
    exact (h.reach i hi x (back i x hx).2).mono hm hm' hmono
  · show t.size - 1 = cnt (fun j => (c j).isOccupied) t.cap
    omega
  · intro _
    show t.numEmpty + (t.size - 1) + cnt (fun j => (c j).isDeleted) t.cap = maxSize isa t.cap
    omega

/-- `do_erase`: the element is gone, nothing else changed, and the returned iterator continues with the elements
after it. -/
theorem doErase_spec {isa : Isa} {hash : K → Nat} {t : Table K V} (h : Inv isa hash t) {pos : Nat} {n : Node K V}
    (hp : pos < t.cap) (hn : t.node pos = some n) :
    Ends isa (t.doErase isa pos) (fun r => Inv isa hash r.1 ∧ r.1.cap = t.cap ∧ r.1.size = t.size - 1 ∧
      (∀ i, r.1.node i = if i = pos then none else t.node i) ∧ t.nodes.Perm (n :: r.1.nodes) ∧
      IsNext r.1 pos r.2 ∧ r.1.numEmpty = t.numEmpty ∧ r.1.elemsFrom r.2 = t.elemsFrom (pos + 1)) := by
  obtain ⟨c, h1, h2, h3, _⟩ := eraseNode_spec h hp hn
  have hI := doErase_inv h hp hn h2 h3
  unfold Table.doErase
  rw [h1]
  simp only [bind_ok]
  have hlen := h3.len_eq
  have hit : Ends isa (Table.toIter isa { t with ctl := c, size := t.size - 1 } pos)
      (IsNext { t with ctl := c, size := t.size - 1, node := upd t.node pos none } pos) := by
    unfold Table.toIter
    have := isa.W_pos
    rw [if_neg (by simp only; omega)]
    exact nextOccupied_spec (t := { t with ctl := c, size := t.size - 1 }) h3 _ _ (by simp only; omega) (by simp only; omega)
  refine hit.bind ?_
  intro it hit
  have hd : Table.destroy { t with ctl := c, size := t.size - 1 } pos
      = .ok { t with ctl := c, size := t.size - 1, node := upd t.node pos none } := by
    simp [Table.destroy, hp, hn]
  rw [hd]
  simp only [bind_ok]
  refine Ends.of_ok rfl ⟨hI, rfl, rfl, fun i => upd_apply _ _ _ _, ?_, hit, rfl, ?_⟩
  · exact collect_fill hp (by simp) hn (fun j _ hne => (upd_ne _ _ hne).symm)
  · show Table.elemsFrom _ it = _
    rw [← elemsFrom_next hI.live hit, elemsFrom_step _ (by simp only; exact hp)]
    simp only [upd_same, Option.toList_none, List.map_nil, List.nil_append]
    unfold Table.elemsFrom
    simp only
    congr 1
    have : ∀ l : List Nat, (∀ j, j ∈ l → j ≠ pos) → l.filterMap (upd t.node pos none) = l.filterMap t.node := by
      intro l hl
      induction l with
      | nil => rfl
      | cons a l ih =>
        rw [List.filterMap_cons, List.filterMap_cons, upd_ne _ _ (hl a (by simp)),
          ih (fun j hj => hl j (by simp [hj]))]
    apply this
    intro j hj
    have := List.mem_range'.mp hj
    omega

/-! ### clear, reserve, rehash -/

theorem eraseNodes_spec {isa : Isa} {t : Table K V} (hm : t.cap = 0 ∨ MetaOk isa t.cap t.len t.ctl)
    (hlive : ∀ i, i < t.cap → (t.node i).isSome = (t.ctl i).isOccupied) :
    ∃ f, t.eraseNodes = .ok { t with node := f, size := 0 } ∧ ∀ i, i < t.cap → f i = none := by
  unfold Table.eraseNodes
  obtain ⟨s, h1, f, h2, h3, h4⟩ := foldlM_range
    (f := fun (t : Table K V) i => do
      let c ← t.readCtl i
      if c.isOccupied then t.destroy i else .ok t)
    (fun i (s : Table K V) => ∃ f, s = { t with node := f } ∧ (∀ j, j < i → f j = none) ∧ ∀ j, i ≤ j → f j = t.node j)
    t.cap (s := t) ⟨t.node, rfl, fun j hj => by omega, fun _ _ => rfl⟩ (by
      rintro i hi s ⟨f, rfl, hf1, hf2⟩
      have hm : MetaOk isa t.cap t.len t.ctl := by
        rcases hm with h | h
        · omega
        · exact h
      rw [readCtl_ok (isa := isa) (t := { t with node := f }) hm (by simp only; omega)]
      simp only [bind_ok]
      have hl := hlive i hi
      cases hn : t.node i with
      | some x =>
        rw [hn] at hl
        have hl : (t.ctl i).isOccupied = true := hl.symm
        simp only [hl, if_true, Table.destroy, hi, hf2 i (Nat.le_refl _), hn]
        refine ⟨_, rfl, upd f i none, rfl, ?_, ?_⟩
        · intro j hj
          rw [upd_apply]
          split
          · rfl
          · exact hf1 j (by omega)
        · intro j hj
          rw [upd_ne _ _ (by omega)]
          exact hf2 j (by omega)
      | none =>
        rw [hn] at hl
        have hl : (t.ctl i).isOccupied = false := hl.symm
        simp only [hl, Bool.false_eq_true, if_false]
        refine ⟨_, rfl, f, rfl, ?_, fun j hj => hf2 j (by omega)⟩
        intro j hj
        by_cases e : j = i
        · subst e; rw [hf2 j (Nat.le_refl _), hn]
        · exact hf1 j (by omega))
  rw [h1]
  subst h2
  exact ⟨f, rfl, h3⟩

/-- A table whose control bytes were all reset and whose nodes are all destroyed. -/
theorem fresh_inv {isa : Isa} {hash : K → Nat} {t : Table K V} {m : Nat} (hm : t.cap + 1 = 2 ^ m)
    (hl : t.len = t.cap + isa.W) (hc : t.ctl = fillEmpty t.cap) (hn : ∀ i, i < t.cap → t.node i = none)
    (hs : t.size = 0) (he : t.numEmpty = maxSize isa t.cap) : Inv isa hash t := by
  have hne : ∀ i, i < t.cap → t.ctl i = .empty := by
    intro i hi; rw [hc]; simp [fillEmpty]; omega
  have hmd : MetaOk isa t.cap t.len t.ctl := by rw [hl, hc]; exact MetaOk.fill isa hm
  refine ⟨Or.inr hmd, ?_, ?_, ?_, ?_, ?_, ?_, ?_⟩
  · intro i hi; rw [hne i hi, hn i hi]; rfl
  · intro i hi x hx; rw [hn i hi] at hx; cases hx
  · intro i hi x hx; rw [hn i hi] at hx; cases hx
  · intro i hi j hj a b ha; rw [hn i hi] at ha; cases ha
  · intro i hi x hx; rw [hn i hi] at hx; cases hx
  · rw [hs]; exact (cnt_eq_zero (fun i hi => by rw [hne i hi]; rfl)).symm
  · intro _; rw [hs, he, cnt_eq_zero (fun i hi => by rw [hne i hi]; rfl)]; omega

/-- `clear` leaves an empty table with the same buckets. -/
theorem clear_spec {isa : Isa} {hash : K → Nat} {t : Table K V} (h : Inv isa hash t) :
    ∃ t', t.clear isa = .ok t' ∧ Inv isa hash t' ∧ t'.cap = t.cap ∧ t'.size = 0 ∧ t'.contents = [] ∧
      (NoTomb t → NoTomb t') := by
  unfold Table.clear
  by_cases hz : t.size = 0
  · rw [if_neg (by simp [hz])]
    refine ⟨t, rfl, h, rfl, hz, ?_, id⟩
    have := h.nodes_length
    rw [hz] at this
    rw [Table.contents, List.length_eq_zero_iff.mp this]; rfl
  · rw [if_pos hz]
    have hc : 0 < t.cap := by
      rcases Nat.eq_zero_or_pos t.cap with h0 | h0
      · have := h.size_eq; rw [h0, cnt] at this; omega
      · exact h0
    have hm := h.meta_ok hc
    obtain ⟨f, h1, h2⟩ := eraseNodes_spec (isa := isa) (Or.inr hm) h.live
    rw [h1]
    simp only [bind_ok, Table.fill]
    rw [if_pos (Nat.le_of_eq hm.len_eq.symm)]
    simp only [bind_ok]
    obtain ⟨m, hp⟩ := hm.pow
    refine ⟨_, rfl, fresh_inv hp hm.len_eq rfl h2 rfl rfl, rfl, rfl, ?_, ?_⟩
    rotate_left
    · intro _ i hi e
      have e' : fillEmpty t.cap i = .deleted := e
      have hi' : i < t.cap := hi
      rw [fillEmpty, if_neg (by omega)] at e'
      cases e'
    show List.map _ (collect f t.cap) = []
    rw [collect_none h2]; rfl

theorem alignCapacity_pow (n : Nat) : ∃ m, alignCapacity n + 1 = 2 ^ m ∧ 1 ≤ m := by
  unfold alignCapacity
  split
  · exact ⟨1, rfl, by omega⟩
  · refine ⟨Nat.log2 n + 1, ?_, by omega⟩
    have := Nat.two_pow_pos (Nat.log2 n + 1)
    omega

theorem le_alignCapacity (n : Nat) : n ≤ alignCapacity n := by
  unfold alignCapacity
  split
  · omega
  · have : n < 2 ^ (Nat.log2 n + 1) := Nat.lt_log2_self
    omega

/-- The capacity computed for `n` elements can hold `n` elements. -/
theorem reserve_fits (isa : Isa) (n : Nat) : n ≤ maxSize isa (alignCapacity (minCapacity isa n)) := by
  have h1 := le_alignCapacity (minCapacity isa n)
  generalize alignCapacity (minCapacity isa n) = c at *
  revert h1
  unfold minCapacity maxSize
  split <;> split <;> omega

/-- A table without a buffer has no budget left over from an earlier buffer. -/
def Settled (t : Table K V) : Prop := t.cap = 0 → t.numEmpty = 0

/-- `reserve` keeps exactly the elements and makes room for `n`. -/
theorem reserve_spec {isa : Isa} {hash : K → Nat} {t : Table K V} (h : Inv isa hash t) (n : Nat) :
    ∃ t', t.reserve isa n = .ok t' ∧ Inv isa hash t' ∧ t'.size = t.size ∧ t'.nodes.Perm t.nodes ∧
      n ≤ t'.size + t'.numEmpty ∧ (Settled t → Settled t' ∧ (0 < n → 0 < t'.cap)) ∧
      (NoTomb t → NoTomb t') := by
  unfold Table.reserve
  by_cases hn : n > t.size + t.numEmpty
  · rw [if_pos hn]
    obtain ⟨m, hm, hm1⟩ := alignCapacity_pow (minCapacity isa n)
    have hf := reserve_fits isa n
    obtain ⟨t', h1, h2, h3, h4, h5, h6, h7⟩ := doRehash_spec h hm (by omega)
    have : 0 < t'.cap := by
      have : 2 ^ 1 ≤ 2 ^ m := Nat.pow_le_pow_right (by omega) hm1
      omega
    exact ⟨t', h1, h2, h4, h6, by omega, fun _ => ⟨fun h0 => by omega, fun _ => this⟩,
      fun _ => noTomb_of h3 h7⟩
  · rw [if_neg hn]
    refine ⟨t, rfl, h, rfl, List.Perm.refl _, by omega, fun hs => ⟨hs, fun h0 => ?_⟩, id⟩
    rcases Nat.eq_zero_or_pos t.cap with hc | hc
    · have h1 := h.size_eq
      have h2 := hs hc
      rw [hc, cnt] at h1
      omega
    · exact hc

/-- `rehash(n)` with `n > 0` keeps exactly the elements. -/
theorem rehash_spec {isa : Isa} {hash : K → Nat} {t : Table K V} (h : Inv isa hash t) {n : Nat} (hn : n ≠ 0) :
    ∃ t', t.rehash isa n = .ok t' ∧ Inv isa hash t' ∧ t'.size = t.size ∧ t'.nodes.Perm t.nodes ∧
      t.cap ≤ t'.cap ∧ n ≤ t'.cap ∧ (NoTomb t → NoTomb t') := by
  unfold Table.rehash
  rw [if_neg (by simp [hn])]
  have hle : n ≤ alignCapacity (n ||| minCapacity isa n) :=
    Nat.le_trans Nat.left_le_or (le_alignCapacity _)
  obtain ⟨m, hm, _⟩ := alignCapacity_pow (n ||| minCapacity isa n)
  simp only
  by_cases hc : n = 0 ∨ alignCapacity (n ||| minCapacity isa n) > t.cap
  · rw [if_pos hc]
    have hgt : t.cap < alignCapacity (n ||| minCapacity isa n) := by
      rcases hc with h0 | h0
      · exact absurd h0 hn
      · exact h0
    have hsz := h.size_le
    obtain ⟨m0, hm0⟩ := h.pow
    obtain ⟨t', h1, h2, h3, h4, h5, h6, h7⟩ := doRehash_spec h hm (by
      revert hsz hgt
      generalize alignCapacity (n ||| minCapacity isa n) = c
      unfold maxSize
      split <;> split <;> omega)
    exact ⟨t', h1, h2, h4, h6, by omega, by omega, fun _ => noTomb_of h3 h7⟩
  · rw [if_neg hc]
    refine ⟨t, rfl, h, rfl, List.Perm.refl _, Nat.le_refl _, ?_, id⟩
    omega

end Tpp.Swiss
