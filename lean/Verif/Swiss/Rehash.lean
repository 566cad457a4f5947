import Verif.Swiss.Inv

/-!
# Placing an element, `do_rehash` and `rehash_deleted`
-/

set_option linter.unusedSectionVars false

namespace Tpp.Swiss

variable {K V : Type} [DecidableEq K]

/-- A byte of the array is a slot byte (in both arrays the byte of the same slot), or is never changed. -/
theorem byte_cases {isa : Isa} {cap len len' : Nat} {ctl c : Nat → Ctl} (h : MetaOk isa cap len ctl)
    (h' : MetaOk isa cap len' c) {q : Nat} (hq : q < cap + isa.W) :
    (∃ i, i < cap ∧ c q = c i ∧ ctl q = ctl i) ∨ c q = ctl q := by
  rcases Nat.lt_trichotomy q cap with hlt | heq | hgt
  · exact Or.inl ⟨q, hlt, rfl, rfl⟩
  · right; rw [heq, h.sent, h'.sent]
  · have e1 := h.tail q hgt hq
    have e2 := h'.tail q hgt hq
    by_cases hl : q - (cap + 1) < cap
    · left
      rw [if_pos hl] at e1 e2
      exact ⟨_, hl, e2, e1⟩
    · right
      rw [if_neg hl] at e1 e2
      rw [e1, e2]

/-- If no slot newly satisfies `P`, windows without `P` stay so. -/
theorem NoneIn.mono {isa : Isa} {cap len len' : Nat} {ctl c : Nat → Ctl} (h : MetaOk isa cap len ctl)
    (h' : MetaOk isa cap len' c) {P : Ctl → Bool} (hP : ∀ i, i < cap → P (c i) = true → P (ctl i) = true)
    {q : Nat} (hq : q ≤ cap) (hn : NoneIn isa ctl P q) : NoneIn isa c P q := by
  intro j hj
  have := hn j hj
  rcases byte_cases h h' (q := q + j) (by omega) with ⟨i, hi, e1, e2⟩ | e
  · rw [e1]
    rw [e2] at this
    by_contra hc
    rw [hP i hi (by simpa using hc)] at this
    exact absurd this (by simp)
  · rw [e]; exact this

theorem Reach.mono {isa : Isa} {cap len len' : Nat} {ctl c : Nat → Ctl} (h : MetaOk isa cap len ctl)
    (h' : MetaOk isa cap len' c) {P : Ctl → Bool} (hP : ∀ i, i < cap → P (c i) = true → P (ctl i) = true)
    {p i : Nat} (hr : Reach isa cap ctl P p i) : Reach isa cap c P p i := by
  obtain ⟨s, h1, h2⟩ := hr
  exact ⟨s, h1, fun s' hs' => (h2 s' hs').mono h h' hP (wpos_le isa cap p s')⟩

theorem Reach.weaken {isa : Isa} {cap : Nat} {ctl : Nat → Ctl} {P Q : Ctl → Bool}
    (hPQ : ∀ c, Q c = true → P c = true) {p i : Nat} (hr : Reach isa cap ctl P p i) : Reach isa cap ctl Q p i := by
  obtain ⟨s, h1, h2⟩ := hr
  refine ⟨s, h1, fun s' hs' j hj => ?_⟩
  have := h2 s' hs' j hj
  by_contra hc
  rw [hPQ _ (by simpa using hc)] at this
  exact absurd this (by simp)

theorem empty_available (c : Ctl) (h : c.isEmpty = true) : c.isAvailable = true := by
  cases c <;> simp_all [Ctl.isEmpty, Ctl.isAvailable]

/-- The part of the invariant that does not mention the counters. -/
structure Core (isa : Isa) (hash : K → Nat) (t : Table K V) : Prop where
  md : MetaOk isa t.cap t.len t.ctl
  live : ∀ i, i < t.cap → (t.node i).isSome = (t.ctl i).isOccupied
  tag : ∀ i, i < t.cap → ∀ n, t.node i = some n → t.ctl i = .full (hashLo n.hash)
  hash_ok : ∀ i, i < t.cap → ∀ n, t.node i = some n → n.hash = hash n.key
  uniq : ∀ i, i < t.cap → ∀ j, j < t.cap → ∀ a b, t.node i = some a → t.node j = some b → a.key = b.key → i = j
  reach : ∀ i, i < t.cap → ∀ n, t.node i = some n → Reach isa t.cap t.ctl (·.isEmpty) (hashHi n.hash) i

theorem Inv.core {isa : Isa} {hash : K → Nat} {t : Table K V} (h : Inv isa hash t) (hc : 0 < t.cap) :
    Core isa hash t :=
  ⟨h.meta_ok hc, h.live, h.tag, h.hash_ok, h.uniq, h.reach⟩

theorem Core.inv {isa : Isa} {hash : K → Nat} {t : Table K V} (h : Core isa hash t)
    (h1 : t.size = cnt (fun i => (t.ctl i).isOccupied) t.cap)
    (h2 : t.numEmpty + t.size + cnt (fun i => (t.ctl i).isDeleted) t.cap = maxSize isa t.cap) : Inv isa hash t :=
  ⟨Or.inr h.md, h.live, h.tag, h.hash_ok, h.uniq, h.reach, h1, fun _ => h2⟩

/-- Constructing an element at an available slot its probe leads to. -/
theorem Core.place {isa : Isa} {hash : K → Nat} {t : Table K V} (h : Core isa hash t) {n : Node K V} {target : Nat}
    (ht : target < t.cap) (hav : (t.ctl target).isAvailable = true) (hh : n.hash = hash n.key)
    (hfresh : ∀ i, i < t.cap → ∀ m, t.node i = some m → m.key ≠ n.key)
    (hreach : Reach isa t.cap t.ctl (·.isEmpty) (hashHi n.hash) target) :
    t.node target = none ∧
    t.construct target n = .ok { t with node := upd t.node target (some n) } ∧
    ∀ ne, ∃ c, Table.setMetadata isa { t with node := upd t.node target (some n), numEmpty := ne } target
        (.full (hashLo n.hash)) = .ok { t with node := upd t.node target (some n), numEmpty := ne, ctl := c } ∧
      (∀ i, i < t.cap → c i = if i = target then .full (hashLo n.hash) else t.ctl i) ∧
      Core isa hash { t with node := upd t.node target (some n), numEmpty := ne, ctl := c } := by
  have hraw : t.node target = none := by
    have := h.live target ht
    cases hn : t.node target with
    | none => rfl
    | some m =>
      rw [hn] at this
      revert this hav
      cases t.ctl target <;> simp [Ctl.isAvailable, Ctl.isOccupied]
  refine ⟨hraw, by simp [Table.construct, ht, hraw], fun ne => ?_⟩
  obtain ⟨c, h1, h2, h3⟩ := setMetadata_spec (isa := isa)
    (t := { t with node := upd t.node target (some n), numEmpty := ne }) h.md ht (v := .full (hashLo n.hash)) (by simp)
  refine ⟨c, h1, h2, ?_⟩
  have hmono : ∀ i, i < t.cap → (c i).isEmpty = true → (t.ctl i).isEmpty = true := by
    intro i hi he
    rw [h2 i hi] at he
    split at he
    · simp [Ctl.isEmpty] at he
    · exact he
  constructor
  · exact h3
  · intro i hi
    show (upd t.node target (some n) i).isSome = (c i).isOccupied
    rw [h2 i hi, upd_apply]
    split
    · simp [Ctl.isOccupied]
    · exact h.live i hi
  · intro i hi m hm
    show c i = _
    change upd t.node target (some n) i = some m at hm
    rw [h2 i hi]
    rw [upd_apply] at hm
    split at hm
    · rename_i e; simp only [e, if_true]; cases hm; rfl
    · rename_i e; simp only [e, if_false]; exact h.tag i hi m hm
  · intro i hi m hm
    change upd t.node target (some n) i = some m at hm
    rw [upd_apply] at hm
    split at hm
    · cases hm; exact hh
    · exact h.hash_ok i hi m hm
  · intro i hi j hj a b ha hb hk
    change upd t.node target (some n) i = some a at ha
    change upd t.node target (some n) j = some b at hb
    rw [upd_apply] at ha hb
    split at ha <;> split at hb
    · omega
    · cases ha; exact absurd hk.symm (hfresh j hj b hb)
    · cases hb; exact absurd hk (hfresh i hi a ha)
    · exact h.uniq i hi j hj a b ha hb hk
  · intro i hi m hm
    change upd t.node target (some n) i = some m at hm
    rw [upd_apply] at hm
    split at hm
    · rename_i e; subst e; cases hm; exact hreach.mono h.md h3 hmono
    · exact (h.reach i hi m hm).mono h.md h3 hmono

/-- What `do_rehash` has built after relocating the slots below `i`. -/
structure Moved (isa : Isa) (hash : K → Nat) (src : Table K V) (n i : Nat) (dst : Table K V) : Prop where
  cap_eq : dst.cap = n
  size_eq : dst.size = src.size
  core : Core isa hash dst
  clean : ∀ j, j < n → (dst.ctl j).isDeleted = false
  count : cnt (fun j => (dst.ctl j).isOccupied) n = cnt (fun j => (src.ctl j).isOccupied) i
  nodes : (collect dst.node n).Perm (collect src.node i)

theorem findAvailable_place {isa : Isa} {t : Table K V} (h : MetaOk isa t.cap t.len t.ctl) (hh : Nat)
    (hex : ∃ i, i < t.cap ∧ (t.ctl i).isAvailable = true) :
    ∃ target, t.findAvailable isa hh = .ok target ∧ target < t.cap ∧ (t.ctl target).isAvailable = true ∧
      Reach isa t.cap t.ctl (·.isAvailable) (hashHi hh) target := by
  obtain ⟨i, hi, hai⟩ := hex
  obtain ⟨target, h1, h2, h3, h4, s, h5, h6⟩ :=
    findAvailable_spec h hh (h.hasStep_of_slot (P := (·.isAvailable)) hi hai (hashHi hh))
  have hlt := h4 ⟨i, hi, hai⟩
  exact ⟨target, h1, hlt, h3 hlt, s, h5 hlt, h6⟩

/-- The table `do_rehash` starts with: a new buffer with the old counters. -/
def Table.grown (isa : Isa) (t : Table K V) (n : Nat) : Table K V :=
  { cap := n, len := n + isa.W, ctl := fillEmpty n, node := fun _ => none, size := t.size,
    numEmpty := t.numEmpty, log := .grow n :: t.log }

/-- The relocation loop of `do_rehash` after the first `q` slots. -/
theorem relocOne_prefix {isa : Isa} {hash : K → Nat} {t : Table K V} (h : Inv isa hash t) {n m : Nat}
    (hn : n + 1 = 2 ^ m) (hsz : t.size ≤ maxSize isa n) {q : Nat} (hq : q ≤ t.cap) :
    ∃ p, (List.range q).foldlM (Table.relocOne isa) (t, t.grown isa n) = .ok p ∧
      p.1 = { t with node := fun j => if j < q then none else t.node j } ∧ Moved isa hash t n q p.2 := by
  unfold Table.grown
  have hbase : Moved isa hash t n 0
      { cap := n, len := n + isa.W, ctl := fillEmpty n, node := fun _ => none, size := t.size,
        numEmpty := t.numEmpty, log := .grow n :: t.log } := by
    have hne : ∀ i, i < n → fillEmpty n i = .empty := by
      intro i hi; simp [fillEmpty]; omega
    refine ⟨rfl, rfl, ⟨MetaOk.fill isa hn, ?_, ?_, ?_, ?_, ?_⟩, ?_, ?_, ?_⟩
    · intro i hi; simp only at hi ⊢; rw [hne i hi]; rfl
    · intro i hi m hm; simp at hm
    · intro i hi m hm; simp at hm
    · intro i hi j hj a b hm; simp at hm
    · intro i hi m hm; simp at hm
    · intro i hi; simp only; rw [hne i hi]; rfl
    · simp only [cnt]
      apply cnt_eq_zero
      intro i hi; rw [hne i hi]; rfl
    · rw [collect_none (fun _ _ => rfl)]; exact List.Perm.refl _
  exact foldlM_range (f := Table.relocOne isa)
      (fun i p => p.1 = { t with node := fun j => if j < i then none else t.node j } ∧ Moved isa hash t n i p.2) q
      (s := (t, _)) ⟨by simp, hbase⟩ (by
    rintro i hi ⟨src, dst⟩ ⟨hsrc, hd⟩
    have hi : i < t.cap := by omega
    simp only at hsrc hd
    subst hsrc
    have hm := h.meta_ok (by omega)
    unfold Table.relocOne
    rw [show Table.readCtl ({ t with node := fun j => if j < i then none else t.node j } : Table K V) i = t.readCtl i from rfl,
      readCtl_ok hm (by omega)]
    simp only [bind_ok]
    by_cases ho : (t.ctl i).isOccupied = true
    · have hl := h.live i hi
      rw [ho] at hl
      obtain ⟨nd, hnd⟩ := Option.isSome_iff_exists.mp hl
      simp only [ho, if_true]
      have hnd' : ({ t with node := fun j => if j < i then none else t.node j } : Table K V).node i = some nd := by
        show (if i < i then none else t.node i) = _
        rw [if_neg (Nat.lt_irrefl i), hnd]
      rw [readNode_some (t := { t with node := fun j => if j < i then none else t.node j }) hi hnd']
      simp only [bind_ok]
      have hdes : Table.destroy ({ t with node := fun j => if j < i then none else t.node j } : Table K V) i =
          .ok { t with node := fun j => if j < i + 1 then none else t.node j } := by
        unfold Table.destroy
        rw [if_pos (show i < t.cap from hi), hnd']
        simp only
        congr 2
        funext j
        simp only [upd_apply]
        by_cases hj : j = i
        · rw [if_pos hj, if_pos (by omega)]
        · rw [if_neg hj]
          by_cases hj' : j < i
          · rw [if_pos hj', if_pos (by omega)]
          · rw [if_neg hj', if_neg (by omega)]
      -- a slot is available
      have htot := hd.core.md.total
      have hcap := hd.cap_eq
      have hcnt := hd.count
      have hlt : cnt (fun j => (t.ctl j).isOccupied) i < t.size := by
        rw [h.size_eq]
        have hmon : ∀ k, i + 1 ≤ k → cnt (fun j => (t.ctl j).isOccupied) (i + 1) ≤ cnt (fun j => (t.ctl j).isOccupied) k := by
          intro k hk
          induction k with
          | zero => omega
          | succ k ih =>
            rcases Nat.lt_or_ge i k with hh | hh
            · have := ih (by omega)
              simp only [cnt] at this ⊢
              omega
            · have : k = i := by omega
              subst this; exact Nat.le_refl _
        have := hmon t.cap hi
        simp only [cnt, ho, if_true] at this
        omega
      have hmx := maxSize_le isa n
      obtain ⟨e, he, hep⟩ := cnt_pos (p := fun j => (dst.ctl j).isEmpty) (n := dst.cap) (by
        have hz : cnt (fun j => (dst.ctl j).isDeleted) dst.cap = 0 :=
          cnt_eq_zero (fun j hj => hd.clean j (by omega))
        rw [hz, hcap] at htot
        rw [hcap]
        omega)
      obtain ⟨target, hf, htl, hta, htr⟩ :=
        findAvailable_place hd.core.md nd.hash ⟨e, he, empty_available _ hep⟩
      rw [hf]
      simp only [bind_ok]
      have hfresh : ∀ j, j < dst.cap → ∀ x, dst.node j = some x → x.key ≠ nd.key := by
        intro j hj x hx hk
        have hmem : x ∈ collect dst.node n := mem_collect.mpr ⟨j, by omega, hx⟩
        obtain ⟨j', hj', hx'⟩ := mem_collect.mp (hd.nodes.mem_iff.mp hmem)
        have := h.uniq j' (by omega) i hi x nd hx' hnd hk
        omega
      obtain ⟨hraw, hcons, hset⟩ := hd.core.place htl hta (h.hash_ok i hi nd hnd) hfresh
        (htr.weaken empty_available)
      obtain ⟨c, hs1, hs2, hs3⟩ := hset dst.numEmpty
      rw [hcons]
      simp only [bind_ok]
      rw [hdes]
      simp only [bind_ok]
      rw [show ({ dst with node := upd dst.node target (some nd) } : Table K V)
        = { dst with node := upd dst.node target (some nd), numEmpty := dst.numEmpty } from rfl, hs1]
      refine ⟨_, rfl, rfl, ?_⟩
      refine ⟨hcap, hd.size_eq, ⟨hs3.md, hs3.live, hs3.tag, hs3.hash_ok, hs3.uniq, hs3.reach⟩, ?_, ?_, ?_⟩
      · intro j hj
        show (c j).isDeleted = false
        rw [hs2 j (by omega)]
        split
        · rfl
        · exact hd.clean j hj
      · show cnt (fun j => (c j).isOccupied) n = _
        have := cnt_update (p := fun j => (dst.ctl j).isOccupied) (q := fun j => (c j).isOccupied) (n := n) (i := target)
          (by omega) (by intro j hj hne; rw [hs2 j (by omega), if_neg hne])
        have e1 : (dst.ctl target).isOccupied = false := by
          revert hta; cases dst.ctl target <;> simp [Ctl.isAvailable, Ctl.isOccupied]
        have e2 : (c target).isOccupied = true := by rw [hs2 target htl]; simp [Ctl.isOccupied]
        simp only [e1, e2, if_true] at this
        simp only [cnt, ho, if_true]
        simp only [Bool.false_eq_true, if_false] at this
        omega
      · show (collect (upd dst.node target (some nd)) n).Perm _
        rw [collect_succ, hnd]
        have := collect_fill (f := dst.node) (g := upd dst.node target (some nd)) (n := n) (i := target) (a := nd)
          (by omega) hraw (by simp) (fun j _ hne => upd_ne _ _ hne)
        refine this.trans ((hd.nodes.cons nd).trans ?_)
        simpa using (List.perm_append_singleton nd (collect t.node i)).symm
    · simp only [ho]
      refine ⟨_, rfl, ?_, hd.cap_eq, hd.size_eq, hd.core, hd.clean, ?_, ?_⟩
      · simp only
        congr 1
        funext j
        by_cases hj' : j < i
        · rw [if_pos hj', if_pos (by omega)]
        · rw [if_neg hj']
          split
          · rename_i hj
            have : j = i := by omega
            subst this
            have hl := h.live j hi
            cases hx : t.node j with
            | none => rfl
            | some x => rw [hx] at hl; exact absurd hl.symm ho
          · rfl
      · simp only [cnt, ho]; exact hd.count
      · have hl := h.live i hi
        have : t.node i = none := by
          cases hx : t.node i with
          | none => rfl
          | some x => rw [hx] at hl; exact absurd hl.symm ho
        rw [collect_succ, this]
        simpa using hd.nodes)

/-- `do_rehash` to any power-of-two bucket count that can hold the elements keeps exactly the elements. -/
theorem doRehash_spec {isa : Isa} {hash : K → Nat} {t : Table K V} (h : Inv isa hash t) {n m : Nat}
    (hn : n + 1 = 2 ^ m) (hsz : t.size ≤ maxSize isa n) :
    ∃ t', t.doRehash isa n = .ok t' ∧ Inv isa hash t' ∧ t'.cap = n ∧ t'.size = t.size ∧
      t'.numEmpty = maxSize isa n - t.size ∧ (t'.nodes).Perm t.nodes ∧
      (∀ j, j < n → (t'.ctl j).isDeleted = false) := by
  unfold Table.doRehash
  simp only
  obtain ⟨⟨src, t1⟩, hrun, hsrc, hM⟩ := relocOne_prefix h hn hsz (Nat.le_refl t.cap)
  unfold Table.grown at hrun
  rw [hrun]
  simp only at hsrc hM
  subst hsrc
  simp only [bind_ok]
  have hdrop : ∃ s, Table.dropBuffer ({ t with node := fun j => if j < t.cap then none else t.node j } : Table K V) = .ok s := by
    unfold Table.dropBuffer
    rw [if_pos]
    · exact ⟨_, rfl⟩
    · rw [List.all_eq_true]
      intro i hi
      show (if i < t.cap then none else t.node i).isNone = true
      rw [if_pos (by simpa using hi)]
      rfl
  obtain ⟨s, hs⟩ := hdrop
  rw [hs]
  simp only [bind_ok, hsz, if_true]
  refine ⟨_, rfl, ?_, hM.cap_eq, hM.size_eq, rfl, ?_, hM.clean⟩
  · have hz : cnt (fun j => (t1.ctl j).isDeleted) t1.cap = 0 :=
      cnt_eq_zero (fun j hj => hM.clean j (by rw [← hM.cap_eq]; exact hj))
    have c : Core isa hash { t1 with numEmpty := maxSize isa n - t.size } :=
      ⟨hM.core.md, hM.core.live, hM.core.tag, hM.core.hash_ok, hM.core.uniq, hM.core.reach⟩
    refine c.inv ?_ ?_
    · show t1.size = cnt _ t1.cap
      rw [hM.size_eq, hM.cap_eq, hM.count]; exact h.size_eq
    · show maxSize isa n - t.size + t1.size + cnt _ t1.cap = maxSize isa t1.cap
      rw [hz, hM.size_eq, hM.cap_eq]; omega
  · show (collect t1.node t1.cap).Perm _
    rw [hM.cap_eq]; exact hM.nodes

/-! ### `rehash_deleted` -/

/-- With at least one full block, windows and `block_idx` agree. -/
theorem inWin_iff_block {isa : Isa} {cap m' : Nat} (hN : cap + 1 = 2 ^ m' * isa.W) (p s : Nat) {x : Nat} (hx : x ≤ cap) :
    InWin isa cap (wpos isa cap p s) x ↔ cdist (cap + 1) (p % (cap + 1)) x / isa.W = tri s % 2 ^ m' := by
  have hW : 0 < isa.W := by have := isa.W_pos; omega
  have hp := Nat.mod_lt p (show 0 < cap + 1 by omega)
  unfold InWin wpos
  rw [probePos_eq hp]
  generalize p % (cap + 1) = p at *
  have hoff : (tri s * isa.W) % (cap + 1) = tri s % 2 ^ m' * isa.W := by rw [hN, Nat.mul_mod_mul_right]
  have hx' : (p + tri s * isa.W) % (cap + 1) = (p + tri s % 2 ^ m' * isa.W) % (cap + 1) := by
    rw [Nat.add_mod, hoff, Nat.mod_eq_of_lt hp]
  rw [hx']
  have hr : tri s % 2 ^ m' < 2 ^ m' := Nat.mod_lt _ (Nat.two_pow_pos m')
  generalize tri s % 2 ^ m' = r at *
  have hrW : (r + 1) * isa.W ≤ cap + 1 := by rw [hN]; exact Nat.mul_le_mul_right _ hr
  rw [Nat.add_mul, Nat.one_mul] at hrW
  rw [Nat.div_eq_iff hW]
  generalize r * isa.W = q at *
  have hpq : (p + q < cap + 1 ∧ (p + q) % (cap + 1) = p + q) ∨ (cap + 1 ≤ p + q ∧ (p + q) % (cap + 1) = p + q - (cap + 1)) := by
    rcases Nat.lt_or_ge (p + q) (cap + 1) with h | h
    · left; exact ⟨h, Nat.mod_eq_of_lt h⟩
    · right
      refine ⟨h, ?_⟩
      rw [Nat.mod_eq_sub_mod h, Nat.mod_eq_of_lt (by omega)]
  have hlt : (p + q) % (cap + 1) < cap + 1 := Nat.mod_lt _ (by omega)
  rcases cdist_cases hp (show x < cap + 1 by omega) with ⟨a1, a2⟩ | ⟨a1, a2⟩ <;>
  rcases cdist_cases hlt (show x < cap + 1 by omega) with ⟨b1, b2⟩ | ⟨b1, b2⟩ <;>
  rcases hpq with ⟨c1, c2⟩ | ⟨c1, c2⟩ <;> omega

theorem blockIdx_eq {isa : Isa} {cap m : Nat} (hm : cap + 1 = 2 ^ m) (p x : Nat) :
    Table.blockIdx isa cap p x = cdist (cap + 1) (p % (cap + 1)) x / isa.W := by
  unfold Table.blockIdx cdist
  rw [land_pow hm, land_pow hm]

/-- What holds between the iterations of the second loop of `rehash_deleted`; slots below `i` are final. -/
structure Reclaim (isa : Isa) (hash : K → Nat) (src : Table K V) (i : Nat) (t : Table K V) : Prop where
  cap_eq : t.cap = src.cap
  size_eq : t.size = src.size
  md : MetaOk isa t.cap t.len t.ctl
  live : ∀ j, j < t.cap → (t.node j).isSome = !(t.ctl j).isEmpty
  tag : ∀ j, j < t.cap → ∀ n, t.node j = some n → ∀ g, t.ctl j = .full g → g = hashLo n.hash
  hash_ok : ∀ j, j < t.cap → ∀ n, t.node j = some n → n.hash = hash n.key
  uniq : ∀ a, a < t.cap → ∀ b, b < t.cap → ∀ x y, t.node a = some x → t.node b = some y → x.key = y.key → a = b
  reach : ∀ j, j < t.cap → (t.ctl j).isOccupied = true → ∀ n, t.node j = some n →
    Reach isa t.cap t.ctl (·.isAvailable) (hashHi n.hash) j
  done : ∀ j, j < i → j < t.cap → t.ctl j ≠ .deleted
  nodes : (collect t.node t.cap).Perm src.nodes

theorem deleted_available (c : Ctl) (h : c = .deleted) : c.isAvailable = true := by subst h; rfl

/-- One swap with an element that is still to be placed keeps the loop invariant, and one slot fewer is marked. -/
theorem Reclaim.swap {isa : Isa} {hash : K → Nat} {src t : Table K V} {i : Nat} (h : Reclaim isa hash src i t)
    (hic : i < t.cap) (hdel : t.ctl i = .deleted) {n x' : Node K V} (hn : t.node i = some n) {target : Nat} (htl : target < t.cap)
    (htd : t.ctl target = .deleted) (htr : Reach isa t.cap t.ctl (·.isAvailable) (hashHi n.hash) target)
    (hne : target ≠ i) (hx' : t.node target = some x') :
    ∃ d, Table.setMetadata isa { t with node := upd (upd t.node i (some x')) target (some n), log := .swp i target :: t.log } target
        (.full (hashLo n.hash)) = .ok { t with node := upd (upd t.node i (some x')) target (some n), log := .swp i target :: t.log, ctl := d } ∧
      Reclaim isa hash src i { t with node := upd (upd t.node i (some x')) target (some n), log := .swp i target :: t.log, ctl := d } ∧
      d i = .deleted ∧ cnt (fun j => (d j).isDeleted) t.cap < cnt (fun j => (t.ctl j).isDeleted) t.cap := by
  obtain ⟨d, hd1, hd2, hd3⟩ := setMetadata_spec (isa := isa)
    (t := { t with node := upd (upd t.node i (some x')) target (some n), log := .swp i target :: t.log }) h.md htl
    (v := .full (hashLo n.hash)) (by simp)
  have hd : ∀ j, j < t.cap → d j = if j = target then .full (hashLo n.hash) else t.ctl j := hd2
  have hmono : ∀ j, j < t.cap → (d j).isAvailable = true → (t.ctl j).isAvailable = true := by
    intro j hj he
    rw [hd j hj] at he
    split at he
    · simp [Ctl.isAvailable] at he
    · exact he
  have hnode : ∀ j, upd (upd t.node i (some x')) target (some n) j
      = if j = target then some n else if j = i then some x' else t.node j := by
    intro j; simp only [upd_apply]
  refine ⟨d, hd1, ?_, ?_, ?_⟩
  · refine ⟨h.cap_eq, h.size_eq, hd3, ?_, ?_, ?_, ?_, ?_, ?_, ?_⟩
    · intro j hj
      show (upd (upd t.node i (some x')) target (some n) j).isSome = !(d j).isEmpty
      rw [hnode, hd j hj]
      by_cases e2 : j = target
      · simp [e2, Ctl.isEmpty]
      · by_cases e1 : j = i
        · subst e1; simp [e2, hdel, Ctl.isEmpty]
        · simp only [e1, e2, if_false]; exact h.live j hj
    · intro j hj x hx g hg
      change upd (upd t.node i (some x')) target (some n) j = some x at hx
      change d j = .full g at hg
      rw [hnode] at hx
      rw [hd j hj] at hg
      by_cases e2 : j = target
      · simp only [e2, if_true] at hx hg
        cases hx; cases hg; rfl
      · by_cases e1 : j = i
        · simp only [e1, Ne.symm hne, if_false] at hg
          rw [hdel] at hg; cases hg
        · simp only [e1, e2, if_false] at hx hg
          exact h.tag j hj x hx g hg
    · intro j hj x hx
      change upd (upd t.node i (some x')) target (some n) j = some x at hx
      rw [hnode] at hx
      by_cases e2 : j = target
      · simp only [e2, if_true] at hx
        cases hx; exact h.hash_ok i hic n hn
      · by_cases e1 : j = i
        · simp only [e1, Ne.symm hne, if_false, if_true] at hx
          cases hx; exact h.hash_ok target htl x' hx'
        · simp only [e1, e2, if_false] at hx
          exact h.hash_ok j hj x hx
    · intro a ha b hb x y hx hy hk
      change upd (upd t.node i (some x')) target (some n) a = some x at hx
      change upd (upd t.node i (some x')) target (some n) b = some y at hy
      rw [hnode] at hx hy
      -- the slot of the same element before the swap
      have key : ∀ a, a < t.cap → ∀ x, (if a = target then some n else if a = i then some x' else t.node a) = some x →
          ∃ a', a' < t.cap ∧ t.node a' = some x ∧
            (a = target → a' = i) ∧ (a ≠ target → a = i → a' = target) ∧ (a ≠ target → a ≠ i → a' = a) := by
        intro a ha x hx
        by_cases e2 : a = target
        · simp only [e2, if_true] at hx
          cases hx
          exact ⟨i, hic, hn, fun _ => rfl, fun hh => absurd e2 hh, fun hh => absurd e2 hh⟩
        · by_cases e1 : a = i
          · simp only [e1, Ne.symm hne, if_false, if_true] at hx
            cases hx
            exact ⟨target, htl, hx', fun hh => absurd hh e2, fun _ _ => rfl, fun _ hh => absurd e1 hh⟩
          · simp only [e1, e2, if_false] at hx
            exact ⟨a, ha, hx, fun hh => absurd hh e2, fun _ hh => absurd hh e1, fun _ _ => rfl⟩
      obtain ⟨a', ha', hxa, a1, a2, a3⟩ := key a ha x hx
      obtain ⟨b', hb', hyb, b1, b2, b3⟩ := key b hb y hy
      have hab := h.uniq a' ha' b' hb' x y hxa hyb hk
      by_cases e1 : a = target <;> by_cases e2 : b = target <;> by_cases e3 : a = i <;> by_cases e4 : b = i <;>
        simp_all
    · intro j hj ho x hx
      change upd (upd t.node i (some x')) target (some n) j = some x at hx
      change (d j).isOccupied = true at ho
      rw [hnode] at hx
      rw [hd j hj] at ho
      by_cases e2 : j = target
      · simp only [e2, if_true] at hx
        cases hx
        rw [e2]
        exact htr.mono h.md hd3 hmono
      · by_cases e1 : j = i
        · simp only [e1, Ne.symm hne, if_false] at ho
          rw [hdel] at ho; simp [Ctl.isOccupied] at ho
        · simp only [e1, e2, if_false] at hx ho
          exact (h.reach j hj ho x hx).mono h.md hd3 hmono
    · intro j hj hj2
      show d j ≠ _
      rw [hd j hj2]
      split
      · simp
      · exact h.done j hj hj2
    · show (collect (upd (upd t.node i (some x')) target (some n)) t.cap).Perm _
      refine List.Perm.trans ?_ h.nodes
      refine collect_swap hic htl (Ne.symm hne) ?_ ?_ ?_
      · rw [hnode]; simp [Ne.symm hne, hx']
      · rw [hnode]; simp [hn]
      · intro k hk hki hkt; rw [hnode]; simp [hki, hkt]
  · show d i = .deleted
    rw [hd i hic, if_neg (Ne.symm hne)]; exact hdel
  · show cnt (fun j => (d j).isDeleted) t.cap < cnt (fun j => (t.ctl j).isDeleted) t.cap
    have := cnt_update (p := fun j => (t.ctl j).isDeleted) (q := fun j => (d j).isDeleted) (n := t.cap) (i := target)
      htl (by intro j hj hne; rw [hd j hj, if_neg hne])
    have e1 : (t.ctl target).isDeleted = true := by rw [htd]; rfl
    have e2 : (d target).isDeleted = false := by rw [hd target htl]; simp [Ctl.isDeleted]
    simp only [e1, e2, if_true, Bool.false_eq_true, if_false] at this
    omega

/-- Processing a slot marked for relocation. -/
theorem processNode_spec {isa : Isa} {hash : K → Nat} {src : Table K V} {m' : Nat}
    (hN : src.cap + 1 = 2 ^ m' * isa.W) {i : Nat} (hi : i < src.cap) :
    ∀ (fuel : Nat) (t : Table K V), Reclaim isa hash src i t → t.ctl i = .deleted →
      cnt (fun j => (t.ctl j).isDeleted) t.cap < fuel →
      ∃ t', Table.processNode isa fuel t i = .ok t' ∧ Reclaim isa hash src (i + 1) t' := by
  intro fuel
  induction fuel with
  | zero => intro t _ _ hf; omega
  | succ fuel ih =>
    intro t h hdel hf
    have hic : i < t.cap := by rw [h.cap_eq]; exact hi
    obtain ⟨m, hm⟩ := h.md.pow
    have hNt : t.cap + 1 = 2 ^ m' * isa.W := by rw [h.cap_eq]; exact hN
    have hsome := h.live i hic
    rw [hdel] at hsome
    obtain ⟨n, hn⟩ := Option.isSome_iff_exists.mp (by rw [hsome]; rfl)
    obtain ⟨target, hf1, htl, hta, htr⟩ :=
      findAvailable_place h.md n.hash ⟨i, hic, deleted_available _ hdel⟩
    unfold Table.processNode
    rw [readNode_some hic hn]
    simp only [bind_ok]
    rw [hf1]
    simp only [bind_ok]
    by_cases hsame : Table.blockIdx isa t.cap (hashHi n.hash) target = Table.blockIdx isa t.cap (hashHi n.hash) i
    · -- same window: the element stays
      simp only [hsame, if_true]
      have hri : Reach isa t.cap t.ctl (·.isAvailable) (hashHi n.hash) i := by
        obtain ⟨s, hs1, hs2⟩ := htr
        refine ⟨s, ?_, hs2⟩
        rw [inWin_iff_block hNt _ _ (by omega)] at hs1 ⊢
        rw [blockIdx_eq hm, blockIdx_eq hm] at hsame
        rw [← hsame]; exact hs1
      obtain ⟨c, hc1, hc2, hc3⟩ := setMetadata_spec (isa := isa) (t := t) h.md hic (v := .full (hashLo n.hash)) (by simp)
      refine ⟨_, hc1, ?_⟩
      have hmono : ∀ j, j < t.cap → (c j).isAvailable = true → (t.ctl j).isAvailable = true := by
        intro j hj he
        rw [hc2 j hj] at he
        split at he
        · simp [Ctl.isAvailable] at he
        · exact he
      refine ⟨h.cap_eq, h.size_eq, hc3, ?_, ?_, h.hash_ok, h.uniq, ?_, ?_, h.nodes⟩
      · intro j hj
        show (t.node j).isSome = !(c j).isEmpty
        rw [hc2 j hj]
        split
        · rename_i e; subst e; rw [hn]; simp [Ctl.isEmpty]
        · exact h.live j hj
      · intro j hj x hx g hg
        change c j = .full g at hg
        rw [hc2 j hj] at hg
        split at hg
        · rename_i e; subst e
          change t.node j = some x at hx
          rw [hn] at hx; cases hx; cases hg; rfl
        · exact h.tag j hj x hx g hg
      · intro j hj ho x hx
        change (c j).isOccupied = true at ho
        rw [hc2 j hj] at ho
        split at ho
        · rename_i e; subst e
          change t.node j = some x at hx
          rw [hn] at hx; cases hx
          exact hri.mono h.md hc3 hmono
        · exact (h.reach j hj ho x hx).mono h.md hc3 hmono
      · intro j hj hj2
        show c j ≠ _
        rw [hc2 j hj2]
        split
        · simp
        · exact h.done j (by omega) hj2
    · simp only [hsame, if_false]
      rw [readCtl_ok h.md (by omega)]
      simp only [bind_ok]
      have hne : target ≠ i := by intro e; rw [e] at hsame; exact hsame rfl
      by_cases hempty : t.ctl target = .empty
      · -- move to a never-used slot
        have hraw : t.node target = none := by
          have := h.live target htl
          rw [hempty] at this
          cases hx : t.node target with
          | none => rfl
          | some x => rw [hx] at this; simp [Ctl.isEmpty] at this
        have hn' : upd t.node target (some n) i = some n := by rw [upd_ne _ _ (Ne.symm hne)]; exact hn
        simp only [hempty, if_true, Table.construct, htl, hraw, bind_ok, Table.destroy, hic, hn']
        obtain ⟨c, hc1, hc2, hc3⟩ := setMetadata_spec (isa := isa)
          (t := { t with node := upd (upd t.node target (some n)) i none }) h.md hic (v := .empty) (by simp)
        rw [hc1]
        simp only [bind_ok]
        obtain ⟨d, hd1, hd2, hd3⟩ := setMetadata_spec (isa := isa)
          (t := { t with node := upd (upd t.node target (some n)) i none, ctl := c }) hc3 htl
          (v := .full (hashLo n.hash)) (by simp)
        rw [hd1]
        simp only [bind_ok]
        have hd : ∀ j, j < t.cap → d j = if j = target then .full (hashLo n.hash) else if j = i then .empty else t.ctl j := by
          intro j hj
          rw [hd2 j hj]
          split
          · rfl
          · exact hc2 j hj
        refine ⟨_, rfl, ?_⟩
        have hmono : ∀ j, j < t.cap → (d j).isAvailable = true → (t.ctl j).isAvailable = true := by
          intro j hj he
          rw [hd j hj] at he
          split at he
          · simp [Ctl.isAvailable] at he
          · split at he
            · rename_i e; subst e; rw [hdel]; rfl
            · exact he
        have hnode : ∀ j, upd (upd t.node target (some n)) i none j
            = if j = i then none else if j = target then some n else t.node j := by
          intro j; simp only [upd_apply]
        refine ⟨h.cap_eq, h.size_eq, hd3, ?_, ?_, ?_, ?_, ?_, ?_, ?_⟩
        · intro j hj
          show (upd (upd t.node target (some n)) i none j).isSome = !(d j).isEmpty
          rw [hnode, hd j hj]
          by_cases e1 : j = i
          · subst e1; simp [Ne.symm hne, Ctl.isEmpty]
          · by_cases e2 : j = target
            · simp [e2, hne, Ctl.isEmpty]
            · simp only [e1, e2, if_false]; exact h.live j hj
        · intro j hj x hx g hg
          change upd (upd t.node target (some n)) i none j = some x at hx
          change d j = .full g at hg
          rw [hnode] at hx
          rw [hd j hj] at hg
          by_cases e1 : j = i
          · simp [e1] at hx
          · by_cases e2 : j = target
            · simp only [e2, hne, if_false, if_true] at hx hg
              cases hx; cases hg; rfl
            · simp only [e1, e2, if_false] at hx hg
              exact h.tag j hj x hx g hg
        · intro j hj x hx
          change upd (upd t.node target (some n)) i none j = some x at hx
          rw [hnode] at hx
          by_cases e1 : j = i
          · simp [e1] at hx
          · by_cases e2 : j = target
            · simp only [e2, hne, if_false, if_true] at hx
              cases hx; exact h.hash_ok i hic n hn
            · simp only [e1, e2, if_false] at hx
              exact h.hash_ok j hj x hx
        · intro a ha b hb x y hx hy hk
          change upd (upd t.node target (some n)) i none a = some x at hx
          change upd (upd t.node target (some n)) i none b = some y at hy
          rw [hnode] at hx hy
          by_cases a1 : a = i
          · simp [a1] at hx
          · by_cases b1 : b = i
            · simp [b1] at hy
            · by_cases a2 : a = target
              · by_cases b2 : b = target
                · omega
                · simp only [a2, hne, if_false, if_true] at hx
                  simp only [b1, b2, if_false] at hy
                  cases hx
                  exact absurd (h.uniq i hic b hb n y hn hy hk).symm b1
              · by_cases b2 : b = target
                · simp only [a1, a2, if_false] at hx
                  simp only [b2, hne, if_false, if_true] at hy
                  cases hy
                  exact absurd (h.uniq a ha i hic x n hx hn hk) a1
                · simp only [a1, a2, b1, b2, if_false] at hx hy
                  exact h.uniq a ha b hb x y hx hy hk
        · intro j hj ho x hx
          change upd (upd t.node target (some n)) i none j = some x at hx
          change (d j).isOccupied = true at ho
          rw [hnode] at hx
          rw [hd j hj] at ho
          by_cases e1 : j = i
          · simp [e1] at hx
          · by_cases e2 : j = target
            · simp only [e2, hne, if_false, if_true] at hx
              cases hx
              rw [e2]
              exact htr.mono h.md hd3 hmono
            · simp only [e1, e2, if_false] at hx ho
              exact (h.reach j hj ho x hx).mono h.md hd3 hmono
        · intro j hj hj2
          show d j ≠ _
          rw [hd j hj2]
          split
          · simp
          · split
            · simp
            · exact h.done j (by omega) hj2
        · show (collect (upd (upd t.node target (some n)) i none) t.cap).Perm _
          refine List.Perm.trans ?_ h.nodes
          refine collect_swap hic htl (Ne.symm hne) ?_ ?_ ?_
          · rw [hnode]; simp [hraw]
          · rw [hnode]; simp [hne, hn]
          · intro k hk hki hkt; rw [hnode]; simp [hki, hkt]
      · -- swap with an element that is still to be placed
        have htd : t.ctl target = .deleted := by
          revert hta hempty; cases t.ctl target <;> simp [Ctl.isAvailable]
        have hts := h.live target htl
        rw [htd] at hts
        obtain ⟨x', hx'⟩ := Option.isSome_iff_exists.mp (by rw [hts]; rfl)
        simp only [hempty, if_false]
        rw [readNode_some htl hx']
        simp only [bind_ok]
        obtain ⟨d, hd1, hR, hdi, hlt⟩ := h.swap hic hdel hn htl htd htr hne hx'
        rw [hd1]
        simp only [bind_ok]
        exact ih _ hR hdi (by show cnt (fun j => (d j).isDeleted) t.cap < fuel; omega)

/-- The state after the block resets and the clone of the tail: all elements are marked for relocation. -/
theorem reset_spec {isa : Isa} {hash : K → Nat} {t : Table K V} (h : Inv isa hash t) {m' : Nat}
    (hN : t.cap + 1 = 2 ^ m' * isa.W) :
    ∃ t', (do
      let t ← (List.range ((t.cap + isa.W - 1) / isa.W)).foldlM (fun t b => Table.resetBlock isa t (b * isa.W)) t
      t.cloneTail isa) = .ok t' ∧ Reclaim isa hash t 0 t' := by
  have hW := isa.W_pos
  have hm1 : 0 < 2 ^ m' := Nat.two_pow_pos m'
  have hWN : isa.W ≤ t.cap + 1 := by rw [hN]; exact Nat.le_mul_of_pos_left _ hm1
  have hmd := h.meta_ok (by omega)
  have hlen := hmd.len_eq
  have hB : (t.cap + isa.W - 1) / isa.W = 2 ^ m' := by
    have : t.cap + isa.W - 1 = (isa.W - 2) + 2 ^ m' * isa.W := by omega
    rw [this, Nat.add_mul_div_right _ _ (by omega), Nat.div_eq_of_lt (by omega)]
    omega
  rw [hB]
  obtain ⟨t1, hr1, hp⟩ := foldlM_range (f := fun t b => Table.resetBlock isa t (b * isa.W))
    (fun b (s : Table K V) => s.cap = t.cap ∧ s.len = t.len ∧ s.node = t.node ∧ s.size = t.size ∧
      ∀ j, s.ctl j = if j < b * isa.W then Table.resetByte (t.ctl j) else t.ctl j)
    (2 ^ m') (s := t) (by simp) (by
      rintro b hb s ⟨h1, h2, h3, h4, h5⟩
      have hle : (b + 1) * isa.W ≤ 2 ^ m' * isa.W := Nat.mul_le_mul_right _ hb
      have hsucc : (b + 1) * isa.W = b * isa.W + isa.W := by rw [Nat.add_mul, Nat.one_mul]
      have hrb : Table.resetBlock isa s (b * isa.W) = .ok { s with ctl := fun j =>
          if b * isa.W ≤ j ∧ j < b * isa.W + isa.W then Table.resetByte (s.ctl j) else s.ctl j } := by
        unfold Table.resetBlock
        rw [if_pos (by omega)]
      refine ⟨_, hrb, ?_⟩
      · refine ⟨h1, h2, h3, h4, ?_⟩
        intro j
        simp only
        rw [h5 j]
        by_cases c1 : j < b * isa.W
        · have : ¬ (b * isa.W ≤ j ∧ j < b * isa.W + isa.W) := by omega
          rw [if_neg this, if_pos c1, if_pos (by omega)]
        · by_cases c2 : j < (b + 1) * isa.W
          · rw [if_pos (by omega), if_neg c1, if_pos c2]
          · rw [if_neg (by omega), if_neg c1, if_neg c2])
  rw [hr1]
  obtain ⟨h1, h2, h3, h4, h5⟩ := hp
  simp only [bind_ok, Table.cloneTail]
  rw [if_pos (by omega)]
  refine ⟨_, rfl, ?_⟩
  rw [← hN] at h5
  have hctl : ∀ j, j < t.cap → (if j = t1.cap then Ctl.sentinel else if t1.cap < j ∧ j < t1.cap + isa.W then
      t1.ctl (j - (t1.cap + 1)) else t1.ctl j) = Table.resetByte (t.ctl j) := by
    intro j hj
    rw [if_neg (by omega), if_neg (by omega), h5, if_pos (by omega)]
  have hreset : ∀ c : Ctl, Table.resetByte c = .deleted ∨ Table.resetByte c = .empty := by
    intro c; unfold Table.resetByte; split <;> simp
  refine ⟨h1, h4, ⟨?_, ?_, ?_, ?_, ?_⟩, ?_, ?_, ?_, ?_, ?_, ?_, ?_⟩
  · simp only; rw [h1]; exact hmd.pow
  · simp only; omega
  · simp
  · intro i hi
    simp only at hi ⊢
    rw [hctl i (by omega)]
    rcases hreset (t.ctl i) with e | e <;> rw [e] <;> simp
  · intro q hq1 hq2
    simp only at hq1 hq2 ⊢
    have hlt : q - (t1.cap + 1) < t1.cap := by omega
    rw [if_neg (by omega), if_pos ⟨hq1, hq2⟩, if_pos hlt, if_neg (by omega), if_neg (by omega)]
  · intro j hj
    simp only at hj ⊢
    rw [hctl j (by omega), h3, h.live j (by omega)]
    unfold Table.resetByte
    cases t.ctl j <;> simp [Ctl.isOccupied, Ctl.isEmpty]
  · intro j hj n hn g hg
    simp only at hj hg
    rw [hctl j (by omega)] at hg
    rcases hreset (t.ctl j) with e | e <;> rw [e] at hg <;> simp at hg
  · intro j hj n hn
    simp only at hj hn
    rw [h3] at hn
    exact h.hash_ok j (by omega) n hn
  · intro a ha b hb x y hx hy hk
    simp only at ha hb hx hy
    rw [h3] at hx hy
    exact h.uniq a (by omega) b (by omega) x y hx hy hk
  · intro j hj ho
    simp only at hj ho
    rw [hctl j (by omega)] at ho
    rcases hreset (t.ctl j) with e | e <;> rw [e] at ho <;> simp [Ctl.isOccupied] at ho
  · intro j hj; omega
  · simp only; rw [h1, h3]; exact List.Perm.refl _

/-- The second loop of `rehash_deleted` after the first `q` slots. -/
theorem processSlot_prefix {isa : Isa} {hash : K → Nat} {src t0 : Table K V} {m' : Nat} (hN : src.cap + 1 = 2 ^ m' * isa.W)
    (hR0 : Reclaim isa hash src 0 t0) {q : Nat} (hq : q ≤ t0.cap) :
    ∃ t1, (List.range q).foldlM (Table.processSlot isa) t0 = .ok t1 ∧ Reclaim isa hash src q t1 :=
  foldlM_range (f := Table.processSlot isa) (fun i s => Reclaim isa hash src i s) q (s := t0) hR0 (by
    intro i hi s hs
    have hc : s.cap = src.cap := hs.cap_eq
    have hc0 : t0.cap = src.cap := hR0.cap_eq
    unfold Table.processSlot
    rw [readCtl_ok hs.md (by omega)]
    simp only [bind_ok]
    by_cases hd : s.ctl i = .deleted
    · simp only [hd, if_true]
      exact processNode_spec hN (by omega) _ s hs hd (by
        have := cnt_le (fun j => (s.ctl j).isDeleted) s.cap; omega)
    · simp only [hd, if_false]
      refine ⟨s, rfl, ⟨hs.cap_eq, hs.size_eq, hs.md, hs.live, hs.tag, hs.hash_ok, hs.uniq, hs.reach, ?_, hs.nodes⟩⟩
      intro j hj hj2
      by_cases e : j = i
      · subst e; exact hd
      · exact hs.done j (by omega) hj2)

/-- `rehash_deleted` keeps exactly the elements and removes all erased-slot marks. -/
theorem rehashDeleted_spec {isa : Isa} {hash : K → Nat} {t : Table K V} (h : Inv isa hash t)
    (hW : isa.W ≤ t.cap + 1) :
    ∃ t', t.rehashDeleted isa = .ok t' ∧ Inv isa hash t' ∧ t'.cap = t.cap ∧ t'.size = t.size ∧
      t'.numEmpty = maxSize isa t.cap - t.size ∧ (t'.nodes).Perm t.nodes ∧
      (∀ j, j < t.cap → (t'.ctl j).isDeleted = false) := by
  obtain ⟨m, hm⟩ := h.pow
  obtain ⟨m', hN⟩ : ∃ m', t.cap + 1 = 2 ^ m' * isa.W := by
    rcases pow_cases isa hm with h1 | ⟨c, h1, h2⟩
    · exact h1
    · have : (t.cap + 1) * 2 ≤ (t.cap + 1) * c := Nat.mul_le_mul_left _ h2
      omega
  obtain ⟨t0, hr0, hR0⟩ := reset_spec h hN
  unfold Table.rehashDeleted
  -- the two first loops
  cases hb : (List.range ((t.cap + isa.W - 1) / isa.W)).foldlM (fun t b => Table.resetBlock isa t (b * isa.W)) t with
  | error e => rw [hb] at hr0; simp at hr0
  | ok ta =>
    rw [hb] at hr0
    simp only [bind_ok] at hr0 ⊢
    rw [hr0]
    simp only [bind_ok]
    obtain ⟨t1, hr1, hR1⟩ := processSlot_prefix hN hR0 (Nat.le_refl t0.cap)
    rw [hr1]
    simp only [bind_ok]
    have hcap : t1.cap = t.cap := hR1.cap_eq
    have hsz : t.size ≤ maxSize isa t.cap := by have := h.budget (by have := isa.W_pos; omega); omega
    rw [if_pos (by rw [hR1.size_eq, hcap]; exact hsz)]
    have hnd : ∀ j, j < t1.cap → t1.ctl j ≠ .deleted := by
      intro j hj
      have hc0 : t0.cap = t.cap := hR0.cap_eq
      exact hR1.done j (by omega) hj
    have hcount : t1.size = cnt (fun i => (t1.ctl i).isOccupied) t1.cap := by
      have e1 : t.nodes.length = t.size := by
        rw [h.size_eq, Table.nodes, collect_length]
        exact cnt_congr (fun i hi => h.live i hi)
      rw [hR1.size_eq, ← e1, ← hR1.nodes.length_eq, collect_length]
      apply cnt_congr
      intro i hi
      rw [hR1.live i hi]
      have h1 := hnd i hi
      have h2 := hR1.md.slot i hi
      revert h1 h2
      cases t1.ctl i <;> simp [Ctl.isEmpty, Ctl.isOccupied]
    refine ⟨_, rfl, ?_, hcap, hR1.size_eq, ?_, hR1.nodes, ?_⟩
    · have c : Core isa hash { t1 with numEmpty := maxSize isa t1.cap - t1.size } := by
        have hocc : ∀ i, i < t1.cap → ∀ n, t1.node i = some n → (t1.ctl i).isOccupied = true := by
          intro i hi n hn
          have h0 := hR1.live i hi
          have h1 := hnd i hi
          have h2 := hR1.md.slot i hi
          rw [hn] at h0
          revert h0 h1 h2
          cases t1.ctl i <;> simp [Ctl.isEmpty, Ctl.isOccupied]
        refine ⟨hR1.md, ?_, ?_, hR1.hash_ok, hR1.uniq, ?_⟩
        · intro i hi
          show (t1.node i).isSome = (t1.ctl i).isOccupied
          rw [hR1.live i hi]
          have h1 := hnd i hi
          have h2 := hR1.md.slot i hi
          revert h1 h2
          cases t1.ctl i <;> simp [Ctl.isEmpty, Ctl.isOccupied]
        · intro i hi n hn
          show t1.ctl i = _
          have ho := hocc i hi n hn
          cases hc : t1.ctl i with
          | full g => rw [hR1.tag i hi n hn g hc]
          | _ => rw [hc] at ho; simp [Ctl.isOccupied] at ho
        · intro i hi n hn
          exact (hR1.reach i hi (hocc i hi n hn) n hn).weaken empty_available
      refine c.inv hcount ?_
      show maxSize isa t1.cap - t1.size + t1.size + cnt _ t1.cap = maxSize isa t1.cap
      have hz : cnt (fun j => (t1.ctl j).isDeleted) t1.cap = 0 := by
        apply cnt_eq_zero
        intro j hj
        have := hnd j hj
        revert this
        cases t1.ctl j <;> simp [Ctl.isDeleted]
      rw [hz, hR1.size_eq, hcap]
      omega
    · show maxSize isa t1.cap - t1.size = _
      rw [hR1.size_eq, hcap]
    · intro j hj
      have := hnd j (by omega)
      revert this
      show t1.ctl j ≠ _ → (t1.ctl j).isDeleted = false
      cases t1.ctl j <;> simp [Ctl.isDeleted]

end Tpp.Swiss
