import Verif.Ordered.SwissIter
import Verif.Swiss.Iters

/-!
# Iterators of the ordered sparse containers while there is room (swiss_table.hpp 916-1131)

An iterator of an ordered container is the address of a linked node (table_common.hpp 498-600).  While no more elements are added than
there are free slots, neither the buffer nor the header changes, so that the address designates the same element.
-/

set_option linter.unusedSectionVars false

namespace Tpp.OSwiss

open Tpp.Swiss (Node Ev Table Inv NoTomb)
open Tpp.Ordered

variable {K V : Type} [DecidableEq K]

/-- The free slots an operation takes at most, given the sequence it is applied to. -/
def Op.takes (s : List (K × V)) : Op K V → Nat
  | .insert k _ | .assign k _ | .index k _ => if (Spec.find s k).isNone then 1 else 0
  | .insertRange _ xs => xs.length
  | _ => 0

/-- The operation finds room for what it adds if `b` slots are free; `rehash` and `assign(first, last)` are left out. -/
def Op.hasRoom (b : Nat) (s : List (K × V)) : Op K V → Prop
  | .reserve n => n ≤ s.length + b
  | .rehash _ => False
  | .assignRange _ _ => False
  | op => op.takes s ≤ b

/-- All operations of the history find room, with `b` free slots at first, and the element with key `k` is never erased. -/
def Spec.Stays (k : K) : Nat → List (K × V) → List (Op K V) → Prop
  | _, _, [] => True
  | b, s, op :: ops => op.hasRoom b s ∧ k ∈ (Spec.step s op).1.map Prod.fst ∧ Spec.Stays k (b - op.takes s) (Spec.step s op).1 ops

instance (b : Nat) (s : List (K × V)) (op : Op K V) : Decidable (op.hasRoom b s) := by
  cases op <;> simp only [Op.hasRoom] <;> infer_instance

instance Spec.staysDec (k : K) : (b : Nat) → (s : List (K × V)) → (ops : List (Op K V)) → Decidable (Spec.Stays k b s ops)
  | _, _, [] => .isTrue trivial
  | b, s, op :: ops => @instDecidableAnd _ _ _ (@instDecidableAnd _ _ _ (Spec.staysDec k (b - op.takes s) (Spec.step s op).1 ops))

variable {c : Cfg K} {m : Mem} {t : OTable K V} {o : List Nat}

/-- The buffer and the header are the same objects. -/
structure Fixed (t t' : OTable K V) : Prop where
  hd : t'.hd = t.hd
  base : t'.base = t.base
  cap : t'.core.cap = t.core.cap

theorem Fixed.refl (t : OTable K V) : Fixed t t := ⟨rfl, rfl, rfl⟩

theorem Fixed.trans {t t' t'' : OTable K V} (h : Fixed t t') (h' : Fixed t' t'') : Fixed t t'' :=
  ⟨h'.hd.trans h.hd, h'.base.trans h.base, h'.cap.trans h.cap⟩

/-- Only erasures: what is in a slot now was there before. -/
structure Shrinks (t t' : OTable K V) : Prop extends Fixed t t' where
  left : t'.core.numEmpty = t.core.numEmpty
  node : ∀ j n, t'.core.node j = some n → t.core.node j = some n

theorem Shrinks.refl (t : OTable K V) : Shrinks t t := ⟨Fixed.refl t, rfl, fun _ _ h => h⟩

theorem Shrinks.trans {t t' t'' : OTable K V} (h : Shrinks t t') (h' : Shrinks t' t'') : Shrinks t t'' :=
  ⟨h.toFixed.trans h'.toFixed, h'.left.trans h.left, fun j n q => h.node j n (h'.node j n q)⟩

theorem eraseNode_node {isa : Isa} {x x' : Table K V} {pos : Nat} (h : x.eraseNode isa pos = .ok x') : x'.node = x.node := by
  unfold Table.eraseNode at h
  split at h
  case isFalse => cases h
  obtain ⟨_, _, h⟩ := Dense.bind_eq_ok h
  split at h
  case isFalse => cases h
  obtain ⟨d, h1, h⟩ := Dense.bind_eq_ok h
  have e2 := (Swiss.setMetadata_node h1).1
  split at h
  · cases h
    exact e2
  · cases h

theorem destroy_node {x x' : Table K V} {pos : Nat} (h : x.destroy pos = .ok x') :
    ∀ j n, x'.node j = some n → x.node j = some n := by
  obtain ⟨_, _, rfl⟩ := Swiss.destroy_eq h
  intro j n q
  by_cases e : j = pos
  · subst e
    simp only [upd_same] at q
    cases q
  · simpa only [upd_ne _ _ e] using q

theorem doErase_shrinks {r : Mem × OTable K V × Int} {pos : Nat} (h : t.doErase c m pos = .ok r) : Shrinks t r.2.1 := by
  have hr := doErase_room h
  unfold OTable.doErase OTable.eraseCore at h
  obtain ⟨_, _, h⟩ := Dense.bind_eq_ok h
  obtain ⟨x, h1, h⟩ := Dense.bind_eq_ok h
  obtain ⟨y, h2, h1⟩ := Dense.bind_eq_ok h1
  cases h
  refine ⟨⟨rfl, rfl, hr.2⟩, hr.1, fun j n q => ?_⟩
  have := destroy_node h1 j n q
  rw [eraseNode_node h2] at this
  exact this

theorem extractAt_shrinks {r : Mem × OTable K V × Node K V} {pos : Nat} (h : t.extractAt c m pos = .ok r) : Shrinks t r.2.1 := by
  unfold OTable.extractAt OTable.extractCore at h
  obtain ⟨_, _, h⟩ := Dense.bind_eq_ok h
  obtain ⟨x, h1, h⟩ := Dense.bind_eq_ok h
  obtain ⟨y, h2, h1⟩ := Dense.bind_eq_ok h1
  obtain ⟨_, _, h1⟩ := Dense.bind_eq_ok h1
  obtain ⟨z, h3, h1⟩ := Dense.bind_eq_ok h1
  cases h1
  cases h
  have a := eraseNode_room h2
  have b := destroy_room h3
  refine ⟨⟨rfl, rfl, b.2.trans a.2⟩, b.1.trans a.1, fun j n q => ?_⟩
  have := destroy_node h3 j n q
  rw [eraseNode_node h2] at this
  exact this

theorem eraseIter_shrinks {r : Mem × OTable K V × Int} {a : Int} (h : t.eraseIter c m a = .ok r) : Shrinks t r.2.1 := by
  unfold OTable.eraseIter at h
  split at h
  · cases h; exact Shrinks.refl t
  · split at h
    · cases h
    · exact doErase_shrinks h

theorem eraseRange_shrinks {first : Int} : ∀ {fuel : Nat} {m : Mem} {t : OTable K V} {last result : Int} {r : Mem × OTable K V × Int},
    OTable.eraseRange c first fuel m t last result = .ok r → Shrinks t r.2.1
  | 0, _, _, _, _, _, h => by cases h
  | fuel + 1, m, t, last, result, r, h => by
    unfold OTable.eraseRange at h
    split at h
    · cases h; exact Shrinks.refl t
    · obtain ⟨p, _, h⟩ := Dense.bind_eq_ok h
      obtain ⟨q, h1, h⟩ := Dense.bind_eq_ok h
      exact (eraseIter_shrinks h1).trans (eraseRange_shrinks h)

theorem eraseIf_shrinks {p : K × V → Bool} : ∀ {fuel : Nat} {m : Mem} {t : OTable K V} {a : Int} {n : Nat} {r : Mem × OTable K V × Nat},
    OTable.eraseIf c p fuel m t a n = .ok r → Shrinks t r.2.1
  | 0, _, _, _, _, _, h => by cases h
  | fuel + 1, m, t, a, n, r, h => by
    unfold OTable.eraseIf at h
    split at h
    · cases h; exact Shrinks.refl t
    · obtain ⟨e, _, h⟩ := Dense.bind_eq_ok h
      split at h
      · obtain ⟨q, h1, h⟩ := Dense.bind_eq_ok h
        exact (eraseIter_shrinks h1).trans (eraseIf_shrinks h)
      · obtain ⟨b, _, h⟩ := Dense.bind_eq_ok h
        exact eraseIf_shrinks h

/-- Key `k` is in slot `i` of the buffer. -/
abbrev At (t : OTable K V) (i : Nat) (k : K) : Prop := Swiss.Holds t.core i k

/-- If only erasures took place and the key is still there, it is in the same slot. -/
theorem Shrinks.at {t' : OTable K V} (h : Shrinks t t') (hI : Inv c.isa c.hash t.core) {m' : Mem} {s' : List (K × V)}
    (h' : Holds c m' t' s') {i : Nat} {k : K} (hk : At t i k) (hs : k ∈ s'.map Prod.fst) : At t' i k := by
  obtain ⟨o', hr, rfl⟩ := h'
  obtain ⟨e, he, rfl⟩ := List.mem_map.mp hs
  obtain ⟨j, hj, n, hn, rfl⟩ := mem_seqOf.mp he
  have hj' := hr.link.lt hj
  obtain ⟨hi, n0, hn0, hk0⟩ := hk
  have e := hI.uniq i hi j (by rw [← h.cap]; exact hj') n0 n hn0 (h.node j n hn) hk0
  subst e
  exact ⟨hj', n, hn, rfl⟩

theorem find_eq_none (h : Rep c m t o) (x : K) :
    Spec.find (seqOf t.core.node o) x = none ↔ Tpp.Spec.lookup t.core.contents x = none := by
  rcases h.cases x with ⟨i, n, _, hi, hn, hk, hf, hl⟩ | ⟨hno, hf, hl⟩
  · rcases Swiss.find_cases h.core x with ⟨j, q, _, _, _, _, j5⟩ | ⟨hno, _, _⟩
    · rw [hl, j5]; simp
    · exact absurd hk (hno i hi n hn)
  · rcases Swiss.find_cases h.core x with ⟨j, q, j1, j2, j3, _, _⟩ | ⟨_, _, j5⟩
    · exact absurd j3 (hno j j1 q j2)
    · rw [hl, j5]; simp

/-- An operation that does not relocate anything leaves the buffer where it is. -/
theorem insertWith_fixed {op : Table K V → M (Table K V × Nat × Bool)} {hint : Option Int} {r : Mem × OTable K V × Int × Bool}
    (h : t.insertWith c m op hint = .ok r) (hq : ∀ p, op (fresh t.core) = .ok (r.2.1.core, p, r.2.2.2) → Swiss.Quiet (fresh t.core) r.2.1.core) :
    Fixed t r.2.1 := by
  unfold OTable.insertWith at h
  obtain ⟨x, e, h⟩ := Dense.bind_eq_ok h
  obtain ⟨g, h3, h⟩ := Dense.bind_eq_ok h
  obtain ⟨m', _, h⟩ := Dense.bind_eq_ok h
  cases h
  obtain ⟨h1, h2⟩ := hq x.2.1 e
  simp only at h1 h2 h3
  rw [h2] at h3
  cases h3
  exact ⟨rfl, rfl, h1⟩

theorem insert_at (h : Rep c m t o) {x : K} {v : V} {r : Mem × OTable K V × Int × Bool} (he : t.insert c m x v = .ok r)
    (hb : Spec.find (seqOf t.core.node o) x = none → 0 < t.core.numEmpty) {i : Nat} {k : K} (hk : At t i k) :
    Fixed t r.2.1 ∧ t.core.numEmpty ≤ r.2.1.core.numEmpty + (if (Spec.find (seqOf t.core.node o) x).isNone then 1 else 0) ∧
      At r.2.1 i k := by
  obtain ⟨p, e⟩ := insertWith_core he
  have hk' : Swiss.Holds (fresh t.core) i k := hk
  obtain ⟨a1, a2, a3⟩ := Swiss.insert_holds (fresh_inv h.core) (fun q => hb ((find_eq_none h x).mpr q)) e hk'
  refine ⟨insertWith_fixed he (fun _ _ => a1), ?_, a3⟩
  have e2 : (Spec.find (seqOf t.core.node o) x).isNone = (Tpp.Spec.lookup t.core.contents x).isNone := by
    rw [Bool.eq_iff_iff, Option.isNone_iff_eq_none, Option.isNone_iff_eq_none, find_eq_none h]
  rw [e2]
  exact a2

theorem assign_at (h : Rep c m t o) {x : K} {v : V} {r : Mem × OTable K V × Int × Bool} (he : t.assign c m x v = .ok r)
    (hb : Spec.find (seqOf t.core.node o) x = none → 0 < t.core.numEmpty) {i : Nat} {k : K} (hk : At t i k) :
    Fixed t r.2.1 ∧ t.core.numEmpty ≤ r.2.1.core.numEmpty + (if (Spec.find (seqOf t.core.node o) x).isNone then 1 else 0) ∧
      At r.2.1 i k := by
  obtain ⟨p, e⟩ := insertWith_core he
  have hk' : Swiss.Holds (fresh t.core) i k := hk
  unfold Table.insertOrAssign at e
  obtain ⟨a1, a2, a3⟩ := Swiss.assign_holds (fresh_inv h.core) (fun q => hb ((find_eq_none h x).mpr q)) e hk'
  refine ⟨insertWith_fixed he (fun _ _ => a1), ?_, a3⟩
  have e2 : (Spec.find (seqOf t.core.node o) x).isNone = (Tpp.Spec.lookup t.core.contents x).isNone := by
    rw [Bool.eq_iff_iff, Option.isNone_iff_eq_none, Option.isNone_iff_eq_none, find_eq_none h]
  rw [e2]
  exact a2

/-- `reserve` with slots that are there. -/
theorem reserve_fixed {n : Nat} {r : Mem × OTable K V} (he : t.reserve c m n = .ok r) (hn : n ≤ t.core.size + t.core.numEmpty) :
    Fixed t r.2 ∧ r.2.core.numEmpty = t.core.numEmpty ∧ r.2.core.node = t.core.node := by
  unfold OTable.reserve Table.reserve at he
  rw [if_neg (show ¬ n > (fresh t.core).size + (fresh t.core).numEmpty by change ¬ n > t.core.size + t.core.numEmpty; omega), bind_ok] at he
  obtain ⟨g, h3, he⟩ := Dense.bind_eq_ok he
  cases he
  cases h3
  exact ⟨⟨rfl, rfl, rfl⟩, rfl, rfl⟩

/-- The loop of range insertion. -/
theorem insertAll_at (hsz : 0 < c.sz) (hA : c.A.Sound c.sz) (hst : c.strict = true) {i : Nat} {k : K} : ∀ (xs : List (K × V)) {m : Mem}
    {t : OTable K V} {s : List (K × V)} {r : Mem × OTable K V}, Holds c m t s → xs.length ≤ t.core.numEmpty → At t i k →
    (xs.foldlM (fun (s : Mem × OTable K V) (x : K × V) => do
        let r ← s.2.insert c s.1 x.1 x.2
        Except.ok (r.1, r.2.1)) (m, t) : M (Mem × OTable K V)) = .ok r →
    Fixed t r.2 ∧ t.core.numEmpty ≤ r.2.core.numEmpty + xs.length ∧ At r.2 i k
  | [], m, t, s, r, h, hb, hk, he => by
    cases he
    exact ⟨Fixed.refl t, Nat.le_refl _, hk⟩
  | x :: xs, m, t, s, r, h, hb, hk, he => by
    obtain ⟨o, h, rfl⟩ := h
    rw [List.foldlM_cons] at he
    obtain ⟨q, e1, he⟩ := Dense.bind_eq_ok he
    obtain ⟨p, e2, e1⟩ := Dense.bind_eq_ok e1
    cases e1
    simp only [List.length_cons] at hb ⊢
    obtain ⟨a1, a2, a3⟩ := insert_at h e2 (fun _ => by omega) hk
    obtain ⟨p', e3, _, _, b3, _⟩ := (insert_gen (b := False) hsz hA hst h (k := x.1) (fun _ => Or.inr (Or.inr (by omega))) x.2).get id
    rw [show t.insert c m x.1 x.2 = .ok p from e2] at e3
    cases e3
    have : t.core.numEmpty ≤ p.2.1.core.numEmpty + 1 := by split at a2 <;> omega
    obtain ⟨d1, d2, d3⟩ := insertAll_at hsz hA hst xs b3.holds (by omega) a3 he
    exact ⟨a1.trans d1, by omega, d3⟩

/-- One operation: while there is room, it gives what the specification says, the buffer is kept, and an element that is not erased
stays in its slot. -/
theorem step_at (hsz : 0 < c.sz) (hA : c.A.Sound c.sz) (hst : c.strict = true) {s : List (K × V)} (h : Holds c m t s) {op : Op K V}
    {b : Nat} (hb : b ≤ t.core.numEmpty) (hfit : op.hasRoom b s) {i : Nat} {k : K} (hk : At t i k)
    (hin : k ∈ (Spec.step s op).1.map Prod.fst) :
    ∃ r, t.step c m op = .ok r ∧ r.2.2 = (Spec.step s op).2 ∧ Holds c r.1 r.2.1 (Spec.step s op).1 ∧ Fixed t r.2.1 ∧
      b - op.takes s ≤ r.2.1.core.numEmpty ∧ At r.2.1 i k := by
  have hcap : 0 < t.core.cap := by have := hk.1; omega
  obtain ⟨o, hr, rfl⟩ := h
  have hlen : (seqOf t.core.node o).length = t.core.size := by rw [seqOf_length hr.link.isSome, hr.length]
  have viaStep : op.inserts ≤ t.core.numEmpty → (∀ r, t.step c m op = .ok r → Holds c r.1 r.2.1 (Spec.step (seqOf t.core.node o) op).1 →
      Fixed t r.2.1 ∧ b - op.takes (seqOf t.core.node o) ≤ r.2.1.core.numEmpty ∧ At r.2.1 i k) →
      ∃ r, t.step c m op = .ok r ∧ r.2.2 = (Spec.step (seqOf t.core.node o) op).2 ∧
        Holds c r.1 r.2.1 (Spec.step (seqOf t.core.node o) op).1 ∧ Fixed t r.2.1 ∧
        b - op.takes (seqOf t.core.node o) ≤ r.2.1.core.numEmpty ∧ At r.2.1 i k := by
    intro h1 h2
    obtain ⟨r, e, e1, e2, _, _⟩ := (step_ok (b := False) hsz hA hst ⟨o, hr, rfl⟩ op (Or.inr (Or.inr ⟨h1, Or.inr hcap⟩))).get id
    exact ⟨r, e, e1, e2.holds, h2 r e e2.holds⟩
  have erased : ∀ {r : Mem × OTable K V × Out K V}, Holds c r.1 r.2.1 (Spec.step (seqOf t.core.node o) op).1 → Shrinks t r.2.1 →
      Fixed t r.2.1 ∧ b - op.takes (seqOf t.core.node o) ≤ r.2.1.core.numEmpty ∧ At r.2.1 i k := by
    intro r h1 h2
    exact ⟨h2.toFixed, by rw [h2.left]; omega, h2.at hr.core h1 hk hin⟩
  have read : ∀ {r : Mem × OTable K V × Out K V}, r.2.1 = t →
      Fixed t r.2.1 ∧ b - op.takes (seqOf t.core.node o) ≤ r.2.1.core.numEmpty ∧ At r.2.1 i k := by
    intro r h1
    rw [h1]
    exact ⟨Fixed.refl t, by omega, hk⟩
  have one : ∀ {x : K}, (if (Spec.find (seqOf t.core.node o) x).isNone then 1 else 0) ≤ b → Spec.find (seqOf t.core.node o) x = none →
      0 < t.core.numEmpty := by
    intro x h1 h2
    rw [h2] at h1
    simp at h1
    omega
  cases op with
  | insert x v =>
    have hf := one (x := x) hfit
    obtain ⟨r, e, e1, e2, e3, _⟩ := (insert_gen (b := False) hsz hA hst hr (k := x) (fun q => Or.inr (Or.inr (hf q))) v).get id
    obtain ⟨a1, a2, a3⟩ := insert_at hr e hf hk
    refine ⟨(r.1, r.2.1, .ins (Spec.insert (seqOf t.core.node o) x v).2.1 r.2.2.2), ?_, ?_, e3.holds, a1, ?_, a3⟩
    · simp only [OTable.step, e, bind_ok, e1]
    · simp only [Spec.step, e2]
    · simp only [Op.takes]; omega
  | assign x v =>
    have hf := one (x := x) hfit
    obtain ⟨r, e, e1, e2, e3, _⟩ := (assign_gen (b := False) hsz hA hst hr (k := x) (fun q => Or.inr (Or.inr (hf q))) v).get id
    obtain ⟨a1, a2, a3⟩ := assign_at hr e hf hk
    refine ⟨(r.1, r.2.1, .ins (Spec.assign (seqOf t.core.node o) x v).2.1 r.2.2.2), ?_, ?_, e3.holds, a1, ?_, a3⟩
    · simp only [OTable.step, e, bind_ok, e1]
    · simp only [Spec.step, e2]
    · simp only [Op.takes]; omega
  | index x v =>
    have hf := one (x := x) hfit
    obtain ⟨r, e, e1, e2, e3, _⟩ := (insert_gen (b := False) hsz hA hst hr (k := x) (fun q => Or.inr (Or.inr (hf q))) v).get id
    obtain ⟨a1, a2, a3⟩ := insert_at hr e hf hk
    refine ⟨(r.1, r.2.1, .elem (some (Spec.insert (seqOf t.core.node o) x v).2.1)), ?_, ?_, e3.holds, a1, ?_, a3⟩
    · simp only [OTable.step, e, bind_ok, e1]
    · simp only [Spec.step]
    · simp only [Op.takes]; omega
  | erase x =>
    refine viaStep (Nat.zero_le _) fun r e h' => erased h' ?_
    simp only [OTable.step] at e
    obtain ⟨q, e1, e⟩ := Dense.bind_eq_ok e
    obtain ⟨_, _, e⟩ := Dense.bind_eq_ok e
    cases e
    unfold OTable.erase at e1
    obtain ⟨_, _, e1⟩ := Dense.bind_eq_ok e1
    split at e1
    · cases e1; exact Shrinks.refl t
    · exact doErase_shrinks e1
  | eraseNth n =>
    refine viaStep (Nat.zero_le _) fun r e h' => erased h' ?_
    simp only [OTable.step] at e
    split at e
    · obtain ⟨a, _, e⟩ := Dense.bind_eq_ok e
      obtain ⟨q, e1, e⟩ := Dense.bind_eq_ok e
      obtain ⟨_, _, e⟩ := Dense.bind_eq_ok e
      cases e
      exact eraseIter_shrinks e1
    · cases e; exact Shrinks.refl t
  | eraseRange x y =>
    refine viaStep (Nat.zero_le _) fun r e h' => erased h' ?_
    simp only [OTable.step] at e
    split at e
    · obtain ⟨a, _, e⟩ := Dense.bind_eq_ok e
      obtain ⟨a', _, e⟩ := Dense.bind_eq_ok e
      obtain ⟨q, e1, e⟩ := Dense.bind_eq_ok e
      cases e
      exact eraseRange_shrinks e1
    · cases e; exact Shrinks.refl t
  | eraseIf p =>
    refine viaStep (Nat.zero_le _) fun r e h' => erased h' ?_
    simp only [OTable.step] at e
    obtain ⟨a, _, e⟩ := Dense.bind_eq_ok e
    obtain ⟨q, e1, e⟩ := Dense.bind_eq_ok e
    cases e
    exact eraseIf_shrinks e1
  | extract x =>
    refine viaStep (Nat.zero_le _) fun r e h' => erased h' ?_
    simp only [OTable.step] at e
    obtain ⟨q, e1, e⟩ := Dense.bind_eq_ok e
    cases e
    unfold OTable.extract at e1
    obtain ⟨_, _, e1⟩ := Dense.bind_eq_ok e1
    split at e1
    · cases e1; exact Shrinks.refl t
    · obtain ⟨q', e2, e1⟩ := Dense.bind_eq_ok e1
      cases e1
      exact extractAt_shrinks e2
  | insertRange ra xs =>
    have hx : xs.length ≤ b := hfit
    refine viaStep (by simp only [Op.inserts]; omega) fun r e _ => ?_
    simp only [OTable.step] at e
    obtain ⟨q, e1, e⟩ := Dense.bind_eq_ok e
    cases e
    unfold OTable.insertRange at e1
    obtain ⟨⟨m1, t1⟩, e2, e1⟩ := Dense.bind_eq_ok e1
    have hres : Fixed t t1 ∧ t1.core.numEmpty = t.core.numEmpty ∧ At t1 i k ∧ Holds c m1 t1 (seqOf t.core.node o) := by
      cases ra with
      | false =>
        cases e2
        exact ⟨Fixed.refl t, rfl, hk, o, hr, rfl⟩
      | true =>
        simp only [if_true] at e2
        obtain ⟨f1, f2, f3⟩ := reserve_fixed e2 (by omega)
        obtain ⟨m', t', g1, g2, _⟩ := reserve_ok hsz hA hst hr (t.core.size + xs.length)
        rw [e2] at g1
        cases g1
        refine ⟨f1, f2, ⟨by rw [f1.cap]; exact hk.1, ?_⟩, g2.holds⟩
        simp only at f3
        rw [f3]
        exact hk.2
    obtain ⟨f1, f2, f3, f4⟩ := hres
    obtain ⟨d1, d2, d3⟩ := insertAll_at hsz hA hst xs f4 (by omega) f3 e1
    exact ⟨f1.trans d1, by simp only [Op.takes]; omega, d3⟩
  | assignRange ra xs => cases hfit
  | clear => simp [Spec.step] at hin
  | reserve n =>
    have hn : n ≤ (seqOf t.core.node o).length + b := hfit
    refine viaStep (Nat.zero_le _) fun r e _ => ?_
    simp only [OTable.step] at e
    obtain ⟨q, e1, e⟩ := Dense.bind_eq_ok e
    cases e
    obtain ⟨f1, f2, f3⟩ := reserve_fixed e1 (by omega)
    exact ⟨f1, by simp only; omega, by rw [f1.cap]; exact hk.1, by simp only; rw [f3]; exact hk.2⟩
  | rehash n => cases hfit
  | find x =>
    refine viaStep (Nat.zero_le _) fun r e _ => read ?_
    simp only [OTable.step] at e
    obtain ⟨_, _, e⟩ := Dense.bind_eq_ok e
    obtain ⟨_, _, e⟩ := Dense.bind_eq_ok e
    cases e; rfl
  | contains x =>
    refine viaStep (Nat.zero_le _) fun r e _ => read ?_
    simp only [OTable.step] at e
    obtain ⟨_, _, e⟩ := Dense.bind_eq_ok e
    cases e; rfl
  | size =>
    refine viaStep (Nat.zero_le _) fun r e _ => read ?_
    cases e; rfl
  | front =>
    refine viaStep (Nat.zero_le _) fun r e _ => read ?_
    simp only [OTable.step] at e
    split at e
    · cases e; rfl
    · obtain ⟨_, _, e⟩ := Dense.bind_eq_ok e
      obtain ⟨_, _, e⟩ := Dense.bind_eq_ok e
      cases e; rfl
  | back =>
    refine viaStep (Nat.zero_le _) fun r e _ => read ?_
    simp only [OTable.step] at e
    split at e
    · cases e; rfl
    · obtain ⟨_, _, e⟩ := Dense.bind_eq_ok e
      obtain ⟨_, _, e⟩ := Dense.bind_eq_ok e
      cases e; rfl
  | iterate =>
    refine viaStep (Nat.zero_le _) fun r e _ => read ?_
    simp only [OTable.step] at e
    obtain ⟨_, _, e⟩ := Dense.bind_eq_ok e
    obtain ⟨_, _, e⟩ := Dense.bind_eq_ok e
    cases e; rfl
  | reverse =>
    refine viaStep (Nat.zero_le _) fun r e _ => read ?_
    simp only [OTable.step] at e
    obtain ⟨_, _, e⟩ := Dense.bind_eq_ok e
    obtain ⟨_, _, e⟩ := Dense.bind_eq_ok e
    cases e; rfl

end Tpp.OSwiss
