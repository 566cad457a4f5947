import Verif.Swiss.Ops
import Verif.Dense.Ops

/-!
# The log of relocations describes how the elements moved

The ghost log of `Verif/Swiss/Model.lean` records every relocation of a node.  Here: the node array after a rehash is the one
that results from the logged relocations.
-/

set_option linter.unusedSectionVars false

namespace Tpp.Swiss

open Tpp.Dense (bind_eq_ok)

variable {K V : Type} [DecidableEq K]

theorem foldlM_range_inv {σ : Type} {f : σ → Nat → M σ} (P : Nat → σ → Prop) (n : Nat)
    (hstep : ∀ i, i < n → ∀ s s', P i s → f s i = .ok s' → P (i + 1) s') {s s' : σ} (h0 : P 0 s)
    (h : (List.range n).foldlM f s = .ok s') : P n s' := by
  induction n generalizing s' with
  | zero => cases h; exact h0
  | succ n ih =>
    rw [List.range_succ, List.foldlM_append] at h
    obtain ⟨a, h1, h2⟩ := bind_eq_ok h
    rw [List.foldlM_cons] at h2
    obtain ⟨b, h3, h4⟩ := bind_eq_ok h2
    cases h4
    exact hstep n (by omega) a _ (ih (fun i hi => hstep i (by omega)) h1) h3

theorem writeCtl_node {t t' : Table K V} {i : Nat} {c : Ctl} (h : t.writeCtl i c = .ok t') :
    t'.node = t.node ∧ t'.cap = t.cap ∧ t'.log = t.log := by
  unfold Table.writeCtl at h
  split at h
  · cases h; exact ⟨rfl, rfl, rfl⟩
  · cases h

theorem setMetadata_node {isa : Isa} {t t' : Table K V} {i : Nat} {c : Ctl} (h : t.setMetadata isa i c = .ok t') :
    t'.node = t.node ∧ t'.cap = t.cap ∧ t'.log = t.log := by
  unfold Table.setMetadata at h
  obtain ⟨a, h1, h2⟩ := bind_eq_ok h
  obtain ⟨e1, e2, e3⟩ := writeCtl_node h1
  obtain ⟨f1, f2, f3⟩ := writeCtl_node h2
  exact ⟨f1.trans e1, f2.trans e2, f3.trans e3⟩

theorem readNode_eq {t : Table K V} {i : Nat} {n : Node K V} (h : t.readNode i = .ok n) : i < t.cap ∧ t.node i = some n := by
  unfold Table.readNode at h
  split at h
  · rename_i hi
    split at h
    · rename_i n' hn
      cases h
      exact ⟨hi, hn⟩
    · cases h
  · cases h

theorem construct_eq {t t' : Table K V} {i : Nat} {n : Node K V} (h : t.construct i n = .ok t') :
    i < t.cap ∧ t.node i = none ∧ t' = { t with node := upd t.node i (some n) } := by
  unfold Table.construct at h
  split at h
  · rename_i hi
    split at h
    · cases h
    · rename_i hn
      cases h
      exact ⟨hi, hn, rfl⟩
  · cases h

theorem destroy_eq {t t' : Table K V} {i : Nat} (h : t.destroy i = .ok t') :
    i < t.cap ∧ (t.node i).isSome ∧ t' = { t with node := upd t.node i none } := by
  unfold Table.destroy at h
  split at h
  · rename_i hi
    split at h
    · rename_i n hn
      cases h
      exact ⟨hi, by rw [hn]; rfl, rfl⟩
    · cases h
  · cases h

theorem readCtl_eq {t : Table K V} {i : Nat} {c : Ctl} (h : t.readCtl i = .ok c) : c = t.ctl i := by
  unfold Table.readCtl at h
  split at h
  · cases h; rfl
  · cases h

/-! ## A new buffer -/

/-- The elements of the slots `js` of the array `f` are in the slots `d i` of the array `g` of `n` slots, and nothing else is. -/
structure Carried (f g : Nat → Option (Node K V)) (n : Nat) (js : List Nat) (d : Nat → Nat) : Prop where
  nodup : js.Nodup
  some : ∀ i ∈ js, (f i).isSome
  lt : ∀ i ∈ js, d i < n
  inj : ∀ i ∈ js, ∀ j ∈ js, d i = d j → i = j
  val : ∀ i ∈ js, g (d i) = f i
  only : ∀ x, x < n → (g x).isSome → ∃ i ∈ js, d i = x

/-- The events of a rehash into a new buffer. -/
def rels (js : List Nat) (d : Nat → Nat) : List Ev := js.map fun i => .rel i (d i)

/-- The relocation of the slots below `q` into a new buffer. -/
theorem reloc_log {isa : Isa} {t : Table K V} {n q : Nat} {p : Table K V × Table K V}
    (h1 : (List.range q).foldlM (Table.relocOne isa) (t,
      { cap := n, len := n + isa.W, ctl := fillEmpty n, node := fun _ => none, size := t.size, numEmpty := t.numEmpty,
        log := .grow n :: t.log }) = .ok p) :
    p.1.ctl = t.ctl ∧ (∀ j, q ≤ j → p.1.node j = t.node j) ∧
      ∃ js d, p.2.log = (rels js d).reverse ++ .grow n :: t.log ∧ p.2.cap = n ∧ Carried t.node p.2.node n js d ∧
        ∀ j, j ∈ js ↔ j < q ∧ (t.ctl j).isOccupied = true := by
  have key := foldlM_range_inv (f := Table.relocOne isa)
    (fun i (p : Table K V × Table K V) => p.1.ctl = t.ctl ∧ (∀ j, i ≤ j → p.1.node j = t.node j) ∧
      ∃ js d, p.2.log = (rels js d).reverse ++ .grow n :: t.log ∧ p.2.cap = n ∧ Carried t.node p.2.node n js d ∧
        ∀ j, j ∈ js ↔ j < i ∧ (t.ctl j).isOccupied = true) q (by
    rintro i hi ⟨s, p⟩ ⟨s', p'⟩ ⟨c1, c2, js, d, c3, c4, c5, c6⟩ e
    simp only at c1 c2 c3 c4 c5 c6
    unfold Table.relocOne at e
    simp only at e
    obtain ⟨c, e1, e⟩ := bind_eq_ok e
    have hc := readCtl_eq e1
    rw [c1] at hc
    cases hc
    split at e
    · rename_i ho
      obtain ⟨x, e2, e⟩ := bind_eq_ok e
      obtain ⟨tg, e3, e⟩ := bind_eq_ok e
      obtain ⟨p1, e4, e⟩ := bind_eq_ok e
      obtain ⟨s1, e5, e⟩ := bind_eq_ok e
      obtain ⟨p2, e6, e⟩ := bind_eq_ok e
      cases e
      obtain ⟨r1, r2⟩ := readNode_eq e2
      obtain ⟨q1, q2, q3⟩ := construct_eq e4
      obtain ⟨_, _, u3⟩ := destroy_eq e5
      obtain ⟨m1, m2, m3⟩ := setMetadata_node e6
      subst q3 u3
      simp only at m1 m2 m3
      rw [c2 i (Nat.le_refl _)] at r2
      have hni : i ∉ js := fun hj => by have := (c6 i).mp hj; omega
      have hdne : ∀ j ∈ js, d j ≠ tg := by
        intro j hj e
        have h1 := c5.val j hj
        rw [e, q2] at h1
        have h2 := c5.some j hj
        rw [← h1] at h2
        cases h2
      have hud : ∀ j ∈ js, upd d i tg j = d j := fun j hj => upd_ne _ _ (by rintro rfl; exact hni hj)
      refine ⟨c1, ?_, js ++ [i], upd d i tg, ?_, by simp only; rw [m2]; exact c4, ?_, ?_⟩
      · intro j hj
        simp only
        rw [upd_ne _ _ (by omega)]
        exact c2 j (by omega)
      · have hr : rels js (upd d i tg) = rels js d := by
          refine List.map_congr_left ?_
          intro j hj
          rw [hud j hj]
        simp only
        rw [m3, c3]
        show _ = (List.map _ (js ++ [i])).reverse ++ _
        rw [List.map_append, List.reverse_append]
        simp only [List.map_cons, List.map_nil, List.reverse_cons, List.reverse_nil, List.nil_append, List.cons_append, upd_same]
        rw [show (List.map (fun i_1 => Ev.rel i_1 (upd d i tg i_1)) js) = rels js (upd d i tg) from rfl, hr]
      · simp only
        rw [m1]
        refine ⟨?_, ?_, ?_, ?_, ?_, ?_⟩
        · rw [List.nodup_append]
          exact ⟨c5.nodup, by simp, by rintro a ha b hb rfl; rw [List.mem_singleton] at hb; exact hni (hb ▸ ha)⟩
        · intro j hj
          rcases List.mem_append.mp hj with q | q
          · exact c5.some j q
          · rw [List.mem_singleton.mp q, r2]; rfl
        · intro j hj
          rcases List.mem_append.mp hj with q | q
          · rw [hud j q]; exact c5.lt j q
          · rw [List.mem_singleton.mp q, upd_same]; omega
        · intro a ha b hb e
          rcases List.mem_append.mp ha with qa | qa <;> rcases List.mem_append.mp hb with qb | qb
          · rw [hud a qa, hud b qb] at e; exact c5.inj a qa b qb e
          · rw [List.mem_singleton.mp qb, upd_same, hud a qa] at e
            exact absurd e (hdne a qa)
          · rw [List.mem_singleton.mp qa, upd_same, hud b qb] at e
            exact absurd e.symm (hdne b qb)
          · rw [List.mem_singleton.mp qa, List.mem_singleton.mp qb]
        · intro j hj
          rcases List.mem_append.mp hj with q | q
          · rw [hud j q, upd_ne _ _ (hdne j q)]; exact c5.val j q
          · rw [List.mem_singleton.mp q, upd_same, upd_same, r2]
        · intro x hx hs
          by_cases hxt : x = tg
          · exact ⟨i, by simp, by rw [upd_same, hxt]⟩
          · rw [upd_ne _ _ hxt] at hs
            obtain ⟨j, hj, e⟩ := c5.only x hx hs
            exact ⟨j, List.mem_append_left _ hj, by rw [hud j hj, e]⟩
      · intro j
        rw [List.mem_append, c6 j, List.mem_singleton]
        constructor
        · rintro (⟨h1, h2⟩ | rfl)
          · exact ⟨by omega, h2⟩
          · exact ⟨by omega, ho⟩
        · rintro ⟨h1, h2⟩
          by_cases hj : j = i
          · exact Or.inr hj
          · exact Or.inl ⟨by omega, h2⟩
    · rename_i ho
      cases e
      refine ⟨c1, fun j hj => c2 j (by omega), js, d, c3, c4, c5, ?_⟩
      intro j
      rw [c6 j]
      constructor
      · rintro ⟨h1, h2⟩; exact ⟨by omega, h2⟩
      · rintro ⟨h1, h2⟩
        refine ⟨?_, h2⟩
        by_contra hc
        have : j = i := by omega
        subst this
        exact ho h2)
    (s := (t, { cap := n, len := n + isa.W, ctl := fillEmpty n, node := fun _ => none, size := t.size, numEmpty := t.numEmpty,
                log := .grow n :: t.log }))
    ⟨rfl, fun _ _ => rfl, [], fun i => i, rfl, rfl,
      ⟨List.nodup_nil, fun _ h => (by cases h), fun _ h => (by cases h), fun _ h => (by cases h), fun _ h => (by cases h),
        fun _ _ h => (by cases h)⟩, fun j => ⟨fun h => (by cases h), fun h => (by omega)⟩⟩ h1
  exact key

theorem doRehash_log {isa : Isa} {t t' : Table K V} {n : Nat} (h : t.doRehash isa n = .ok t') :
    ∃ js d, t'.log = (rels js d).reverse ++ .grow n :: t.log ∧ t'.cap = n ∧ Carried t.node t'.node n js d ∧
      ∀ i, i ∈ js ↔ i < t.cap ∧ (t.ctl i).isOccupied = true := by
  unfold Table.doRehash at h
  simp only at h
  obtain ⟨⟨src, t1⟩, h1, h2⟩ := bind_eq_ok h
  obtain ⟨_, _, js, d, k3, k4, k5, k6⟩ := reloc_log h1
  obtain ⟨_, _, h3⟩ := bind_eq_ok h2
  split at h3
  · cases h3
    exact ⟨js, d, k3, k4, k5, k6⟩
  · cases h3

/-! ## Reclaiming in place -/

/-- The moves in one array of `n` slots lead from `f` to `g`. -/
inductive Steps (n : Nat) : (Nat → Option (Node K V)) → List Ev → (Nat → Option (Node K V)) → Prop
  | nil (f) : Steps n f [] f
  | mv {f g i j x es} : i < n → j < n → f i = some x → f j = none → Steps n (upd (upd f j (some x)) i none) es g →
      Steps n f (.mv i j :: es) g
  | swp {f g i j x y es} : i < n → j < n → f i = some x → f j = some y → Steps n (upd (upd f i (some y)) j (some x)) es g →
      Steps n f (.swp i j :: es) g

theorem Steps.append {n : Nat} {f g h : Nat → Option (Node K V)} {es fs : List Ev} (h1 : Steps n f es g) (h2 : Steps n g fs h) :
    Steps n f (es ++ fs) h := by
  induction h1 with
  | nil f => exact h2
  | mv a b c d _ ih => exact Steps.mv a b c d (ih h2)
  | swp a b c d _ ih => exact Steps.swp a b c d (ih h2)

/-- A table after moves inside its buffer. -/
def StepsTo (t t' : Table K V) : Prop :=
  ∃ es, t'.log = es.reverse ++ t.log ∧ t'.cap = t.cap ∧ Steps t.cap t.node es t'.node

theorem StepsTo.refl (t : Table K V) : StepsTo t t := ⟨[], rfl, rfl, .nil _⟩

theorem StepsTo.trans {a b c : Table K V} (h : StepsTo a b) (h' : StepsTo b c) : StepsTo a c := by
  obtain ⟨es, e1, e2, e3⟩ := h
  obtain ⟨fs, f1, f2, f3⟩ := h'
  refine ⟨es ++ fs, by rw [f1, e1, List.reverse_append, List.append_assoc], f2.trans e2, ?_⟩
  rw [e2] at f3
  exact e3.append f3

theorem StepsTo.same {a b : Table K V} (h1 : b.log = a.log) (h2 : b.cap = a.cap) (h3 : b.node = a.node) : StepsTo a b :=
  ⟨[], by rw [h1]; rfl, h2, by rw [h3]; exact .nil _⟩

theorem processNode_log {isa : Isa} {i : Nat} : ∀ {fuel : Nat} {t t' : Table K V}, Table.processNode isa fuel t i = .ok t' → StepsTo t t'
  | 0, _, _, h => by cases h
  | fuel + 1, t, t', h => by
    unfold Table.processNode at h
    obtain ⟨n, h1, h⟩ := bind_eq_ok h
    obtain ⟨tg, h2, h⟩ := bind_eq_ok h
    obtain ⟨r1, r2⟩ := readNode_eq h1
    split at h
    · obtain ⟨m1, m2, m3⟩ := setMetadata_node h
      exact StepsTo.same m3 m2 m1
    · obtain ⟨c, h3, h⟩ := bind_eq_ok h
      split at h
      · obtain ⟨a, h4, h⟩ := bind_eq_ok h
        obtain ⟨b, h5, h⟩ := bind_eq_ok h
        obtain ⟨u, h6, h⟩ := bind_eq_ok h
        obtain ⟨v, h7, h⟩ := bind_eq_ok h
        cases h
        obtain ⟨q1, q2, q3⟩ := construct_eq h4
        obtain ⟨_, _, u3⟩ := destroy_eq h5
        obtain ⟨m1, m2, m3⟩ := setMetadata_node h6
        obtain ⟨n1, n2, n3⟩ := setMetadata_node h7
        subst q3 u3
        simp only at m1 m2 m3
        refine ⟨[.mv i tg], ?_, by simp only; rw [n2, m2], ?_⟩
        · simp only
          rw [n3, m3]; rfl
        · simp only
          rw [n1, m1]
          exact Steps.mv r1 q1 r2 q2 (.nil _)
      · obtain ⟨m, h4, h⟩ := bind_eq_ok h
        obtain ⟨u, h5, h⟩ := bind_eq_ok h
        obtain ⟨s1, s2⟩ := readNode_eq h4
        obtain ⟨m1, m2, m3⟩ := setMetadata_node h5
        simp only at m1 m2 m3
        refine StepsTo.trans ?_ (processNode_log h)
        exact ⟨[.swp i tg], by rw [m3]; rfl, m2, by rw [m1]; exact Steps.swp r1 s1 r2 s2 (.nil _)⟩

theorem processSlot_log {isa : Isa} {t t' : Table K V} {i : Nat} (h : Table.processSlot isa t i = .ok t') : StepsTo t t' := by
  unfold Table.processSlot at h
  obtain ⟨c, _, h⟩ := bind_eq_ok h
  split at h
  · exact processNode_log h
  · cases h; exact StepsTo.refl _

theorem rehashDeleted_log {isa : Isa} {t t' : Table K V} (h : t.rehashDeleted isa = .ok t') : StepsTo t t' := by
  unfold Table.rehashDeleted at h
  obtain ⟨a, h1, h⟩ := bind_eq_ok h
  obtain ⟨b, h2, h⟩ := bind_eq_ok h
  obtain ⟨c, h3, h⟩ := bind_eq_ok h
  have ha : StepsTo t a := by
    refine foldlM_range_inv (fun _ s => StepsTo t s) _ ?_ (StepsTo.refl t) h1
    intro i _ s s' hs e
    unfold Table.resetBlock at e
    split at e
    · cases e
      exact hs.trans (StepsTo.same rfl rfl rfl)
    · cases e
  have hb : StepsTo a b := by
    unfold Table.cloneTail at h2
    split at h2
    · cases h2
      exact StepsTo.same rfl rfl rfl
    · cases h2
  have hc : StepsTo b c :=
    foldlM_range_inv (fun _ s => StepsTo b s) _ (fun i _ s s' hs e => hs.trans (processSlot_log e)) (StepsTo.refl b) h3
  split at h
  · cases h
    exact ((ha.trans hb).trans hc).trans (StepsTo.same rfl rfl rfl)
  · cases h

/-! ## Insertion -/

/-- What happens to the buffer before an element is added: nothing; or a new buffer; or moves inside the buffer. -/
def Made (t t' : Table K V) : Prop :=
  (∃ n js d, t'.log = (rels js d).reverse ++ .grow n :: t.log ∧ t'.cap = n ∧ Carried t.node t'.node n js d ∧
    ∀ i, i ∈ js ↔ i < t.cap ∧ (t.ctl i).isOccupied = true) ∨ StepsTo t t'

theorem doRehash_made {isa : Isa} {t t' : Table K V} {n : Nat} (h : t.doRehash isa n = .ok t') : Made t t' := by
  obtain ⟨js, d, h⟩ := doRehash_log h
  exact Or.inl ⟨n, js, d, h⟩

theorem prepare_log {isa : Isa} {t t' : Table K V} {hh p : Nat} (h : t.prepare isa hh = .ok (t', p)) : Made t t' := by
  unfold Table.prepare at h
  split at h
  · obtain ⟨a, h1, h⟩ := bind_eq_ok h
    obtain ⟨q, _, h⟩ := bind_eq_ok h
    cases h
    exact doRehash_made h1
  · obtain ⟨q, _, h⟩ := bind_eq_ok h
    obtain ⟨c, _, h⟩ := bind_eq_ok h
    split at h
    · simp only at h
      split at h
      · obtain ⟨a, h1, h⟩ := bind_eq_ok h
        obtain ⟨q, _, h⟩ := bind_eq_ok h
        cases h
        exact Or.inr (rehashDeleted_log h1)
      · obtain ⟨a, h1, h⟩ := bind_eq_ok h
        obtain ⟨q, _, h⟩ := bind_eq_ok h
        cases h
        exact doRehash_made h1
    · cases h
      exact Or.inr (StepsTo.refl _)

theorem commit_log {isa : Isa} {t t' : Table K V} {n : Node K V} {p q : Nat} (h : t.commit isa p n = .ok (t', q)) :
    q = p ∧ p < t.cap ∧ t.node p = none ∧ t'.node = upd t.node p (some n) ∧ t'.cap = t.cap ∧ t'.log = t.log := by
  unfold Table.commit at h
  obtain ⟨a, h1, h⟩ := bind_eq_ok h
  obtain ⟨c, _, h⟩ := bind_eq_ok h
  obtain ⟨q1, q2, q3⟩ := construct_eq h1
  subst q3
  simp only at h
  generalize (if c = Ctl.empty then 1 else 0) = dec at h
  split at h
  · obtain ⟨b, h2, h⟩ := bind_eq_ok h
    cases h
    obtain ⟨m1, m2, m3⟩ := setMetadata_node h2
    exact ⟨rfl, q1, q2, m1, m2, m3⟩
  · cases h

theorem emplaceNode_log {isa : Isa} {t t' : Table K V} {n : Node K V} {p : Nat} (h : t.emplaceNode isa n = .ok (t', p)) :
    ∃ t1, Made t t1 ∧ p < t1.cap ∧ t1.node p = none ∧ t'.node = upd t1.node p (some n) ∧ t'.cap = t1.cap ∧ t'.log = t1.log := by
  unfold Table.emplaceNode at h
  obtain ⟨⟨a, q⟩, h1, h⟩ := bind_eq_ok h
  obtain ⟨e, h2⟩ := commit_log h
  subst e
  exact ⟨a, prepare_log h1, h2⟩

theorem reserve_log {isa : Isa} {t t' : Table K V} {n : Nat} (h : t.reserve isa n = .ok t') : Made t t' := by
  unfold Table.reserve at h
  split at h
  · exact doRehash_made h
  · cases h; exact Or.inr (StepsTo.refl _)

theorem rehash_log {isa : Isa} {t t' : Table K V} {n : Nat} (h : t.rehash isa n = .ok t') : Made t t' := by
  unfold Table.rehash at h
  split at h
  · cases h; exact Or.inr (StepsTo.refl _)
  · simp only at h
    split at h
    · exact doRehash_made h
    · cases h; exact Or.inr (StepsTo.refl _)

/-- With a slot left the buffer is kept. -/
theorem prepare_room {isa : Isa} {t t' : Table K V} {hh p : Nat} (h : t.prepare isa hh = .ok (t', p)) (h0 : 0 < t.numEmpty)
    (hc : 0 < t.cap) : t' = t := by
  unfold Table.prepare at h
  rw [if_neg (by omega)] at h
  obtain ⟨q, _, h⟩ := bind_eq_ok h
  obtain ⟨c, _, h⟩ := bind_eq_ok h
  rw [if_neg (by omega)] at h
  cases h
  rfl

/-- Without erased slots a table is not reclaimed in place. -/
theorem prepare_noTomb_grow {isa : Isa} {hash : K → Nat} {t t' : Table K V} {hh p : Nat} (h : t.prepare isa hh = .ok (t', p)) (hI : Inv isa hash t)
    (hn : NoTomb t) : t' = t ∨ ∃ n, t.doRehash isa n = .ok t' ∧ t.cap < n := by
  unfold Table.prepare at h
  split at h
  · obtain ⟨a, h1, h⟩ := bind_eq_ok h
    obtain ⟨q, _, h⟩ := bind_eq_ok h
    cases h
    exact Or.inr ⟨_, h1, by omega⟩
  · rename_i hcap
    obtain ⟨q, _, h⟩ := bind_eq_ok h
    obtain ⟨c, _, h⟩ := bind_eq_ok h
    split at h
    · rename_i hne
      simp only at h
      split at h
      · rename_i hcond
        exfalso
        have hb := hI.budget (by omega)
        have h0 : cnt (fun i => (t.ctl i).isDeleted) t.cap = 0 := by
          refine cnt_eq_zero ?_
          intro i hi
          cases hc : t.ctl i <;> simp [Ctl.isDeleted]
          exact absurd hc (hn i hi)
        rw [h0, hne.1] at hb
        have hW := isa.W_pos
        unfold maxSize at hb
        split at hb <;> omega
      · obtain ⟨a, h1, h⟩ := bind_eq_ok h
        obtain ⟨q, _, h⟩ := bind_eq_ok h
        cases h
        exact Or.inr ⟨_, h1, by omega⟩
    · cases h
      exact Or.inl rfl

theorem prepare_noTomb {isa : Isa} {hash : K → Nat} {t t' : Table K V} {hh p : Nat} (h : t.prepare isa hh = .ok (t', p)) (hI : Inv isa hash t)
    (hn : NoTomb t) : t' = t ∨ ∃ n, t.doRehash isa n = .ok t' :=
  (prepare_noTomb_grow h hI hn).imp_right fun ⟨n, e, _⟩ => ⟨n, e⟩

end Tpp.Swiss
