import Verif.Swiss.Log
import Verif.Swiss.MultiSpec
import Verif.Ordered.Swiss
import Mathlib.Data.List.Perm.Basic

/-!
# Ordered sparse containers: representation, relocation and insertion
-/

set_option linter.unusedSectionVars false

namespace Tpp.OSwiss

open Tpp.Swiss (Node Ev Table Inv NoTomb Steps StepsTo Made Carried rels)
open Tpp.Ordered

variable {K V : Type} [DecidableEq K]

/-! ## Outcomes of the strict variant -/

/-- The run stopped at an exchange of two linked nodes, which needs `b`, or it ended with a result satisfying `P`. -/
def Okay {α : Type} (b : Prop) (x : M α) (P : α → Prop) : Prop := (b ∧ x = .error .rawSwap) ∨ ∃ a, x = .ok a ∧ P a

theorem Okay.ok {α : Type} {b : Prop} {P : α → Prop} {a : α} (h : P a) : Okay b (.ok a) P := Or.inr ⟨a, rfl, h⟩

theorem Okay.bind {α β : Type} {b b' : Prop} {x : M α} {P : α → Prop} {f : α → M β} {Q : β → Prop} (h : Okay b x P) (hb : b → b')
    (hf : ∀ a, P a → Okay b' (f a) Q) : Okay b' (x >>= f) Q := by
  rcases h with ⟨h0, h⟩ | ⟨a, h, hp⟩
  · exact Or.inl ⟨hb h0, by rw [h]; rfl⟩
  · rw [h]; exact hf a hp

theorem Okay.mono {α : Type} {b b' : Prop} {x : M α} {P Q : α → Prop} (h : Okay b x P) (hb : b → b') (hq : ∀ a, P a → Q a) : Okay b' x Q := by
  rcases h with ⟨h0, h⟩ | ⟨a, h, hp⟩
  · exact Or.inl ⟨hb h0, h⟩
  · exact Or.inr ⟨a, h, hq a hp⟩

theorem Okay.get {α : Type} {b : Prop} {x : M α} {P : α → Prop} (h : Okay b x P) (hb : ¬ b) : ∃ a, x = .ok a ∧ P a :=
  h.resolve_left (fun q => hb q.1)

/-! ## Sequences -/

/-- The elements of the slots `o`. -/
def seqOf (f : Nat → Option (Node K V)) (o : List Nat) : List (K × V) := o.filterMap fun i => (f i).map fun n => (n.key, n.val)

theorem seqOf_append (f : Nat → Option (Node K V)) (o o' : List Nat) : seqOf f (o ++ o') = seqOf f o ++ seqOf f o' := List.filterMap_append

theorem seqOf_cons {f : Nat → Option (Node K V)} {i : Nat} {n : Node K V} (h : f i = some n) (o : List Nat) :
    seqOf f (i :: o) = (n.key, n.val) :: seqOf f o := by
  unfold seqOf
  rw [List.filterMap_cons, h]
  rfl

theorem seqOf_map {f g : Nat → Option (Node K V)} {o : List Nat} {d : Nat → Nat} (h : ∀ i ∈ o, g (d i) = f i) :
    seqOf g (o.map d) = seqOf f o := by
  unfold seqOf
  rw [List.filterMap_map]
  refine List.filterMap_congr ?_
  intro i hi
  simp only [Function.comp_apply]
  rw [h i hi]

theorem seqOf_congr {f g : Nat → Option (Node K V)} {o : List Nat} (h : ∀ i ∈ o, g i = f i) : seqOf g o = seqOf f o := by
  have := seqOf_map (d := id) h
  rwa [List.map_id] at this

theorem seqOf_length {f : Nat → Option (Node K V)} : ∀ {o : List Nat}, (∀ i ∈ o, (f i).isSome) → (seqOf f o).length = o.length
  | [], _ => rfl
  | i :: o, h => by
    obtain ⟨n, hn⟩ := Option.isSome_iff_exists.mp (h i (by simp))
    rw [seqOf_cons hn, List.length_cons, List.length_cons, seqOf_length (fun j hj => h j (List.mem_cons_of_mem _ hj))]

theorem seqOf_getElem? {f : Nat → Option (Node K V)} : ∀ {o : List Nat}, (∀ i ∈ o, (f i).isSome) → ∀ n : Nat,
    (seqOf f o)[n]? = o[n]?.bind (fun i => (f i).map fun n => (n.key, n.val))
  | [], _, n => by simp [seqOf]
  | i :: o, h, n => by
    obtain ⟨x, hx⟩ := Option.isSome_iff_exists.mp (h i (by simp))
    rw [seqOf_cons hx]
    cases n with
    | zero => simp [hx]
    | succ n =>
      rw [List.getElem?_cons_succ, List.getElem?_cons_succ]
      exact seqOf_getElem? (fun j hj => h j (List.mem_cons_of_mem _ hj)) n

theorem mem_seqOf {f : Nat → Option (Node K V)} {o : List Nat} {e : K × V} :
    e ∈ seqOf f o ↔ ∃ i ∈ o, ∃ n, f i = some n ∧ (n.key, n.val) = e := by
  unfold seqOf
  simp only [List.mem_filterMap, Option.map_eq_some_iff]

theorem seqOf_perm_collect {f : Nat → Option (Node K V)} {o : List Nat} {n : Nat} (hn : o.Nodup) (h : ∀ i, i ∈ o ↔ i < n ∧ (f i).isSome) :
    (seqOf f o).Perm ((collect f n).map fun n => (n.key, n.val)) := by
  have h1 : o.Perm ((List.range n).filter fun i => (f i).isSome) := by
    refine (List.perm_ext_iff_of_nodup hn (List.nodup_range.filter _)).mpr ?_
    intro i
    rw [h i, List.mem_filter, List.mem_range]
  have h2 : ∀ l : List Nat, seqOf f (l.filter fun i => (f i).isSome) = seqOf f l := by
    intro l
    induction l with
    | nil => rfl
    | cons a l ih =>
      rw [List.filter_cons]
      split
      · rename_i q
        obtain ⟨x, hx⟩ := Option.isSome_iff_exists.mp q
        rw [seqOf_cons hx, seqOf_cons hx, ih]
      · rename_i q
        rw [ih]
        unfold seqOf
        rw [List.filterMap_cons]
        rw [Bool.not_eq_true, Option.isSome_eq_false_iff, Option.isNone_iff_eq_none] at q
        rw [q]
        rfl
  have h3 : (seqOf f (List.range n)).Perm ((collect f n).map fun n => (n.key, n.val)) := by
    unfold seqOf collect
    rw [List.map_filterMap]
  have := h1.filterMap (fun i => (f i).map fun n => (n.key, n.val))
  refine List.Perm.trans this ?_
  have e := h2 (List.range n)
  unfold seqOf at e h3
  rw [e]
  exact h3

/-! ## Keys in sequences -/

theorem Uniq.eq {s : List (K × V)} (h : Spec.Uniq s) {a b : K × V} (ha : a ∈ s) (hb : b ∈ s) (e : a.1 = b.1) : a = b :=
  List.inj_on_of_nodup_map h ha hb e

theorem find_some {s : List (K × V)} (h : Spec.Uniq s) {e : K × V} (he : e ∈ s) : Spec.find s e.1 = some e := by
  unfold Spec.find
  cases hf : s.find? (fun x => x.1 = e.1) with
  | none =>
    rw [List.find?_eq_none] at hf
    exact absurd (by simp) (hf e he)
  | some x =>
    have := List.find?_some hf
    simp only [decide_eq_true_eq] at this
    rw [Uniq.eq h (List.mem_of_find?_eq_some hf) he this]

theorem find_none {s : List (K × V)} {k : K} (h : ∀ e ∈ s, e.1 ≠ k) : Spec.find s k = none := by
  unfold Spec.find
  rw [List.find?_eq_none]
  intro e he
  simpa using h e he

/-! ## Representation -/

/-- The occupied slots of the array `f` of `cap` slots are linked in the order `o`. -/
structure Linked (sz : Int) (m : Mem) (hd base : Int) (cap : Nat) (f : Nat → Option (Node K V)) (o : List Nat) : Prop where
  occ : ∀ i, i ∈ o ↔ i < cap ∧ (f i).isSome
  ring : Ring m hd (o.map (fun i : Nat => base + sz * (i : Int)))
  live : ∀ x ∈ slots sz base cap, x ∈ m.live
  hdr : hd ∉ slots sz base cap

/-- The container is well formed and `o` are the slots in insertion order. -/
structure Rep (c : Cfg K) (m : Mem) (t : OTable K V) (o : List Nat) : Prop where
  core : Inv c.isa c.hash t.core
  link : Linked c.sz m t.hd t.base t.core.cap t.core.node o

/-- The container holds the sequence `s`. -/
def Holds (c : Cfg K) (m : Mem) (t : OTable K V) (s : List (K × V)) : Prop := ∃ o, Rep c m t o ∧ seqOf t.core.node o = s

namespace Linked

variable {sz : Int} {m : Mem} {hd base : Int} {cap : Nat} {f : Nat → Option (Node K V)} {o : List Nat}

theorem nodup (h : Linked sz m hd base cap f o) : o.Nodup := List.Nodup.of_map _ (List.nodup_cons.mp h.ring.nodup).2

theorem lt (h : Linked sz m hd base cap f o) {i : Nat} (hi : i ∈ o) : i < cap := ((h.occ i).mp hi).1

theorem get (h : Linked sz m hd base cap f o) {i : Nat} (hi : i ∈ o) : ∃ n, f i = some n :=
  Option.isSome_iff_exists.mp ((h.occ i).mp hi).2

theorem isSome (h : Linked sz m hd base cap f o) : ∀ i ∈ o, (f i).isSome := fun i hi => ((h.occ i).mp hi).2

theorem mem (h : Linked sz m hd base cap f o) {i : Nat} {n : Node K V} (hi : i < cap) (hn : f i = some n) : i ∈ o :=
  (h.occ i).mpr ⟨hi, by rw [hn]; rfl⟩

theorem hd_live (h : Linked sz m hd base cap f o) : hd ∈ m.live := h.ring.live _ (by simp)

theorem slot (h : Linked sz m hd base cap f o) {i : Nat} (hi : i ∈ o) : base + sz * (i : Int) ∈ slots sz base cap :=
  mem_slots.mpr ⟨i, h.lt hi, rfl⟩

theorem foot (h : Linked sz m hd base cap f o) : ∀ x ∈ hd :: o.map (fun i : Nat => base + sz * (i : Int)), x ∈ hd :: slots sz base cap := by
  intro x hx
  rcases List.mem_cons.mp hx with e | e
  · rw [e]; exact List.mem_cons_self
  · rw [List.mem_map] at e
    obtain ⟨i, hi, e⟩ := e
    exact List.mem_cons_of_mem _ (e ▸ h.slot hi)

theorem foot_live (h : Linked sz m hd base cap f o) : ∀ x ∈ hd :: slots sz base cap, x ∈ m.live := by
  intro x hx
  rcases List.mem_cons.mp hx with e | e
  · rw [e]; exact h.hd_live
  · exact h.live x e

/-- Operations on other storage do not matter. -/
theorem frame (h : Linked sz m hd base cap f o) {m' : Mem} {F F' : List Int} (hf : Frame m m' F F') (hF : ∀ x ∈ hd :: slots sz base cap, x ∉ F) :
    Linked sz m' hd base cap f o where
  occ := h.occ
  ring := hf.ring h.ring (fun x hx => hF x (h.foot x hx))
  live := fun x hx => (hf.keep x (h.live x hx) (hF x (List.mem_cons_of_mem _ hx))).1
  hdr := h.hdr

theorem perm (h : Linked sz m hd base cap f o) : (seqOf f o).Perm ((collect f cap).map fun n => (n.key, n.val)) :=
  seqOf_perm_collect h.nodup h.occ

end Linked

theorem fresh_inv {isa : Isa} {hash : K → Nat} {t : Table K V} (h : Inv isa hash t) : Inv isa hash (fresh t) :=
  ⟨h.shape, h.live, h.tag, h.hash_ok, h.uniq, h.reach, h.size_eq, h.budget⟩

variable {c : Cfg K} {m : Mem} {t : OTable K V} {o : List Nat}

namespace Rep

theorem perm (h : Rep c m t o) : (seqOf t.core.node o).Perm t.core.contents := h.link.perm

theorem uniq (h : Rep c m t o) : Spec.Uniq (seqOf t.core.node o) :=
  ((h.perm.map Prod.fst).nodup_iff).mpr h.core.contents_uniq

theorem length (h : Rep c m t o) : o.length = t.core.size := by
  rw [← seqOf_length h.link.isSome, h.perm.length_eq, h.core.contents_length]

theorem frame (h : Rep c m t o) {m' : Mem} {F F' : List Int} (hf : Frame m m' F F') (hF : ∀ x ∈ t.foot c.sz, x ∉ F) : Rep c m' t o :=
  ⟨h.core, h.link.frame hf hF⟩

/-- Looking up a key. -/
theorem cases (h : Rep c m t o) (k : K) :
    (∃ i n, i ∈ o ∧ i < t.core.cap ∧ t.core.node i = some n ∧ n.key = k ∧ t.core.findNode c.isa k (c.hash k) = .ok i ∧
      Spec.find (seqOf t.core.node o) k = some (n.key, n.val)) ∨
    ((∀ i, i < t.core.cap → ∀ n, t.core.node i = some n → n.key ≠ k) ∧ t.core.findNode c.isa k (c.hash k) = .ok t.core.cap ∧
      Spec.find (seqOf t.core.node o) k = none) := by
  rcases Swiss.find_cases h.core k with ⟨i, n, hi, hn, hk, hf, _⟩ | ⟨hno, hf, _⟩
  · have hio := h.link.mem hi hn
    refine Or.inl ⟨i, n, hio, hi, hn, hk, hf, ?_⟩
    have := find_some h.uniq (mem_seqOf.mpr ⟨i, hio, n, hn, rfl⟩)
    rw [← hk]
    exact this
  · refine Or.inr ⟨hno, hf, find_none ?_⟩
    intro e he
    obtain ⟨i, hi, n, hn, rfl⟩ := mem_seqOf.mp he
    exact hno i (h.link.lt hi) n hn

end Rep

theorem addr_inj {sz : Int} (hsz : 0 < sz) {t : OTable K V} {i j : Nat} (h : t.addr sz i = t.addr sz j) : i = j := slot_inj hsz h

theorem slotOf_ok {sz : Int} (hsz : 0 < sz) {t : OTable K V} {i : Nat} (hi : i < t.core.cap) : t.slotOf sz (t.addr sz i) = some i := by
  unfold OTable.slotOf
  cases h : (List.range t.core.cap).find? (fun j => t.addr sz j = t.addr sz i) with
  | none =>
    rw [List.find?_eq_none] at h
    exact absurd (by simp) (h i (List.mem_range.mpr hi))
  | some j =>
    have := List.find?_some h
    simp only [decide_eq_true_eq] at this
    rw [addr_inj hsz this]

theorem elemAt_ok {sz : Int} (hsz : 0 < sz) {t : OTable K V} {i : Nat} {n : Node K V} (hi : i < t.core.cap) (hn : t.core.node i = some n) :
    t.elemAt sz (t.addr sz i) = .ok (n.key, n.val) := by
  unfold OTable.elemAt
  rw [slotOf_ok hsz hi]
  simp only
  rw [Swiss.readNode_some hi hn, bind_ok]

/-! ## Relocation -/

/-- Moves inside the buffer. -/
theorem steps_ok {sz base hd : Int} (hsz : 0 < sz) {n : Nat} {f g : Nat → Option (Node K V)} {es : List Ev} (h : Steps n f es g) :
    ∀ {m : Mem} {o : List Nat}, Linked sz m hd base n f o →
    Okay True (es.foldlM (replayEv sz true base base) m) (fun m' => ∃ o', Linked sz m' hd base n g o' ∧ seqOf g o' = seqOf f o ∧
      Mem.Same m m' (fun x => x ∉ hd :: slots sz base n)) := by
  induction h with
  | nil f =>
    intro m o h
    exact Okay.ok ⟨o, h, rfl, Mem.Same.refl _ _⟩
  | swp _ _ _ _ _ _ =>
    intro m o h
    rw [List.foldlM_cons]
    exact Or.inl ⟨trivial, rfl⟩
  | @mv f g i j x es hi hj hfi hfj _ ih =>
    intro m o h
    have hio := h.mem hi hfi
    have hjo : j ∉ o := fun q => by
      obtain ⟨y, hy⟩ := h.get q
      rw [hfj] at hy
      cases hy
    have hij : j ≠ i := fun e => hjo (e ▸ hio)
    have hjs : base + sz * (j : Int) ∈ slots sz base n := mem_slots.mpr ⟨j, hj, rfl⟩
    obtain ⟨m1, e1, r1, s1⟩ := h.ring.relinkAt (b := base + sz * (j : Int)) hio (h.live _ hjs) (by
      intro q
      rw [List.mem_cons, List.mem_map] at q
      rcases q with q | ⟨y, hy, q⟩
      · exact h.hdr (q ▸ hjs)
      · exact hjo (slot_inj hsz q ▸ hy))
    rw [List.foldlM_cons]
    have e1' : replayEv sz true base base m (.mv i j) = .ok m1 := e1
    rw [e1', bind_ok]
    have hs1 : Mem.Same m m1 (fun x => x ∉ hd :: slots sz base n) := by
      refine s1.mono ?_
      intro y hy
      exact ⟨fun q => hy (List.mem_cons_of_mem _ (q ▸ hjs)), fun q => hy (h.foot y q)⟩
    have hL : Linked sz m1 hd base n (upd (upd f j (some x)) i none) (o.map (fun y => if y = i then j else y)) := by
      refine ⟨?_, ?_, fun y hy => by rw [s1.live]; exact h.live y hy, h.hdr⟩
      · intro y
        rw [List.mem_map]
        constructor
        · rintro ⟨z, hz, rfl⟩
          by_cases e : z = i
          · rw [if_pos e]
            refine ⟨hj, ?_⟩
            rw [upd_ne _ _ hij, upd_same]
            rfl
          · rw [if_neg e]
            refine ⟨h.lt hz, ?_⟩
            rw [upd_ne _ _ e, upd_ne _ _ (show z ≠ j from fun q => hjo (q ▸ hz))]
            exact h.isSome z hz
        · rintro ⟨hy, hs⟩
          by_cases e : y = i
          · rw [e, upd_same] at hs
            cases hs
          · rw [upd_ne _ _ e] at hs
            by_cases e' : y = j
            · exact ⟨i, hio, by rw [if_pos rfl, e']⟩
            · rw [upd_ne _ _ e'] at hs
              exact ⟨y, (h.occ y).mpr ⟨hy, hs⟩, by rw [if_neg e]⟩
      · have : (o.map (fun y => if y = i then j else y)).map (fun i : Nat => base + sz * (i : Int)) =
            o.map (upd (fun i : Nat => base + sz * (i : Int)) i (base + sz * (j : Int))) := by
          rw [List.map_map]
          refine List.map_congr_left ?_
          intro y _
          simp only [Function.comp_apply, upd]
          split <;> rfl
        rw [this]
        exact r1
    refine Okay.mono (ih hL) id ?_
    rintro m' ⟨o', h1, h2, h3⟩
    refine ⟨o', h1, h2.trans (seqOf_map ?_), hs1.trans h3⟩
    intro y hy
    by_cases e : y = i
    · rw [if_pos e, upd_ne _ _ hij, upd_same, e, hfi]
    · rw [if_neg e, upd_ne _ _ e, upd_ne _ _ (show y ≠ j from fun q => hjo (q ▸ hy))]

theorem replay_steps {t : OTable K V} {n : Nat} {f g : Nat → Option (Node K V)} {es : List Ev} (h : Steps n f es g) :
    t.replay c m es = (do
      let m ← es.foldlM (replayEv c.sz c.strict t.base t.base) m
      .ok (m, t.base)) := by
  cases h <;> rfl

/-- The relocations of one operation. -/
theorem replay_ok (hsz : 0 < c.sz) (hA : c.A.Sound c.sz) (hst : c.strict = true) (h : Rep c m t o) {t1 : Table K V}
    (hm : Made (fresh t.core) t1) {b : Prop} (hb : b ∨ t1 = fresh t.core ∨ ∃ n, (fresh t.core).doRehash c.isa n = .ok t1) :
    Okay b (t.replay c m t1.log.reverse) (fun r => ∃ o', Linked c.sz r.1 t.hd r.2 t1.cap t1.node o' ∧
      seqOf t1.node o' = seqOf t.core.node o ∧ Frame m r.1 (t.hd :: slots c.sz t.base t.core.cap) (t.hd :: slots c.sz r.2 t1.cap)) := by
  have hnew : ∀ n js d, t1.log = (rels js d).reverse ++ .grow n :: (fresh t.core).log → t1.cap = n →
      Carried (fresh t.core).node t1.node n js d → (∀ i, i ∈ js ↔ i < (fresh t.core).cap ∧ ((fresh t.core).ctl i).isOccupied = true) →
      Okay b (t.replay c m t1.log.reverse) (fun r => ∃ o', Linked c.sz r.1 t.hd r.2 t1.cap t1.node o' ∧
        seqOf t1.node o' = seqOf t.core.node o ∧
        Frame m r.1 (t.hd :: slots c.sz t.base t.core.cap) (t.hd :: slots c.sz r.2 t1.cap)) := by
    intro n js d e1 e2 e3 e4
    have hl : t1.log.reverse = .grow n :: rels js d := by
      rw [e1]
      simp [fresh]
    have hjs : ∀ i, i ∈ js ↔ i ∈ o := by
      intro i
      rw [e4 i, h.link.occ i]
      constructor
      · rintro ⟨q1, q2⟩
        exact ⟨q1, by rw [h.core.live i q1]; exact q2⟩
      · rintro ⟨q1, q2⟩
        exact ⟨q1, by rw [h.core.live i q1] at q2; exact q2⟩
    obtain ⟨m1, m', g1, g2, g3, g4, g5, g6⟩ := grow_ok (d := d) (js := js) (c := n) hA hsz h.link.ring (fun i hi => h.link.slot hi)
      h.link.live h.link.hdr e3.nodup hjs (fun i hi => e3.lt i ((hjs i).mpr hi))
      (fun i hi j hj q => e3.inj i ((hjs i).mpr hi) j ((hjs j).mpr hj) q)
    rw [hl]
    right
    refine ⟨(m', (m.alloc c.sz c.A n).2), ?_, o.map d, ⟨?_, ?_, ?_, ?_⟩, ?_, ?_⟩
    · unfold OTable.replay rels
      simp only
      rw [List.foldlM_map]
      have g1' : js.foldlM (fun (mm : Mem) (i : Nat) => replayEv c.sz c.strict t.base (m.alloc c.sz c.A n).2 mm (.rel i (d i)))
        (m.alloc c.sz c.A n).1 = .ok m1 := g1
      rw [g1', bind_ok, g2, bind_ok]
    · intro x
      rw [List.mem_map, e2]
      constructor
      · rintro ⟨i, hi, rfl⟩
        have hi' := (hjs i).mpr hi
        refine ⟨e3.lt i hi', ?_⟩
        rw [e3.val i hi']
        exact e3.some i hi'
      · rintro ⟨q1, q2⟩
        obtain ⟨i, hi, q⟩ := e3.only x q1 q2
        exact ⟨i, (hjs i).mp hi, q⟩
    · rw [List.map_map]
      exact g3
    · rw [e2]; exact g4
    · rw [e2]; exact g5
    · exact seqOf_map (fun i hi => e3.val i ((hjs i).mpr hi))
    · rw [e2]; exact g6
  rcases hm with ⟨n, js, d, e1, e2, e3, e4⟩ | ⟨es, e1, e2, e3⟩
  · exact hnew n js d e1 e2 e3 e4
  · rcases hb with hb | hb | ⟨n, hb⟩
    · have hl : t1.log.reverse = es := by
        rw [e1]
        simp [fresh]
      rw [hl, replay_steps e3, hst]
      refine Okay.bind (steps_ok hsz e3 h.link) (fun _ => hb) ?_
      rintro m' ⟨o', h1, h2, h3⟩
      refine Okay.ok ⟨o', ?_, h2, ?_⟩
      · rw [e2]; exact h1
      · rw [e2]
        exact h3.frame (fun x hx => hx)
    · subst hb
      refine Or.inr ⟨(m, t.base), rfl, o, h.link, rfl, Frame.refl _ _⟩
    · obtain ⟨js, d, f1, f2, f3, f4⟩ := Swiss.doRehash_log hb
      exact hnew n js d f1 f2 f3 f4

theorem split_uniq {s1 s2 : List (K × V)} {e : K × V} (h : Spec.Uniq (s1 ++ e :: s2)) :
    (∀ a ∈ s1, a.1 ≠ e.1) ∧ (∀ a ∈ s2, a.1 ≠ e.1) := by
  unfold Spec.Uniq at h
  rw [List.map_append, List.map_cons] at h
  have h' := (List.perm_middle (a := e.1) (l₁ := s1.map Prod.fst) (l₂ := s2.map Prod.fst)).nodup_iff.mp h
  rw [List.nodup_cons, ← List.map_append] at h'
  exact ⟨fun a ha q => h'.1 (List.mem_map.mpr ⟨a, List.mem_append_left _ ha, q⟩),
    fun a ha q => h'.1 (List.mem_map.mpr ⟨a, List.mem_append_right _ ha, q⟩)⟩

theorem erase_split {s1 s2 : List (K × V)} {e : K × V} (h : Spec.Uniq (s1 ++ e :: s2)) : Spec.erase (s1 ++ e :: s2) e.1 = s1 ++ s2 := by
  obtain ⟨h1, h2⟩ := split_uniq h
  unfold Spec.erase
  rw [List.filter_append, List.filter_cons, if_neg (by simp), List.filter_eq_self.mpr (by simpa using h1),
    List.filter_eq_self.mpr (by simpa using h2)]

theorem erase_absent {s : List (K × V)} {k : K} (h : Spec.find s k = none) : Spec.erase s k = s := by
  unfold Spec.find at h
  rw [List.find?_eq_none] at h
  unfold Spec.erase
  rw [List.filter_eq_self]
  intro a ha
  simpa using h a ha

end Tpp.OSwiss
