import Verif.Ordered.DenseCopy

/-!
# Histories of several ordered dense containers in one memory
-/

set_option linter.unusedSectionVars false

namespace Tpp.ODense

open Tpp.Dense (Elem LF Table Inv)
open Tpp.Ordered

/-- Operations on numbered containers.  An operation is ignored if a container it names does not exist, or, for constructors, if
the new container exists already. -/
inductive WOp (k : Nat) (K V : Type)
  | create (id : Nat) (lf : LF)
  | createN (id : Nat) (lf : LF) (n : Nat)
  | op (id : Nat) (o : Op k K V)
  | copyCtor (src dst : Nat)
  /-- the flag is `propagate_on_container_copy_assignment` -/
  | copyAssign (prop : Bool) (src dst : Nat)
  | moveCtor (src dst : Nat)
  /-- the flag is `propagate_on_container_move_assignment`; the allocators are equal -/
  | moveAssign (prop : Bool) (src dst : Nat)
  | swap (a b : Nat)
  | destroy (id : Nat)

/-- The containers' sequences. -/
abbrev Seqs (k : Nat) (K V : Type) := Nat → Option (List (Elem k K V))

namespace WSpec

variable {k : Nat} {K V : Type} [DecidableEq K]

/-- What the operations ought to do. -/
def step (s : Seqs k K V) : WOp k K V → Seqs k K V × Out k K V
  | .create id _ =>
    match s id with
    | none => (upd s id (some []), .unit)
    | some _ => (s, .unit)
  | .createN id _ _ =>
    match s id with
    | none => (upd s id (some []), .unit)
    | some _ => (s, .unit)
  | .op id o =>
    match s id with
    | none => (s, .unit)
    | some l => (upd s id (some (Spec.step l o).1), (Spec.step l o).2)
  | .copyCtor src dst =>
    match s src, s dst with
    | some l, none => (upd s dst (some l), .unit)
    | _, _ => (s, .unit)
  | .copyAssign _ src dst =>
    match s src, s dst with
    | some l, some _ => (upd s dst (some l), .unit)
    | _, _ => (s, .unit)
  | .moveCtor src dst =>
    match s src, s dst with
    | some l, none => (upd (upd s src (some [])) dst (some l), .unit)
    | _, _ => (s, .unit)
  | .moveAssign _ src dst =>
    if src = dst then (s, .unit)
    else
      match s src, s dst with
      | some l, some _ => (upd (upd s src (some [])) dst (some l), .unit)
      | _, _ => (s, .unit)
  | .swap a b =>
    if a = b then (s, .unit)
    else
      match s a, s b with
      | some l, some l' => (upd (upd s a (some l')) b (some l), .unit)
      | _, _ => (s, .unit)
  | .destroy id => (upd s id none, .unit)

def run (s : Seqs k K V) : List (WOp k K V) → Seqs k K V × List (Out k K V)
  | [] => (s, [])
  | o :: os => ((run (step s o).1 os).1, (step s o).2 :: (run (step s o).1 os).2)

/-- The container exists and is empty. -/
def nil : Option (List (Elem k K V)) → Bool
  | some [] => true
  | _ => false

/-- What the code can do: `erase(key)` needs buckets, which every container with elements has; allocators that do not propagate
leave stale buckets in some cases; `swap` of two containers needs elements on both sides. -/
def allowed (s : Seqs k K V) : WOp k K V → Bool
  | .op id (.erase _ _) => !nil (s id)
  | .copyAssign prop src dst => prop || !nil (s src) || nil (s dst)
  | .moveAssign prop src dst => src = dst || (prop || nil (s dst))
  | .swap a b => a = b || (!nil (s a) && !nil (s b))
  | _ => true

/-- All operations of a history are allowed. -/
def Guarded (s : Seqs k K V) : List (WOp k K V) → Bool
  | [] => true
  | o :: os => allowed s o && Guarded (step s o).1 os

end WSpec

/-- The containers and the memory they live in. -/
structure World (k : Nat) (K V : Type) where
  mem : Mem
  tab : Nat → Option (OTable k K V)

namespace World

variable {k : Nat} {K V : Type} [DecidableEq K]

/-- The functions of `Verif/Ordered/Dense.lean` on the numbered containers (dense_table.hpp 230-309, 463-482); `src` and `dst` may be the
same container: lines 252/278 test for assignment to itself. -/
def step (hash : K → Nat) (sz : Int) (A : Alloc) (w : World k K V) : WOp k K V → M (World k K V × Out k K V)
  | .create id lf =>
    match w.tab id with
    | none =>
      let r := OTable.create sz A w.mem lf
      .ok (⟨r.1, upd w.tab id (some r.2)⟩, .unit)
    | some _ => .ok (w, .unit)
  | .createN id lf n =>
    match w.tab id with
    | none =>
      let r := OTable.createN sz A w.mem lf n
      .ok (⟨r.1, upd w.tab id (some r.2)⟩, .unit)
    | some _ => .ok (w, .unit)
  | .op id o =>
    match w.tab id with
    | none => .ok (w, .unit)
    | some t => do
      let r ← t.step hash sz A w.mem o
      .ok (⟨r.1, upd w.tab id (some r.2.1)⟩, r.2.2)
  | .copyCtor src dst =>
    match w.tab src, w.tab dst with
    | some u, none => do
      let r ← OTable.copyCtor sz A w.mem u
      .ok (⟨r.1, upd w.tab dst (some r.2)⟩, .unit)
    | _, _ => .ok (w, .unit)
  | .copyAssign prop src dst =>
    if src = dst then .ok (w, .unit)
    else
      match w.tab src, w.tab dst with
      | some u, some t => do
        let r ← t.copyAssign sz A prop w.mem u
        .ok (⟨r.1, upd w.tab dst (some r.2)⟩, .unit)
      | _, _ => .ok (w, .unit)
  | .moveCtor src dst =>
    match w.tab src, w.tab dst with
    | some u, none => do
      let r ← OTable.moveCtor sz A w.mem u
      .ok (⟨r.1, upd (upd w.tab src (some r.2.2)) dst (some r.2.1)⟩, .unit)
    | _, _ => .ok (w, .unit)
  | .moveAssign prop src dst =>
    if src = dst then .ok (w, .unit)
    else
      match w.tab src, w.tab dst with
      | some u, some t => do
        let r ← t.moveAssign sz prop w.mem u
        .ok (⟨r.1, upd (upd w.tab src (some r.2.2)) dst (some r.2.1)⟩, .unit)
      | _, _ => .ok (w, .unit)
  | .swap a b =>
    if a = b then
      match w.tab a with
      | some t => do
        let r ← t.swap w.mem t
        .ok (⟨r.1, upd w.tab a (some r.2.1)⟩, .unit)
      | none => .ok (w, .unit)
    else
      match w.tab a, w.tab b with
      | some t, some u => do
        let r ← t.swap w.mem u
        .ok (⟨r.1, upd (upd w.tab a (some r.2.1)) b (some r.2.2)⟩, .unit)
      | _, _ => .ok (w, .unit)
  | .destroy id =>
    match w.tab id with
    | none => .ok (w, .unit)
    | some t => do
      let m ← t.destroy sz w.mem
      .ok (⟨m, upd w.tab id none⟩, .unit)

def run (hash : K → Nat) (sz : Int) (A : Alloc) (w : World k K V) : List (WOp k K V) → M (World k K V × List (Out k K V))
  | [] => .ok (w, [])
  | o :: os => do
    let r ← w.step hash sz A o
    let r' ← run hash sz A r.1 os
    .ok (r'.1, r.2 :: r'.2)

end World

variable {k : Nat} {K V : Type} [DecidableEq K]
variable {hash : K → Nat} {sz : Int} {A : Alloc}

/-- Every container holds its sequence, and no two containers share storage. -/
structure WInv (hash : K → Nat) (sz : Int) (w : World k K V) (s : Seqs k K V) : Prop where
  none : ∀ i, w.tab i = none → s i = none
  holds : ∀ i t, w.tab i = some t → ∃ l, s i = some l ∧ Holds hash sz w.mem t l
  apart : ∀ i j t u, i ≠ j → w.tab i = some t → w.tab j = some u → Apart sz t u

theorem Holds.live {m : Mem} {t : OTable k K V} {l : List (Elem k K V)} (h : Holds hash sz m t l) : ∀ x ∈ t.foot sz, x ∈ m.live := by
  obtain ⟨_, _, h, _⟩ := h
  exact h.foot_live

theorem Holds.frame {m m' : Mem} {t : OTable k K V} {l : List (Elem k K V)} (h : Holds hash sz m t l) {F F' : List Int}
    (hf : Frame m m' F F') (hd : ∀ x ∈ t.foot sz, x ∉ F) : Holds hash sz m' t l := by
  obtain ⟨a, o, h, e⟩ := h
  exact ⟨a, o, h.frame hf hd, e⟩

theorem WInv.some_iff {w : World k K V} {s : Seqs k K V} (h : WInv hash sz w s) {i : Nat} {l : List (Elem k K V)} (e : s i = some l) :
    ∃ t, w.tab i = some t ∧ Holds hash sz w.mem t l := by
  cases ht : w.tab i with
  | none => rw [h.none i ht] at e; cases e
  | some t =>
    obtain ⟨l', e', hl⟩ := h.holds i t ht
    rw [e'] at e
    cases e
    exact ⟨t, rfl, hl⟩

theorem WInv.none_iff {w : World k K V} {s : Seqs k K V} (h : WInv hash sz w s) {i : Nat} (e : s i = Option.none) : w.tab i = Option.none := by
  cases ht : w.tab i with
  | none => rfl
  | some t =>
    obtain ⟨l', e', hl⟩ := h.holds i t ht
    rw [e'] at e
    cases e

/-- An operation on the containers in `S`. -/
theorem WInv.update {w : World k K V} {s : Seqs k K V} (h : WInv hash sz w s) {m' : Mem} {F F' : List Int} (hf : Frame w.mem m' F F')
    {tab' : Nat → Option (OTable k K V)} {s' : Seqs k K V} (S : Nat → Prop)
    (hsame : ∀ i, ¬ S i → tab' i = w.tab i ∧ s' i = s i)
    (hF : ∀ i t, ¬ S i → w.tab i = some t → ∀ x ∈ t.foot sz, x ∉ F)
    (hnew : ∀ i, S i → (tab' i = Option.none ∧ s' i = Option.none) ∨
      ∃ t l, tab' i = some t ∧ s' i = some l ∧ Holds hash sz m' t l ∧ ∀ x ∈ t.foot sz, x ∈ F')
    (hap : ∀ i j t u, S i → S j → i ≠ j → tab' i = some t → tab' j = some u → Apart sz t u) :
    WInv hash sz ⟨m', tab'⟩ s' := by
  have hmix : ∀ i j t u, S i → ¬ S j → tab' i = some t → tab' j = some u → Apart sz t u := by
    intro i j t u hi hj et eu x hx hx'
    rw [(hsame j hj).1] at eu
    rcases hnew i hi with ⟨q, _⟩ | ⟨t', l, q, _, _, hsub⟩
    · rw [q] at et; cases et
    · rw [q] at et
      cases et
      obtain ⟨_, _, hl⟩ := h.holds j u eu
      rcases hf.fresh x (hsub x hx) with g | g
      · exact hF j u hj eu x hx' g
      · exact g (hl.live x hx')
  refine ⟨?_, ?_, ?_⟩
  · intro i hi
    change tab' i = Option.none at hi
    by_cases hs : S i
    · rcases hnew i hs with ⟨_, q⟩ | ⟨t', l, q, _⟩
      · exact q
      · rw [q] at hi; cases hi
    · rw [(hsame i hs).1] at hi
      rw [(hsame i hs).2, h.none i hi]
  · intro i t hi
    change tab' i = some t at hi
    by_cases hs : S i
    · rcases hnew i hs with ⟨q, _⟩ | ⟨t', l, q1, q2, q3, _⟩
      · rw [q] at hi; cases hi
      · rw [q1] at hi
        cases hi
        exact ⟨l, q2, q3⟩
    · rw [(hsame i hs).1] at hi
      rw [(hsame i hs).2]
      obtain ⟨l, e, hl⟩ := h.holds i t hi
      exact ⟨l, e, hl.frame hf (hF i t hs hi)⟩
  · intro i j t u hne hi hj
    change tab' i = some t at hi
    change tab' j = some u at hj
    by_cases si : S i <;> by_cases sj : S j
    · exact hap i j t u si sj hne hi hj
    · exact hmix i j t u si sj hi hj
    · exact (hmix j i u t sj si hj hi).symm
    · rw [(hsame i si).1] at hi
      rw [(hsame j sj).1] at hj
      exact h.apart i j t u hne hi hj

/-- An operation that gives container `i` other storage or creates it. -/
theorem WInv.update1 {w : World k K V} {s : Seqs k K V} (h : WInv hash sz w s) {m' : Mem} {F : List Int} {i : Nat} {t' : OTable k K V}
    {l' : List (Elem k K V)} (hf : Frame w.mem m' F (t'.foot sz)) (hF : F = [] ∨ ∃ t, w.tab i = some t ∧ F = t.foot sz)
    (hl : Holds hash sz m' t' l') : WInv hash sz ⟨m', upd w.tab i (some t')⟩ (upd s i (some l')) := by
  refine h.update hf (fun j => j = i) ?_ ?_ ?_ ?_
  · intro j hj
    exact ⟨upd_ne _ _ hj, upd_ne _ _ hj⟩
  · intro j u hj hu x hx q
    rcases hF with g | ⟨t, ht, g⟩
    · rw [g] at q; cases q
    · rw [g] at q
      exact h.apart j i u t hj hu ht x hx q
  · intro j hj
    rw [hj]
    exact Or.inr ⟨t', l', upd_same .., upd_same .., hl, fun _ q => q⟩
  · intro a b t u ha hb hne
    exact absurd (ha.trans hb.symm) hne

/-- An operation on two containers. -/
theorem WInv.update2 {w : World k K V} {s : Seqs k K V} (h : WInv hash sz w s) {m' : Mem} {F : List Int} {i j : Nat} (hij : i ≠ j)
    {t' u' : OTable k K V} {l l' : List (Elem k K V)} (hf : Frame w.mem m' F (t'.foot sz ++ u'.foot sz))
    (hF : ∀ x ∈ F, ∃ n t, (n = i ∨ n = j) ∧ w.tab n = some t ∧ x ∈ t.foot sz)
    (h1 : Holds hash sz m' t' l) (h2 : Holds hash sz m' u' l') (ha : Apart sz t' u') :
    WInv hash sz ⟨m', upd (upd w.tab i (some t')) j (some u')⟩ (upd (upd s i (some l)) j (some l')) := by
  refine h.update hf (fun n => n = i ∨ n = j) ?_ ?_ ?_ ?_
  · intro n hn
    rw [not_or] at hn
    exact ⟨by rw [upd_ne _ _ hn.2, upd_ne _ _ hn.1], by rw [upd_ne _ _ hn.2, upd_ne _ _ hn.1]⟩
  · intro n v hn hv x hx q
    obtain ⟨a, t, ha', ht, hxt⟩ := hF x q
    exact h.apart n a v t (fun e => hn (e ▸ ha')) hv ht x hx hxt
  · intro n hn
    right
    rcases hn with e | e
    · rw [e]
      exact ⟨t', l, by rw [upd_ne _ _ hij, upd_same], by rw [upd_ne _ _ hij, upd_same], h1, fun x hx => List.mem_append_left _ hx⟩
    · rw [e]
      exact ⟨u', l', upd_same .., upd_same .., h2, fun x hx => List.mem_append_right _ hx⟩
  · intro a b t u sa sb hne hta hub
    rcases sa with e | e <;> rcases sb with e' | e'
    · exact absurd (e.trans e'.symm) hne
    · rw [e, upd_ne _ _ hij, upd_same] at hta
      rw [e', upd_same] at hub
      cases hta; cases hub
      exact ha
    · rw [e, upd_same] at hta
      rw [e', upd_ne _ _ hij, upd_same] at hub
      cases hta; cases hub
      exact ha.symm
    · exact absurd (e.trans e'.symm) hne

theorem nil_false {l : List (Elem k K V)} : WSpec.nil (some l) = false ↔ l ≠ [] := by
  cases l <;> simp [WSpec.nil]

theorem nil_true {l : List (Elem k K V)} : WSpec.nil (some l) = true ↔ l = [] := by
  cases l <;> simp [WSpec.nil]

theorem Rep.nil_iff {m : Mem} {t : OTable k K V} {l : List (Elem k K V)} {o : List Nat} (h : Rep hash sz m t l o) : seq l o = [] ↔ l = [] := by
  rw [← List.length_eq_zero_iff, seq_length h.perm, h.length, List.length_eq_zero_iff]

theorem wstep_ok (hsz : 0 < sz) (hA : A.Sound sz) {w : World k K V} {s : Seqs k K V} (h : WInv hash sz w s) (o : WOp k K V)
    (hg : WSpec.allowed s o = true) :
    ∃ w', w.step hash sz A o = .ok (w', (WSpec.step s o).2) ∧ WInv hash sz w' (WSpec.step s o).1 := by
  cases o with
  | create id lf =>
    simp only [World.step, WSpec.step]
    cases hs : s id with
    | none =>
      rw [h.none_iff hs]
      obtain ⟨m', t, e, _, _, h1, _, f⟩ := create_ok (hash := hash) (k := k) (K := K) (V := V) hA w.mem lf
      simp only [e]
      exact ⟨_, rfl, h.update1 f (Or.inl rfl) ⟨_, _, h1, rfl⟩⟩
    | some l =>
      obtain ⟨t, ht, _⟩ := h.some_iff hs
      rw [ht]
      exact ⟨w, rfl, h⟩
  | createN id lf n =>
    simp only [World.step, WSpec.step]
    cases hs : s id with
    | none =>
      rw [h.none_iff hs]
      obtain ⟨m', t, e, h1, _, _, f⟩ := createN_ok (hash := hash) (k := k) (K := K) (V := V) hA w.mem lf n
      simp only [e]
      exact ⟨_, rfl, h.update1 f (Or.inl rfl) ⟨_, _, h1, rfl⟩⟩
    | some l =>
      obtain ⟨t, ht, _⟩ := h.some_iff hs
      rw [ht]
      exact ⟨w, rfl, h⟩
  | op id o =>
    simp only [World.step, WSpec.step]
    cases hs : s id with
    | none => rw [h.none_iff hs]; exact ⟨w, rfl, h⟩
    | some l =>
      obtain ⟨t, ht, hl⟩ := h.some_iff hs
      rw [ht]
      have hb : ∀ j x, o = .erase j x → 0 < t.core.bc := by
        rintro j x rfl
        simp only [WSpec.allowed, hs, Bool.not_eq_true', nil_false] at hg
        obtain ⟨a, o', hr, e⟩ := hl
        rcases Nat.eq_zero_or_pos t.core.bc with q | q
        · exact absurd (e ▸ hr.nil_iff.mpr (hr.core.empty q)) hg
        · exact q
      obtain ⟨m', t', e, h1, _⟩ := step_ok hsz hA hl o hb
      simp only
      rw [e, bind_ok]
      exact ⟨_, rfl, h.update1 h1.frame (Or.inr ⟨t, ht, rfl⟩) h1.holds⟩
  | copyCtor src dst =>
    simp only [World.step, WSpec.step]
    cases hs : s src with
    | none => rw [h.none_iff hs]; exact ⟨w, rfl, h⟩
    | some l =>
      obtain ⟨u, hu, a, o, hr, rfl⟩ := h.some_iff hs
      rw [hu]
      cases hd : s dst with
      | some l' =>
        obtain ⟨t, ht, _⟩ := h.some_iff hd
        rw [ht]
        exact ⟨w, rfl, h⟩
      | none =>
        rw [h.none_iff hd]
        obtain ⟨m', t, e, h1, _, f⟩ := copyCtor_ok hsz hA hr
        simp only
        rw [e, bind_ok]
        exact ⟨_, rfl, h.update1 f (Or.inl rfl) ⟨_, _, h1, rfl⟩⟩
  | copyAssign prop src dst =>
    simp only [World.step, WSpec.step]
    by_cases hsd : src = dst
    · subst hsd
      rw [if_pos rfl]
      cases hs : s src with
      | none => exact ⟨w, rfl, h⟩
      | some l =>
        refine ⟨w, rfl, ?_⟩
        have : upd s src (some l) = s := by
          funext x
          unfold upd
          split
          · rename_i q; rw [q, hs]
          · rfl
        simp only
        rw [this]
        exact h
    · rw [if_neg hsd]
      cases hs : s src with
      | none => rw [h.none_iff hs]; exact ⟨w, rfl, h⟩
      | some l =>
        obtain ⟨u, hu, hlu⟩ := h.some_iff hs
        rw [hu]
        cases hd : s dst with
        | none => rw [h.none_iff hd]; exact ⟨w, rfl, h⟩
        | some l' =>
          obtain ⟨t, ht, hlt⟩ := h.some_iff hd
          obtain ⟨a, o, hr, rfl⟩ := hlu
          obtain ⟨a', o', hr', rfl⟩ := hlt
          rw [ht]
          obtain ⟨m', t', e, h1, h2, f⟩ := copyAssign_ok (prop := prop) hsz hA hr' hr (h.apart src dst u t hsd hu ht) (by
            simp only [WSpec.allowed, hs, hd, Bool.or_eq_true, Bool.not_eq_true', nil_false, nil_true] at hg
            rcases hg with (q | q) | q
            · exact Or.inl q
            · exact Or.inr (Or.inl (fun g => q (hr.nil_iff.mpr g)))
            · exact Or.inr (Or.inr (hr'.nil_iff.mp q)))
          simp only
          rw [e, bind_ok]
          exact ⟨_, rfl, h.update1 f (Or.inr ⟨t, ht, rfl⟩) ⟨_, _, h1, rfl⟩⟩
  | moveCtor src dst =>
    simp only [World.step, WSpec.step]
    cases hs : s src with
    | none => rw [h.none_iff hs]; exact ⟨w, rfl, h⟩
    | some l =>
      obtain ⟨u, hu, a, o, hr, rfl⟩ := h.some_iff hs
      rw [hu]
      cases hd : s dst with
      | some l' =>
        obtain ⟨t, ht, _⟩ := h.some_iff hd
        rw [ht]
        exact ⟨w, rfl, h⟩
      | none =>
        have hsd : src ≠ dst := fun q => by rw [q, hd] at hs; cases hs
        rw [h.none_iff hd]
        obtain ⟨m', t, u', e, h1, h2, _, _, hap, f⟩ := moveCtor_ok hA hr
        simp only
        rw [e, bind_ok]
        refine ⟨_, rfl, h.update2 (F := u.foot sz) hsd (f.congr (fun _ q => q) ?_) ?_ ⟨_, _, h2, rfl⟩ ⟨_, _, h1, rfl⟩ hap.symm⟩
        · intro x hx
          left
          rw [List.mem_append] at hx ⊢
          exact hx.symm
        · intro x hx
          exact ⟨src, u, Or.inl rfl, hu, hx⟩
  | moveAssign prop src dst =>
    simp only [World.step, WSpec.step]
    by_cases hsd : src = dst
    · rw [if_pos hsd, if_pos hsd]
      exact ⟨w, rfl, h⟩
    · rw [if_neg hsd, if_neg hsd]
      cases hs : s src with
      | none => rw [h.none_iff hs]; exact ⟨w, rfl, h⟩
      | some l =>
        obtain ⟨u, hu, hlu⟩ := h.some_iff hs
        rw [hu]
        cases hd : s dst with
        | none => rw [h.none_iff hd]; exact ⟨w, rfl, h⟩
        | some l' =>
          obtain ⟨t, ht, hlt⟩ := h.some_iff hd
          obtain ⟨a, o, hr, rfl⟩ := hlu
          obtain ⟨a', o', hr', rfl⟩ := hlt
          rw [ht]
          obtain ⟨m', t', u', e, hm⟩ := moveAssign_ok (prop := prop) hr' hr (h.apart src dst u t hsd hu ht).symm (by
            simp only [WSpec.allowed, hd, Bool.or_eq_true, decide_eq_true_eq, hsd, false_or, nil_true] at hg
            exact hg.imp_right hr'.nil_iff.mp)
          simp only
          rw [e, bind_ok]
          refine ⟨_, rfl, h.update2 (F := t.foot sz ++ u.foot sz) hsd (hm.frame.congr (fun _ q => q) ?_) ?_ ⟨_, _, hm.snd, rfl⟩
            ⟨_, _, hm.fst, rfl⟩ hm.apart.symm⟩
          · intro x hx
            left
            rw [List.mem_append] at hx ⊢
            exact hx.symm
          · intro x hx
            rcases List.mem_append.mp hx with q | q
            · exact ⟨dst, t, Or.inr rfl, ht, q⟩
            · exact ⟨src, u, Or.inl rfl, hu, q⟩
  | swap a b =>
    simp only [World.step, WSpec.step]
    by_cases hab : a = b
    · rw [if_pos hab, if_pos hab]
      cases hs : s a with
      | none => rw [h.none_iff hs]; exact ⟨w, rfl, h⟩
      | some l =>
        obtain ⟨t, ht, a1, o, hr, _⟩ := h.some_iff hs
        rw [ht]
        simp only
        rw [swap_self hr, bind_ok]
        have e : upd w.tab a (some t) = w.tab := by
          funext x
          unfold upd
          split
          · rename_i q; rw [q, ht]
          · rfl
        refine ⟨w, ?_, h⟩
        simp only
        rw [e]
    · rw [if_neg hab, if_neg hab]
      cases hs : s a with
      | none => rw [h.none_iff hs]; exact ⟨w, rfl, h⟩
      | some l =>
        obtain ⟨t, ht, hlt⟩ := h.some_iff hs
        rw [ht]
        cases hd : s b with
        | none => rw [h.none_iff hd]; exact ⟨w, rfl, h⟩
        | some l' =>
          obtain ⟨u, hu, hlu⟩ := h.some_iff hd
          obtain ⟨a1, o, hr, rfl⟩ := hlt
          obtain ⟨a2, o', hr', rfl⟩ := hlu
          rw [hu]
          simp only [WSpec.allowed, hs, hd, Bool.or_eq_true, decide_eq_true_eq, hab, false_or, Bool.and_eq_true, Bool.not_eq_true',
            nil_false] at hg
          obtain ⟨m', t', u', e, hm⟩ := swap_ok hr hr' (h.apart a b t u hab ht hu) (fun q => hg.1 (hr.nil_iff.mpr q))
            (fun q => hg.2 (hr'.nil_iff.mpr q))
          simp only
          rw [e, bind_ok]
          refine ⟨_, rfl, h.update2 (F := t.foot sz ++ u.foot sz) hab hm.frame ?_ ⟨_, _, hm.fst, rfl⟩ ⟨_, _, hm.snd, rfl⟩ hm.apart⟩
          intro x hx
          rcases List.mem_append.mp hx with q | q
          · exact ⟨a, t, Or.inl rfl, ht, q⟩
          · exact ⟨b, u, Or.inr rfl, hu, q⟩
  | destroy id =>
    simp only [World.step, WSpec.step]
    cases hs : s id with
    | none =>
      rw [h.none_iff hs]
      refine ⟨w, rfl, ?_⟩
      have : upd s id none = s := by
        funext x
        unfold upd
        split
        · rename_i q; rw [q, hs]
        · rfl
      rw [this]
      exact h
    | some l =>
      obtain ⟨t, ht, a, o, hr, rfl⟩ := h.some_iff hs
      rw [ht]
      obtain ⟨m', e, f, _⟩ := destroy_ok hr
      simp only
      rw [e, bind_ok]
      refine ⟨_, rfl, h.update f (fun j => j = id) ?_ ?_ ?_ ?_⟩
      · intro j hj
        exact ⟨upd_ne _ _ hj, upd_ne _ _ hj⟩
      · intro j v hj hv
        exact h.apart j id v t hj hv ht
      · intro j hj
        rw [hj]
        exact Or.inl ⟨upd_same .., upd_same ..⟩
      · intro a b t u ha hb hne
        exact absurd (ha.trans hb.symm) hne

/-- Any guarded history of any number of containers: no fault, and all answers are those of the specification. -/
theorem wrun_ok (hsz : 0 < sz) (hA : A.Sound sz) : ∀ (os : List (WOp k K V)) {w : World k K V} {s : Seqs k K V}, WInv hash sz w s →
    WSpec.Guarded s os = true →
    ∃ w', w.run hash sz A os = .ok (w', (WSpec.run s os).2) ∧ WInv hash sz w' (WSpec.run s os).1
  | [], w, s, h, _ => ⟨w, rfl, h⟩
  | o :: os, w, s, h, hg => by
    simp only [WSpec.Guarded, Bool.and_eq_true] at hg
    obtain ⟨w1, e1, h1⟩ := wstep_ok hsz hA h o hg.1
    obtain ⟨w2, e2, h2⟩ := wrun_ok hsz hA os h1 hg.2
    refine ⟨w2, ?_, h2⟩
    simp only [World.run, WSpec.run]
    rw [e1, bind_ok, e2, bind_ok]

/-- At the beginning there are no containers; the memory may hold anything else. -/
theorem winit (m : Mem) : WInv hash sz (⟨m, fun _ => none⟩ : World k K V) (fun _ => none) :=
  ⟨fun _ _ => rfl, fun _ _ h => (by cases h), fun _ _ _ _ _ h => (by cases h)⟩

end Tpp.ODense
