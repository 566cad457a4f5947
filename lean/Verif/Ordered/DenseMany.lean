import Verif.Ordered.DenseWorld

/-!
# Ordered dense containers with their own hash functions

In `Verif/Ordered/DenseWorld.lean` all containers of a program use the same hash function.  Here each has its own, which travels with the
elements (dense_table.hpp 230-302, 460-478).
-/

set_option linter.unusedSectionVars false

namespace Tpp.ODense

open Tpp.Dense (Elem LF Table Inv)
open Tpp.Ordered

/-- Operations on numbered containers: those of `WOp`, in which a constructor without a hash function uses the default-constructed one, and
the constructor with a bucket count and a hash function (dense_table.hpp 218-225). -/
inductive HOp (k : Nat) (K V : Type)
  | make (id : Nat) (hash : K → Nat) (lf : LF) (n : Nat)
  | on (o : WOp k K V)

/-- The operation without the hash function. -/
def HOp.plain {k : Nat} {K V : Type} : HOp k K V → WOp k K V
  | .make id _ lf n => .createN id lf n
  | .on o => o

/-- The containers, the memory they live in, and the hash function in each container (dense_table.hpp 71, `hash_base`). -/
structure HWorld (k : Nat) (K V : Type) where
  world : World k K V
  hash : Nat → K → Nat

variable {k : Nat} {K V : Type} [DecidableEq K]
variable {sz : Int} {A : Alloc}

namespace HWorld

/-- Both containers exist. -/
def both (w : World k K V) (a b : Nat) : Bool := (w.tab a).isSome && (w.tab b).isSome

/-- What happens to the hash functions: constructors copy or move them (dense_table.hpp 230-248), assignments too (255, 281), `swap`
exchanges them (460-478).  `dflt` is the default-constructed one, `mv` says what a move leaves. -/
def hashes (dflt : K → Nat) (mv : (K → Nat) → K → Nat) (w : World k K V) (H : Nat → K → Nat) : WOp k K V → Nat → K → Nat
  | .create id _ | .createN id _ _ => if (w.tab id).isSome then H else upd H id dflt
  | .copyCtor src dst => if (w.tab src).isSome && (w.tab dst).isNone then upd H dst (H src) else H
  | .copyAssign _ src dst => if both w src dst then upd H dst (H src) else H
  | .moveCtor src dst =>
    if (w.tab src).isSome && (w.tab dst).isNone then upd (upd H src (mv (H src))) dst (H src) else H
  | .moveAssign _ src dst =>
    if src = dst then H else if both w src dst then upd (upd H src (mv (H src))) dst (H src) else H
  | .swap a b => if both w a b then upd (upd H a (H b)) b (H a) else H
  | _ => H

/-- The container whose hash function an operation calls: only operations on one container call one (dense_table.hpp 489), for the
others it does not matter what is given here. -/
def acting : WOp k K V → Nat
  | .create id _ | .createN id _ _ | .op id _ | .destroy id => id
  | .copyCtor src _ | .copyAssign _ src _ | .moveCtor src _ | .moveAssign _ src _ => src
  | .swap a _ => a

/-- One operation. -/
def step (dflt : K → Nat) (sz : Int) (A : Alloc) (mv : (K → Nat) → K → Nat) (x : HWorld k K V) : HOp k K V → M (HWorld k K V × Out k K V)
  | .make id hash lf n => do
    let r ← x.world.step hash sz A (.createN id lf n)
    .ok (⟨r.1, hashes hash mv x.world x.hash (.createN id lf n)⟩, r.2)
  | .on o => do
    let r ← x.world.step (x.hash (acting o)) sz A o
    .ok (⟨r.1, hashes dflt mv x.world x.hash o⟩, r.2)

def run (dflt : K → Nat) (sz : Int) (A : Alloc) (mv : (K → Nat) → K → Nat) (x : HWorld k K V) :
    List (HOp k K V) → M (HWorld k K V × List (Out k K V))
  | [] => .ok (x, [])
  | o :: os => do
    let r ← x.step dflt sz A mv o
    let r' ← run dflt sz A mv r.1 os
    .ok (r'.1, r.2 :: r'.2)

end HWorld

/-- Every container holds its sequence with its own hash function, and no two containers share storage. -/
structure HInv (sz : Int) (w : World k K V) (H : Nat → K → Nat) (s : Seqs k K V) : Prop where
  none : ∀ i, w.tab i = none → s i = none
  holds : ∀ i t, w.tab i = some t → ∃ l, s i = some l ∧ Holds (H i) sz w.mem t l
  apart : ∀ i j t u, i ≠ j → w.tab i = some t → w.tab j = some u → Apart sz t u

/-- An empty container goes with any hash function. -/
theorem Rep.any {hash : K → Nat} {m : Mem} {t : OTable k K V} {o : List Nat} (h : Rep hash sz m t [] o) (g : K → Nat) : Rep g sz m t [] o :=
  ⟨Inv.any h.core g, h.perm, h.ring, h.live, h.hdr⟩

theorem hupd_self {α : Type} {s : Nat → α} {i : Nat} {x : α} (h : s i = x) : upd s i x = s := by
  funext j
  unfold upd
  split
  · rename_i q; rw [q, h]
  · rfl

theorem HInv.some_iff {w : World k K V} {H : Nat → K → Nat} {s : Seqs k K V} (h : HInv sz w H s) {i : Nat} {l : List (Elem k K V)} (e : s i = some l) :
    ∃ t, w.tab i = some t ∧ Holds (H i) sz w.mem t l := by
  cases ht : w.tab i with
  | none => rw [h.none i ht] at e; cases e
  | some t =>
    obtain ⟨l', e', hl⟩ := h.holds i t ht
    rw [e'] at e
    cases e
    exact ⟨t, rfl, hl⟩

theorem HInv.none_iff {w : World k K V} {H : Nat → K → Nat} {s : Seqs k K V} (h : HInv sz w H s) {i : Nat} (e : s i = Option.none) : w.tab i = Option.none := by
  cases ht : w.tab i with
  | none => rfl
  | some t =>
    obtain ⟨l', e', hl⟩ := h.holds i t ht
    rw [e'] at e
    cases e

/-- An operation on the containers in `S`. -/
theorem HInv.update {w : World k K V} {H : Nat → K → Nat} {s : Seqs k K V} (h : HInv sz w H s) {m' : Mem} {F F' : List Int} (hf : Frame w.mem m' F F')
    {tab' : Nat → Option (OTable k K V)} {s' : Seqs k K V} {H' : Nat → K → Nat} (S : Nat → Prop)
    (hsame : ∀ i, ¬ S i → tab' i = w.tab i ∧ s' i = s i ∧ H' i = H i)
    (hF : ∀ i t, ¬ S i → w.tab i = some t → ∀ x ∈ t.foot sz, x ∉ F)
    (hnew : ∀ i, S i → (tab' i = Option.none ∧ s' i = Option.none) ∨
      ∃ t l, tab' i = some t ∧ s' i = some l ∧ Holds (H' i) sz m' t l ∧ ∀ x ∈ t.foot sz, x ∈ F')
    (hap : ∀ i j t u, S i → S j → i ≠ j → tab' i = some t → tab' j = some u → Apart sz t u) :
    HInv sz ⟨m', tab'⟩ H' s' := by
  have hmix : ∀ i j t u, S i → ¬ S j → tab' i = some t → tab' j = some u → Apart sz t u := by
    intro i j t u hi hj et eu x hx hx'
    rw [(hsame j hj).1] at eu
    rcases hnew i hi with ⟨q, _⟩ | ⟨t', l, q, _, _, hsub⟩
    · rw [q] at et; cases et
    · rw [q] at et
      cases et
      obtain ⟨_, _, hl⟩ := h.holds j u eu
      rcases hf.fresh x (hsub x hx) with g | g
      · exact hF j u hj eu x hx' g
      · exact g (hl.live x hx')
  refine ⟨?_, ?_, ?_⟩
  · intro i hi
    change tab' i = Option.none at hi
    by_cases hs : S i
    · rcases hnew i hs with ⟨_, q⟩ | ⟨t', l, q, _⟩
      · exact q
      · rw [q] at hi; cases hi
    · rw [(hsame i hs).1] at hi
      rw [(hsame i hs).2.1, h.none i hi]
  · intro i t hi
    change tab' i = some t at hi
    by_cases hs : S i
    · rcases hnew i hs with ⟨q, _⟩ | ⟨t', l, q1, q2, q3, _⟩
      · rw [q] at hi; cases hi
      · rw [q1] at hi
        cases hi
        exact ⟨l, q2, q3⟩
    · rw [(hsame i hs).1] at hi
      rw [(hsame i hs).2.1, (hsame i hs).2.2]
      obtain ⟨l, e, hl⟩ := h.holds i t hi
      exact ⟨l, e, hl.frame hf (hF i t hs hi)⟩
  · intro i j t u hne hi hj
    change tab' i = some t at hi
    change tab' j = some u at hj
    by_cases si : S i <;> by_cases sj : S j
    · exact hap i j t u si sj hne hi hj
    · exact hmix i j t u si sj hi hj
    · exact (hmix j i u t sj si hj hi).symm
    · rw [(hsame i si).1] at hi
      rw [(hsame j sj).1] at hj
      exact h.apart i j t u hne hi hj

/-- An operation that gives container `i` other storage or creates it. -/
theorem HInv.update1 {w : World k K V} {H : Nat → K → Nat} {s : Seqs k K V} (h : HInv sz w H s) {m' : Mem} {F : List Int} {i : Nat} {t' : OTable k K V}
    {l' : List (Elem k K V)} {H' : Nat → K → Nat} (hf : Frame w.mem m' F (t'.foot sz)) (hF : F = [] ∨ ∃ t, w.tab i = some t ∧ F = t.foot sz)
    (hH : ∀ j, j ≠ i → H' j = H j) (hl : Holds (H' i) sz m' t' l') :
    HInv sz ⟨m', upd w.tab i (some t')⟩ H' (upd s i (some l')) := by
  refine h.update hf (fun j => j = i) ?_ ?_ ?_ ?_
  · intro j hj
    exact ⟨upd_ne _ _ hj, upd_ne _ _ hj, hH j hj⟩
  · intro j u hj hu x hx q
    rcases hF with g | ⟨t, ht, g⟩
    · rw [g] at q; cases q
    · rw [g] at q
      exact h.apart j i u t hj hu ht x hx q
  · intro j hj
    rw [hj]
    exact Or.inr ⟨t', l', upd_same .., upd_same .., hl, fun _ q => q⟩
  · intro a b t u ha hb hne
    exact absurd (ha.trans hb.symm) hne

/-- An operation on two containers. -/
theorem HInv.update2 {w : World k K V} {H : Nat → K → Nat} {s : Seqs k K V} (h : HInv sz w H s) {m' : Mem} {F : List Int} {i j : Nat} (hij : i ≠ j)
    {t' u' : OTable k K V} {l l' : List (Elem k K V)} {H' : Nat → K → Nat} (hf : Frame w.mem m' F (t'.foot sz ++ u'.foot sz))
    (hF : ∀ x ∈ F, ∃ n t, (n = i ∨ n = j) ∧ w.tab n = some t ∧ x ∈ t.foot sz)
    (hH : ∀ n, n ≠ i → n ≠ j → H' n = H n) (h1 : Holds (H' i) sz m' t' l) (h2 : Holds (H' j) sz m' u' l') (ha : Apart sz t' u') :
    HInv sz ⟨m', upd (upd w.tab i (some t')) j (some u')⟩ H' (upd (upd s i (some l)) j (some l')) := by
  refine h.update hf (fun n => n = i ∨ n = j) ?_ ?_ ?_ ?_
  · intro n hn
    rw [not_or] at hn
    exact ⟨by rw [upd_ne _ _ hn.2, upd_ne _ _ hn.1], by rw [upd_ne _ _ hn.2, upd_ne _ _ hn.1], hH n hn.1 hn.2⟩
  · intro n v hn hv x hx q
    obtain ⟨a, t, ha', ht, hxt⟩ := hF x q
    exact h.apart n a v t (fun e => hn (e ▸ ha')) hv ht x hx hxt
  · intro n hn
    right
    rcases hn with e | e
    · rw [e]
      exact ⟨t', l, by rw [upd_ne _ _ hij, upd_same], by rw [upd_ne _ _ hij, upd_same], h1, fun x hx => List.mem_append_left _ hx⟩
    · rw [e]
      exact ⟨u', l', upd_same .., upd_same .., h2, fun x hx => List.mem_append_right _ hx⟩
  · intro a b t u sa sb hne hta hub
    rcases sa with e | e <;> rcases sb with e' | e'
    · exact absurd (e.trans e'.symm) hne
    · rw [e, upd_ne _ _ hij, upd_same] at hta
      rw [e', upd_same] at hub
      cases hta; cases hub
      exact ha
    · rw [e, upd_same] at hta
      rw [e', upd_ne _ _ hij, upd_same] at hub
      cases hta; cases hub
      exact ha.symm
    · exact absurd (e.trans e'.symm) hne

/-- One operation of a program: all is as it ought to be. -/
theorem hstep_ok (hsz : 0 < sz) (hA : A.Sound sz) (mv : (K → Nat) → K → Nat) {w : World k K V} {H : Nat → K → Nat} {s : Seqs k K V}
    (h : HInv sz w H s) (dflt : K → Nat) (o : WOp k K V) (hg : WSpec.allowed s o = true) :
    ∃ w', w.step (H (HWorld.acting o)) sz A o = .ok (w', (WSpec.step s o).2) ∧
      HInv sz w' (HWorld.hashes dflt mv w H o) (WSpec.step s o).1 := by
  cases o with
  | create id lf =>
    simp only [World.step, WSpec.step, HWorld.acting]
    cases hs : s id with
    | none =>
      rw [h.none_iff hs]
      obtain ⟨m', t, e, _, _, h1, _, f⟩ := create_ok (hash := dflt) (k := k) (K := K) (V := V) hA w.mem lf
      simp only [e]
      refine ⟨_, rfl, ?_⟩
      simp only [HWorld.hashes, h.none_iff hs, Option.isSome_none, Bool.false_eq_true, if_false]
      exact h.update1 f (Or.inl rfl) (fun _ q => upd_ne _ _ q) ⟨_, _, h1.any _, rfl⟩
    | some l =>
      obtain ⟨t, ht, _⟩ := h.some_iff hs
      rw [ht]
      exact ⟨w, rfl, by simpa [HWorld.hashes, ht] using h⟩
  | createN id lf n =>
    simp only [World.step, WSpec.step, HWorld.acting]
    cases hs : s id with
    | none =>
      rw [h.none_iff hs]
      obtain ⟨m', t, e, h1, _, _, f⟩ := createN_ok (hash := dflt) (k := k) (K := K) (V := V) hA w.mem lf n
      simp only [e]
      refine ⟨_, rfl, ?_⟩
      simp only [HWorld.hashes, h.none_iff hs, Option.isSome_none, Bool.false_eq_true, if_false]
      exact h.update1 f (Or.inl rfl) (fun _ q => upd_ne _ _ q) ⟨_, _, h1.any _, rfl⟩
    | some l =>
      obtain ⟨t, ht, _⟩ := h.some_iff hs
      rw [ht]
      exact ⟨w, rfl, by simpa [HWorld.hashes, ht] using h⟩
  | op id o =>
    simp only [World.step, WSpec.step, HWorld.acting, HWorld.hashes]
    cases hs : s id with
    | none => rw [h.none_iff hs]; exact ⟨w, rfl, h⟩
    | some l =>
      obtain ⟨t, ht, hl⟩ := h.some_iff hs
      rw [ht]
      have hb : ∀ j x, o = .erase j x → 0 < t.core.bc := by
        rintro j x rfl
        simp only [WSpec.allowed, hs, Bool.not_eq_true', nil_false] at hg
        obtain ⟨a, o', hr, e⟩ := hl
        rcases Nat.eq_zero_or_pos t.core.bc with q | q
        · exact absurd (e ▸ hr.nil_iff.mpr (hr.core.empty q)) hg
        · exact q
      obtain ⟨m', t', e, h1, _⟩ := step_ok hsz hA hl o hb
      simp only
      rw [e, bind_ok]
      exact ⟨_, rfl, h.update1 h1.frame (Or.inr ⟨t, ht, rfl⟩) (fun _ _ => rfl) h1.holds⟩
  | copyCtor src dst =>
    simp only [World.step, WSpec.step, HWorld.acting]
    cases hs : s src with
    | none => rw [h.none_iff hs]; exact ⟨w, rfl, by simpa [HWorld.hashes, h.none_iff hs] using h⟩
    | some l =>
      obtain ⟨u, hu, a, o, hr, rfl⟩ := h.some_iff hs
      rw [hu]
      cases hd : s dst with
      | some l' =>
        obtain ⟨t, ht, _⟩ := h.some_iff hd
        rw [ht]
        exact ⟨w, rfl, by simpa [HWorld.hashes, ht] using h⟩
      | none =>
        rw [h.none_iff hd]
        obtain ⟨m', t, e, h1, _, f⟩ := copyCtor_ok hsz hA hr
        simp only
        rw [e, bind_ok]
        refine ⟨_, rfl, ?_⟩
        simp only [HWorld.hashes, hu, h.none_iff hd, Option.isSome_some, Option.isNone_none, Bool.and_self, if_true]
        exact h.update1 f (Or.inl rfl) (fun _ q => upd_ne _ _ q) ⟨_, _, by rw [upd_same]; exact h1, rfl⟩
  | copyAssign prop src dst =>
    simp only [World.step, WSpec.step, HWorld.acting]
    by_cases hsd : src = dst
    · subst hsd
      rw [if_pos rfl]
      have hH : HWorld.hashes dflt mv w H (.copyAssign prop src src) = H := by
        simp only [HWorld.hashes, hupd_self rfl, ite_self]
      rw [hH]
      cases hs : s src with
      | none => exact ⟨w, rfl, h⟩
      | some l =>
        refine ⟨w, rfl, ?_⟩
        simp only
        rw [hupd_self hs]
        exact h
    · rw [if_neg hsd]
      cases hs : s src with
      | none => rw [h.none_iff hs]; exact ⟨w, rfl, by simpa [HWorld.hashes, HWorld.both, h.none_iff hs] using h⟩
      | some l =>
        obtain ⟨u, hu, hlu⟩ := h.some_iff hs
        rw [hu]
        cases hd : s dst with
        | none => rw [h.none_iff hd]; exact ⟨w, rfl, by simpa [HWorld.hashes, HWorld.both, h.none_iff hd] using h⟩
        | some l' =>
          obtain ⟨t, ht, hlt⟩ := h.some_iff hd
          obtain ⟨a, o, hr, rfl⟩ := hlu
          obtain ⟨a', o', hr', rfl⟩ := hlt
          rw [ht]
          obtain ⟨m', t', e, h1, h2, f⟩ := copyAssign_ok (prop := prop) hsz hA hr' hr (h.apart src dst u t hsd hu ht) (by
            simp only [WSpec.allowed, hs, hd, Bool.or_eq_true, Bool.not_eq_true', nil_false, nil_true] at hg
            rcases hg with (q | q) | q
            · exact Or.inl q
            · exact Or.inr (Or.inl (fun g => q (hr.nil_iff.mpr g)))
            · exact Or.inr (Or.inr (hr'.nil_iff.mp q)))
          simp only
          rw [e, bind_ok]
          refine ⟨_, rfl, ?_⟩
          simp only [HWorld.hashes, HWorld.both, hu, ht, Option.isSome_some, Bool.and_self, if_true]
          exact h.update1 f (Or.inr ⟨t, ht, rfl⟩) (fun _ q => upd_ne _ _ q) ⟨_, _, by rw [upd_same]; exact h1, rfl⟩
  | moveCtor src dst =>
    simp only [World.step, WSpec.step, HWorld.acting]
    cases hs : s src with
    | none => rw [h.none_iff hs]; exact ⟨w, rfl, by simpa [HWorld.hashes, h.none_iff hs] using h⟩
    | some l =>
      obtain ⟨u, hu, a, o, hr, rfl⟩ := h.some_iff hs
      rw [hu]
      cases hd : s dst with
      | some l' =>
        obtain ⟨t, ht, _⟩ := h.some_iff hd
        rw [ht]
        exact ⟨w, rfl, by simpa [HWorld.hashes, ht] using h⟩
      | none =>
        have hsd : src ≠ dst := fun q => by rw [q, hd] at hs; cases hs
        rw [h.none_iff hd]
        obtain ⟨m', t, u', e, h1, h2, _, _, hap, f⟩ := moveCtor_ok hA hr
        simp only
        rw [e, bind_ok]
        refine ⟨_, rfl, ?_⟩
        simp only [HWorld.hashes, hu, h.none_iff hd, Option.isSome_some, Option.isNone_none, Bool.and_self, if_true]
        refine h.update2 (F := u.foot sz) hsd (f.congr (fun _ q => q) ?_) ?_ ?_ ⟨_, _, h2.any _, rfl⟩
          ⟨_, _, by rw [upd_same]; exact h1, rfl⟩ hap.symm
        · intro x hx
          left
          rw [List.mem_append] at hx ⊢
          exact hx.symm
        · intro x hx
          exact ⟨src, u, Or.inl rfl, hu, hx⟩
        · intro n q1 q2
          rw [upd_ne _ _ q2, upd_ne _ _ q1]
  | moveAssign prop src dst =>
    simp only [World.step, WSpec.step, HWorld.acting]
    by_cases hsd : src = dst
    · rw [if_pos hsd, if_pos hsd]
      exact ⟨w, rfl, by simpa [HWorld.hashes, hsd] using h⟩
    · rw [if_neg hsd, if_neg hsd]
      cases hs : s src with
      | none => rw [h.none_iff hs]; exact ⟨w, rfl, by simpa [HWorld.hashes, HWorld.both, h.none_iff hs] using h⟩
      | some l =>
        obtain ⟨u, hu, hlu⟩ := h.some_iff hs
        rw [hu]
        cases hd : s dst with
        | none => rw [h.none_iff hd]; exact ⟨w, rfl, by simpa [HWorld.hashes, HWorld.both, h.none_iff hd] using h⟩
        | some l' =>
          obtain ⟨t, ht, hlt⟩ := h.some_iff hd
          obtain ⟨a, o, hr, rfl⟩ := hlu
          obtain ⟨a', o', hr', rfl⟩ := hlt
          rw [ht]
          obtain ⟨m', t', u', e, hm⟩ := moveAssign_ok (prop := prop) hr' hr (h.apart src dst u t hsd hu ht).symm (by
            simp only [WSpec.allowed, hd, Bool.or_eq_true, decide_eq_true_eq, hsd, false_or, nil_true] at hg
            exact hg.imp_right hr'.nil_iff.mp)
          simp only
          rw [e, bind_ok]
          refine ⟨_, rfl, ?_⟩
          simp only [HWorld.hashes, HWorld.both, hu, ht, if_neg hsd, Option.isSome_some, Bool.and_self, if_true]
          refine h.update2 (F := t.foot sz ++ u.foot sz) hsd (hm.frame.congr (fun _ q => q) ?_) ?_ ?_ ⟨_, _, hm.snd.any _, rfl⟩
            ⟨_, _, by rw [upd_same]; exact hm.fst, rfl⟩ hm.apart.symm
          · intro x hx
            left
            rw [List.mem_append] at hx ⊢
            exact hx.symm
          · intro x hx
            rcases List.mem_append.mp hx with q | q
            · exact ⟨dst, t, Or.inr rfl, ht, q⟩
            · exact ⟨src, u, Or.inl rfl, hu, q⟩
          · intro n q1 q2
            rw [upd_ne _ _ q2, upd_ne _ _ q1]
  | swap a b =>
    simp only [World.step, WSpec.step, HWorld.acting]
    by_cases hab : a = b
    · subst hab
      have hH : HWorld.hashes dflt mv w H (.swap a a) = H := by
        simp only [HWorld.hashes, hupd_self (rfl : H a = H a), ite_self]
      rw [if_pos rfl, if_pos rfl, hH]
      cases hs : s a with
      | none => rw [h.none_iff hs]; exact ⟨w, rfl, h⟩
      | some l =>
        obtain ⟨t, ht, a1, o, hr, _⟩ := h.some_iff hs
        rw [ht]
        simp only
        rw [swap_self hr, bind_ok]
        refine ⟨w, ?_, h⟩
        simp only
        rw [hupd_self ht]
    · rw [if_neg hab, if_neg hab]
      cases hs : s a with
      | none => rw [h.none_iff hs]; exact ⟨w, rfl, by simpa [HWorld.hashes, HWorld.both, h.none_iff hs] using h⟩
      | some l =>
        obtain ⟨t, ht, hlt⟩ := h.some_iff hs
        rw [ht]
        cases hd : s b with
        | none => rw [h.none_iff hd]; exact ⟨w, rfl, by simpa [HWorld.hashes, HWorld.both, h.none_iff hd] using h⟩
        | some l' =>
          obtain ⟨u, hu, hlu⟩ := h.some_iff hd
          obtain ⟨a1, o, hr, rfl⟩ := hlt
          obtain ⟨a2, o', hr', rfl⟩ := hlu
          rw [hu]
          simp only [WSpec.allowed, hs, hd, Bool.or_eq_true, decide_eq_true_eq, hab, false_or, Bool.and_eq_true, Bool.not_eq_true',
            nil_false] at hg
          obtain ⟨m', t', u', e, hm⟩ := swap_ok hr hr' (h.apart a b t u hab ht hu) (fun q => hg.1 (hr.nil_iff.mpr q))
            (fun q => hg.2 (hr'.nil_iff.mpr q))
          simp only
          rw [e, bind_ok]
          refine ⟨_, rfl, ?_⟩
          simp only [HWorld.hashes, HWorld.both, hu, ht, Option.isSome_some, Bool.and_self, if_true]
          refine h.update2 (F := t.foot sz ++ u.foot sz) hab hm.frame ?_ ?_
            ⟨_, _, by rw [upd_ne _ _ hab, upd_same]; exact hm.fst, rfl⟩ ⟨_, _, by rw [upd_same]; exact hm.snd, rfl⟩ hm.apart
          · intro x hx
            rcases List.mem_append.mp hx with q | q
            · exact ⟨a, t, Or.inl rfl, ht, q⟩
            · exact ⟨b, u, Or.inr rfl, hu, q⟩
          · intro n q1 q2
            rw [upd_ne _ _ q2, upd_ne _ _ q1]
  | destroy id =>
    simp only [World.step, WSpec.step, HWorld.acting, HWorld.hashes]
    cases hs : s id with
    | none =>
      rw [h.none_iff hs]
      refine ⟨w, rfl, ?_⟩
      rw [hupd_self hs]
      exact h
    | some l =>
      obtain ⟨t, ht, a, o, hr, rfl⟩ := h.some_iff hs
      rw [ht]
      obtain ⟨m', e, f, _⟩ := destroy_ok hr
      simp only
      rw [e, bind_ok]
      refine ⟨_, rfl, h.update f (fun j => j = id) ?_ ?_ ?_ ?_⟩
      · intro j hj
        exact ⟨upd_ne _ _ hj, upd_ne _ _ hj, rfl⟩
      · intro j v hj hv
        exact h.apart j id v t hj hv ht
      · intro j hj
        rw [hj]
        exact Or.inl ⟨upd_same .., upd_same ..⟩
      · intro a b t u ha hb hne
        exact absurd (ha.trans hb.symm) hne

theorem hwstep_ok (hsz : 0 < sz) (hA : A.Sound sz) (dflt : K → Nat) (mv : (K → Nat) → K → Nat) {x : HWorld k K V} {s : Seqs k K V}
    (h : HInv sz x.world x.hash s) (o : HOp k K V) (hg : WSpec.allowed s o.plain = true) :
    ∃ x', x.step dflt sz A mv o = .ok (x', (WSpec.step s o.plain).2) ∧ HInv sz x'.world x'.hash (WSpec.step s o.plain).1 := by
  cases o with
  | make id hash lf n =>
    simp only [HWorld.step]
    obtain ⟨w', e, h'⟩ := hstep_ok (A := A) hsz hA mv h hash (.createN id lf n) hg
    change x.world.step hash sz A (.createN id lf n) = _ at e
    rw [e, bind_ok]
    exact ⟨_, rfl, h'⟩
  | on o =>
    simp only [HWorld.step]
    obtain ⟨w', e, h'⟩ := hstep_ok hsz hA mv h dflt o hg
    rw [e, bind_ok]
    exact ⟨_, rfl, h'⟩

/-- Any guarded program: no fault occurs, and all answers are those of the specification, which does not mention hash functions. -/
theorem hrun_ok (hsz : 0 < sz) (hA : A.Sound sz) (dflt : K → Nat) (mv : (K → Nat) → K → Nat) : ∀ (os : List (HOp k K V))
    {x : HWorld k K V} {s : Seqs k K V}, HInv sz x.world x.hash s → WSpec.Guarded s (os.map HOp.plain) = true →
    ∃ x', x.run dflt sz A mv os = .ok (x', (WSpec.run s (os.map HOp.plain)).2) ∧
      HInv sz x'.world x'.hash (WSpec.run s (os.map HOp.plain)).1
  | [], x, s, h, _ => ⟨x, rfl, h⟩
  | o :: os, x, s, h, hg => by
    simp only [List.map_cons, WSpec.Guarded, Bool.and_eq_true] at hg
    obtain ⟨x1, e1, h1⟩ := hwstep_ok hsz hA dflt mv h o hg.1
    obtain ⟨x2, e2, h2⟩ := hrun_ok hsz hA dflt mv os h1 hg.2
    refine ⟨x2, ?_, h2⟩
    simp only [HWorld.run, WSpec.run, List.map_cons]
    rw [e1, bind_ok, e2, bind_ok]

/-- At the beginning there are no containers. -/
theorem hinit (m : Mem) (H : Nat → K → Nat) : HInv sz (⟨m, fun _ => none⟩ : World k K V) H (fun _ => none) :=
  ⟨fun _ _ => rfl, fun _ _ h => (by cases h), fun _ _ _ _ _ h => (by cases h)⟩

/-- Copy assignment that ends with an exception from the assignment of the hash function or the comparator (dense_table.hpp 254-256): only
the header has been assigned. -/
def OTable.assignThrow (m : Mem) (t other : OTable k K V) : M (Mem × OTable k K V) := do
  let m ← m.copyFrom t.hd other.hd
  .ok (m, t)

end Tpp.ODense
