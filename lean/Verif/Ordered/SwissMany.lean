import Verif.Ordered.SwissWorld

/-!
# Ordered sparse containers with their own hash functions

In `Verif/Ordered/SwissWorld.lean` all containers of a program use the same hash function.  Here each has its own, which travels with the
elements (swiss_table.hpp 848-883, 1116-1122, 1140-1146).
-/

set_option linter.unusedSectionVars false

namespace Tpp.OSwiss

open Tpp.Swiss (Node Ev Table Inv NoTomb AllocP Copyable CopyFits)
open Tpp.Ordered

/-- Operations on numbered containers: those of `WOp`, in which a constructor without a hash function uses the default-constructed one, and
the constructor with a bucket count and a hash function (swiss_table.hpp 839-843). -/
inductive HOp (K V : Type)
  | make (id : Nat) (hash : K → Nat) (n : Nat)
  | on (o : WOp K V)

/-- The operation without the hash function. -/
def HOp.plain {K V : Type} : HOp K V → WOp K V
  | .make id _ n => .createN id n
  | .on o => o

/-- The containers, the memory they live in, and the hash function in each container (swiss_table.hpp 1545-1547, `hash_base`). -/
structure HWorld (K V : Type) where
  world : World K V
  hash : Nat → K → Nat

variable {K V : Type} [DecidableEq K] {c : Cfg K}

namespace HWorld

/-- Both containers exist. -/
def both (w : World K V) (a b : Nat) : Bool := (w.tab a).isSome && (w.tab b).isSome

/-- Move assignment: the hash function moves (swiss_table.hpp 870-883); `mv` says what is left of it. -/
def hashMove (mv : (K → Nat) → K → Nat) (w : World K V) (H : Nat → K → Nat) (src dst : Nat) : Nat → K → Nat :=
  if src = dst then H else if both w src dst then upd (upd H src (mv (H src))) dst (H src) else H

/-- What happens to the hash functions: constructors copy or move them (swiss_table.hpp 836-852), assignments too (856-883), `swap`
exchanges them (1140-1146), `merge(std::move(other))` is a move assignment if the container is empty (1116-1122).  `dflt` is the
default-constructed one. -/
def hashes (dflt : K → Nat) (mv : (K → Nat) → K → Nat) (w : World K V) (H : Nat → K → Nat) : WOp K V → Nat → K → Nat
  | .create id | .createN id _ => if (w.tab id).isSome then H else upd H id dflt
  | .copyCtor src dst => if (w.tab src).isSome && (w.tab dst).isNone then upd H dst (H src) else H
  | .copyAssign _ src dst => if both w src dst then upd H dst (H src) else H
  | .moveCtor _ src dst =>
    if (w.tab src).isSome && (w.tab dst).isNone then upd (upd H src (mv (H src))) dst (H src) else H
  | .moveAssign _ src dst => hashMove mv w H src dst
  | .swap a b => if both w a b then upd (upd H a (H b)) b (H a) else H
  | .mergeMove _ dst src =>
    match w.tab dst with
    | some t => if t.core.size = 0 then hashMove mv w H src dst else H
    | none => H
  | _ => H

/-- The container whose hash function an operation calls: that of the container itself, and `merge` looks up and inserts with that of the
destination (swiss_table.hpp 1096-1113).  The other operations call none; for them it does not matter what is given here. -/
def acting : WOp K V → Nat
  | .create id | .createN id _ | .op id _ | .destroy id => id
  | .copyCtor src _ | .copyAssign _ src _ | .moveCtor _ src _ | .moveAssign _ src _ => src
  | .swap a _ => a
  | .merge dst _ | .mergeMove _ dst _ => dst

/-- One operation. -/
def step (c : Cfg K) (mv : (K → Nat) → K → Nat) (x : HWorld K V) : HOp K V → M (HWorld K V × Out K V)
  | .make id hash n => do
    let r ← x.world.step (c.with hash) (.createN id n)
    .ok (⟨r.1, hashes hash mv x.world x.hash (.createN id n)⟩, r.2)
  | .on o => do
    let r ← x.world.step (c.with (x.hash (acting o))) o
    .ok (⟨r.1, hashes c.hash mv x.world x.hash o⟩, r.2)

def run (c : Cfg K) (mv : (K → Nat) → K → Nat) (x : HWorld K V) : List (HOp K V) → M (HWorld K V × List (Out K V))
  | [] => .ok (x, [])
  | o :: os => do
    let r ← x.step c mv o
    let r' ← run c mv r.1 os
    .ok (r'.1, r.2 :: r'.2)

/-- All operations of a history are what the code can do (`World.allowed`), as long as it does not stop. -/
def Guarded (c : Cfg K) (mv : (K → Nat) → K → Nat) (x : HWorld K V) (s : Seqs K V) : List (HOp K V) → Bool
  | [] => true
  | o :: os => x.world.allowed s o.plain &&
    match x.step c mv o with
    | .ok r => Guarded c mv r.1 (WSpec.step s o.plain).1 os
    | .error _ => true

end HWorld

/-- Every container holds its sequence with its own hash function, and no two containers share storage. -/
structure HInv (c : Cfg K) (w : World K V) (H : Nat → K → Nat) (s : Seqs K V) : Prop where
  none : ∀ i, w.tab i = none → s i = none
  holds : ∀ i t, w.tab i = some t → ∃ l, s i = some l ∧ Holds (c.with (H i)) w.mem t l
  apart : ∀ i j t u, i ≠ j → w.tab i = some t → w.tab j = some u → Apart c.sz t u

/-- An empty container goes with any hash function. -/
theorem Rep.any {m : Mem} {t : OTable K V} (h : Rep c m t []) (g : K → Nat) : Rep (c.with g) m t [] := by
  refine ⟨{ h.core with hash_ok := ?_ }, h.link⟩
  intro i hi n hn
  have := (h.link.occ i).mpr ⟨hi, by rw [hn]; rfl⟩
  cases this

theorem HInv.some_iff {w : World K V} {H : Nat → K → Nat} {s : Seqs K V} (h : HInv c w H s) {i : Nat} {l : List (K × V)}
    (e : s i = some l) : ∃ t, w.tab i = some t ∧ Holds (c.with (H i)) w.mem t l := by
  cases ht : w.tab i with
  | none => rw [h.none i ht] at e; cases e
  | some t =>
    obtain ⟨l', e', hl⟩ := h.holds i t ht
    rw [e'] at e
    cases e
    exact ⟨t, rfl, hl⟩

theorem HInv.none_iff {w : World K V} {H : Nat → K → Nat} {s : Seqs K V} (h : HInv c w H s) {i : Nat} (e : s i = Option.none) :
    w.tab i = Option.none := by
  cases ht : w.tab i with
  | none => rfl
  | some t =>
    obtain ⟨l', e', hl⟩ := h.holds i t ht
    rw [e'] at e
    cases e

/-- An operation on the containers in `S`. -/
theorem HInv.update {w : World K V} {H : Nat → K → Nat} {s : Seqs K V} (h : HInv c w H s) {m' : Mem} {F F' : List Int} (hf : Frame w.mem m' F F')
    {tab' : Nat → Option (OTable K V)} {s' : Seqs K V} {H' : Nat → K → Nat} (S : Nat → Prop)
    (hsame : ∀ i, ¬ S i → tab' i = w.tab i ∧ s' i = s i ∧ H' i = H i)
    (hF : ∀ i t, ¬ S i → w.tab i = some t → ∀ x ∈ t.foot c.sz, x ∉ F)
    (hnew : ∀ i, S i → (tab' i = Option.none ∧ s' i = Option.none) ∨
      ∃ t l, tab' i = some t ∧ s' i = some l ∧ Holds (c.with (H' i)) m' t l ∧ ∀ x ∈ t.foot c.sz, x ∈ F')
    (hap : ∀ i j t u, S i → S j → i ≠ j → tab' i = some t → tab' j = some u → Apart c.sz t u) :
    HInv c ⟨m', tab'⟩ H' s' := by
  have hmix : ∀ i j t u, S i → ¬ S j → tab' i = some t → tab' j = some u → Apart c.sz t u := by
    intro i j t u hi hj et eu x hx hx'
    rw [(hsame j hj).1] at eu
    rcases hnew i hi with ⟨q, _⟩ | ⟨t', l, q, _, _, hsub⟩
    · rw [q] at et; cases et
    · rw [q] at et
      cases et
      obtain ⟨_, _, hl⟩ := h.holds j u eu
      rcases hf.fresh x (hsub x hx) with g | g
      · exact hF j u hj eu x hx' g
      · exact g (hl.live x hx')
  refine ⟨?_, ?_, ?_⟩
  · intro i hi
    change tab' i = Option.none at hi
    by_cases hs : S i
    · rcases hnew i hs with ⟨_, q⟩ | ⟨t', l, q, _⟩
      · exact q
      · rw [q] at hi; cases hi
    · rw [(hsame i hs).1] at hi
      rw [(hsame i hs).2.1, h.none i hi]
  · intro i t hi
    change tab' i = some t at hi
    by_cases hs : S i
    · rcases hnew i hs with ⟨q, _⟩ | ⟨t', l, q1, q2, q3, _⟩
      · rw [q] at hi; cases hi
      · rw [q1] at hi
        cases hi
        exact ⟨l, q2, q3⟩
    · rw [(hsame i hs).1] at hi
      rw [(hsame i hs).2.1, (hsame i hs).2.2]
      obtain ⟨l, e, hl⟩ := h.holds i t hi
      exact ⟨l, e, hl.frame hf (hF i t hs hi)⟩
  · intro i j t u hne hi hj
    change tab' i = some t at hi
    change tab' j = some u at hj
    by_cases si : S i <;> by_cases sj : S j
    · exact hap i j t u si sj hne hi hj
    · exact hmix i j t u si sj hi hj
    · exact (hmix j i u t sj si hj hi).symm
    · rw [(hsame i si).1] at hi
      rw [(hsame j sj).1] at hj
      exact h.apart i j t u hne hi hj

/-- An operation that gives container `i` other storage or creates it. -/
theorem HInv.update1 {w : World K V} {H : Nat → K → Nat} {s : Seqs K V} (h : HInv c w H s) {m' : Mem} {F : List Int} {i : Nat} {t' : OTable K V}
    {l' : List (K × V)} {H' : Nat → K → Nat} (hf : Frame w.mem m' F (t'.foot c.sz)) (hF : F = [] ∨ ∃ t, w.tab i = some t ∧ F = t.foot c.sz)
    (hH : ∀ j, j ≠ i → H' j = H j) (hl : Holds (c.with (H' i)) m' t' l') :
    HInv c ⟨m', upd w.tab i (some t')⟩ H' (upd s i (some l')) := by
  refine h.update hf (fun j => j = i) ?_ ?_ ?_ ?_
  · intro j hj
    exact ⟨upd_ne _ _ hj, upd_ne _ _ hj, hH j hj⟩
  · intro j u hj hu x hx q
    rcases hF with g | ⟨t, ht, g⟩
    · rw [g] at q; cases q
    · rw [g] at q
      exact h.apart j i u t hj hu ht x hx q
  · intro j hj
    rw [hj]
    exact Or.inr ⟨t', l', upd_same .., upd_same .., hl, fun _ q => q⟩
  · intro a b t u ha hb hne
    exact absurd (ha.trans hb.symm) hne

/-- An operation on two containers. -/
theorem HInv.update2 {w : World K V} {H : Nat → K → Nat} {s : Seqs K V} (h : HInv c w H s) {m' : Mem} {F : List Int} {i j : Nat} (hij : i ≠ j)
    {t' u' : OTable K V} {l l' : List (K × V)} {H' : Nat → K → Nat} (hf : Frame w.mem m' F (t'.foot c.sz ++ u'.foot c.sz))
    (hF : ∀ x ∈ F, ∃ n t, (n = i ∨ n = j) ∧ w.tab n = some t ∧ x ∈ t.foot c.sz)
    (hH : ∀ n, n ≠ i → n ≠ j → H' n = H n) (h1 : Holds (c.with (H' i)) m' t' l) (h2 : Holds (c.with (H' j)) m' u' l') (ha : Apart c.sz t' u') :
    HInv c ⟨m', upd (upd w.tab i (some t')) j (some u')⟩ H' (upd (upd s i (some l)) j (some l')) := by
  refine h.update hf (fun n => n = i ∨ n = j) ?_ ?_ ?_ ?_
  · intro n hn
    rw [not_or] at hn
    exact ⟨by rw [upd_ne _ _ hn.2, upd_ne _ _ hn.1], by rw [upd_ne _ _ hn.2, upd_ne _ _ hn.1], hH n hn.1 hn.2⟩
  · intro n v hn hv x hx q
    obtain ⟨a, t, ha', ht, hxt⟩ := hF x q
    exact h.apart n a v t (fun e => hn (e ▸ ha')) hv ht x hx hxt
  · intro n hn
    right
    rcases hn with e | e
    · rw [e]
      exact ⟨t', l, by rw [upd_ne _ _ hij, upd_same], by rw [upd_ne _ _ hij, upd_same], h1, fun x hx => List.mem_append_left _ hx⟩
    · rw [e]
      exact ⟨u', l', upd_same .., upd_same .., h2, fun x hx => List.mem_append_right _ hx⟩
  · intro a b t u sa sb hne hta hub
    rcases sa with e | e <;> rcases sb with e' | e'
    · exact absurd (e.trans e'.symm) hne
    · rw [e, upd_ne _ _ hij, upd_same] at hta
      rw [e', upd_same] at hub
      cases hta; cases hub
      exact ha
    · rw [e, upd_same] at hta
      rw [e', upd_ne _ _ hij, upd_same] at hub
      cases hta; cases hub
      exact ha.symm
    · exact absurd (e.trans e'.symm) hne

/-- Move assignment. -/
theorem assignMove_hash (hsz : 0 < c.sz) (hA : c.A.Sound c.sz) (mv : (K → Nat) → K → Nat) {w : World K V}
    {H : Nat → K → Nat} {s : Seqs K V} (h : HInv c w H s) {al : AllocP} {src dst : Nat}
    (hg : w.canAssign al src dst = true) :
    Okay True (w.assignMove c al src dst) (fun r => r.2 = (WSpec.step s (.moveAssign al src dst)).2 ∧
      HInv c r.1 (HWorld.hashMove mv w H src dst) (WSpec.step s (.moveAssign al src dst)).1) := by
  simp only [World.assignMove, WSpec.step]
  by_cases hsd : src = dst
  · rw [if_pos hsd, if_pos hsd]
    exact Okay.ok ⟨rfl, by rw [HWorld.hashMove, if_pos hsd]; exact h⟩
  · rw [if_neg hsd, if_neg hsd]
    cases hs : s src with
    | none => rw [h.none_iff hs]; exact Okay.ok ⟨rfl, by rw [HWorld.hashMove, HWorld.both, h.none_iff hs, if_neg hsd]; exact h⟩
    | some l =>
      obtain ⟨u, hu, hlu⟩ := h.some_iff hs
      rw [hu]
      cases hd : s dst with
      | none =>
        rw [h.none_iff hd]
        exact Okay.ok ⟨rfl, by rw [HWorld.hashMove, HWorld.both, h.none_iff hd, hu, if_neg hsd]; exact h⟩
      | some l' =>
        obtain ⟨t, ht, hlt⟩ := h.some_iff hd
        obtain ⟨o, hr, rfl⟩ := hlu
        obtain ⟨o', hr', rfl⟩ := hlt
        rw [ht]
        simp only [World.canAssign, hu, ht, decide_eq_true_eq] at hg
        obtain ⟨g1, g2⟩ := hg.resolve_left hsd
        obtain ⟨m', t', u', e, hm, hq, h1, h2⟩ := moveAssign_ok (c := c.with (H src)) (g := H dst) hsz hA al hr' hr
          (h.apart src dst u t hsd hu ht).symm
        change t.moveAssign c al w.mem u = _ at e
        simp only
        rw [e, bind_ok, HWorld.hashMove, HWorld.both, hu, ht, if_neg hsd]
        simp only [Option.isSome_some, Bool.and_self, if_true]
        refine Okay.ok ⟨rfl, h.update2 (F := t.foot c.sz ++ u.foot c.sz) hsd (hm.frame.congr (fun _ q => q) ?_) ?_ ?_
          ⟨_, (h2 g2).any _, rfl⟩ ⟨_, by rw [upd_same]; exact h1 g1, hq⟩ hm.apart.symm⟩
        · intro x hx
          left
          rw [List.mem_append] at hx ⊢
          exact hx.symm
        · intro x hx
          rcases List.mem_append.mp hx with q | q
          · exact ⟨dst, t, Or.inr rfl, ht, q⟩
          · exact ⟨src, u, Or.inl rfl, hu, q⟩
        · intro n q1 q2
          rw [upd_ne _ _ q2, upd_ne _ _ q1]

/-- `merge`. -/
theorem mergeInto_hash (hsz : 0 < c.sz) (hA : c.A.Sound c.sz) (hst : c.strict = true) {w : World K V} {H : Nat → K → Nat}
    {s : Seqs K V} (h : HInv c w H s) {dst src : Nat} (hg : World.canMerge s dst src = true) :
    Okay True (w.mergeInto (c.with (H dst)) dst src) (fun r => r.2 = (WSpec.step s (.merge dst src)).2 ∧
      HInv c r.1 H (WSpec.step s (.merge dst src)).1) := by
  simp only [World.mergeInto, WSpec.step]
  by_cases hab : dst = src
  · rw [if_pos hab, if_pos hab]
    cases hs : s dst with
    | none => rw [h.none_iff hs]; exact Okay.ok ⟨rfl, h⟩
    | some d =>
      obtain ⟨t, ht, o, hr, hq⟩ := h.some_iff hs
      rw [ht]
      obtain ⟨m', t', _, e, b⟩ := mergeSelf_ok (c := c.with (H dst)) hsz hA hst hr
      simp only
      rw [e, bind_ok]
      refine Okay.ok ⟨rfl, ?_⟩
      have := h.update1 b.frame (Or.inr ⟨t, ht, rfl⟩) (fun _ _ => rfl) b.holds
      rwa [hq, upd_self hs] at this
  · rw [if_neg hab, if_neg hab]
    cases hs : s dst with
    | none => rw [h.none_iff hs]; exact Okay.ok ⟨rfl, h⟩
    | some d =>
      obtain ⟨t, ht, hlt⟩ := h.some_iff hs
      rw [ht]
      cases hd : s src with
      | none => rw [h.none_iff hd]; exact Okay.ok ⟨rfl, h⟩
      | some q =>
        obtain ⟨u, hu, hlu⟩ := h.some_iff hd
        rw [hu]
        simp only [World.canMerge, hs, hd, decide_eq_true_eq] at hg
        obtain ⟨g1, g2⟩ := hg.resolve_left hab
        obtain ⟨m', t', u', e, h1, h2, _, _, hap, f⟩ := merge_ok (c := c.with (H dst)) (g := H src) hsz hA hst hlt hlu (h.apart dst src t u hab ht hu)
        rw [merged_eq g1 g2] at h1 h2
        simp only
        rw [e, bind_ok]
        refine Okay.ok ⟨rfl, h.update2 (F := t.foot c.sz ++ u.foot c.sz) hab f ?_ (fun _ _ _ => rfl) h1 h2 hap⟩
        intro x hx
        rcases List.mem_append.mp hx with q | q
        · exact ⟨dst, t, Or.inl rfl, ht, q⟩
        · exact ⟨src, u, Or.inr rfl, hu, q⟩

/-- One operation of a program: it is stopped by an exchange of linked nodes, or all is as it ought to be. -/
theorem hstep_ok (hsz : 0 < c.sz) (hA : c.A.Sound c.sz) (hst : c.strict = true) (mv : (K → Nat) → K → Nat) {w : World K V}
    {H : Nat → K → Nat} {s : Seqs K V} (h : HInv c w H s) (dflt : K → Nat) (o : WOp K V)
    (hg : w.allowed s o = true) :
    Okay True (w.step (c.with (H (HWorld.acting o))) o) (fun r => r.2 = (WSpec.step s o).2 ∧
      HInv c r.1 (HWorld.hashes dflt mv w H o) (WSpec.step s o).1) := by
  cases o with
  | create id =>
    simp only [World.step, WSpec.step, HWorld.acting]
    cases hs : s id with
    | none =>
      rw [h.none_iff hs]
      obtain ⟨m', t, e, _, _, h1, _, f⟩ := create_ok (V := V) hA w.mem
      have e : OTable.create (V := V) (c.with (H id)) w.mem = (m', t) := e
      simp only [e]
      refine Okay.ok ⟨rfl, ?_⟩
      simp only [HWorld.hashes, h.none_iff hs, Option.isSome_none, Bool.false_eq_true, if_false]
      exact h.update1 f (Or.inl rfl) (fun _ q => upd_ne _ _ q) ⟨_, h1.any _, rfl⟩
    | some l =>
      obtain ⟨t, ht, _⟩ := h.some_iff hs
      rw [ht]
      exact Okay.ok ⟨rfl, by simpa [HWorld.hashes, ht] using h⟩
  | createN id n =>
    simp only [World.step, WSpec.step, HWorld.acting]
    cases hs : s id with
    | none =>
      rw [h.none_iff hs]
      simp only [World.allowed, decide_eq_true_eq] at hg
      obtain ⟨m', t, e, h1, _, _, _, f⟩ := createN_ok (V := V) hA w.mem hg.symm
      have e : OTable.createN (V := V) (c.with (H id)) w.mem n = .ok (m', t) := e
      simp only
      rw [e, bind_ok]
      refine Okay.ok ⟨rfl, ?_⟩
      simp only [HWorld.hashes, h.none_iff hs, Option.isSome_none, Bool.false_eq_true, if_false]
      exact h.update1 f (Or.inl rfl) (fun _ q => upd_ne _ _ q) ⟨_, h1.any _, rfl⟩
    | some l =>
      obtain ⟨t, ht, _⟩ := h.some_iff hs
      rw [ht]
      exact Okay.ok ⟨rfl, by simpa [HWorld.hashes, ht] using h⟩
  | op id o =>
    simp only [World.step, WSpec.step, HWorld.acting, HWorld.hashes]
    cases hs : s id with
    | none => rw [h.none_iff hs]; exact Okay.ok ⟨rfl, h⟩
    | some l =>
      obtain ⟨t, ht, hl⟩ := h.some_iff hs
      rw [ht]
      simp only
      refine Okay.bind (step_ok (c := c.with (H id)) (b := True) hsz hA hst hl o (Or.inl trivial)) (fun q => q) ?_
      rintro r ⟨h1, h2, _⟩
      exact Okay.ok ⟨h1, h.update1 h2.frame (Or.inr ⟨t, ht, rfl⟩) (fun _ _ => rfl) h2.holds⟩
  | copyCtor src dst =>
    simp only [World.step, WSpec.step, HWorld.acting]
    cases hs : s src with
    | none => rw [h.none_iff hs]; exact Okay.ok ⟨rfl, by simpa [HWorld.hashes, h.none_iff hs] using h⟩
    | some l =>
      obtain ⟨u, hu, o, hr, rfl⟩ := h.some_iff hs
      rw [hu]
      cases hd : s dst with
      | some l' =>
        obtain ⟨t, ht, _⟩ := h.some_iff hd
        rw [ht]
        exact Okay.ok ⟨rfl, by simpa [HWorld.hashes, ht] using h⟩
      | none =>
        rw [h.none_iff hd]
        simp only [World.allowed, hu, decide_eq_true_eq] at hg
        obtain ⟨m', t, e, _, hq, h1, _, f⟩ := copyCtor_ok (c := c.with (H src)) hsz hA hr
        simp only
        rw [e, bind_ok]
        refine Okay.ok ⟨rfl, ?_⟩
        simp only [HWorld.hashes, hu, h.none_iff hd, Option.isSome_some, Option.isNone_none, Bool.and_self, if_true]
        exact h.update1 f (Or.inl rfl) (fun _ q => upd_ne _ _ q) ⟨_, by rw [upd_same]; exact h1 hg, hq⟩
  | copyAssign al src dst =>
    simp only [World.step, WSpec.step, HWorld.acting]
    by_cases hsd : src = dst
    · subst hsd
      rw [if_pos rfl]
      have hH : HWorld.hashes dflt mv w H (.copyAssign al src src) = H := by
        simp only [HWorld.hashes, upd_self rfl, ite_self]
      rw [hH]
      cases hs : s src with
      | none => exact Okay.ok ⟨rfl, h⟩
      | some l =>
        refine Okay.ok ⟨rfl, ?_⟩
        simp only
        rw [upd_self hs]
        exact h
    · rw [if_neg hsd]
      cases hs : s src with
      | none => rw [h.none_iff hs]; exact Okay.ok ⟨rfl, by simpa [HWorld.hashes, HWorld.both, h.none_iff hs] using h⟩
      | some l =>
        obtain ⟨u, hu, hlu⟩ := h.some_iff hs
        rw [hu]
        cases hd : s dst with
        | none => rw [h.none_iff hd]; exact Okay.ok ⟨rfl, by simpa [HWorld.hashes, HWorld.both, h.none_iff hd] using h⟩
        | some l' =>
          obtain ⟨t, ht, hlt⟩ := h.some_iff hd
          obtain ⟨o, hr, rfl⟩ := hlu
          obtain ⟨o', hr', rfl⟩ := hlt
          rw [ht]
          simp only [World.allowed, hu, ht, decide_eq_true_eq] at hg
          obtain ⟨g1, g2⟩ := hg.resolve_left hsd
          obtain ⟨m', t', e, _, hq, h1, _, f⟩ := copyAssign_ok (c := c.with (H src)) (g := H dst) hsz hA al hr' hr
            (h.apart src dst u t hsd hu ht)
          simp only
          rw [e, bind_ok]
          refine Okay.ok ⟨rfl, ?_⟩
          simp only [HWorld.hashes, HWorld.both, hu, ht, Option.isSome_some, Bool.and_self, if_true]
          exact h.update1 f (Or.inr ⟨t, ht, rfl⟩) (fun _ q => upd_ne _ _ q) ⟨_, by rw [upd_same]; exact h1 g1 g2, hq⟩
  | moveCtor al src dst =>
    simp only [World.step, WSpec.step, HWorld.acting]
    cases hs : s src with
    | none => rw [h.none_iff hs]; exact Okay.ok ⟨rfl, by simpa [HWorld.hashes, h.none_iff hs] using h⟩
    | some l =>
      obtain ⟨u, hu, o, hr, rfl⟩ := h.some_iff hs
      rw [hu]
      cases hd : s dst with
      | some l' =>
        obtain ⟨t, ht, _⟩ := h.some_iff hd
        rw [ht]
        exact Okay.ok ⟨rfl, by simpa [HWorld.hashes, ht] using h⟩
      | none =>
        have hsd : src ≠ dst := fun q => by rw [q, hd] at hs; cases hs
        rw [h.none_iff hd]
        simp only [World.allowed, hu, decide_eq_true_eq] at hg
        obtain ⟨m', t, u', e, _, hq, h1, h2, _, _, hap, f⟩ := moveCtor_ok (c := c.with (H src)) hsz hA al hr
        simp only
        rw [e, bind_ok]
        refine Okay.ok ⟨rfl, ?_⟩
        simp only [HWorld.hashes, hu, h.none_iff hd, Option.isSome_some, Option.isNone_none, Bool.and_self, if_true]
        refine h.update2 (F := u.foot c.sz) hsd (f.congr (fun _ q => q) ?_) ?_ ?_ ⟨_, h2.any _, rfl⟩ ⟨_, by rw [upd_same]; exact h1 hg, hq⟩
          hap.symm
        · intro x hx
          left
          rw [List.mem_append] at hx ⊢
          exact hx.symm
        · intro x hx
          exact ⟨src, u, Or.inl rfl, hu, hx⟩
        · intro n q1 q2
          rw [upd_ne _ _ q2, upd_ne _ _ q1]
  | moveAssign al src dst => exact assignMove_hash hsz hA mv h hg
  | swap a b =>
    simp only [World.step, WSpec.step]
    by_cases hab : a = b
    · subst hab
      have hH : HWorld.hashes dflt mv w H (.swap a a) = H := by
        simp only [HWorld.hashes, upd_self (rfl : H a = H a), ite_self]
      rw [if_pos rfl, if_pos rfl, hH]
      cases hs : s a with
      | none => rw [h.none_iff hs]; exact Okay.ok ⟨rfl, h⟩
      | some l =>
        obtain ⟨t, ht, o, hr, _⟩ := h.some_iff hs
        rw [ht]
        simp only
        rw [swap_self hr, bind_ok]
        refine Okay.ok ⟨rfl, ?_⟩
        simp only
        rw [upd_self ht]
        exact h
    · rw [if_neg hab, if_neg hab]
      cases hs : s a with
      | none => rw [h.none_iff hs]; exact Okay.ok ⟨rfl, by simpa [HWorld.hashes, HWorld.both, h.none_iff hs] using h⟩
      | some l =>
        obtain ⟨t, ht, hlt⟩ := h.some_iff hs
        rw [ht]
        cases hd : s b with
        | none => rw [h.none_iff hd]; exact Okay.ok ⟨rfl, by simpa [HWorld.hashes, HWorld.both, h.none_iff hd] using h⟩
        | some l' =>
          obtain ⟨u, hu, hlu⟩ := h.some_iff hd
          obtain ⟨o, hr, rfl⟩ := hlt
          obtain ⟨o', hr', rfl⟩ := hlu
          rw [hu]
          simp only [World.allowed, hu, ht, decide_eq_true_eq] at hg
          obtain ⟨g1, g2⟩ := hg.resolve_left hab
          obtain ⟨m', e, hm⟩ := swap_ok (c := c.with (H b)) (g := H a) hr hr' (h.apart a b t u hab ht hu) g1 g2
          simp only
          rw [e, bind_ok]
          refine Okay.ok ⟨rfl, ?_⟩
          simp only [HWorld.hashes, HWorld.both, hu, ht, Option.isSome_some, Bool.and_self, if_true]
          refine h.update2 (F := t.foot c.sz ++ u.foot c.sz) hab hm.frame ?_ ?_
            ⟨_, by rw [upd_ne _ _ hab, upd_same]; exact ⟨hr'.core, hm.fst.link⟩, rfl⟩
            ⟨_, by rw [upd_same]; exact ⟨hr.core, hm.snd.link⟩, rfl⟩ hm.apart
          · intro x hx
            rcases List.mem_append.mp hx with q | q
            · exact ⟨a, t, Or.inl rfl, ht, q⟩
            · exact ⟨b, u, Or.inr rfl, hu, q⟩
          · intro n q1 q2
            rw [upd_ne _ _ q2, upd_ne _ _ q1]
  | merge dst src => exact mergeInto_hash hsz hA hst h hg
  | mergeMove al dst src =>
    cases hd : s dst with
    | none =>
      simp only [World.step, WSpec.step, HWorld.hashes, h.none_iff hd, hd]
      split
      · exact Okay.ok ⟨rfl, h⟩
      · exact Okay.ok ⟨rfl, h⟩
    | some d =>
      obtain ⟨t, ht, o, hr, hq⟩ := h.some_iff hd
      simp only [World.allowed, ht] at hg
      simp only [World.step, HWorld.hashes, HWorld.acting, ht]
      by_cases hz : t.core.size = 0
      · rw [if_pos hz] at hg
        rw [if_pos hz, if_pos hz]
        have hd0 : d = [] := by rw [← hq]; exact (Shows.nonempty hr).mpr hz
        rw [mergeMove_empty al (hd0 ▸ hd)]
        exact assignMove_hash hsz hA mv h hg
      · rw [if_neg hz] at hg
        rw [if_neg hz, if_neg hz]
        exact mergeInto_hash hsz hA hst h hg
  | destroy id =>
    simp only [World.step, WSpec.step, HWorld.acting, HWorld.hashes]
    cases hs : s id with
    | none =>
      rw [h.none_iff hs]
      refine Okay.ok ⟨rfl, ?_⟩
      simp only
      rw [upd_self hs]
      exact h
    | some l =>
      obtain ⟨t, ht, o, hr, rfl⟩ := h.some_iff hs
      rw [ht]
      obtain ⟨m', e, f, _⟩ := destroy_ok hr
      simp only
      rw [e, bind_ok]
      refine Okay.ok ⟨rfl, h.update f (fun j => j = id) ?_ ?_ ?_ ?_⟩
      · intro j hj
        exact ⟨upd_ne _ _ hj, upd_ne _ _ hj, rfl⟩
      · intro j v hj hv
        exact h.apart j id v t hj hv ht
      · intro j hj
        rw [hj]
        exact Or.inl ⟨upd_same .., upd_same ..⟩
      · intro a b t u ha hb hne
        exact absurd (ha.trans hb.symm) hne

theorem hwstep_ok (hsz : 0 < c.sz) (hA : c.A.Sound c.sz) (hst : c.strict = true) (mv : (K → Nat) → K → Nat) {x : HWorld K V}
    {s : Seqs K V} (h : HInv c x.world x.hash s) (o : HOp K V) (hg : x.world.allowed s o.plain = true) :
    Okay True (x.step c mv o) (fun r => r.2 = (WSpec.step s o.plain).2 ∧ HInv c r.1.world r.1.hash (WSpec.step s o.plain).1) := by
  cases o with
  | make id hash n =>
    simp only [HWorld.step]
    refine Okay.bind (hstep_ok hsz hA hst mv h hash (.createN id n) hg) (fun q => q) ?_
    rintro r ⟨h1, h2⟩
    exact Okay.ok ⟨h1, h2⟩
  | on o =>
    simp only [HWorld.step]
    refine Okay.bind (hstep_ok hsz hA hst mv h c.hash o hg) (fun q => q) ?_
    rintro r ⟨h1, h2⟩
    exact Okay.ok ⟨h1, h2⟩

/-- Any guarded program: it is stopped by an exchange of linked nodes, or no fault occurs and all answers are those of the
specification, which does not mention hash functions. -/
theorem hrun_ok (hsz : 0 < c.sz) (hA : c.A.Sound c.sz) (hst : c.strict = true) (mv : (K → Nat) → K → Nat) : ∀ (os : List (HOp K V))
    {x : HWorld K V} {s : Seqs K V}, HInv c x.world x.hash s → HWorld.Guarded c mv x s os = true →
    Okay True (x.run c mv os) (fun r => r.2 = (WSpec.run s (os.map HOp.plain)).2 ∧
      HInv c r.1.world r.1.hash (WSpec.run s (os.map HOp.plain)).1)
  | [], x, s, h, _ => Okay.ok ⟨rfl, h⟩
  | o :: os, x, s, h, hg => by
    simp only [HWorld.Guarded, Bool.and_eq_true] at hg
    simp only [HWorld.run, WSpec.run, List.map_cons]
    refine Okay.bind ((hwstep_ok hsz hA hst mv h o hg.1).with
      (Q := fun r => HWorld.Guarded c mv r.1 (WSpec.step s o.plain).1 os = true) ?_) id ?_
    · intro r e
      have := hg.2
      rw [e] at this
      exact this
    · rintro r ⟨⟨h1, h2⟩, h3⟩
      refine Okay.bind (hrun_ok hsz hA hst mv os h2 h3) id ?_
      rintro r' ⟨h4, h5⟩
      exact Okay.ok ⟨by simp only; rw [h1, h4], h5⟩

/-- At the beginning there are no containers. -/
theorem hinit (m : Mem) (H : Nat → K → Nat) : HInv c (⟨m, fun _ => none⟩ : World K V) H (fun _ => none) :=
  ⟨fun _ _ => rfl, fun _ _ h => (by cases h), fun _ _ _ _ _ h => (by cases h)⟩

/-! The strict variant. -/

theorem hwstep_le (c : Cfg K) (mv : (K → Nat) → K → Nat) (x : HWorld K V) (o : HOp K V) : Le (x.step c.stop mv o) (x.step c mv o) := by
  cases o with
  | make id hash n => exact (wstep_le (c.with hash) _ _).bind fun _ => Le.refl _
  | on o => exact (wstep_le (c.with _) _ _).bind fun _ => Le.refl _

theorem hrun_le (c : Cfg K) (mv : (K → Nat) → K → Nat) : ∀ (os : List (HOp K V)) (x : HWorld K V),
    Le (x.run c.stop mv os) (x.run c mv os)
  | [], _ => Le.refl _
  | _ :: os, _ => (hwstep_le c mv _ _).bind fun _ => (hrun_le c mv os _).bind fun _ => Le.refl _

/-- Copy assignment that ends with an exception from the assignment of the hash function or the comparator (swiss_table.hpp 860-862): only
the header has been assigned. -/
def OTable.assignThrow (m : Mem) (t other : OTable K V) : M (Mem × OTable K V) := do
  let m ← m.copyFrom t.hd other.hd
  .ok (m, t)

end Tpp.OSwiss
