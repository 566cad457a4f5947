import Verif.Ordered.SwissMerge

/-!
# Histories of several ordered sparse containers in one memory
-/

set_option linter.unusedSectionVars false

namespace Tpp.OSwiss

open Tpp.Swiss (Node Ev Table Inv NoTomb AllocP Copyable CopyFits)
open Tpp.Ordered

/-- Operations on numbered containers.  An operation is ignored if a container it names does not exist, or, for constructors, if
the new container exists already.  An `AllocP` tells whether the allocators propagate and are equal. -/
inductive WOp (K V : Type)
  | create (id : Nat)
  | createN (id : Nat) (n : Nat)
  | op (id : Nat) (o : Op K V)
  | copyCtor (src dst : Nat)
  | copyAssign (al : AllocP) (src dst : Nat)
  | moveCtor (al : AllocP) (src dst : Nat)
  | moveAssign (al : AllocP) (src dst : Nat)
  | swap (a b : Nat)
  /-- `dst.merge(src)` -/
  | merge (dst src : Nat)
  /-- `dst.merge(std::move(src))` -/
  | mergeMove (al : AllocP) (dst src : Nat)
  | destroy (id : Nat)

/-- The containers' sequences. -/
abbrev Seqs (K V : Type) := Nat → Option (List (K × V))

namespace WSpec

variable {K V : Type} [DecidableEq K]

/-- What the operations ought to do. -/
def step (s : Seqs K V) : WOp K V → Seqs K V × Out K V
  | .create id =>
    match s id with
    | none => (upd s id (some []), .unit)
    | some _ => (s, .unit)
  | .createN id _ =>
    match s id with
    | none => (upd s id (some []), .unit)
    | some _ => (s, .unit)
  | .op id o =>
    match s id with
    | none => (s, .unit)
    | some l => (upd s id (some (Spec.step l o).1), (Spec.step l o).2)
  | .copyCtor src dst =>
    match s src, s dst with
    | some l, none => (upd s dst (some l), .unit)
    | _, _ => (s, .unit)
  | .copyAssign _ src dst =>
    match s src, s dst with
    | some l, some _ => (upd s dst (some l), .unit)
    | _, _ => (s, .unit)
  | .moveCtor _ src dst =>
    match s src, s dst with
    | some l, none => (upd (upd s src (some [])) dst (some l), .unit)
    | _, _ => (s, .unit)
  | .moveAssign _ src dst =>
    if src = dst then (s, .unit)
    else
      match s src, s dst with
      | some l, some _ => (upd (upd s src (some [])) dst (some l), .unit)
      | _, _ => (s, .unit)
  | .swap a b =>
    if a = b then (s, .unit)
    else
      match s a, s b with
      | some l, some l' => (upd (upd s a (some l')) b (some l), .unit)
      | _, _ => (s, .unit)
  | .merge dst src =>
    if dst = src then (s, .unit)
    else
      match s dst, s src with
      | some d, some q => (upd (upd s dst (some (d ++ Spec.missing d q))) src (some (Spec.shared d q)), .unit)
      | _, _ => (s, .unit)
  | .mergeMove _ dst src =>
    if dst = src then (s, .unit)
    else
      match s dst, s src with
      | some d, some q => (upd (upd s dst (some (d ++ Spec.missing d q))) src (some (Spec.shared d q)), .unit)
      | _, _ => (s, .unit)
  | .destroy id => (upd s id none, .unit)

def run (s : Seqs K V) : List (WOp K V) → Seqs K V × List (Out K V)
  | [] => (s, [])
  | o :: os => ((run (step s o).1 os).1, (step s o).2 :: (run (step s o).1 os).2)

end WSpec

/-- The containers and the memory they live in. -/
structure World (K V : Type) where
  mem : Mem
  tab : Nat → Option (OTable K V)

namespace World

variable {K V : Type} [DecidableEq K]

/-- Move assignment; lines 858/872 of swiss_table.hpp test for assignment to itself. -/
def assignMove (c : Cfg K) (al : AllocP) (w : World K V) (src dst : Nat) : M (World K V × Out K V) :=
  if src = dst then .ok (w, .unit)
  else
    match w.tab src, w.tab dst with
    | some u, some t => do
      let r ← t.moveAssign c al w.mem u
      .ok (⟨r.1, upd (upd w.tab src (some r.2.2)) dst (some r.2.1)⟩, .unit)
    | _, _ => .ok (w, .unit)

/-- `dst.merge(src)`, also of a container with itself. -/
def mergeInto (c : Cfg K) (w : World K V) (dst src : Nat) : M (World K V × Out K V) :=
  if dst = src then
    match w.tab dst with
    | some t => do
      let r ← t.mergeSelf c w.mem
      .ok (⟨r.1, upd w.tab dst (some r.2)⟩, .unit)
    | none => .ok (w, .unit)
  else
    match w.tab dst, w.tab src with
    | some t, some u => do
      let r ← OTable.merge c w.mem t u
      .ok (⟨r.1, upd (upd w.tab dst (some r.2.1)) src (some r.2.2)⟩, .unit)
    | _, _ => .ok (w, .unit)

/-- The functions of `Verif/Ordered/Swiss.lean` on the numbered containers (swiss_table.hpp 848-889, 1095-1146); `src` and `dst` may be
the same container. -/
def step (c : Cfg K) (w : World K V) : WOp K V → M (World K V × Out K V)
  | .create id =>
    match w.tab id with
    | none =>
      let r := OTable.create c w.mem
      .ok (⟨r.1, upd w.tab id (some r.2)⟩, .unit)
    | some _ => .ok (w, .unit)
  | .createN id n =>
    match w.tab id with
    | none => do
      let r ← OTable.createN c w.mem n
      .ok (⟨r.1, upd w.tab id (some r.2)⟩, .unit)
    | some _ => .ok (w, .unit)
  | .op id o =>
    match w.tab id with
    | none => .ok (w, .unit)
    | some t => do
      let r ← t.step c w.mem o
      .ok (⟨r.1, upd w.tab id (some r.2.1)⟩, r.2.2)
  | .copyCtor src dst =>
    match w.tab src, w.tab dst with
    | some u, none => do
      let r ← OTable.copyCtor c w.mem u
      .ok (⟨r.1, upd w.tab dst (some r.2)⟩, .unit)
    | _, _ => .ok (w, .unit)
  | .copyAssign al src dst =>
    if src = dst then .ok (w, .unit)
    else
      match w.tab src, w.tab dst with
      | some u, some t => do
        let r ← t.copyAssign c al w.mem u
        .ok (⟨r.1, upd w.tab dst (some r.2)⟩, .unit)
      | _, _ => .ok (w, .unit)
  | .moveCtor al src dst =>
    match w.tab src, w.tab dst with
    | some u, none => do
      let r ← OTable.moveCtor c al w.mem u
      .ok (⟨r.1, upd (upd w.tab src (some r.2.2)) dst (some r.2.1)⟩, .unit)
    | _, _ => .ok (w, .unit)
  | .moveAssign al src dst => w.assignMove c al src dst
  | .swap a b =>
    if a = b then
      match w.tab a with
      | some t => do
        let r ← t.swap w.mem t
        .ok (⟨r.1, upd w.tab a (some r.2.1)⟩, .unit)
      | none => .ok (w, .unit)
    else
      match w.tab a, w.tab b with
      | some t, some u => do
        let r ← t.swap w.mem u
        .ok (⟨r.1, upd (upd w.tab a (some r.2.1)) b (some r.2.2)⟩, .unit)
      | _, _ => .ok (w, .unit)
  | .merge dst src => w.mergeInto c dst src
  | .mergeMove al dst src =>
    -- `merge(swiss_table &&)` (swiss_table.hpp 1116-1122)
    match w.tab dst with
    | some t => if t.core.size = 0 then w.assignMove c al src dst else w.mergeInto c dst src
    | none => .ok (w, .unit)
  | .destroy id =>
    match w.tab id with
    | none => .ok (w, .unit)
    | some t => do
      let m ← t.destroy c w.mem
      .ok (⟨m, upd w.tab id none⟩, .unit)

def run (c : Cfg K) (w : World K V) : List (WOp K V) → M (World K V × List (Out K V))
  | [] => .ok (w, [])
  | o :: os => do
    let r ← w.step c o
    let r' ← run c r.1 os
    .ok (r'.1, r.2 :: r'.2)

end World

section decidable

variable {K V : Type}

instance (t : Table K V) : Decidable (NoTomb t) := inferInstanceAs (Decidable (∀ i, i < t.cap → t.ctl i ≠ .deleted))

instance (t : Table K V) : Decidable (Copyable t) := inferInstanceAs (Decidable (t.size = 0 ∨ NoTomb t))

instance (al : AllocP) (t a : Table K V) : Decidable (CopyFits al t a) :=
  inferInstanceAs (Decidable (al.copyProp = true ∨ (a.size ≠ 0 ∧ t.cap ≤ a.cap) ∨ (a.size = 0 ∧ t.size = 0 ∧ NoTomb t)))

instance (al : AllocP) (t u : Table K V) : Decidable (MoveFits al t u) :=
  inferInstanceAs (Decidable ((al.equal || al.moveProp) = true ∨ (Copyable u ∧ CopyFits { al with copyProp := false } t u)))

end decidable

namespace World

variable {K V : Type} [DecidableEq K]

/-- When move assignment does what it should. -/
def canAssign (w : World K V) (al : AllocP) (src dst : Nat) : Bool :=
  match w.tab src, w.tab dst with
  | some u, some t => decide (src = dst ∨ (MoveFits al t.core u.core ∧ (al.moveProp = true ∨ al.equal = false ∨ t.core.size = 0)))
  | _, _ => true

/-- When `merge` does what it should. -/
def canMerge (s : Seqs K V) (dst src : Nat) : Bool :=
  match s dst, s src with
  | some d, some q => decide (dst = src ∨ ((Spec.missing d (q.take 1)).length = 0 ∧ (Spec.missing d q).length ≤ 1))
  | _, _ => true

/-- What the code can do.  The bucket counts for construction are those that the code expects; copies, and moves between unequal
allocators, need a source without erased slots, and a destination whose buffer is dropped or not larger; a move without propagation
leaves stale control bytes in the source if the destination had elements; `swap` needs elements on both sides; `merge` leaves the
first element of the source alone and transfers the others in the opposite order, unless it is called for a temporary and the
destination is empty, which makes it a move assignment. -/
def allowed (w : World K V) (s : Seqs K V) : WOp K V → Bool
  | .createN _ n => 2 ^ (n + 1).log2 = n + 1
  | .copyCtor src _ =>
    match w.tab src with
    | some u => decide (Copyable u.core)
    | none => true
  | .copyAssign al src dst =>
    match w.tab src, w.tab dst with
    | some u, some t => decide (src = dst ∨ (Copyable u.core ∧ CopyFits al t.core u.core))
    | _, _ => true
  | .moveCtor al src _ =>
    match w.tab src with
    | some u => decide (al.equal = true ∨ Copyable u.core)
    | none => true
  | .moveAssign al src dst => w.canAssign al src dst
  | .swap a b =>
    match w.tab a, w.tab b with
    | some t, some u => decide (a = b ∨ (t.core.size ≠ 0 ∧ u.core.size ≠ 0))
    | _, _ => true
  | .merge dst src => canMerge s dst src
  | .mergeMove al dst src =>
    match w.tab dst with
    | some t => if t.core.size = 0 then w.canAssign al src dst else canMerge s dst src
    | none => true
  | _ => true

/-- All operations of a history are allowed, as long as it does not stop. -/
def Guarded (c : Cfg K) (w : World K V) (s : Seqs K V) : List (WOp K V) → Bool
  | [] => true
  | o :: os => w.allowed s o &&
    match w.step c o with
    | .ok r => Guarded c r.1 (WSpec.step s o).1 os
    | .error _ => true

end World

variable {K V : Type} [DecidableEq K] {c : Cfg K}

/-- Every container holds its sequence, and no two containers share storage. -/
structure WInv (c : Cfg K) (w : World K V) (s : Seqs K V) : Prop where
  none : ∀ i, w.tab i = none → s i = none
  holds : ∀ i t, w.tab i = some t → ∃ l, s i = some l ∧ Holds c w.mem t l
  apart : ∀ i j t u, i ≠ j → w.tab i = some t → w.tab j = some u → Apart c.sz t u

theorem Holds.live {m : Mem} {t : OTable K V} {l : List (K × V)} (h : Holds c m t l) : ∀ x ∈ t.foot c.sz, x ∈ m.live := by
  obtain ⟨_, h, _⟩ := h
  exact h.link.foot_live

theorem Holds.frame {m m' : Mem} {t : OTable K V} {l : List (K × V)} (h : Holds c m t l) {F F' : List Int}
    (hf : Frame m m' F F') (hd : ∀ x ∈ t.foot c.sz, x ∉ F) : Holds c m' t l := by
  obtain ⟨o, h, e⟩ := h
  exact ⟨o, h.frame hf hd, e⟩

theorem WInv.some_iff {w : World K V} {s : Seqs K V} (h : WInv c w s) {i : Nat} {l : List (K × V)} (e : s i = some l) :
    ∃ t, w.tab i = some t ∧ Holds c w.mem t l := by
  cases ht : w.tab i with
  | none => rw [h.none i ht] at e; cases e
  | some t =>
    obtain ⟨l', e', hl⟩ := h.holds i t ht
    rw [e'] at e
    cases e
    exact ⟨t, rfl, hl⟩

theorem WInv.none_iff {w : World K V} {s : Seqs K V} (h : WInv c w s) {i : Nat} (e : s i = Option.none) : w.tab i = Option.none := by
  cases ht : w.tab i with
  | none => rfl
  | some t =>
    obtain ⟨l', e', hl⟩ := h.holds i t ht
    rw [e'] at e
    cases e

/-- An operation on the containers in `S`. -/
theorem WInv.update {w : World K V} {s : Seqs K V} (h : WInv c w s) {m' : Mem} {F F' : List Int} (hf : Frame w.mem m' F F')
    {tab' : Nat → Option (OTable K V)} {s' : Seqs K V} (S : Nat → Prop)
    (hsame : ∀ i, ¬ S i → tab' i = w.tab i ∧ s' i = s i)
    (hF : ∀ i t, ¬ S i → w.tab i = some t → ∀ x ∈ t.foot c.sz, x ∉ F)
    (hnew : ∀ i, S i → (tab' i = Option.none ∧ s' i = Option.none) ∨
      ∃ t l, tab' i = some t ∧ s' i = some l ∧ Holds c m' t l ∧ ∀ x ∈ t.foot c.sz, x ∈ F')
    (hap : ∀ i j t u, S i → S j → i ≠ j → tab' i = some t → tab' j = some u → Apart c.sz t u) :
    WInv c ⟨m', tab'⟩ s' := by
  have hmix : ∀ i j t u, S i → ¬ S j → tab' i = some t → tab' j = some u → Apart c.sz t u := by
    intro i j t u hi hj et eu x hx hx'
    rw [(hsame j hj).1] at eu
    rcases hnew i hi with ⟨q, _⟩ | ⟨t', l, q, _, _, hsub⟩
    · rw [q] at et; cases et
    · rw [q] at et
      cases et
      obtain ⟨_, _, hl⟩ := h.holds j u eu
      rcases hf.fresh x (hsub x hx) with g | g
      · exact hF j u hj eu x hx' g
      · exact g (hl.live x hx')
  refine ⟨?_, ?_, ?_⟩
  · intro i hi
    change tab' i = Option.none at hi
    by_cases hs : S i
    · rcases hnew i hs with ⟨_, q⟩ | ⟨t', l, q, _⟩
      · exact q
      · rw [q] at hi; cases hi
    · rw [(hsame i hs).1] at hi
      rw [(hsame i hs).2, h.none i hi]
  · intro i t hi
    change tab' i = some t at hi
    by_cases hs : S i
    · rcases hnew i hs with ⟨q, _⟩ | ⟨t', l, q1, q2, q3, _⟩
      · rw [q] at hi; cases hi
      · rw [q1] at hi
        cases hi
        exact ⟨l, q2, q3⟩
    · rw [(hsame i hs).1] at hi
      rw [(hsame i hs).2]
      obtain ⟨l, e, hl⟩ := h.holds i t hi
      exact ⟨l, e, hl.frame hf (hF i t hs hi)⟩
  · intro i j t u hne hi hj
    change tab' i = some t at hi
    change tab' j = some u at hj
    by_cases si : S i <;> by_cases sj : S j
    · exact hap i j t u si sj hne hi hj
    · exact hmix i j t u si sj hi hj
    · exact (hmix j i u t sj si hj hi).symm
    · rw [(hsame i si).1] at hi
      rw [(hsame j sj).1] at hj
      exact h.apart i j t u hne hi hj

/-- An operation that gives container `i` other storage or creates it. -/
theorem WInv.update1 {w : World K V} {s : Seqs K V} (h : WInv c w s) {m' : Mem} {F : List Int} {i : Nat} {t' : OTable K V}
    {l' : List (K × V)} (hf : Frame w.mem m' F (t'.foot c.sz)) (hF : F = [] ∨ ∃ t, w.tab i = some t ∧ F = t.foot c.sz)
    (hl : Holds c m' t' l') : WInv c ⟨m', upd w.tab i (some t')⟩ (upd s i (some l')) := by
  refine h.update hf (fun j => j = i) ?_ ?_ ?_ ?_
  · intro j hj
    exact ⟨upd_ne _ _ hj, upd_ne _ _ hj⟩
  · intro j u hj hu x hx q
    rcases hF with g | ⟨t, ht, g⟩
    · rw [g] at q; cases q
    · rw [g] at q
      exact h.apart j i u t hj hu ht x hx q
  · intro j hj
    rw [hj]
    exact Or.inr ⟨t', l', upd_same .., upd_same .., hl, fun _ q => q⟩
  · intro a b t u ha hb hne
    exact absurd (ha.trans hb.symm) hne

/-- An operation on two containers. -/
theorem WInv.update2 {w : World K V} {s : Seqs K V} (h : WInv c w s) {m' : Mem} {F : List Int} {i j : Nat} (hij : i ≠ j)
    {t' u' : OTable K V} {l l' : List (K × V)} (hf : Frame w.mem m' F (t'.foot c.sz ++ u'.foot c.sz))
    (hF : ∀ x ∈ F, ∃ n t, (n = i ∨ n = j) ∧ w.tab n = some t ∧ x ∈ t.foot c.sz)
    (h1 : Holds c m' t' l) (h2 : Holds c m' u' l') (ha : Apart c.sz t' u') :
    WInv c ⟨m', upd (upd w.tab i (some t')) j (some u')⟩ (upd (upd s i (some l)) j (some l')) := by
  refine h.update hf (fun n => n = i ∨ n = j) ?_ ?_ ?_ ?_
  · intro n hn
    rw [not_or] at hn
    exact ⟨by rw [upd_ne _ _ hn.2, upd_ne _ _ hn.1], by rw [upd_ne _ _ hn.2, upd_ne _ _ hn.1]⟩
  · intro n v hn hv x hx q
    obtain ⟨a, t, ha', ht, hxt⟩ := hF x q
    exact h.apart n a v t (fun e => hn (e ▸ ha')) hv ht x hx hxt
  · intro n hn
    right
    rcases hn with e | e
    · rw [e]
      exact ⟨t', l, by rw [upd_ne _ _ hij, upd_same], by rw [upd_ne _ _ hij, upd_same], h1, fun x hx => List.mem_append_left _ hx⟩
    · rw [e]
      exact ⟨u', l', upd_same .., upd_same .., h2, fun x hx => List.mem_append_right _ hx⟩
  · intro a b t u sa sb hne hta hub
    rcases sa with e | e <;> rcases sb with e' | e'
    · exact absurd (e.trans e'.symm) hne
    · rw [e, upd_ne _ _ hij, upd_same] at hta
      rw [e', upd_same] at hub
      cases hta; cases hub
      exact ha
    · rw [e, upd_same] at hta
      rw [e', upd_ne _ _ hij, upd_same] at hub
      cases hta; cases hub
      exact ha.symm
    · exact absurd (e.trans e'.symm) hne

/-- Where the code merges as it ought to. -/
theorem merged_eq {d q : List (K × V)} (h1 : (Spec.missing d (q.take 1)).length = 0) (h2 : (Spec.missing d q).length ≤ 1) :
    Spec.merged d q = (d ++ Spec.missing d q, Spec.shared d q) := by
  have e1 : Spec.missing d q = Spec.missing d (q.take 1) ++ Spec.missing d q.tail := by
    unfold Spec.missing
    rw [← List.filter_append, ← List.drop_one, List.take_append_drop]
  have e2 : Spec.shared d q = Spec.shared d (q.take 1) ++ Spec.shared d q.tail := by
    unfold Spec.shared
    rw [← List.filter_append, ← List.drop_one, List.take_append_drop]
  have e3 : Spec.shared d (q.take 1) = q.take 1 := by
    unfold Spec.shared
    rw [List.filter_eq_self]
    intro e he
    have : (Spec.missing d (q.take 1)) = [] := List.length_eq_zero_iff.mp h1
    unfold Spec.missing at this
    rw [List.filter_eq_nil_iff] at this
    simpa [Option.ne_none_iff_isSome] using this e he
  have e4 : Spec.missing d q = Spec.missing d q.tail := by
    rw [e1, List.length_eq_zero_iff.mp h1, List.nil_append]
  rw [e4] at h2 ⊢
  rw [e2, e3]
  unfold Spec.merged
  have : (Spec.missing d q.tail).reverse = Spec.missing d q.tail := by
    match hc : Spec.missing d q.tail with
    | [] => rfl
    | [_] => rfl
    | _ :: _ :: _ => rw [hc] at h2; simp at h2
  rw [this]

theorem Shows.nonempty {m : Mem} {t : OTable K V} {o : List Nat} (h : Rep c m t o) : seqOf t.core.node o = [] ↔ t.core.size = 0 := by
  rw [← List.length_eq_zero_iff, seqOf_length h.link.isSome, h.length]

theorem upd_self {α : Type} {s : Nat → α} {i : Nat} {x : α} (h : s i = x) : upd s i x = s := by
  funext j
  unfold upd
  split
  · rename_i q; rw [q, h]
  · rfl

/-- Move assignment. -/
theorem assignMove_ok (hsz : 0 < c.sz) (hA : c.A.Sound c.sz) {w : World K V} {s : Seqs K V} (h : WInv c w s) {al : AllocP} {src dst : Nat}
    (hg : w.canAssign al src dst = true) :
    Okay True (w.assignMove c al src dst) (fun r => r.2 = (WSpec.step s (.moveAssign al src dst)).2 ∧
      WInv c r.1 (WSpec.step s (.moveAssign al src dst)).1) := by
  simp only [World.assignMove, WSpec.step]
  by_cases hsd : src = dst
  · rw [if_pos hsd, if_pos hsd]
    exact Okay.ok ⟨rfl, h⟩
  · rw [if_neg hsd, if_neg hsd]
    cases hs : s src with
    | none => rw [h.none_iff hs]; exact Okay.ok ⟨rfl, h⟩
    | some l =>
      obtain ⟨u, hu, hlu⟩ := h.some_iff hs
      rw [hu]
      cases hd : s dst with
      | none => rw [h.none_iff hd]; exact Okay.ok ⟨rfl, h⟩
      | some l' =>
        obtain ⟨t, ht, hlt⟩ := h.some_iff hd
        obtain ⟨o, hr, rfl⟩ := hlu
        obtain ⟨o', hr', rfl⟩ := hlt
        rw [ht]
        simp only [World.canAssign, hu, ht, decide_eq_true_eq] at hg
        obtain ⟨g1, g2⟩ := hg.resolve_left hsd
        obtain ⟨m', t', u', e, hm, hq, h1, h2⟩ := moveAssign_ok hsz hA al hr' hr (h.apart src dst u t hsd hu ht).symm
        simp only
        rw [e, bind_ok]
        refine Okay.ok ⟨rfl, h.update2 (F := t.foot c.sz ++ u.foot c.sz) hsd (hm.frame.congr (fun _ q => q) ?_) ?_ ⟨_, h2 g2, rfl⟩
          ⟨_, h1 g1, hq⟩ hm.apart.symm⟩
        · intro x hx
          left
          rw [List.mem_append] at hx ⊢
          exact hx.symm
        · intro x hx
          rcases List.mem_append.mp hx with q | q
          · exact ⟨dst, t, Or.inr rfl, ht, q⟩
          · exact ⟨src, u, Or.inl rfl, hu, q⟩

/-- `merge`. -/
theorem mergeInto_ok (hsz : 0 < c.sz) (hA : c.A.Sound c.sz) (hst : c.strict = true) {w : World K V} {s : Seqs K V} (h : WInv c w s)
    {dst src : Nat} (hg : World.canMerge s dst src = true) :
    Okay True (w.mergeInto c dst src) (fun r => r.2 = (WSpec.step s (.merge dst src)).2 ∧ WInv c r.1 (WSpec.step s (.merge dst src)).1) := by
  simp only [World.mergeInto, WSpec.step]
  by_cases hab : dst = src
  · rw [if_pos hab, if_pos hab]
    cases hs : s dst with
    | none => rw [h.none_iff hs]; exact Okay.ok ⟨rfl, h⟩
    | some d =>
      obtain ⟨t, ht, o, hr, hq⟩ := h.some_iff hs
      rw [ht]
      obtain ⟨m', t', _, e, b⟩ := mergeSelf_ok hsz hA hst hr
      simp only
      rw [e, bind_ok]
      refine Okay.ok ⟨rfl, ?_⟩
      have := h.update1 b.frame (Or.inr ⟨t, ht, rfl⟩) b.holds
      rwa [hq, upd_self hs] at this
  · rw [if_neg hab, if_neg hab]
    cases hs : s dst with
    | none => rw [h.none_iff hs]; exact Okay.ok ⟨rfl, h⟩
    | some d =>
      obtain ⟨t, ht, hlt⟩ := h.some_iff hs
      rw [ht]
      cases hd : s src with
      | none => rw [h.none_iff hd]; exact Okay.ok ⟨rfl, h⟩
      | some q =>
        obtain ⟨u, hu, hlu⟩ := h.some_iff hd
        rw [hu]
        simp only [World.canMerge, hs, hd, decide_eq_true_eq] at hg
        obtain ⟨g1, g2⟩ := hg.resolve_left hab
        obtain ⟨m', t', u', e, h1, h2, _, _, hap, f⟩ := merge_ok hsz hA hst hlt hlu (h.apart dst src t u hab ht hu)
        rw [merged_eq g1 g2] at h1 h2
        simp only
        rw [e, bind_ok]
        refine Okay.ok ⟨rfl, h.update2 (F := t.foot c.sz ++ u.foot c.sz) hab f ?_ h1 h2 hap⟩
        intro x hx
        rcases List.mem_append.mp hx with q | q
        · exact ⟨dst, t, Or.inl rfl, ht, q⟩
        · exact ⟨src, u, Or.inr rfl, hu, q⟩

theorem mergeMove_empty (al : AllocP) {s : Seqs K V} {dst src : Nat} (hd : s dst = some []) :
    WSpec.step s (.mergeMove al dst src) = WSpec.step s (.moveAssign al src dst) := by
  simp only [WSpec.step]
  by_cases q : dst = src
  · rw [if_pos q, if_pos q.symm]
  · rw [if_neg q, if_neg (Ne.symm q), hd]
    cases hs : s src with
    | none => rfl
    | some l =>
      have h1 : Spec.missing [] l = l := by unfold Spec.missing; rw [List.filter_eq_self]; intro a _; rfl
      have h2 : Spec.shared [] l = [] := by unfold Spec.shared; rw [List.filter_eq_nil_iff]; intro a _; simp [Spec.find]
      simp only [h1, h2, List.nil_append]
      congr 1
      funext x
      unfold upd
      by_cases q1 : x = src
      · rw [if_pos q1, if_neg (fun q2 => q (q2.symm.trans q1)), if_pos q1]
      · rw [if_neg q1, if_neg q1]

/-- One operation of a program: it is stopped by an exchange of linked nodes, or all is as it ought to be. -/
theorem wstep_ok (hsz : 0 < c.sz) (hA : c.A.Sound c.sz) (hst : c.strict = true) {w : World K V} {s : Seqs K V} (h : WInv c w s) (o : WOp K V)
    (hg : w.allowed s o = true) :
    Okay True (w.step c o) (fun r => r.2 = (WSpec.step s o).2 ∧ WInv c r.1 (WSpec.step s o).1) := by
  cases o with
  | create id =>
    simp only [World.step, WSpec.step]
    cases hs : s id with
    | none =>
      rw [h.none_iff hs]
      obtain ⟨m', t, e, _, _, h1, _, f⟩ := create_ok (V := V) hA w.mem
      simp only [e]
      exact Okay.ok ⟨rfl, h.update1 f (Or.inl rfl) ⟨_, h1, rfl⟩⟩
    | some l =>
      obtain ⟨t, ht, _⟩ := h.some_iff hs
      rw [ht]
      exact Okay.ok ⟨rfl, h⟩
  | createN id n =>
    simp only [World.step, WSpec.step]
    cases hs : s id with
    | none =>
      rw [h.none_iff hs]
      simp only [World.allowed, decide_eq_true_eq] at hg
      obtain ⟨m', t, e, h1, _, _, _, f⟩ := createN_ok (V := V) hA w.mem hg.symm
      simp only
      rw [e, bind_ok]
      exact Okay.ok ⟨rfl, h.update1 f (Or.inl rfl) ⟨_, h1, rfl⟩⟩
    | some l =>
      obtain ⟨t, ht, _⟩ := h.some_iff hs
      rw [ht]
      exact Okay.ok ⟨rfl, h⟩
  | op id o =>
    simp only [World.step, WSpec.step]
    cases hs : s id with
    | none => rw [h.none_iff hs]; exact Okay.ok ⟨rfl, h⟩
    | some l =>
      obtain ⟨t, ht, hl⟩ := h.some_iff hs
      rw [ht]
      simp only
      refine Okay.bind (step_ok (b := True) hsz hA hst hl o (Or.inl trivial)) (fun q => q) ?_
      rintro r ⟨h1, h2, _⟩
      exact Okay.ok ⟨h1, h.update1 h2.frame (Or.inr ⟨t, ht, rfl⟩) h2.holds⟩
  | copyCtor src dst =>
    simp only [World.step, WSpec.step]
    cases hs : s src with
    | none => rw [h.none_iff hs]; exact Okay.ok ⟨rfl, h⟩
    | some l =>
      obtain ⟨u, hu, o, hr, rfl⟩ := h.some_iff hs
      rw [hu]
      cases hd : s dst with
      | some l' =>
        obtain ⟨t, ht, _⟩ := h.some_iff hd
        rw [ht]
        exact Okay.ok ⟨rfl, h⟩
      | none =>
        rw [h.none_iff hd]
        simp only [World.allowed, hu, decide_eq_true_eq] at hg
        obtain ⟨m', t, e, _, hq, h1, _, f⟩ := copyCtor_ok hsz hA hr
        simp only
        rw [e, bind_ok]
        exact Okay.ok ⟨rfl, h.update1 f (Or.inl rfl) ⟨_, h1 hg, hq⟩⟩
  | copyAssign al src dst =>
    simp only [World.step, WSpec.step]
    by_cases hsd : src = dst
    · subst hsd
      rw [if_pos rfl]
      cases hs : s src with
      | none => exact Okay.ok ⟨rfl, h⟩
      | some l =>
        refine Okay.ok ⟨rfl, ?_⟩
        simp only
        rw [upd_self hs]
        exact h
    · rw [if_neg hsd]
      cases hs : s src with
      | none => rw [h.none_iff hs]; exact Okay.ok ⟨rfl, h⟩
      | some l =>
        obtain ⟨u, hu, hlu⟩ := h.some_iff hs
        rw [hu]
        cases hd : s dst with
        | none => rw [h.none_iff hd]; exact Okay.ok ⟨rfl, h⟩
        | some l' =>
          obtain ⟨t, ht, hlt⟩ := h.some_iff hd
          obtain ⟨o, hr, rfl⟩ := hlu
          obtain ⟨o', hr', rfl⟩ := hlt
          rw [ht]
          simp only [World.allowed, hu, ht, decide_eq_true_eq] at hg
          obtain ⟨g1, g2⟩ := hg.resolve_left hsd
          obtain ⟨m', t', e, _, hq, h1, _, f⟩ := copyAssign_ok hsz hA al hr' hr (h.apart src dst u t hsd hu ht)
          simp only
          rw [e, bind_ok]
          exact Okay.ok ⟨rfl, h.update1 f (Or.inr ⟨t, ht, rfl⟩) ⟨_, h1 g1 g2, hq⟩⟩
  | moveCtor al src dst =>
    simp only [World.step, WSpec.step]
    cases hs : s src with
    | none => rw [h.none_iff hs]; exact Okay.ok ⟨rfl, h⟩
    | some l =>
      obtain ⟨u, hu, o, hr, rfl⟩ := h.some_iff hs
      rw [hu]
      cases hd : s dst with
      | some l' =>
        obtain ⟨t, ht, _⟩ := h.some_iff hd
        rw [ht]
        exact Okay.ok ⟨rfl, h⟩
      | none =>
        have hsd : src ≠ dst := fun q => by rw [q, hd] at hs; cases hs
        rw [h.none_iff hd]
        simp only [World.allowed, hu, decide_eq_true_eq] at hg
        obtain ⟨m', t, u', e, _, hq, h1, h2, _, _, hap, f⟩ := moveCtor_ok hsz hA al hr
        simp only
        rw [e, bind_ok]
        refine Okay.ok ⟨rfl, h.update2 (F := u.foot c.sz) hsd (f.congr (fun _ q => q) ?_) ?_ ⟨_, h2, rfl⟩ ⟨_, h1 hg, hq⟩ hap.symm⟩
        · intro x hx
          left
          rw [List.mem_append] at hx ⊢
          exact hx.symm
        · intro x hx
          exact ⟨src, u, Or.inl rfl, hu, hx⟩
  | moveAssign al src dst => exact assignMove_ok hsz hA h hg
  | swap a b =>
    simp only [World.step, WSpec.step]
    by_cases hab : a = b
    · rw [if_pos hab, if_pos hab]
      cases hs : s a with
      | none => rw [h.none_iff hs]; exact Okay.ok ⟨rfl, h⟩
      | some l =>
        obtain ⟨t, ht, o, hr, _⟩ := h.some_iff hs
        rw [ht]
        simp only
        rw [swap_self hr, bind_ok]
        refine Okay.ok ⟨rfl, ?_⟩
        simp only
        rw [upd_self ht]
        exact h
    · rw [if_neg hab, if_neg hab]
      cases hs : s a with
      | none => rw [h.none_iff hs]; exact Okay.ok ⟨rfl, h⟩
      | some l =>
        obtain ⟨t, ht, hlt⟩ := h.some_iff hs
        rw [ht]
        cases hd : s b with
        | none => rw [h.none_iff hd]; exact Okay.ok ⟨rfl, h⟩
        | some l' =>
          obtain ⟨u, hu, hlu⟩ := h.some_iff hd
          obtain ⟨o, hr, rfl⟩ := hlt
          obtain ⟨o', hr', rfl⟩ := hlu
          rw [hu]
          simp only [World.allowed, hu, ht, decide_eq_true_eq] at hg
          obtain ⟨g1, g2⟩ := hg.resolve_left hab
          obtain ⟨m', e, hm⟩ := swap_ok hr hr' (h.apart a b t u hab ht hu) g1 g2
          simp only
          rw [e, bind_ok]
          refine Okay.ok ⟨rfl, h.update2 (F := t.foot c.sz ++ u.foot c.sz) hab hm.frame ?_ ⟨_, ⟨hr'.core, hm.fst.link⟩, rfl⟩
            ⟨_, ⟨hr.core, hm.snd.link⟩, rfl⟩ hm.apart⟩
          intro x hx
          rcases List.mem_append.mp hx with q | q
          · exact ⟨a, t, Or.inl rfl, ht, q⟩
          · exact ⟨b, u, Or.inr rfl, hu, q⟩
  | merge dst src => exact mergeInto_ok hsz hA hst h hg
  | mergeMove al dst src =>
    cases hd : s dst with
    | none =>
      simp only [World.step, WSpec.step, h.none_iff hd, hd]
      split
      · exact Okay.ok ⟨rfl, h⟩
      · exact Okay.ok ⟨rfl, h⟩
    | some d =>
      obtain ⟨t, ht, o, hr, hq⟩ := h.some_iff hd
      simp only [World.allowed, ht] at hg
      simp only [World.step, ht]
      by_cases hz : t.core.size = 0
      · rw [if_pos hz] at hg ⊢
        have hd0 : d = [] := by rw [← hq]; exact (Shows.nonempty hr).mpr hz
        rw [mergeMove_empty al (hd0 ▸ hd)]
        exact assignMove_ok hsz hA h hg
      · rw [if_neg hz] at hg ⊢
        exact mergeInto_ok hsz hA hst h hg
  | destroy id =>
    simp only [World.step, WSpec.step]
    cases hs : s id with
    | none =>
      rw [h.none_iff hs]
      refine Okay.ok ⟨rfl, ?_⟩
      simp only
      rw [upd_self hs]
      exact h
    | some l =>
      obtain ⟨t, ht, o, hr, rfl⟩ := h.some_iff hs
      rw [ht]
      obtain ⟨m', e, f, _⟩ := destroy_ok hr
      simp only
      rw [e, bind_ok]
      refine Okay.ok ⟨rfl, h.update f (fun j => j = id) ?_ ?_ ?_ ?_⟩
      · intro j hj
        exact ⟨upd_ne _ _ hj, upd_ne _ _ hj⟩
      · intro j v hj hv
        exact h.apart j id v t hj hv ht
      · intro j hj
        rw [hj]
        exact Or.inl ⟨upd_same .., upd_same ..⟩
      · intro a b t u ha hb hne
        exact absurd (ha.trans hb.symm) hne

/-- Any guarded history of any number of containers: it is stopped by an exchange of linked nodes, or no fault occurs and all answers
are those of the specification. -/
theorem wrun_ok (hsz : 0 < c.sz) (hA : c.A.Sound c.sz) (hst : c.strict = true) : ∀ (os : List (WOp K V)) {w : World K V} {s : Seqs K V},
    WInv c w s → World.Guarded c w s os = true →
    Okay True (w.run c os) (fun r => r.2 = (WSpec.run s os).2 ∧ WInv c r.1 (WSpec.run s os).1)
  | [], w, s, h, _ => Okay.ok ⟨rfl, h⟩
  | o :: os, w, s, h, hg => by
    simp only [World.Guarded, Bool.and_eq_true] at hg
    simp only [World.run, WSpec.run]
    refine Okay.bind ((wstep_ok hsz hA hst h o hg.1).with (Q := fun r => World.Guarded c r.1 (WSpec.step s o).1 os = true) ?_) id ?_
    · intro r e
      have := hg.2
      rw [e] at this
      exact this
    · rintro r ⟨⟨h1, h2⟩, h3⟩
      refine Okay.bind (wrun_ok hsz hA hst os h2 h3) id ?_
      rintro r' ⟨h4, h5⟩
      exact Okay.ok ⟨by simp only; rw [h1, h4], h5⟩

/-- At the beginning there are no containers; the memory may hold anything else. -/
theorem winit (m : Mem) : WInv c (⟨m, fun _ => none⟩ : World K V) (fun _ => none) :=
  ⟨fun _ _ => rfl, fun _ _ h => (by cases h), fun _ _ _ _ _ h => (by cases h)⟩

/-! The strict variant. -/

theorem mergeInto_le (c : Cfg K) (w : World K V) (dst src : Nat) : Le (w.mergeInto c.stop dst src) (w.mergeInto c dst src) := by
  simp only [World.mergeInto]
  split
  · split
    · exact (OTable.mergeSelf_le c _ _).bind fun _ => Le.refl _
    · exact Le.refl _
  · split
    · exact (OTable.merge_le c _ _ _).bind fun _ => Le.refl _
    · exact Le.refl _

theorem wstep_le (c : Cfg K) (w : World K V) (o : WOp K V) : Le (w.step c.stop o) (w.step c o) := by
  cases o with
  | op id o =>
    simp only [World.step]
    split
    · exact Le.refl _
    · exact (OTable.step_le c _ _ _).bind fun _ => Le.refl _
  | merge dst src => exact mergeInto_le c w dst src
  | mergeMove al dst src =>
    simp only [World.step]
    split
    · split
      · exact Le.refl _
      · exact mergeInto_le c w dst src
    · exact Le.refl _
  | _ => exact Le.refl _

theorem wrun_le (c : Cfg K) : ∀ (os : List (WOp K V)) (w : World K V), Le (w.run c.stop os) (w.run c os)
  | [], _ => Le.refl _
  | _ :: os, _ => (wstep_le c _ _).bind fun _ => (wrun_le c os _).bind fun _ => Le.refl _

end Tpp.OSwiss
