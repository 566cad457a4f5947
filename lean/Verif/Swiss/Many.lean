import Verif.Swiss.Grow
import Verif.Swiss.SelfOps

/-!
# Programs over several containers, each with its own hash function

The other modules give one hash function to all containers.  Here the hash function is part of the container (swiss_table.hpp 745:
`empty_base<Kh>`), and is copied, moved and exchanged along with the elements.
-/

set_option linter.unusedSectionVars false

namespace Tpp.Swiss

variable {K V : Type} [DecidableEq K]

/-- A container and its hash function (swiss_table.hpp 745, 1137). -/
structure Owned (K V : Type) where
  hash : K → Nat
  t : Table K V

namespace Owned

/-- A member function that concerns one container uses the container's own hash function (swiss_table.hpp 1150). -/
def step (isa : Isa) (c : Owned K V) (op : Op K V) : M (Owned K V × Out K V) := do
  let (t, o) ← c.t.step isa c.hash op
  .ok ({ c with t := t }, o)

/-- Copy constructor (swiss_table.hpp 848): the hash function is copied. -/
def copyCtor (isa : Isa) (c : Owned K V) : M (Owned K V) := do
  let t ← c.t.copyCtor isa
  .ok ⟨c.hash, t⟩

/-- Move constructor (swiss_table.hpp 851-852): the hash function is moved; `mv` says what the move leaves of it. -/
def moveCtor (mv : (K → Nat) → K → Nat) (isa : Isa) (c : Owned K V) : M (Owned K V × Owned K V) := do
  let (t, u) ← c.t.moveCtor isa .std
  .ok (⟨c.hash, t⟩, ⟨mv c.hash, u⟩)

/-- Copy assignment (swiss_table.hpp 856-869). -/
def copyAssign (isa : Isa) (al : AllocP) (c d : Owned K V) : M (Owned K V) := do
  let t ← c.t.copyAssign isa al d.t
  .ok ⟨d.hash, t⟩

/-- Move assignment (swiss_table.hpp 870-883). -/
def moveAssign (mv : (K → Nat) → K → Nat) (isa : Isa) (al : AllocP) (c d : Owned K V) : M (Owned K V × Owned K V) := do
  let (t, u) ← c.t.moveAssign isa al d.t
  .ok (⟨d.hash, t⟩, ⟨mv d.hash, u⟩)

/-- `swap` (swiss_table.hpp 1140-1146). -/
def swap (c d : Owned K V) : Owned K V × Owned K V :=
  let r := c.t.swapBuffers d.t
  (⟨d.hash, r.1⟩, ⟨c.hash, r.2⟩)

/-- `merge(other)` (swiss_table.hpp 1096-1113): positions in the target are found with the target's hash function. -/
def merge (isa : Isa) (c d : Owned K V) : M (Owned K V × Owned K V) := do
  let (t, u) ← c.t.merge isa c.hash d.t
  .ok (⟨c.hash, t⟩, ⟨d.hash, u⟩)

/-- `merge(std::move(other))` (swiss_table.hpp 1116-1122): an empty container is assigned to, and takes over the hash function. -/
def mergeMove (mv : (K → Nat) → K → Nat) (isa : Isa) (al : AllocP) (c d : Owned K V) : M (Owned K V × Owned K V) := do
  let (t, u) ← c.t.mergeMove isa al c.hash d.t
  .ok (if c.t.size = 0 then (⟨d.hash, t⟩, ⟨mv d.hash, u⟩) else (⟨c.hash, t⟩, ⟨d.hash, u⟩))

/-- Copy assignment that ends with an exception from the assignment of the comparator (swiss_table.hpp 860-862): the hash function
has been replaced, the elements have not. -/
def copyAssignThrow (c d : Owned K V) : Owned K V := ⟨d.hash, c.t⟩

end Owned

/-- What a program does next; the numbers say with which of its containers.  Operations of a container with itself are in
`Verif.Swiss.SelfOps`. -/
inductive MOp (K V : Type)
  | create (hash : K → Nat)
  | one (op : Op K V) (i : Nat)
  | copyCtor (i : Nat)
  | moveCtor (i : Nat)
  | copyAssign (al : AllocP) (i j : Nat)
  | moveAssign (al : AllocP) (i j : Nat)
  | swap (i j : Nat)
  | merge (i j : Nat)
  | mergeMove (al : AllocP) (i j : Nat)

/-- Two different ones of a list. -/
def pick2 {α : Type} (l : List α) (i j : Nat) : Option (α × α) :=
  if i = j then none else match l[i]?, l[j]? with
    | some a, some b => some (a, b)
    | _, _ => none

/-- One step of a program: the containers and, for operations on a single container, the answer. -/
def manyStep (mv : (K → Nat) → K → Nat) (isa : Isa) (cs : List (Owned K V)) : MOp K V → M (List (Owned K V) × Option (Out K V))
  | .create hash => .ok (cs ++ [⟨hash, Table.init⟩], none)
  | .one op i => match cs[i]? with
    | none => .ok (cs, none)
    | some c => do
      let (c, o) ← c.step isa op
      .ok (cs.set i c, some o)
  | .copyCtor i => match cs[i]? with
    | none => .ok (cs, none)
    | some c => do
      let d ← c.copyCtor isa
      .ok (cs ++ [d], none)
  | .moveCtor i => match cs[i]? with
    | none => .ok (cs, none)
    | some c => do
      let (d, c) ← c.moveCtor mv isa
      .ok (cs.set i c ++ [d], none)
  | .copyAssign al i j => match pick2 cs i j with
    | none => .ok (cs, none)
    | some (c, d) => do
      let c ← c.copyAssign isa al d
      .ok (cs.set i c, none)
  | .moveAssign al i j => match pick2 cs i j with
    | none => .ok (cs, none)
    | some (c, d) => do
      let (c, d) ← c.moveAssign mv isa al d
      .ok ((cs.set i c).set j d, none)
  | .swap i j => match pick2 cs i j with
    | none => .ok (cs, none)
    | some (c, d) =>
      let r := c.swap d
      .ok ((cs.set i r.1).set j r.2, none)
  | .merge i j => match pick2 cs i j with
    | none => .ok (cs, none)
    | some (c, d) => do
      let (c, d) ← c.merge isa d
      .ok ((cs.set i c).set j d, none)
  | .mergeMove al i j => match pick2 cs i j with
    | none => .ok (cs, none)
    | some (c, d) => do
      let (c, d) ← c.mergeMove mv isa al d
      .ok ((cs.set i c).set j d, none)

/-- A program: the containers at the end and the answers. -/
def manyRun (mv : (K → Nat) → K → Nat) (isa : Isa) : List (Owned K V) → List (MOp K V) →
    M (List (Owned K V) × List (Option (Out K V)))
  | cs, [] => .ok (cs, [])
  | cs, op :: ops => do
    let (cs, o) ← manyStep mv isa cs op
    let (cs, os) ← manyRun mv isa cs ops
    .ok (cs, o :: os)

/-! ## The same program over mathematical maps -/

/-- One step: assignment replaces, moving empties, merging moves the elements whose keys are missing. -/
def specMany (ms : List (List (K × V))) : MOp K V → List (List (K × V)) × Option (Out K V)
  | .create _ => (ms ++ [[]], none)
  | .one op i => match ms[i]? with
    | none => (ms, none)
    | some m => (ms.set i (Spec.step m op).1, some (Spec.step m op).2)
  | .copyCtor i => match ms[i]? with
    | none => (ms, none)
    | some m => (ms ++ [m], none)
  | .moveCtor i => match ms[i]? with
    | none => (ms, none)
    | some m => (ms.set i [] ++ [m], none)
  | .copyAssign _ i j => match pick2 ms i j with
    | none => (ms, none)
    | some (_, n) => (ms.set i n, none)
  | .moveAssign _ i j => match pick2 ms i j with
    | none => (ms, none)
    | some (_, n) => ((ms.set i n).set j [], none)
  | .swap i j => match pick2 ms i j with
    | none => (ms, none)
    | some (m, n) => ((ms.set i n).set j m, none)
  | .merge i j | .mergeMove _ i j => match pick2 ms i j with
    | none => (ms, none)
    | some (m, n) => ((ms.set i (m ++ n.filter fun x => decide (x.1 ∉ m.map Prod.fst))).set j
        (n.filter fun x => decide (x.1 ∈ m.map Prod.fst)), none)

/-- A program. -/
def specManyRun : List (List (K × V)) → List (MOp K V) → List (List (K × V)) × List (Option (Out K V))
  | ms, [] => (ms, [])
  | ms, op :: ops =>
    let r := specMany ms op
    let q := specManyRun r.1 ops
    (q.1, r.2 :: q.2)

/-- What a program must respect (C16-C18). -/
def MOp.Allowed (cs : List (Owned K V)) : MOp K V → Prop
  | .copyCtor i => ∀ c, cs[i]? = some c → Copyable c.t
  | .copyAssign al i j => ∀ c d, pick2 cs i j = some (c, d) → Copyable d.t ∧ CopyFits al c.t d.t
  | .moveAssign al _ _ | .mergeMove al _ _ => al.moveProp = true
  | _ => True

/-- All steps of the program respect this. -/
def MAllowed (mv : (K → Nat) → K → Nat) (isa : Isa) : List (Owned K V) → List (MOp K V) → Prop
  | _, [] => True
  | cs, op :: ops => op.Allowed cs ∧ ∀ r, manyStep mv isa cs op = .ok r → MAllowed mv isa r.1 ops

/-- Container and map agree. -/
def Owned.Is (isa : Isa) (c : Owned K V) (m : List (K × V)) : Prop := Inv isa c.hash c.t ∧ c.t.contents.Perm m

/-- Answers agree. -/
def AgreeO : Option (Out K V) → Option (Out K V) → Prop
  | none, none => True
  | some a, some b => a.Agree b
  | _, _ => False

theorem forall₂_set {α β : Type} {R : α → β → Prop} {a : α} {b : β} (hab : R a b) :
    ∀ {l : List α} {l' : List β}, List.Forall₂ R l l' → ∀ i, List.Forall₂ R (l.set i a) (l'.set i b)
  | _, _, .nil, _ => .nil
  | _, _, .cons _ hs, 0 => .cons hab hs
  | _, _, .cons h hs, i + 1 => .cons h (forall₂_set hab hs i)

theorem forall₂_get {α β : Type} {R : α → β → Prop} : ∀ {l : List α} {l' : List β}, List.Forall₂ R l l' → ∀ i : Nat,
    (l[i]? = none ∧ l'[i]? = none) ∨ ∃ a b, l[i]? = some a ∧ l'[i]? = some b ∧ R a b
  | _, _, .nil, i => Or.inl ⟨rfl, rfl⟩
  | _, _, .cons h _, 0 => Or.inr ⟨_, _, rfl, rfl, h⟩
  | _, _, .cons _ hs, i + 1 => by simpa using forall₂_get hs i

theorem forall₂_pick2 {α β : Type} {R : α → β → Prop} {l : List α} {l' : List β} (h : List.Forall₂ R l l') (i j : Nat) :
    (pick2 l i j = none ∧ pick2 l' i j = none) ∨
      ∃ a b a' b', pick2 l i j = some (a, b) ∧ pick2 l' i j = some (a', b') ∧ R a a' ∧ R b b' := by
  unfold pick2
  by_cases e : i = j
  · simp [e]
  · rw [if_neg e, if_neg e]
    rcases forall₂_get h i with ⟨h1, h2⟩ | ⟨a, a', h1, h2, h3⟩
    · simp [h1, h2]
    · rcases forall₂_get h j with ⟨g1, g2⟩ | ⟨b, b', g1, g2, g3⟩
      · simp [h1, h2, g1, g2]
      · rw [h1, h2, g1, g2]
        exact Or.inr ⟨a, b, a', b', rfl, rfl, h3, g3⟩

theorem forall₂_append {α β : Type} {R : α → β → Prop} {l₁ : List α} {l₁' : List β} (h : List.Forall₂ R l₁ l₁') :
    ∀ {l₂ : List α} {l₂' : List β}, List.Forall₂ R l₂ l₂' → List.Forall₂ R (l₁ ++ l₂) (l₁' ++ l₂') := by
  induction h with
  | nil => intro _ _ h; exact h
  | cons h _ ih => intro _ _ h2; exact .cons h (ih h2)

theorem lookup_isNone_iff (m : List (K × V)) (k : K) : (Spec.lookup m k).isNone = decide (k ∉ m.map Prod.fst) := by
  rw [Bool.eq_iff_iff]
  simp only [Option.isNone_iff_eq_none, decide_eq_true_eq]
  induction m with
  | nil => simp [Spec.lookup]
  | cons x m ih =>
    rw [Spec.lookup_cons, List.map_cons, List.mem_cons, not_or, ← ih]
    by_cases e : x.1 = k
    · subst e; simp
    · rw [if_neg e]
      exact ⟨fun h => ⟨fun g => e g.symm, h⟩, fun h => h.2⟩

theorem merge_parts {m n a b a' b' : List (K × V)} (hm : a.Perm m) (hn : b.Perm n)
    (h1 : a'.Perm (Missing a b ++ a)) (h2 : b.Perm (Missing a b ++ b')) :
    a'.Perm (m ++ n.filter fun x => decide (x.1 ∉ m.map Prod.fst)) ∧
      b'.Perm (n.filter fun x => decide (x.1 ∈ m.map Prod.fst)) := by
  have hmis : Missing a b = b.filter fun x => decide (x.1 ∉ m.map Prod.fst) := by
    unfold Missing
    congr 1
    funext x
    rw [lookup_isNone_iff]
    congr 1
    exact propext (not_congr (hm.map Prod.fst).mem_iff)
  rw [hmis] at h1 h2
  constructor
  · refine h1.trans (List.perm_append_comm.trans (hm.append (hn.filter _)))
  · have h3 := (List.filter_append_perm (fun x : K × V => decide (x.1 ∉ m.map Prod.fst)) b)
    have h4 := (h3.trans h2)
    have h5 := (List.perm_append_left_iff _).mp h4
    refine h5.symm.trans ?_
    refine List.Perm.trans ?_ (hn.filter _)
    apply List.Perm.of_eq
    congr 1
    funext x
    simp

/-- One step. -/
theorem manyStep_spec {mv : (K → Nat) → K → Nat} {isa : Isa} {cs : List (Owned K V)} {ms : List (List (K × V))}
    (h : List.Forall₂ (Owned.Is isa) cs ms) (op : MOp K V) (ha : op.Allowed cs) :
    Ends isa (manyStep mv isa cs op) (fun r => List.Forall₂ (Owned.Is isa) r.1 (specMany ms op).1 ∧
      AgreeO r.2 (specMany ms op).2) := by
  cases op with
  | create hash =>
    exact Ends.of_ok rfl ⟨forall₂_append h (.cons ⟨Inv.init isa hash, List.Perm.refl _⟩ .nil), trivial⟩
  | one op i =>
    simp only [manyStep, specMany]
    rcases forall₂_get h i with ⟨h1, h2⟩ | ⟨c, m, h1, h2, h3, h4⟩
    · rw [h1, h2]; exact Ends.of_ok rfl ⟨h, trivial⟩
    · rw [h1, h2]
      simp only [Owned.step]
      rcases step_spec h3 h4 op with ⟨⟨t, o⟩, e1, e2, e3, e4⟩ | ⟨e1, e2⟩
      · simp only [e1, bind_ok]
        exact Ends.of_ok rfl ⟨forall₂_set ⟨e2, e3⟩ h i, e4⟩
      · exact Or.inr ⟨e1, by rw [e2]; rfl⟩
  | copyCtor i =>
    simp only [manyStep, specMany]
    rcases forall₂_get h i with ⟨h1, h2⟩ | ⟨c, m, h1, h2, h3, h4⟩
    · rw [h1, h2]; exact Ends.of_ok rfl ⟨h, trivial⟩
    · rw [h1, h2]
      obtain ⟨b, e1, e2, e3⟩ := copyCtor_spec h3 (ha c h1)
      simp only [Owned.copyCtor, e1, bind_ok]
      refine Ends.of_ok rfl ⟨forall₂_append h (.cons ⟨e2, ?_⟩ .nil), trivial⟩
      rw [e3]; exact h4
  | moveCtor i =>
    simp only [manyStep, specMany]
    rcases forall₂_get h i with ⟨h1, h2⟩ | ⟨c, m, h1, h2, h3, h4⟩
    · rw [h1, h2]; exact Ends.of_ok rfl ⟨h, trivial⟩
    · rw [h1, h2]
      simp only [Owned.moveCtor, moveCtor_spec .std rfl c.t, bind_ok]
      refine Ends.of_ok rfl ⟨forall₂_append (forall₂_set ⟨Inv.init isa _, List.Perm.refl _⟩ h i) (.cons ⟨h3, h4⟩ .nil), trivial⟩
  | copyAssign al i j =>
    simp only [manyStep, specMany]
    rcases forall₂_pick2 h i j with ⟨h1, h2⟩ | ⟨c, d, m, n, h1, h2, h3, h4⟩
    · rw [h1, h2]; exact Ends.of_ok rfl ⟨h, trivial⟩
    · rw [h1, h2]
      obtain ⟨a1, a2⟩ := ha c d h1
      obtain ⟨b, e1, e2, e3⟩ := copyAssign_spec h3.1 h4.1 a1 a2
      simp only [Owned.copyAssign, e1, bind_ok]
      refine Ends.of_ok rfl ⟨forall₂_set ⟨e2, ?_⟩ h i, trivial⟩
      rw [e3]; exact h4.2
  | moveAssign al i j =>
    simp only [manyStep, specMany]
    rcases forall₂_pick2 h i j with ⟨h1, h2⟩ | ⟨c, d, m, n, h1, h2, h3, h4⟩
    · rw [h1, h2]; exact Ends.of_ok rfl ⟨h, trivial⟩
    · rw [h1, h2]
      obtain ⟨t, u, e1, e2, e3, e4, _, _, _, _, e5⟩ := moveAssign_spec al ha h3.1 h4.1
      simp only [Owned.moveAssign, e1, bind_ok]
      refine Ends.of_ok rfl ⟨?_, trivial⟩
      refine forall₂_set ⟨e5 _, by rw [e4]⟩ (forall₂_set ⟨e3, ?_⟩ h i) j
      rw [e2]; exact h4.2
  | swap i j =>
    simp only [manyStep, specMany]
    rcases forall₂_pick2 h i j with ⟨h1, h2⟩ | ⟨c, d, m, n, h1, h2, h3, h4⟩
    · rw [h1, h2]; exact Ends.of_ok rfl ⟨h, trivial⟩
    · rw [h1, h2]
      refine Ends.of_ok rfl ⟨?_, trivial⟩
      simp only [Owned.swap, swapBuffers_eq]
      exact forall₂_set h3 (forall₂_set h4 h i) j
  | merge i j =>
    simp only [manyStep, specMany]
    rcases forall₂_pick2 h i j with ⟨h1, h2⟩ | ⟨c, d, m, n, h1, h2, h3, h4⟩
    · rw [h1, h2]; exact Ends.of_ok rfl ⟨h, trivial⟩
    · rw [h1, h2]
      simp only [Owned.merge]
      rcases merge_spec h3.1 h4.1 with ⟨⟨t, u⟩, e1, e2, e3, e4, e5⟩ | ⟨e1, e2⟩
      · obtain ⟨g1, g2⟩ := merge_parts h3.2 h4.2 e4 e5
        simp only [e1, bind_ok]
        refine Ends.of_ok rfl ⟨?_, trivial⟩
        exact forall₂_set ⟨e3, g2⟩ (forall₂_set ⟨e2, g1⟩ h i) j
      · exact Or.inr ⟨e1, by rw [e2]; rfl⟩
  | mergeMove al i j =>
    simp only [manyStep, specMany]
    rcases forall₂_pick2 h i j with ⟨h1, h2⟩ | ⟨c, d, m, n, h1, h2, h3, h4⟩
    · rw [h1, h2]; exact Ends.of_ok rfl ⟨h, trivial⟩
    · rw [h1, h2]
      simp only [Owned.mergeMove, Table.mergeMove]
      by_cases hz : c.t.size = 0
      · have hm : m = [] := by
          have := h3.2
          rw [Table.contents, h3.1.empty_of_size hz] at this
          exact List.nil_perm.mp this
        subst hm
        obtain ⟨t, u, e1, e2, e3, e4, _, _, _, _, e5⟩ := moveAssign_spec al ha h3.1 h4.1
        simp only [if_pos hz, e1, bind_ok]
        refine Ends.of_ok rfl ⟨?_, trivial⟩
        refine forall₂_set ⟨e5 _, by rw [e4]; simp⟩ (forall₂_set ⟨e3, ?_⟩ h i) j
        rw [e2]; simpa using h4.2
      · simp only [if_neg hz]
        rcases merge_spec h3.1 h4.1 with ⟨⟨t, u⟩, e1, e2, e3, e4, e5⟩ | ⟨e1, e2⟩
        · obtain ⟨g1, g2⟩ := merge_parts h3.2 h4.2 e4 e5
          simp only [e1, bind_ok]
          refine Ends.of_ok rfl ⟨?_, trivial⟩
          exact forall₂_set ⟨e3, g2⟩ (forall₂_set ⟨e2, g1⟩ h i) j
        · exact Or.inr ⟨e1, by rw [e2]; rfl⟩

theorem manyRun_spec {mv : (K → Nat) → K → Nat} {isa : Isa} (ops : List (MOp K V)) : ∀ {cs : List (Owned K V)}
    {ms : List (List (K × V))}, List.Forall₂ (Owned.Is isa) cs ms → MAllowed mv isa cs ops →
    Ends isa (manyRun mv isa cs ops) (fun r => List.Forall₂ (Owned.Is isa) r.1 (specManyRun ms ops).1 ∧
      List.Forall₂ AgreeO r.2 (specManyRun ms ops).2) := by
  induction ops with
  | nil => intro cs ms h _; exact Ends.of_ok rfl ⟨h, .nil⟩
  | cons op ops ih =>
    intro cs ms h ha
    unfold manyRun
    rcases manyStep_spec (mv := mv) h op ha.1 with ⟨⟨cs', o⟩, e1, e2, e3⟩ | ⟨e1, e2⟩
    · rw [e1]
      simp only [bind_ok]
      refine (ih e2 (ha.2 _ e1)).bind ?_
      rintro ⟨cs'', os⟩ ⟨g1, g2⟩
      exact Ends.of_ok rfl ⟨g1, .cons e3 g2⟩
    · exact Or.inr ⟨e1, by rw [e2]; rfl⟩

/-! ## A hash function that does not belong to the elements -/

/-- One window: no element of the key has a matching tag. -/
theorem stale_step {isa : Isa} (hisa : isa ≠ .portable) {hash : K → Nat} {t : Table K V} (h : Inv isa hash t)
    (hm : MetaOk isa t.cap t.len t.ctl) {k : K} {g : Nat} (hg : hashLo g ≠ hashLo (hash k)) (s fuel : Nat) :
    t.findLoop isa k (hashLo g) (fuel + 1) (wpos isa t.cap (hashHi g) s) (s * isa.W) =
      if t.matches_ isa (wpos isa t.cap (hashHi g) s) (·.isEmpty) ≠ [] then .ok t.cap
      else if s * isa.W < t.cap then
        t.findLoop isa k (hashLo g) fuel ((wpos isa t.cap (hashHi g) s + (s * isa.W + isa.W)) &&& t.cap) (s * isa.W + isa.W)
      else .error .assertFail := by
  have hle := wpos_le isa t.cap (hashHi g) s
  have hb : wpos isa t.cap (hashHi g) s + isa.W ≤ t.len := by rw [hm.len_eq]; omega
  have hmatch : ∀ i, i ∈ t.matchEq isa (wpos isa t.cap (hashHi g) s) (hashLo g) →
      ((wpos isa t.cap (hashHi g) s + i) &&& t.cap) < t.cap ∧
      ∃ n, t.node ((wpos isa t.cap (hashHi g) s + i) &&& t.cap) = some n := by
    intro i hi
    obtain ⟨hi1, g', he⟩ := matchEq_full hi
    have hr := hm.real hle hi1 (by rw [he]; simp) (Or.inl (by rw [he]; simp))
    rw [land_cap hm]
    refine ⟨hr.1, ?_⟩
    have := h.live _ hr.1
    rw [hr.2.1, he] at this
    exact Option.isSome_iff_exists.mp this
  rw [Table.findLoop]
  simp only [Table.loadBlock, hb, if_true, bind_ok]
  rcases scan_spec (k := k) hmatch with ⟨i, hi, hsc, n, hn, hk⟩ | ⟨hsc, _⟩
  · exfalso
    have hlt := (hmatch i hi).1
    have htag := h.tag _ hlt n hn
    have hh := h.hash_ok _ hlt n hn
    obtain ⟨hi1, g', he⟩ := matchEq_full hi
    have hr := hm.real hle hi1 (by rw [he]; simp) (Or.inl (by rw [he]; simp))
    have hx : t.ctl (wpos isa t.cap (hashHi g) s + i) = .full (hashLo g) := by
      cases isa with
      | portable => exact absurd rfl hisa
      | sse2 | neon => simpa [Table.matchEq, Table.matches_] using (List.mem_filter.mp hi).2
    rw [land_cap hm] at htag
    rw [hr.2.1, hx] at htag
    refine hg ?_
    rw [hh, hk] at htag
    exact (Ctl.full.inj htag)
  · rw [hsc]
    rfl

/-- With exact comparison of tags (SSE2, NEON), a search with a tag other than the stored one does not find the element. -/
theorem stale_loop {isa : Isa} (hisa : isa ≠ .portable) {hash : K → Nat} {t : Table K V} (h : Inv isa hash t) (hc : 0 < t.cap)
    {k : K} {g : Nat} (hg : hashLo g ≠ hashLo (hash k)) {s0 : Nat} (hs0 : s0 * isa.W ≤ t.cap)
    (hem : ¬ NoneIn isa t.ctl (·.isEmpty) (wpos isa t.cap (hashHi g) s0)) :
    ∀ (d s : Nat), s + d = s0 → ∀ fuel, d < fuel →
      t.findLoop isa k (hashLo g) fuel (wpos isa t.cap (hashHi g) s) (s * isa.W) = .ok t.cap := by
  have hm := h.meta_ok hc
  intro d
  induction d with
  | zero =>
    intro s hs fuel hf
    obtain ⟨f, rfl⟩ : ∃ f, fuel = f + 1 := ⟨fuel - 1, by omega⟩
    have : s = s0 := by omega
    subst this
    rw [stale_step hisa h hm hg]
    have hne : t.matches_ isa (wpos isa t.cap (hashHi g) s) (·.isEmpty) ≠ [] := by
      intro e; exact hem (matches_nil.mp e)
    rw [if_pos hne]
  | succ d ih =>
    intro s hs fuel hf
    obtain ⟨f, rfl⟩ : ∃ f, fuel = f + 1 := ⟨fuel - 1, by omega⟩
    rw [stale_step hisa h hm hg]
    have hidx : s * isa.W < t.cap := by
      have h1 : (s + 1) * isa.W ≤ s0 * isa.W := Nat.mul_le_mul_right _ (by omega)
      rw [Nat.add_mul] at h1
      have := isa.W_pos
      omega
    split
    · rfl
    · rw [wpos_succ hm.pow, ← Nat.succ_mul]
      exact ih (s + 1) (by omega) f (by omega)

/-- A search with a tag other than the stored one. -/
theorem stale_hash {isa : Isa} (hisa : isa ≠ .portable) {hash hash' : K → Nat} {t : Table K V} (h : Inv isa hash t) {k : K}
    (hg : hashLo (hash' k) ≠ hashLo (hash k)) : t.lookup isa hash' k = .ok none := by
  have e : t.findNode isa k (hash' k) = .ok t.cap := by
    unfold Table.findNode
    by_cases hz : t.size = 0
    · simp only [hz, ne_eq, not_true_eq_false, if_false]
    · simp only [hz, ne_eq, not_false_eq_true, if_true]
      have hc : 0 < t.cap := by
        rcases Nat.eq_zero_or_pos t.cap with h0 | h0
        · have := h.size_eq; rw [h0, cnt] at this; omega
        · exact h0
      obtain ⟨s0, hs0, hem⟩ := h.hasStep hc (P := (·.isEmpty)) rfl (hashHi (hash' k))
      have := stale_loop hisa h hc hg hs0 hem s0 0 (by omega) (t.cap + 1) (step_lt_fuel hs0)
      rw [land_cap (h.meta_ok hc)]
      simpa [wpos, probePos] using this
  unfold Table.lookup
  rw [e]
  simp

end Tpp.Swiss
