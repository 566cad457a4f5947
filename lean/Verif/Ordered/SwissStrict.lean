import Verif.Ordered.Swiss

/-!
# Ordered sparse containers: the strict variant

Where the strict variant of an operation does not stop with `rawSwap` it does what the code does.
-/

set_option linter.unusedSectionVars false

namespace Tpp.OSwiss

open Tpp.Swiss (Node Ev Table AllocP)
open Tpp.Ordered

variable {K V : Type} [DecidableEq K]

/-- The run `x` stopped at an exchange of two linked nodes, or it is the run `y`. -/
def Le {α : Type} (x y : M α) : Prop := x = .error .rawSwap ∨ x = y

namespace Le

theorem refl {α : Type} (x : M α) : Le x x := Or.inr rfl

theorem of_eq {α : Type} {x y : M α} (h : x = y) : Le x y := Or.inr h

theorem bind {α β : Type} {x y : M α} {f g : α → M β} (h : Le x y) (hf : ∀ a, Le (f a) (g a)) : Le (x >>= f) (y >>= g) := by
  rcases h with h | h
  · left; rw [h]; rfl
  · subst h
    cases x with
    | error e => exact Or.inr rfl
    | ok a => exact hf a

theorem ite {α : Type} {p : Prop} [Decidable p] {x y x' y' : M α} (h : Le x y) (h' : Le x' y') :
    Le (if p then x else x') (if p then y else y') := by
  split
  · exact h
  · exact h'

theorem foldlM {α β : Type} {f g : β → α → M β} (h : ∀ b a, Le (f b a) (g b a)) : ∀ (l : List α) (b : β), Le (l.foldlM f b) (l.foldlM g b)
  | [], _ => refl _
  | a :: l, b => by
    rw [List.foldlM_cons, List.foldlM_cons]
    exact (h b a).bind (foldlM h l)

theorem ok {α : Type} {x y : M α} {a : α} (h : Le x y) (e : x = .ok a) : y = .ok a := by
  rcases h with h | h
  · rw [h] at e; cases e
  · rw [← h]; exact e

end Le

/-- The same with the strict variant. -/
def Cfg.stop (c : Cfg K) : Cfg K := { c with strict := true }

variable (c : Cfg K)

theorem replayEv_le (sz : Int) (old new : Int) (m : Mem) (e : Ev) : Le (replayEv sz true old new m e) (replayEv sz c.strict old new m e) := by
  cases e with
  | swp i j => exact Or.inl rfl
  | _ => exact Le.refl _

namespace OTable

theorem replay_le (m : Mem) (t : OTable K V) (es : List Ev) : Le (t.replay c.stop m es) (t.replay c m es) := by
  unfold replay
  split
  · exact (Le.foldlM (replayEv_le c _ _ _) _ _).bind fun _ => Le.refl _
  · exact (Le.foldlM (replayEv_le c _ _ _) _ _).bind fun _ => Le.refl _

theorem insertWith_le (m : Mem) (t : OTable K V) (op : Table K V → M (Table K V × Nat × Bool)) (hint : Option Int) :
    Le (t.insertWith c.stop m op hint) (t.insertWith c m op hint) :=
  (Le.refl _).bind fun _ => (replay_le c _ _ _).bind fun _ => Le.refl _

theorem insert_le (m : Mem) (t : OTable K V) (k : K) (v : V) (hint : Option Int) : Le (t.insert c.stop m k v hint) (t.insert c m k v hint) :=
  insertWith_le c _ _ _ _

theorem assign_le (m : Mem) (t : OTable K V) (k : K) (v : V) (hint : Option Int) : Le (t.assign c.stop m k v hint) (t.assign c m k v hint) :=
  insertWith_le c _ _ _ _

theorem reserve_le (m : Mem) (t : OTable K V) (n : Nat) : Le (t.reserve c.stop m n) (t.reserve c m n) :=
  (Le.refl _).bind fun _ => (replay_le c _ _ _).bind fun _ => Le.refl _

theorem rehash_le (m : Mem) (t : OTable K V) (n : Nat) : Le (t.rehash c.stop m n) (t.rehash c m n) :=
  (Le.refl _).bind fun _ => (replay_le c _ _ _).bind fun _ => Le.refl _

theorem insertRange_le (m : Mem) (t : OTable K V) (ra : Bool) (xs : List (K × V)) :
    Le (t.insertRange c.stop m ra xs) (t.insertRange c m ra xs) := by
  unfold insertRange
  refine Le.bind ?_ fun s => Le.foldlM (fun b a => (insert_le c _ _ _ _ _).bind fun _ => Le.refl _) _ _
  exact Le.ite (reserve_le c _ _ _) (Le.refl _)

theorem eraseRange_stop (first : Int) : ∀ (fuel : Nat) (m : Mem) (t : OTable K V) (last result : Int),
    eraseRange c.stop first fuel m t last result = eraseRange c first fuel m t last result
  | 0, _, _, _, _ => rfl
  | fuel + 1, m, t, last, result => by
    simp only [eraseRange, eraseRange_stop first fuel]
    rfl

theorem eraseIf_stop (p : K × V → Bool) : ∀ (fuel : Nat) (m : Mem) (t : OTable K V) (a : Int) (n : Nat),
    eraseIf c.stop p fuel m t a n = eraseIf c p fuel m t a n
  | 0, _, _, _, _ => rfl
  | fuel + 1, m, t, a, n => by
    simp only [eraseIf, eraseIf_stop p fuel]
    rfl

theorem step_le (m : Mem) (t : OTable K V) (op : Op K V) : Le (t.step c.stop m op) (t.step c m op) := by
  cases op with
  | insert k v => exact (insert_le c _ _ _ _ _).bind fun _ => Le.refl _
  | assign k v => exact (assign_le c _ _ _ _ _).bind fun _ => Le.refl _
  | index k d => exact (insert_le c _ _ _ _ _).bind fun _ => Le.refl _
  | insertRange ra xs => exact (insertRange_le c _ _ _ _).bind fun _ => Le.refl _
  | assignRange ra xs => exact (Le.refl _).bind fun _ => (insertRange_le c _ _ _ _).bind fun _ => Le.refl _
  | reserve n => exact (reserve_le c _ _ _).bind fun _ => Le.refl _
  | rehash n => exact (rehash_le c _ _ _).bind fun _ => Le.refl _
  | eraseRange i j =>
    simp only [step, eraseRange_stop]
    exact Le.refl _
  | eraseIf p =>
    simp only [step, eraseIf_stop]
    exact Le.refl _
  | _ => exact Le.refl _

theorem transfer_le (m : Mem) (dst src : OTable K V) (a : Int) : Le (transfer c.stop m dst src a) (transfer c m dst src a) := by
  refine (Le.refl _).bind fun e => (Le.refl _).bind fun p => Le.ite ?_ (Le.refl _)
  refine (Le.refl _).bind fun x => ?_
  rcases x with ⟨m', t', y⟩
  cases y with
  | none => exact Le.refl _
  | some y => exact (insertWith_le c _ _ _ _).bind fun _ => Le.refl _

theorem mergeLoop_le (last : Int) : ∀ (fuel : Nat) (m : Mem) (dst src : OTable K V) (pos : Int),
    Le (mergeLoop c.stop last fuel m dst src pos) (mergeLoop c last fuel m dst src pos)
  | 0, _, _, _, _ => Le.refl _
  | fuel + 1, _, _, _, _ =>
    (Le.refl _).bind fun _ => Le.ite (Le.refl _) ((transfer_le c _ _ _ _).bind fun _ => mergeLoop_le last fuel _ _ _ _)

theorem merge_le (m : Mem) (dst src : OTable K V) : Le (merge c.stop m dst src) (merge c m dst src) :=
  (reserve_le c _ _ _).bind fun _ => (Le.refl _).bind fun _ => mergeLoop_le c _ _ _ _ _ _

theorem transferSelf_le (m : Mem) (t : OTable K V) (a : Int) : Le (transferSelf c.stop m t a) (transferSelf c m t a) := by
  refine (Le.refl _).bind fun e => (Le.refl _).bind fun p => Le.ite ?_ (Le.refl _)
  refine (Le.refl _).bind fun x => ?_
  rcases x with ⟨m', t', y⟩
  cases y with
  | none => exact Le.refl _
  | some y => exact (insertWith_le c _ _ _ _).bind fun _ => Le.refl _

theorem mergeSelfLoop_le (last : Int) : ∀ (fuel : Nat) (m : Mem) (t : OTable K V) (pos : Int),
    Le (mergeSelfLoop c.stop last fuel m t pos) (mergeSelfLoop c last fuel m t pos)
  | 0, _, _, _ => Le.refl _
  | fuel + 1, _, _, _ =>
    (Le.refl _).bind fun _ => Le.ite (Le.refl _) ((transferSelf_le c _ _ _).bind fun _ => mergeSelfLoop_le last fuel _ _ _)

theorem mergeSelf_le (m : Mem) (t : OTable K V) : Le (mergeSelf c.stop m t) (mergeSelf c m t) :=
  (reserve_le c _ _ _).bind fun _ => (Le.refl _).bind fun _ => mergeSelfLoop_le c _ _ _ _ _

end OTable
end Tpp.OSwiss
