/-!
# Outcomes of the model

Every modelled function returns `M α = Except Fault α`.  A `Fault` is any outcome a correct program must
never produce: undefined behaviour (including a false `TPP_ASSERT`, which is an assumption of the optimizer
in release builds, `/repo/tpp/detail/define.hpp`), access to raw or destroyed storage, wrap-around of an element
counter, or a loop that does not end.
-/

namespace Tpp

/-- The distinct bad outcomes. -/
inductive Fault
  /-- control byte access outside the allocated array -/
  | oobMeta
  /-- node access outside the allocated array -/
  | oobNode
  /-- reading an element that is not alive -/
  | deadRead
  /-- constructing an element over a live one (the old one leaks) -/
  | liveOverwrite
  /-- destroying an element that is not alive -/
  | deadDestroy
  /-- freeing storage in which an element is still alive -/
  | leak
  /-- a `TPP_ASSERT` condition is false -/
  | assertFail
  /-- dereferencing a null pointer -/
  | nullDeref
  /-- dereferencing a pointer into freed storage -/
  | dangling
  /-- deallocating storage that is not allocated, or with another size than it was allocated with -/
  | badFree
  /-- `ctz` of zero -/
  | ctzZero
  /-- unsigned wrap-around of an element counter -/
  | underflow
  /-- a loop does not end -/
  | diverge
  /-- integer division by zero -/
  | divZero
  /-- not an outcome of the code: reported by the strict variant of the ordered swiss model where the code would exchange the links of
  two nodes (`Verif/Ordered/Swiss.lean`) -/
  | rawSwap
  deriving DecidableEq, Repr

/-- Result of a modelled function. -/
abbrev M (α : Type) := Except Fault α

instance instDecEqExcept {ε α : Type} [DecidableEq ε] [DecidableEq α] : DecidableEq (Except ε α)
  | .ok a, .ok b => if h : a = b then isTrue (by rw [h]) else isFalse (by simpa using h)
  | .error a, .error b => if h : a = b then isTrue (by rw [h]) else isFalse (by simpa using h)
  | .ok _, .error _ => isFalse (by simp)
  | .error _, .ok _ => isFalse (by simp)

/-- Pointwise update of a memory. -/
def upd {α : Type} (f : Nat → α) (i : Nat) (v : α) : Nat → α := fun j => if j = i then v else f j

@[simp] theorem upd_same {α : Type} (f : Nat → α) (i : Nat) (v : α) : upd f i v i = v := by simp [upd]

theorem upd_ne {α : Type} (f : Nat → α) {i j : Nat} (v : α) (h : j ≠ i) : upd f i v j = f j := by simp [upd, h]

theorem upd_apply {α : Type} (f : Nat → α) (i j : Nat) (v : α) : upd f i v j = if j = i then v else f j := rfl

@[simp] theorem bind_ok {α β : Type} (a : α) (f : α → M β) : (Except.ok a >>= f) = f a := rfl
@[simp] theorem bind_error {α β : Type} (e : Fault) (f : α → M β) : ((Except.error e : M α) >>= f) = .error e := rfl
@[simp] theorem pure_ok {α : Type} (a : α) : (pure a : M α) = .ok a := rfl

/-- `x` ends normally. -/
def Ok {α : Type} (x : M α) : Prop := ∃ a, x = .ok a

end Tpp
