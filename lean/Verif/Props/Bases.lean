import Verif.Bases
import Verif.Props.Types

/-!
# C121: the template arguments that a container accepts

Full statement: a container compiles with every hash function, comparison and allocator that a standard container with the same elements accepts: any
two function classes, also one that does both, and allocators whose `value_type` is that of the container.  The containers that class template argument
deduction and the default arguments name compile.  A default constructed pointer to map elements exists, and a pointer converts to one to constant
elements.
-/

namespace Tpp.Types

/-- C121, exactly: which arguments a container accepts.  The hash function and the comparison must be different classes, and the allocator must be
one of what the nodes hold: the elements of stable containers, and what is inserted into the others. -/
theorem C121_iff (x : Inst) (combine : Bool) :
    x.compiles combine = true ↔ x.hash ≠ x.cmp ∧ x.alloc.value = .user (match x.kind with | .stable => x.value | _ => x.insert) := by
  obtain ⟨kind, ord, i, v, kh, kc, ⟨f, e⟩⟩ := x
  cases kind <;> cases combine <;>
    simp [Inst.compiles, Inst.tableBases, Inst.bufferBases, Inst.constructs, Inst.destroys, Inst.passed, Inst.valueAlloc, Inst.payload,
      AllocTy.rebind] <;>
    exact fun _ h => h.symm

/-- C121, which functions an allocator of something else excludes: those that destroy elements, for all containers, and those that insert them for the
dense ones only.  Insertion into sparse and stable containers compiles with every allocator. -/
theorem C121_functions_iff (x : Inst) :
    (x.constructs = true ↔ x.kind = .dense → x.alloc.value = .user x.insert) ∧
      (x.destroys = true ↔ x.alloc.value = .user (match x.kind with | .stable => x.value | _ => x.insert)) := by
  obtain ⟨kind, ord, i, v, kh, kc, ⟨f, e⟩⟩ := x
  cases kind <;>
    simp [Inst.constructs, Inst.destroys, Inst.passed, Inst.valueAlloc, Inst.payload, AllocTy.rebind] <;>
    first | exact eq_comm | exact fun h => h.symm

/-- A sparse map with the allocator of a standard map. -/
def stdAllocMap : Inst :=
  (⟨.named 0, .named 0, .named 1, .named 2, .alloc (.pair (.const (.named 0)) (.named 0))⟩ : MapTy).inst .sparse false
    ⟨0, .user (.pair (.const (.named 0)) (.named 0))⟩

/-- Elements can be inserted into it but not destroyed. -/
example : stdAllocMap.constructs = true ∧ stdAllocMap.destroys = false := by decide

/-- C121 is false for every container with one class for hashing and comparing: the class would be a base class twice. -/
theorem C121_one_class_false (x : Inst) (combine : Bool) (h : x.hash = x.cmp) :
    x.compiles combine = false ∧ ¬ x.tableBases.Nodup := by
  constructor
  · by_contra hn
    exact ((C121_iff x combine).mp (by simpa using hn)).1 h
  · obtain ⟨kind, ord, i, v, kh, kc, a⟩ := x
    dsimp only at h
    subst h
    cases kind <;> simp [Inst.tableBases]

/-- What a standard container requires: the allocator is one of the container's `value_type`. -/
def Inst.standard (x : Inst) : Prop := x.alloc.value = .user x.value

theorem pair_const_iff (k m : Ty) : Ty.pair (constOf k) m = .pair k m ↔ unconst k ≠ k := by
  cases k with
  | const t =>
    simp only [constOf, unconst, true_iff]
    intro h
    have := congrArg sizeOf h
    simp at this
  | _ => simp [constOf, unconst]

/-- C121, exactly, for maps with different hash functions and comparisons and an allocator as the standard demands: stable maps compile, and the others
do not, unless the key type is itself constant. -/
theorem C121_standard_map_iff (kind : Kind) (ord combine : Bool) (t : MapTy) (a : AllocTy) (hne : t.hash ≠ t.cmp)
    (hs : (t.inst kind ord a).standard) :
    (t.inst kind ord a).compiles combine = true ↔ kind = .stable ∨ unconst t.key ≠ t.key := by
  rw [C121_iff]
  have hs' : a.value = .user (.pair (constOf t.key) t.mapped) := hs
  have hp := pair_const_iff t.key t.mapped
  cases kind
  · simp only [MapTy.inst, hs', ne_eq, hne, not_false_eq_true, true_and, Elem.user.injEq, hp, reduceCtorEq, false_or]
  · simp only [MapTy.inst, hs', ne_eq, hne, not_false_eq_true, true_and, true_or]
  · simp only [MapTy.inst, hs', ne_eq, hne, not_false_eq_true, true_and, Elem.user.injEq, hp, reduceCtorEq, false_or]

/-- C121 is false for sparse and dense maps with the allocator that `std::unordered_map` has by default, whatever the key and mapped types. -/
theorem C121_standard_allocator_false (kind : Kind) (hk : kind ≠ .stable) (ord combine : Bool) (k m h c : Ty) (hc : unconst k = k) :
    ∃ a, allocOf (.alloc (.pair (.const k) m)) = some a ∧ ((⟨k, m, h, c, .alloc (.pair (.const k) m)⟩ : MapTy).inst kind ord a).standard ∧
      ((⟨k, m, h, c, .alloc (.pair (.const k) m)⟩ : MapTy).inst kind ord a).compiles combine = false := by
  have hcst : constOf k = .const k := by
    cases k with
    | const t =>
      simp only [unconst] at hc
      have := congrArg sizeOf hc
      simp at this
    | _ => rfl
  refine ⟨_, rfl, by simp [Inst.standard, MapTy.inst, hcst], ?_⟩
  by_contra hn
  have h1 := ((C121_iff _ _).mp (by simpa using hn)).2
  have h2 := pair_const_iff k m
  rw [hcst] at h2
  cases kind with
  | stable => exact hk rfl
  | sparse | dense =>
    simp only [MapTy.inst, Elem.user.injEq] at h1
    exact (h2.mp h1) hc

/-- C121: sets, for which what is inserted is what is stored, compile with all arguments a standard set accepts whose hash function and comparison are
different classes. -/
theorem C121_standard_set (kind : Kind) (ord combine : Bool) (t : SetTy) (a : AllocTy) (hne : t.hash ≠ t.cmp)
    (hs : (t.inst kind ord a).standard) : (t.inst kind ord a).compiles combine = true := by
  rw [C121_iff]
  have hs' : a.value = .user t.key := hs
  cases kind <;> simp [SetTy.inst, hs', hne]

/-- C121: with the default arguments of the classes all containers compile, for all keys and mapped types that are not constant. -/
theorem C121_default (kind : Kind) (ord combine : Bool) (k m : Ty) (hk : unconst k = k) :
    (∃ t a, mapOf (decide (kind = .stable)) [k, m] = some t ∧ allocOf t.alloc = some a ∧ (t.inst kind ord a).compiles combine = true) ∧
      ∃ t a, setOf [k] = some t ∧ allocOf t.alloc = some a ∧ (t.inst kind ord a).compiles combine = true := by
  have hcst : constOf k = .const k := by
    cases k with
    | const t =>
      simp only [unconst] at hk
      have := congrArg sizeOf hk
      simp at this
    | _ => rfl
  constructor
  · refine ⟨_, _, rfl, rfl, ?_⟩
    rw [C121_iff]
    cases kind <;> simp [MapTy.inst, hcst]
  · refine ⟨_, _, rfl, rfl, ?_⟩
    rw [C121_iff]
    cases kind <;> simp [SetTy.inst]

/-- C121, exactly, for the maps deduced from two iterators without an allocator: a stable map compiles if and only if the key type is constant (as that
of the elements of a map), the others always. -/
theorem C121_deduced_range_iff (kind : Kind) (ord combine : Bool) (k m : Ty) (h c : Option Ty) (hne : h.getD (.hash k) ≠ c.getD (.eq k)) :
    ∃ t a, rangeMap (decide (kind = .stable)) (.pair k m) (.upTo h c none) = some t ∧ allocOf t.alloc = some a ∧
      ((t.inst kind ord a).compiles combine = true ↔ kind ≠ .stable ∨ unconst k ≠ k) := by
  refine ⟨_, _, rfl, rfl, ?_⟩
  rw [C121_iff]
  have hp := pair_const_iff k m
  cases kind
  · simp [MapTy.inst, hne]
  · simp only [MapTy.inst, ne_eq, hne, not_false_eq_true, true_and, Elem.user.injEq, not_true_eq_false, false_or]
    rw [eq_comm]
    exact hp
  · simp [MapTy.inst, hne]

/-- C121: the maps deduced from an initializer list without an allocator all compile if the key type is not constant. -/
theorem C121_deduced_list (kind : Kind) (ord combine : Bool) (k m : Ty) (h c : Option Ty) (hne : h.getD (.hash k) ≠ c.getD (.eq k))
    (hk : unconst k = k) :
    ∃ t a, listMap (decide (kind = .stable)) k m (.upTo h c none) = some t ∧ allocOf t.alloc = some a ∧
      (t.inst kind ord a).compiles combine = true := by
  have hcst : constOf k = .const k := by
    cases k with
    | const t =>
      simp only [unconst] at hk
      have := congrArg sizeOf hk
      simp at this
    | _ => rfl
  refine ⟨_, _, rfl, rfl, ?_⟩
  rw [C121_iff]
  cases kind <;> simp [MapTy.inst, hne, hcst]

/-- C121 is false for pointers to map elements: the default constructor always dereferences null pointers, and the conversion to pointers to constant
elements compiles for none of the types it is offered for; a pointer to an element that exists is fine. -/
theorem C121_pointer_false :
    (∀ α β : Type, (packedPtrDefault : Option (α × β)) = none) ∧
      (∀ (refConv : Ty → Ty → Bool) (toPtr : Ty → Bool) (k m u : Ty), ptrConvEnabled refConv m u = true → ptrConvCompiles toPtr k m u = false) ∧
      ∀ {α β : Type} (a : α) (b : β), packedPtr (some a) (some b) = some (a, b) := by
  refine ⟨fun _ _ => rfl, fun refConv toPtr k m u h => ?_, fun _ _ => rfl⟩
  simp only [ptrConvEnabled, Bool.and_eq_true, Bool.not_eq_true', decide_eq_false_iff_not] at h
  simp [ptrConvCompiles, h.1]

/-- `sparse_map<1, 2>` and `stable_map<1, 2>` compile, `sparse_map<1, 2, H, E, std::allocator<std::pair<const 1, 2>>>` and `stable_map` deduced from
iterators over pairs do not, nor does a `dense_set<1, H, H>`. -/
example :
    ((⟨.named 1, .named 2, .named 8, .named 9, .alloc (.pair (.named 1) (.named 2))⟩ : MapTy).inst .sparse false
      ⟨0, .user (.pair (.named 1) (.named 2))⟩).compiles false = true ∧
    ((⟨.named 1, .named 2, .named 8, .named 9, .alloc (.pair (.named 1) (.named 2))⟩ : MapTy).inst .stable false
      ⟨0, .user (.pair (.named 1) (.named 2))⟩).compiles false = false ∧
    ((⟨.named 1, .named 2, .named 8, .named 9, .alloc (.pair (.const (.named 1)) (.named 2))⟩ : MapTy).inst .sparse false
      ⟨0, .user (.pair (.const (.named 1)) (.named 2))⟩).compiles false = false ∧
    ((⟨.named 1, .named 8, .named 8, .alloc (.named 1)⟩ : SetTy).inst .dense true ⟨0, .user (.named 1)⟩).compiles true = false := by decide

example : ptrConvEnabled (fun u m => decide (m = .const u)) (.const (.named 2)) (.named 2) = true := by decide

end Tpp.Types
