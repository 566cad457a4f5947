import Verif.Types
import Verif.Dense.Model

/-!
# C117: types computed by the library

Full statement: erasing by one key component visits each of the other components exactly once; the default hash function and comparison of
multi-key containers accept exactly the types of the components; stable maps and sets find the key of an element in the element; and a container
constructed from a range or an initializer list without template arguments is the one whose elements are those of the range, with the given hash
function, comparison and allocator and the defaults of the class for the others.
-/

namespace Tpp.Types

/-! ## Index sequences and packs -/

theorem removeLoop_eq (i : Nat) : ∀ (us acc : List Nat), removeLoop i acc us = acc ++ us.filter (· ≠ i)
  | [], acc => by simp [removeLoop]
  | u :: us, acc => by
    unfold removeLoop
    split
    · rename_i h
      rw [removeLoop_eq i us acc, List.filter_cons_of_neg (by simpa using h)]
    · rename_i h
      rw [removeLoop_eq i us _, List.filter_cons_of_pos (by simpa using h)]
      simp

/-- C117: `remove_index` removes every occurrence of the index and keeps the others in order. -/
theorem C117_remove_index (i : Nat) (is : List Nat) : removeIndex i is = is.filter (· ≠ i) := by
  unfold removeIndex
  rw [removeLoop_eq]
  simp

/-- C117: of the components of a key, the others remain, each exactly once, and it is these whose chains `erase(key)` searches
(dense_table.hpp 761, `Dense.Table.erase`). -/
theorem C117_other_components {k : Nat} (j : Fin k) :
    removeIndex j (List.range k) = ((List.finRange k).filter (· ≠ j)).map Fin.val ∧
      (removeIndex j (List.range k)).length = k - 1 ∧ (removeIndex j (List.range k)).Nodup ∧
      ∀ i : Nat, i ∈ removeIndex j (List.range k) ↔ i < k ∧ i ≠ j := by
  have hnd : (List.range k).Nodup := List.nodup_range
  rw [C117_remove_index]
  refine ⟨?_, ?_, hnd.filter _, ?_⟩
  · rw [← List.map_coe_finRange_eq_range, List.filter_map]
    congr 1
    refine List.filter_congr fun i _ => ?_
    simp [Fin.ext_iff]
  · have h1 := List.length_erase_of_mem (List.mem_range.mpr j.isLt)
    rw [hnd.erase_eq_filter, List.length_range] at h1
    rw [← h1]
    congr 1
    exact List.filter_congr fun i _ => by by_cases h : i = (j : Nat) <;> simp [h]
  · intro i
    simp [List.mem_filter]

example : removeIndex 1 (List.range 4) = [0, 2, 3] ∧ removeIndex 0 [0, 5, 0] = [5] ∧ removeIndex 7 [1, 2] = [1, 2] := by decide

/-- C117: the default hash function and comparison of a multi-key container accept exactly the types of its components (of which there is
at least one, multikey.hpp 13). -/
theorem C117_pack (t : Ty) : ∀ (ks : List Ty), ks ≠ [] → isPackElement t ks = some (decide (t ∈ ks))
  | [], h => absurd rfl h
  | [u], _ => by simp [isPackElement]
  | u :: w :: us, _ => by
    unfold isPackElement
    split
    · rename_i h
      simp [h]
    · rename_i h
      rw [C117_pack t (w :: us) (by simp)]
      simp [h]

example : isPackElement (.named 2) [.named 1, .named 2, .named 1] = some true ∧
    isPackElement (.const (.named 1)) [.named 1, .named 2] = some false := by decide

/-! ## Keys of stable containers -/

/-- C117: in a stable map the key is the first member of the element; in a stable set it is the element exactly if that is not a pair
(B69). -/
theorem C117_stable_key_iff (k m : Ty) : traitsKey (mapValue k m) = .const k ∧ (traitsKey k = k ↔ ∀ a b, k ≠ .pair a b) := by
  refine ⟨rfl, ?_⟩
  cases k with
  | pair a b =>
    simp only [traitsKey]
    constructor
    · intro h
      have := congrArg sizeOf h
      simp only [Ty.pair.sizeOf_spec] at this
      omega
    · intro h
      exact absurd rfl (h a b)
  | _ => exact ⟨fun _ a b h => (by cases h), fun _ => rfl⟩

/-- A set of pairs is keyed by the first members alone. -/
example : traitsKey (.pair (.named 1) (.named 2)) = .named 1 := rfl

/-! ## Deduction guides -/

/-- The type without `const`. -/
def unconst : Ty → Ty
  | .const t => t
  | t => t

/-- The hash function, comparison and allocator given. -/
def Args.given : Args → Option Ty × Option Ty × Option Ty
  | .upTo h c a => (h, c, a)
  | .hashAlloc h a => (some h, none, some a)
  | .sizeAlloc a => (none, none, some a)
  | .alloc a => (none, none, some a)

/-- The map of keys `k` and values `m` with the arguments given and the defaults of its class for the others. -/
def wantMap (stable : Bool) (k m : Ty) (x : Args) : MapTy where
  key := k
  mapped := m
  hash := x.given.1.getD (.hash k)
  cmp := x.given.2.1.getD (.eq k)
  alloc := x.given.2.2.getD (.alloc (if stable then .pair (.const k) m else .pair k m))

/-- The set of keys `k` with the arguments given and the defaults of its class for the others. -/
def wantSet (k : Ty) (x : Args) : SetTy where
  key := k
  hash := x.given.1.getD (.hash k)
  cmp := x.given.2.1.getD (.eq k)
  alloc := x.given.2.2.getD (.alloc k)

theorem pair_ne_const (k m : Ty) : Ty.alloc (.pair k m) ≠ .alloc (.pair (.const k) m) := by
  intro h
  have := congrArg sizeOf h
  simp at this

theorem unconst_ne {k : Ty} (h : unconst k ≠ k) : k ≠ unconst k := fun e => h e.symm

/-- C117, exactly: a map made of an initializer list of `std::pair<k, m>` is the one it should be, and can be constructed, if and only if the
allocator does not come alone and the keys are not constant. -/
theorem C117_list_map_iff (stable : Bool) (k m : Ty) (x : Args) :
    (x.constructible = true ∧ listMap stable k m x = some (wantMap stable (unconst k) m x)) ↔
      (∀ a, x ≠ .alloc a) ∧ unconst k = k := by
  by_cases hk : unconst k = k
  · rw [hk]
    cases x with
    | upTo h c a => cases a <;> simp [Args.constructible, listMap, mapOf, mapAlloc, wantMap, Args.given]
    | hashAlloc h a => simp [Args.constructible, listMap, mapOf, wantMap, Args.given]
    | sizeAlloc a => simp [Args.constructible, listMap, mapOf, wantMap, Args.given]
    | alloc a => simp [Args.constructible]
  · have hk' := unconst_ne hk
    constructor
    · rintro ⟨_, h⟩
      cases x <;> simp [listMap, mapOf, wantMap] at h <;> exact absurd h.1 hk'
    · rintro ⟨_, h⟩
      exact absurd h hk

/-- C117, exactly, for a map made of two iterators over elements of type `std::pair<k, m>`: the same condition, and for stable maps an allocator
must be given: their guides for iterators and their class have different default allocators. -/
theorem C117_range_map_iff (stable : Bool) (k m : Ty) (x : Args) :
    (x.constructible = true ∧ rangeMap stable (.pair k m) x = some (wantMap stable (unconst k) m x)) ↔
      (∀ a, x ≠ .alloc a) ∧ unconst k = k ∧ (stable = true → x.given.2.2.isSome = true) := by
  by_cases hk : unconst k = k
  · rw [hk]
    cases x with
    | upTo h c a =>
      cases a with
      | some a => simp [Args.constructible, rangeMap, iterKey, iterMapped, mapOf, wantMap, Args.given]
      | none =>
        cases stable
        · simp [Args.constructible, rangeMap, iterKey, iterMapped, mapOf, wantMap, Args.given]
        · simp [Args.constructible, rangeMap, iterKey, iterMapped, mapOf, wantMap, Args.given, pair_ne_const k m]
    | hashAlloc h a => simp [Args.constructible, rangeMap, iterKey, iterMapped, mapOf, wantMap, Args.given]
    | sizeAlloc a => simp [Args.constructible, rangeMap, iterKey, iterMapped, mapOf, wantMap, Args.given]
    | alloc a => simp [Args.constructible]
  · have hk' := unconst_ne hk
    constructor
    · rintro ⟨_, h⟩
      cases x <;> simp [rangeMap, iterKey, iterMapped, mapOf, wantMap] at h <;> exact absurd h.1 hk'
    · rintro ⟨_, h, _⟩
      exact absurd h hk

/-- C117 is false for every map made of two iterators and an allocator: the guide leaves out the mapped type, so that the hash function of the
keys is taken for it, their comparison for the hash function and the allocator for the comparison. -/
theorem C117_range_alloc_false (stable : Bool) (k m a : Ty) :
    ∃ t, rangeMap stable (.pair k m) (.alloc a) = some t ∧ t.mapped = .hash k ∧ t.hash = .eq k ∧ t.cmp = a ∧
      t ≠ wantMap stable (unconst k) m (.alloc a) := by
  refine ⟨_, rfl, rfl, rfl, rfl, ?_⟩
  intro h
  have h1 := congrArg MapTy.hash h
  simp [wantMap, Args.given] at h1

/-- C117 is false for every map made of the elements of a map: its keys are constant. -/
theorem C117_own_range_false (stable : Bool) (k m : Ty) (x : Args) : rangeMap stable (mapValue k m) x ≠ some (wantMap stable k m x) := by
  intro h
  have hk : Ty.const k ≠ k := by
    intro e
    have := congrArg sizeOf e
    simp at this
  cases x <;> simp [rangeMap, mapValue, iterKey, iterMapped, mapOf, wantMap] at h <;> exact absurd h.1 hk

/-- C117 is false for every set made of two iterators, whatever their elements: the key type is the first member of the elements, and if there is none
nothing can be deduced. -/
theorem C117_range_set_false (v : Ty) (x : Args) :
    (∀ t, rangeSet v x = some t → t.key ≠ v) ∧ (rangeSet v x = none ↔ ∀ a b, v ≠ .pair a b) := by
  cases v with
  | pair a b =>
    have hk : a ≠ .pair a b := by
      intro e
      have := congrArg sizeOf e
      simp at this
      omega
    constructor
    · intro t ht
      cases x <;> simp [rangeSet, iterKey, keySet, setOf] at ht <;> subst ht <;> exact hk
    · cases x <;> simp [rangeSet, iterKey, keySet, setOf]
  | _ => simp [rangeSet, iterKey]

/-- C117, exactly: a set made of an initializer list is the one it should be, and can be constructed, unless the allocator comes alone. -/
theorem C117_list_set_iff (k : Ty) (x : Args) :
    listSet k x = some (wantSet k x) ∧ (x.constructible = true ↔ ∀ a, x ≠ .alloc a) := by
  cases x <;> simp [listSet, keySet, setOf, wantSet, Args.given, Args.constructible]

/-- C117: what a program that names only the first arguments of a class gets, compared with what the guides deduce from the same arguments: the same
type, except that the guides for iterators give another one exactly if the map is stable. A `stable_map` deduced from two iterators without an
allocator can therefore not be assigned to a `stable_map<k, m>`. -/
theorem C117_named_iff (stable : Bool) (k m h c : Ty) :
    (mapOf stable [k, m] = rangeMap stable (.pair k m) (.upTo none none none) ↔ stable = false) ∧
    (mapOf stable [k, m, h] = rangeMap stable (.pair k m) (.upTo (some h) none none) ↔ stable = false) ∧
    (mapOf stable [k, m, h, c] = rangeMap stable (.pair k m) (.upTo (some h) (some c) none) ↔ stable = false) ∧
    mapOf stable [k, m] = listMap stable k m (.upTo none none none) ∧
    mapOf stable [k, m, h] = listMap stable k m (.upTo (some h) none none) ∧
    mapOf stable [k, m, h, c] = listMap stable k m (.upTo (some h) (some c) none) ∧
    mapOf stable [k, m] = some (wantMap stable k m (.upTo none none none)) ∧
    setOf [k] = listSet k (.upTo none none none) ∧ setOf [k, h] = listSet k (.upTo (some h) none none) ∧
    setOf [k, h, c] = listSet k (.upTo (some h) (some c) none) := by
  have hne := (pair_ne_const k m).symm
  cases stable
  · simp [mapOf, mapAlloc, rangeMap, iterKey, iterMapped, listMap, listSet, keySet, setOf, wantMap, Args.given]
  · simp [mapOf, mapAlloc, rangeMap, iterKey, iterMapped, listMap, listSet, keySet, setOf, wantMap, Args.given, hne]

/-- `sparse_map m(first, last)` and `stable_map m(first, last)` for pairs of `1` and `2`: the first is `sparse_map<1, 2>`, the second is not
`stable_map<1, 2>`. -/
example : rangeMap false (.pair (.named 1) (.named 2)) (.upTo none none none) = mapOf false [.named 1, .named 2] ∧
    rangeMap true (.pair (.named 1) (.named 2)) (.upTo none none none) ≠ mapOf true [.named 1, .named 2] ∧
    listMap true (.named 1) (.named 2) (.upTo none none none) = mapOf true [.named 1, .named 2] := by decide

/-- `sparse_set s(first, last)`: a set of the first members, or nothing. -/
example : rangeSet (.pair (.named 1) (.named 2)) (.upTo none none none) = setOf [.named 1] ∧
    rangeSet (.named 1) (.upTo none none none) = none ∧ listSet (.named 1) (.upTo none none none) = setOf [.named 1] := by decide

end Tpp.Types
