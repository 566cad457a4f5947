import Mathlib.Data.List.FinRange
import Mathlib.Data.Fin.Basic

/-!
# Computations with types

Template arguments as data: `remove_index` (table_common.hpp 701-726), `is_pack_element` (multikey.hpp 24-31), `pair_traits`
(stable_traits.hpp 11-26), the default arguments of the containers and their deduction guides (ends of the container headers,
utility.hpp 249-258).  A computation that names a type that does not exist is `none`.

Simplified: which guide overload resolution takes is not modelled, only the type each of them names.
-/

namespace Tpp.Types

/-! ## Index sequences -/

/-- `remove_index<I, index_sequence<acc...>, index_sequence<us...>>` (table_common.hpp 701-717).  If the first index is `I`, the second
specialisation is chosen, which is more specialised than the third. -/
def removeLoop (i : Nat) (acc : List Nat) : List Nat → List Nat
  | [] => acc
  | u :: us => if u = i then removeLoop i acc us else removeLoop i (acc ++ [u]) us

/-- `remove_index_t<I, index_sequence<is...>>` (table_common.hpp 718-725). -/
def removeIndex (i : Nat) (is : List Nat) : List Nat := removeLoop i [] is

/-! ## Types -/

/-- Types: those without members `first` and `second`, `const T`, `std::pair<A, B>`, and the library's default arguments `std::hash<T>`,
`std::equal_to<T>` and `std::allocator<T>`. -/
inductive Ty
  | named (n : Nat)
  | const (t : Ty)
  | pair (a b : Ty)
  | hash (t : Ty)
  | eq (t : Ty)
  | alloc (t : Ty)
  deriving DecidableEq

/-- `is_pack_element<T, Us...>::value` (multikey.hpp 24-31): the primary template drops the first type, the specialisations for equal types and
for a single type stop.  Without any type the name does not exist. -/
def isPackElement (t : Ty) : List Ty → Option Bool
  | [] => none
  | [u] => some (decide (t = u))
  | u :: us => if t = u then some true else isPackElement t us

/-- The type of `pair_traits<Value>::get_key(value)` (stable_traits.hpp 11-26): `value.first` for types with members `first` and `second`. -/
def traitsKey : Ty → Ty
  | .pair a _ => a
  | t => t

/-- `value_type` of `stable_map` (stable_map.hpp 37; the other maps alike). -/
def mapValue (k m : Ty) : Ty := .pair (.const k) m

/-! ## Containers and their template arguments -/

/-- A map type. -/
structure MapTy where
  key : Ty
  mapped : Ty
  hash : Ty
  cmp : Ty
  alloc : Ty
  deriving DecidableEq

/-- A set type. -/
structure SetTy where
  key : Ty
  hash : Ty
  cmp : Ty
  alloc : Ty
  deriving DecidableEq

/-- `std::allocator` of the elements as the class templates write it: the stable maps with a constant key (stable_map.hpp 25, 669), the others
without (sparse_map.hpp 27, 625, dense_map.hpp 28, 681). -/
def mapAlloc (stable : Bool) (k m : Ty) : Ty := .alloc (if stable then .pair (.const k) m else .pair k m)

/-- `map<args...>` with the default arguments of the class template (stable_map.hpp 25, 669, sparse_map.hpp 27, 625, dense_map.hpp 28, 681). -/
def mapOf (stable : Bool) : List Ty → Option MapTy
  | [k, m] => some ⟨k, m, .hash k, .eq k, mapAlloc stable k m⟩
  | [k, m, h] => some ⟨k, m, h, .eq k, mapAlloc stable k m⟩
  | [k, m, h, c] => some ⟨k, m, h, c, mapAlloc stable k m⟩
  | [k, m, h, c, a] => some ⟨k, m, h, c, a⟩
  | _ => none

/-- `set<args...>` with the default arguments of the class template (sparse_set.hpp 21, 336, stable_set.hpp 22, 369, dense_set.hpp 21, 383). -/
def setOf : List Ty → Option SetTy
  | [k] => some ⟨k, .hash k, .eq k, .alloc k⟩
  | [k, h] => some ⟨k, h, .eq k, .alloc k⟩
  | [k, h, c] => some ⟨k, h, c, .alloc k⟩
  | [k, h, c, a] => some ⟨k, h, c, a⟩
  | _ => none

/-- The arguments behind a range or an initializer list, as the four guides of each kind distinguish them. -/
inductive Args
  /-- a prefix of bucket count, hash, comparison, allocator -/
  | upTo (h c a : Option Ty)
  /-- bucket count, hash, allocator -/
  | hashAlloc (h a : Ty)
  /-- bucket count, allocator -/
  | sizeAlloc (a : Ty)
  /-- allocator -/
  | alloc (a : Ty)

/-- There is a constructor with these arguments (sparse_map.hpp 101-129, 699-715, sparse_set.hpp 89-117, 405-433, stable_map.hpp 94-122, 739-755,
stable_set.hpp 83-111, 431-459, dense_map.hpp 117-145, 770-786, dense_set.hpp 106-134, 468-496). -/
def Args.constructible : Args → Bool
  | .alloc _ => false
  | _ => true

/-- `iter_key_t` for iterators with this `value_type` (utility.hpp 249-250). -/
def iterKey : Ty → Option Ty
  | .pair a _ => some a
  | _ => none

/-- `iter_mapped_t` (utility.hpp 251-252). -/
def iterMapped : Ty → Option Ty
  | .pair _ b => some b
  | _ => none

/-- The deduction guides of maps for two iterators (sparse_map.hpp 591-598, 1186-1193, stable_map.hpp 638-645, 1280-1287, dense_map.hpp 646-653,
1296-1303). -/
def rangeMap (stable : Bool) (v : Ty) (x : Args) : Option MapTy := do
  let k ← iterKey v
  let m ← iterMapped v
  match x with
  | .upTo h c a => mapOf stable [k, m, h.getD (.hash k), c.getD (.eq k), a.getD (.alloc (.pair k m))]
  | .hashAlloc h a => mapOf stable [k, m, h, .eq k, a]
  | .sizeAlloc a => mapOf stable [k, m, .hash k, .eq k, a]
  | .alloc a => mapOf stable [k, .hash k, .eq k, a]

/-- The deduction guides of maps for an initializer list of `std::pair<K, M>` (sparse_map.hpp 600-607, 1195-1202, stable_map.hpp 647-654, 1289-1296,
dense_map.hpp 655-662, 1305-1312).  Unlike those for iterators, they have the default allocators of the classes. -/
def listMap (stable : Bool) (k m : Ty) : Args → Option MapTy
  | .upTo h c a => mapOf stable [k, m, h.getD (.hash k), c.getD (.eq k), a.getD (mapAlloc stable k m)]
  | .hashAlloc h a => mapOf stable [k, m, h, .eq k, a]
  | .sizeAlloc a => mapOf stable [k, m, .hash k, .eq k, a]
  | .alloc a => mapOf stable [k, m, .hash k, .eq k, a]

/-- The deduction guides of sets with this key type. -/
def keySet (k : Ty) : Args → Option SetTy
  | .upTo h c a => setOf [k, h.getD (.hash k), c.getD (.eq k), a.getD (.alloc k)]
  | .hashAlloc h a => setOf [k, h, .eq k, a]
  | .sizeAlloc a => setOf [k, .hash k, .eq k, a]
  | .alloc a => setOf [k, .hash k, .eq k, a]

/-- The deduction guides of sets for two iterators (sparse_set.hpp 308-315, 627-634, stable_set.hpp 341-348, 692-699, dense_set.hpp 355-362,
716-723): the key type is `iter_key_t`. -/
def rangeSet (v : Ty) (x : Args) : Option SetTy := do
  let k ← iterKey v
  keySet k x

/-- The deduction guides of sets for an initializer list (sparse_set.hpp 317-324, 636-643, stable_set.hpp 350-357, 701-708, dense_set.hpp 364-371,
725-732). -/
def listSet (k : Ty) (x : Args) : Option SetTy := keySet k x

end Tpp.Types
