/-!
# Which overload a lookup calls

The trait `is_transparent` (table_common.hpp 189-193), the conjunction of both function classes (swiss_table.hpp 352, dense_table.hpp 22) and the two
overloads that every lookup function has (for example sparse_set.hpp 214-221, sparse_map.hpp 452-459, dense_map.hpp 508-517).

Used of the language: a class cannot be derived from a type that is not a complete class, and the base clause of a class template specialisation is
not part of the immediate context of an overload resolution that needs the specialisation, so the program is ill-formed; `std::conjunction` does not
instantiate the arguments after the first false one; of two equally good functions the one that is no template is called, and a template that takes
the argument as it is beats a conversion.

Simplified: a class named as marker has a static constant `value`; only one parameter is looked at.
-/

namespace Tpp.Lookup

/-- The member type `is_transparent` of a hash function or comparison. -/
inductive Marker
  /-- no such member -/
  | absent
  /-- `void`, `int` or another type that is no class, as `std::equal_to<>` has it in libc++ and in the library of MSVC -/
  | scalar
  /-- a class that is declared only, as `std::equal_to<>` has it in libstdc++ -/
  | incomplete
  /-- a class with a constant, like `std::true_type` -/
  | constant (value : Bool)
  deriving DecidableEq

/-- `is_transparent<T>::value` (table_common.hpp 190-193); no result: the program is ill-formed. -/
def Marker.transparent : Marker → Option Bool
  | .absent => some false
  | .scalar | .incomplete => none
  | .constant b => some b

/-- `std::conjunction<is_transparent<Kh>, is_transparent<Kc>>::value` (swiss_table.hpp 352, dense_table.hpp 22). -/
def transparent (kh kc : Marker) : Option Bool :=
  match kh.transparent with
  | none => none
  | some false => some false
  | some true => kc.transparent

/-- The argument of a lookup. -/
structure Arg where
  /-- it is of the key type -/
  isKey : Bool
  /-- it converts to the key type -/
  converts : Bool
  /-- `std::is_invocable_v<hasher, K>` -/
  hashable : Bool
  deriving DecidableEq

/-- What a call comes to. -/
inductive Call
  | illFormed
  /-- `find(const key_type &)` -/
  | byKey
  /-- `find(const K &)` -/
  | byOther
  /-- no function fits -/
  | noMatch
  deriving DecidableEq

/-- Overload resolution for `find`, `contains` and, with an argument that is no iterator, `erase`, which all have the overloads `const key_type &` and
`const K &` (sparse_set.hpp 214-221, 235-250, sparse_map.hpp 452-459, dense_map.hpp 508-517; the other containers likewise): the template's condition is
evaluated in every call, also in one with a key. -/
def resolve (kh kc : Marker) (a : Arg) : Call :=
  match transparent kh kc with
  | none => .illFormed
  | some t =>
    if a.isKey then .byKey
    else if t && a.hashable then .byOther
    else if a.converts then .byKey
    else .noMatch

end Tpp.Lookup
