import Verif.Transparent

/-!
# C125: function classes that are transparent in the manner of the standard

Full statement: a hash function and a comparison are transparent if both have a member type `is_transparent`, whichever type that is.  Then a lookup with
an argument of another type that the hash function accepts uses the argument as it is.  Otherwise the argument is converted to a key.  A lookup with a
key compiles in any case.
-/

namespace Tpp.Lookup

/-- The rule of the standard ([unord.req]): the member types exist. -/
def standardCall (kh kc : Marker) (a : Arg) : Call :=
  if a.isKey then .byKey
  else if kh ≠ .absent ∧ kc ≠ .absent ∧ a.hashable = true then .byOther
  else if a.converts then .byKey
  else .noMatch

/-- C125, exactly: lookups compile if and only if the marker of the hash function is missing or a class, and that of the comparison as well unless the
one of the hash function is missing or false. -/
theorem C125_compiles_iff (kh kc : Marker) (a : Arg) :
    resolve kh kc a ≠ .illFormed ↔
      kh = .absent ∨ kh = .constant false ∨ (kh = .constant true ∧ (kc = .absent ∨ ∃ b, kc = .constant b)) := by
  obtain ⟨k, c, h⟩ := a
  rcases kh with _ | _ | _ | (_ | _) <;> rcases kc with _ | _ | _ | (_ | _) <;> cases k <;> cases c <;> cases h <;>
    simp [resolve, transparent, Marker.transparent]

/-- C125, exactly: the calls are those of the standard for all arguments if and only if one of the function classes has no marker, and it is the hash
function or the other one's is a class, or both markers are classes like `std::true_type`. -/
theorem C125_standard_iff (kh kc : Marker) :
    (∀ a, resolve kh kc a = standardCall kh kc a) ↔
      kh = .absent ∨ (kc = .absent ∧ ∃ b, kh = .constant b) ∨ (kh = .constant true ∧ kc = .constant true) := by
  constructor
  · intro h
    have h1 := h ⟨true, true, true⟩
    have h2 := h ⟨false, true, true⟩
    rcases kh with _ | _ | _ | (_ | _) <;> rcases kc with _ | _ | _ | (_ | _) <;>
      simp [resolve, transparent, Marker.transparent, standardCall] at h1 h2 ⊢
  · intro h a
    obtain ⟨k, c, g⟩ := a
    rcases h with rfl | ⟨rfl, b, rfl⟩ | ⟨rfl, rfl⟩
    · rcases kc with _ | _ | _ | (_ | _) <;> cases k <;> cases c <;> cases g <;> rfl
    · cases b <;> cases k <;> cases c <;> cases g <;> rfl
    · cases k <;> cases c <;> cases g <;> rfl

/-- C125 is false for every hash function that is marked as the standard's examples and libraries mark theirs, with `void`, `int` or a declared class:
no lookup compiles, not even one with a key, whatever the comparison. -/
theorem C125_hash_marker_false (kh kc : Marker) (hm : kh = .scalar ∨ kh = .incomplete) (a : Arg) :
    resolve kh kc a = .illFormed ∧ standardCall kh kc a ≠ .illFormed := by
  obtain ⟨k, c, g⟩ := a
  rcases hm with rfl | rfl <;> rcases kc with _ | _ | _ | (_ | _) <;> cases k <;> cases c <;> cases g <;>
    exact ⟨rfl, by simp [standardCall]⟩

/-- C125 is false for `std::equal_to<>` as the comparison of every hash function whose marker is like `std::true_type`. -/
theorem C125_equal_to_false (kc : Marker) (hm : kc = .scalar ∨ kc = .incomplete) (a : Arg) :
    resolve (.constant true) kc a = .illFormed ∧ standardCall (.constant true) kc a ≠ .illFormed := by
  obtain ⟨k, c, g⟩ := a
  rcases hm with rfl | rfl <;> cases k <;> cases c <;> cases g <;> exact ⟨rfl, by simp [standardCall]⟩

/-- C125 where it holds: a missing marker of the hash function, so `std::hash` with `std::equal_to<>` in any library, or two markers like
`std::true_type`. -/
theorem C125_lookup_partial (kh kc : Marker) (h : kh = .absent ∨ (kh = .constant true ∧ (kc = .constant true ∨ kc = .absent))) (a : Arg) :
    resolve kh kc a = standardCall kh kc a := by
  refine (C125_standard_iff kh kc).mpr ?_ a
  rcases h with h | ⟨h1, h2 | h2⟩
  · exact Or.inl h
  · exact Or.inr (Or.inr ⟨h1, h2⟩)
  · exact Or.inr (Or.inl ⟨h2, true, h1⟩)

/-- A string literal looked up in a container of strings: hash function and comparison with `using is_transparent = void`, with `std::true_type`, and
`std::hash` with `std::equal_to<>`, which makes a string. -/
example : resolve .scalar .scalar ⟨false, true, true⟩ = .illFormed ∧ standardCall .scalar .scalar ⟨false, true, true⟩ = .byOther ∧
    resolve (.constant true) (.constant true) ⟨false, true, true⟩ = .byOther ∧ resolve .absent .incomplete ⟨false, true, true⟩ = .byKey := by
  decide

/-- A string looked up with the first pair. -/
example : resolve .scalar .scalar ⟨true, true, true⟩ = .illFormed ∧ standardCall .scalar .scalar ⟨true, true, true⟩ = .byKey := by decide

end Tpp.Lookup
