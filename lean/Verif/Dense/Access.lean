import Mathlib.Data.Fintype.Basic
import Mathlib.Data.List.Perm.Basic
import Verif.Dense.Hist

/-!
# `at`, `operator[]`, `operator==` and the caller's arguments (dense_map.hpp, dense_multimap.hpp, …)
-/

set_option linter.unusedSectionVars false

namespace Tpp.Dense

/-- Result of `at`: the value of a reference or the exception `std::out_of_range`. -/
inductive AtResult (V : Type)
  | value (v : V)
  | outOfRange
  deriving DecidableEq

/-- How the caller passes a key: a constant, a variable, or a temporary (or `std::move` of a variable). -/
inductive Pass
  | const
  | var
  | temp
  deriving DecidableEq

namespace Table

variable {k : Nat} {K V : Type} [DecidableEq K]

/-- `at` (dense_map.hpp 532-541, 612-619; dense_multimap.hpp 378-388, 446-453): `find`, compare with `end()`, dereference. -/
def at_ (hash : K → Nat) (t : Table k K V) (j : Fin k) (x : K) : M (AtResult V) := do
  let (i, _) ← t.findNode hash j x
  if i.getD t.size = t.size then .ok .outOfRange
  else do
    let n ← t.readNode (i.getD t.size)
    .ok (.value n.val)

/-- `operator==` (dense_map.hpp 598-601, 1248-1251; dense_set.hpp 316-319; dense_multimap.hpp 432-435; dense_multiset.hpp 315-318):
`std::is_permutation` of the two sequences. -/
def eq [DecidableEq V] (a b : Table k K V) : M Bool := do
  let x ← a.iterate
  let y ← b.iterate
  .ok (decide (x.Perm y))

/-- `dense_map::try_emplace(const key_type &, ...)` and `try_emplace(key_type &&, ...)` (dense_map.hpp 404-414, 1054-1064): the second one
passes a reference to the key, which is moved into the element if that is inserted (dense_table.hpp 646-665).  The last result is
what the key variable of the caller holds afterwards; `mv` is what a move leaves behind. -/
def tryEmplaceVar (hash : K → Nat) (mv : K → K) (t : Table 1 K V) (p : Pass) (x : K) (v : V) : M (Table 1 K V × (Nat × Bool) × K) := do
  let (t, r) ← t.insert hash (fun _ => x) v
  .ok (t, r, if p = .temp ∧ r.2 = true then mv x else x)

/-- `dense_map::operator[]` (dense_map.hpp 546-555, 1196-1205): there are overloads for `const key_type &`, which temporaries also select, and
for `key_type &`, which passes the variable as if it were a temporary (`std::forward<key_type>`).  Returns the position of the
element. -/
def indexVar (hash : K → Nat) (mv : K → K) (dflt : V) (t : Table 1 K V) (p : Pass) (x : K) : M (Table 1 K V × Nat × K) := do
  let (t, r, x) ← t.tryEmplaceVar hash mv (match p with
    | .var => .temp
    | _ => .const) x dflt
  .ok (t, r.1, x)

/-- `m[x] = v` (the assignment writes to the element that `operator[]` returns). -/
def indexAssign (hash : K → Nat) (mv : K → K) (dflt : V) (t : Table 1 K V) (p : Pass) (x : K) (v : V) : M (Table 1 K V × K) := do
  let (t, i, x) ← t.indexVar hash mv dflt p x
  let n ← t.readNode i
  .ok ({ t with node := upd t.node i (some { n with val := v }) }, x)

/-- The value of `m[x]`. -/
def indexRead (hash : K → Nat) (mv : K → K) (dflt : V) (t : Table 1 K V) (p : Pass) (x : K) : M (Table 1 K V × V × K) := do
  let (t, i, x) ← t.indexVar hash mv dflt p x
  let n ← t.readNode i
  .ok (t, n.val, x)

/-- `dense_multimap::try_emplace(const key_type &, ...)` and `try_emplace(key_type &&, ...)` (dense_multimap.hpp 256-266): the table
takes the tuple of keys by value (dense_table.hpp 417-421), so a temporary is moved from before anything is looked up. -/
def multiTryEmplaceVar (hash : K → Nat) (mv : K → K) (t : Table k K V) (p : Pass) (key : Fin k → K) (v : V) :
    M (Table k K V × (Nat × Bool) × (Fin k → K)) := do
  let after := fun j => if p = .temp then mv (key j) else key j
  let (t, r) ← t.insert hash key v
  .ok (t, r, after)

end Table

variable {k : Nat} {K V : Type} [DecidableEq K]

theorem at_ok {hash : K → Nat} {t : Table k K V} {l : List (Elem k K V)} (h : Inv hash t l) (j : Fin k) (x : K) :
    t.at_ hash j x = .ok (match elemOf l j x with
      | some e => .value e.2
      | none => .outOfRange) := by
  unfold Table.at_
  obtain ⟨r, e⟩ := findNode_ok h j x
  rw [e, bind_ok, elemOf_eq]
  cases hi : idxOf l j x with
  | none => simp
  | some i =>
    obtain ⟨a, ha, _⟩ := idxOf_some hi
    have hlt := (List.getElem?_eq_some_iff.mp ha).1
    obtain ⟨n, hr, hn, hn'⟩ := h.toArr.read hlt
    have hsz := h.size
    simp only [Option.getD_some, Option.bind_some, ha]
    rw [if_neg (by omega), hr, bind_ok]
    have : l[i] = a := (List.getElem?_eq_some_iff.mp ha).2
    rw [← this, ← hn']

theorem insert_absent {hash : K → Nat} {t : Table k K V} {l : List (Elem k K V)} (h : Inv hash t l) {key : Fin k → K} (v : V)
    (ha : ∀ e ∈ l, ∀ j, e.1 j ≠ key j) :
    ∃ t', t.insert hash key v = .ok (t', l.length, true) ∧ Inv hash t' (l ++ [(key, v)]) := by
  obtain ⟨⟨t', r⟩, e, hr⟩ := insert_ok h key v
  have hc : conflict l key = none := by
    unfold conflict
    rw [List.findSome?_eq_none_iff]
    intro j _
    exact idxOf_none (fun e he => ha e he j)
  obtain ⟨h1, h2⟩ := hr.fresh hc
  simp only at h1
  exact ⟨t', by rw [e, h1], h2⟩

theorem insert_present {hash : K → Nat} {t : Table 1 K V} {l : List (Elem 1 K V)} (h : Inv hash t l) {x : K} (v : V) {i : Nat}
    {e : Elem 1 K V} (he : l[i]? = some e) (hx : e.1 0 = x) :
    ∃ t', t.insert hash (fun _ => x) v = .ok (t', i, false) ∧ Inv hash t' l := by
  obtain ⟨⟨t', r⟩, e1, hr⟩ := insert_ok h (fun _ => x) v
  have hc : conflict l (fun _ => x) = some i := by
    unfold conflict
    rw [show List.finRange 1 = [0] from rfl, List.findSome?_cons, ← hx, idxOf_of_uniq (h.uniq 0) he]
  obtain ⟨h1, h2⟩ := hr.dup i hc
  simp only at h1
  exact ⟨t', by rw [e1, h1], h2⟩

/-- Contents after `m[x] = v`. -/
def Spec.put (l : List (Elem 1 K V)) (x : K) (v : V) : List (Elem 1 K V) :=
  match l.findIdx? (fun e => e.1 0 = x) with
  | some i => l.set i ((fun _ => x), v)
  | none => l ++ [((fun _ => x), v)]

theorem key1 (f : Fin 1 → K) : f = fun _ => f 0 := by
  funext j
  rw [Subsingleton.elim j 0]

/-- Where `m[x]` points to, and the caller's variable afterwards. -/
theorem indexVar_ok {hash : K → Nat} {t : Table 1 K V} {l : List (Elem 1 K V)} (h : Inv hash t l) (mv : K → K) (dflt : V) (p : Pass)
    (x : K) :
    ∃ t' i l', t.indexVar hash mv dflt p x = .ok (t', i, if p = .var ∧ idxOf l 0 x = none then mv x else x) ∧ Inv hash t' l' ∧
      ((idxOf l 0 x = some i ∧ l' = l) ∨ (idxOf l 0 x = none ∧ i = l.length ∧ l' = l ++ [((fun _ => x), dflt)])) := by
  unfold Table.indexVar Table.tryEmplaceVar
  cases hi : idxOf l 0 x with
  | none =>
    obtain ⟨t', e1, i1⟩ := insert_absent h (key := fun _ => x) dflt (fun e he j => by
      rw [Subsingleton.elim j 0]
      exact idxOf_eq_none hi e he)
    refine ⟨t', l.length, _, ?_, i1, Or.inr ⟨rfl, rfl, rfl⟩⟩
    rw [e1, bind_ok, bind_ok]
    cases p <;> rfl
  | some i =>
    obtain ⟨e, he, hx⟩ := idxOf_some hi
    obtain ⟨t', e1, i1⟩ := insert_present h (x := x) dflt he hx
    refine ⟨t', i, _, ?_, i1, Or.inl ⟨rfl, rfl⟩⟩
    rw [e1, bind_ok, bind_ok]
    cases p <;> rfl

theorem indexAssign_ok {hash : K → Nat} {t : Table 1 K V} {l : List (Elem 1 K V)} (h : Inv hash t l) (mv : K → K) (dflt : V) (p : Pass)
    (x : K) (v : V) :
    ∃ t', t.indexAssign hash mv dflt p x v = .ok (t', if p = .var ∧ idxOf l 0 x = none then mv x else x) ∧
      Inv hash t' (Spec.put l x v) := by
  unfold Table.indexAssign
  obtain ⟨t1, i, l', e1, i1, hc⟩ := indexVar_ok h mv dflt p x
  have hlt : i < l'.length := by
    rcases hc with ⟨g, rfl⟩ | ⟨_, rfl, rfl⟩
    · obtain ⟨e, he, _⟩ := idxOf_some g
      exact (List.getElem?_eq_some_iff.mp he).1
    · simp
  obtain ⟨n, hr, hn, hn'⟩ := i1.toArr.read hlt
  rw [e1, bind_ok]
  simp only
  rw [hr, bind_ok]
  refine ⟨_, rfl, ?_⟩
  have hs := i1.setVal hn v
  have : l'.set i (n.key, v) = Spec.put l x v := by
    unfold Spec.put
    rw [show l.findIdx? (fun e => e.1 0 = x) = idxOf l 0 x from rfl]
    rcases hc with ⟨g, rfl⟩ | ⟨g, rfl, rfl⟩
    · rw [g]
      obtain ⟨e, he, hx⟩ := idxOf_some g
      have : l'[i] = e := (List.getElem?_eq_some_iff.mp he).2
      rw [this] at hn'
      rw [key1 n.key, ← hx, ← hn']
    · rw [g]
      simp only [List.getElem_append_right (Nat.le_refl _), Nat.sub_self, List.getElem_cons_zero] at hn'
      injection hn' with h1 h2
      rw [h1, List.set_append_right _ _ (Nat.le_refl _), Nat.sub_self]
      rfl
  rw [this] at hs
  exact hs

theorem indexRead_ok {hash : K → Nat} {t : Table 1 K V} {l : List (Elem 1 K V)} (h : Inv hash t l) (mv : K → K) (dflt : V) (p : Pass)
    (x : K) :
    ∃ t', t.indexRead hash mv dflt p x = .ok (t', (match elemOf l 0 x with
        | some e => e.2
        | none => dflt), if p = .var ∧ idxOf l 0 x = none then mv x else x) ∧
      Inv hash t' (match elemOf l 0 x with
        | some _ => l
        | none => l ++ [((fun _ => x), dflt)]) := by
  unfold Table.indexRead
  obtain ⟨t1, i, l', e1, i1, hc⟩ := indexVar_ok h mv dflt p x
  rcases hc with ⟨g, rfl⟩ | ⟨g, rfl, rfl⟩
  · obtain ⟨e, he, hx⟩ := idxOf_some g
    obtain ⟨n, hr, hn, hn'⟩ := i1.toArr.read (List.getElem?_eq_some_iff.mp he).1
    have : l'[i]'(List.getElem?_eq_some_iff.mp he).1 = e := (List.getElem?_eq_some_iff.mp he).2
    rw [this] at hn'
    rw [e1, bind_ok]
    simp only
    rw [hr, bind_ok, elemOf_eq, g, Option.bind_some, he]
    simp only
    exact ⟨t1, by rw [← hn'], i1⟩
  · obtain ⟨n, hr, hn, hn'⟩ := i1.toArr.read (i := l.length) (by simp)
    simp only [List.getElem_append_right (Nat.le_refl _), Nat.sub_self, List.getElem_cons_zero] at hn'
    injection hn' with h1 h2
    rw [e1, bind_ok]
    simp only
    rw [hr, bind_ok, elemOf_eq, g, Option.bind_none]
    simp only
    exact ⟨t1, by rw [h2], i1⟩

end Tpp.Dense
