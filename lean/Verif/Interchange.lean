import Verif.Swiss.Hist
import Verif.Dense.Hist
import Verif.Props.OrderedDense
import Verif.Props.OrderedSwiss

/-!
# Programs that work with every kind of container

The operations that all maps of the library share, what a program sees of them, and their translation into the operations of the four models.
-/

set_option linter.unusedSectionVars false

namespace Tpp

/-- The operations that `sparse_map`, `stable_map`, `dense_map` and the ordered variants share (sparse_map.hpp 160-535 and
755-1130, stable_map.hpp 153-582 and 795-1224, dense_map.hpp 191-588 and 841-1238: the same member functions, forwarded to the tables). -/
inductive Call (K V : Type)
  | insert (k : K) (v : V)
  /-- `insert_or_assign` -/
  | assign (k : K) (v : V)
  /-- `erase(key)` -/
  | erase (k : K)
  /-- range insertion; the flag tells random access iterators -/
  | insertRange (ra : Bool) (xs : List (K × V))
  | clear
  | reserve (n : Nat)
  /-- `rehash(n + 1)` -/
  | rehash (n : Nat)
  | find (k : K)
  | contains (k : K)
  | size
  /-- a loop over all elements -/
  | iterate

/-- What a program sees that does not look at the order of elements or at iterators. -/
inductive Seen (K V : Type)
  | unit
  /-- whether an element was inserted, or whether the key is present -/
  | bool (b : Bool)
  | nat (n : Nat)
  /-- the mapped value found -/
  | opt (v : Option V)
  | list (l : List (K × V))
  deriving DecidableEq, Repr

/-- Equal answers; the elements met by a loop agree up to order. -/
def Seen.Same {K V : Type} : Seen K V → Seen K V → Prop
  | .list a, .list b => a.Perm b
  | a, b => a = b

/-- Programs that call `erase(key)` only once there are buckets: dense containers without buckets divide by zero (C41).  The flag tells
whether there are buckets at the beginning. -/
def Call.guarded {K V : Type} : Bool → List (Call K V) → Bool
  | _, [] => true
  | b, .erase _ :: cs => b && Call.guarded b cs
  | _, .insert _ _ :: cs => Call.guarded true cs
  | _, .assign _ _ :: cs => Call.guarded true cs
  | b, .insertRange _ xs :: cs => Call.guarded (b || !xs.isEmpty) cs
  | _, .rehash _ :: cs => Call.guarded true cs
  | b, _ :: cs => Call.guarded b cs

variable {K V : Type}

namespace Call

/-- The call on a `sparse_map` or `stable_map`. -/
def sparse : Call K V → Op K V
  | .insert k v => .insert k v
  | .assign k v => .assign k v
  | .erase k => .erase k
  | .insertRange ra xs => .insertRange ra xs
  | .clear => .clear
  | .reserve n => .reserve n
  | .rehash n => .rehash n
  | .find k => .find k
  | .contains k => .contains k
  | .size => .size
  | .iterate => .iterate

/-- The element of a dense map with one key. -/
def elem (x : K × V) : Dense.Elem 1 K V := (fun _ => x.1, x.2)

/-- Key and mapped value. -/
def flat (e : Dense.Elem 1 K V) : K × V := (e.1 0, e.2)

/-- The call on a `dense_map`. -/
def dense : Call K V → Dense.Op 1 K V
  | .insert k v => .insert (fun _ => k) v
  | .assign k v => .assign rfl k v
  | .erase k => .erase 0 k
  | .insertRange ra xs => .insertRange ra (xs.map elem)
  | .clear => .clear
  | .reserve n => .reserve n
  | .rehash n => .rehash (n + 1)
  | .find k => .find 0 k
  | .contains k => .contains 0 k
  | .size => .size
  | .iterate => .iterate

/-- The call on an `ordered_dense_map`. -/
def odense : Call K V → ODense.Op 1 K V
  | .insert k v => .insert (fun _ => k) v
  | .assign k v => .assign rfl k v
  | .erase k => .erase 0 k
  | .insertRange ra xs => .insertRange ra (xs.map elem)
  | .clear => .clear
  | .reserve n => .reserve n
  | .rehash n => .rehash (n + 1)
  | .find k => .find 0 k
  | .contains k => .contains 0 k
  | .size => .size
  | .iterate => .iterate

/-- The call on an `ordered_sparse_map` or `ordered_stable_map`. -/
def osparse : Call K V → OSwiss.Op K V
  | .insert k v => .insert k v
  | .assign k v => .assign k v
  | .erase k => .erase k
  | .insertRange ra xs => .insertRange ra xs
  | .clear => .clear
  | .reserve n => .reserve n
  | .rehash n => .rehash n
  | .find k => .find k
  | .contains k => .contains k
  | .size => .size
  | .iterate => .iterate

/-- What a program sees of the answer of a `sparse_map`. -/
def seeSparse : Call K V → Out K V → Seen K V
  | .erase _, _ => .unit
  | _, .ins _ b => .bool b
  | _, .bool b => .bool b
  | _, .nat n => .nat n
  | _, .opt v => .opt v
  | _, .list l => .list l
  | _, _ => .unit

/-- What a program sees of the answer of a `dense_map`. -/
def seeDense : Call K V → Dense.Out 1 K V → Seen K V
  | .erase _, _ => .unit
  | _, .ins _ b => .bool b
  | _, .bool b => .bool b
  | _, .nat n => .nat n
  | _, .elem e => .opt (e.map Prod.snd)
  | _, .list l => .list (l.map flat)
  | _, _ => .unit

/-- What a program sees of the answer of an `ordered_dense_map`. -/
def seeODense : Call K V → ODense.Out 1 K V → Seen K V
  | .erase _, _ => .unit
  | _, .ins _ b => .bool b
  | _, .bool b => .bool b
  | _, .nat n => .nat n
  | _, .elem e => .opt (e.map Prod.snd)
  | _, .list l => .list (l.map flat)
  | _, _ => .unit

/-- What a program sees of the answer of an `ordered_sparse_map`. -/
def seeOSparse : Call K V → OSwiss.Out K V → Seen K V
  | .erase _, _ => .unit
  | _, .ins _ b => .bool b
  | _, .bool b => .bool b
  | _, .nat n => .nat n
  | _, .elem e => .opt (e.map Prod.snd)
  | _, .list l => .list l
  | _, _ => .unit

end Call

/-! ## The specifications of the models agree -/

theorem Seen.Same.refl (a : Seen K V) : a.Same a := by
  cases a <;> simp [Seen.Same]

theorem Seen.Same.symm {a b : Seen K V} (h : a.Same b) : b.Same a := by
  cases a <;> cases b <;> simp only [Seen.Same] at h ⊢ <;> first | exact h.symm | exact (List.Perm.symm h)

theorem Seen.Same.trans {a b d : Seen K V} (h : a.Same b) (h' : b.Same d) : a.Same d := by
  cases a <;> cases b <;> cases d <;> simp only [Seen.Same, reduceCtorEq] at h h' ⊢ <;>
    first | exact h.trans h' | exact (List.Perm.trans h h')

variable [DecidableEq K]

/-- A list with distinct keys has the elements of a map. -/
def Same (q m : List (K × V)) : Prop := q.Perm m ∧ Spec.Uniq m

theorem uniq_insert {m : List (K × V)} (hu : Spec.Uniq m) (k : K) (v : V) : Spec.Uniq (Spec.insert m k v) := by
  unfold Spec.insert
  cases hx : Spec.lookup m k with
  | some _ => exact hu
  | none =>
    unfold Spec.Uniq
    rw [List.map_cons, List.nodup_cons]
    refine ⟨?_, hu⟩
    intro hmem
    obtain ⟨⟨a, b⟩, h1, h2⟩ := List.mem_map.mp hmem
    simp only at h2
    subst h2
    exact Spec.lookup_none.mp hx b h1

theorem uniq_erase {m : List (K × V)} (hu : Spec.Uniq m) (k : K) : Spec.Uniq (Spec.erase m k) :=
  List.Nodup.sublist ((List.filter_sublist).map _) hu

theorem uniq_assign {m : List (K × V)} (hu : Spec.Uniq m) (k : K) (v : V) : Spec.Uniq (Spec.assign m k v) := by
  unfold Spec.assign Spec.Uniq
  rw [List.map_cons, List.nodup_cons]
  refine ⟨?_, uniq_erase hu k⟩
  intro hmem
  obtain ⟨⟨a, b⟩, h1, h2⟩ := List.mem_map.mp hmem
  simp only at h2
  subst h2
  unfold Spec.erase at h1
  simp at h1

theorem uniq_inserts (xs : List (K × V)) : ∀ {m : List (K × V)}, Spec.Uniq m → Spec.Uniq (xs.foldl (fun m x => Spec.insert m x.1 x.2) m) := by
  induction xs with
  | nil => exact id
  | cons x xs ih => intro m hu; exact ih (uniq_insert hu x.1 x.2)

theorem uniq_call {m : List (K × V)} (hu : Spec.Uniq m) (c : Call K V) : Spec.Uniq (Spec.step m c.sparse).1 := by
  cases c <;> simp only [Call.sparse, Spec.step]
  case insert k v => exact uniq_insert hu k v
  case assign k v => exact uniq_assign hu k v
  case erase k => exact uniq_erase hu k
  case insertRange _ xs => exact uniq_inserts xs hu
  case clear => exact List.nodup_nil
  all_goals exact hu

namespace Same

variable {q m : List (K × V)}

theorem lookup (h : Same q m) (k : K) : Spec.lookup q k = Spec.lookup m k := Spec.lookup_perm h.1 (h.2.perm h.1.symm) k

theorem find_map (h : Same q m) (k : K) : (q.find? fun e => e.1 = k).map Prod.snd = Spec.lookup m k := h.lookup k

theorem find_isSome (h : Same q m) (k : K) : (q.find? fun e => e.1 = k).isSome = (Spec.lookup m k).isSome := by
  rw [← h.find_map k, Option.isSome_map]

/-- Appending an absent element. -/
theorem append (h : Same q m) {k : K} (hk : Spec.lookup m k = none) (v : V) : (q ++ [(k, v)]).Perm ((k, v) :: m) :=
  (List.perm_append_singleton _ _).trans (h.1.cons _)

/-- Assigning in place. -/
theorem set (h : Same q m) (k : K) (v : V) (hk : Spec.lookup m k ≠ none) :
    (q.map (fun e => if e.1 = k then (k, v) else e)).Perm (Spec.assign m k v) := by
  have hu := h.2.perm h.1.symm
  have hm : q.map Prod.fst = (q.map (fun e => if e.1 = k then (k, v) else e)).map Prod.fst := by
    rw [List.map_map]
    apply List.map_congr_left
    intro e _
    simp only [Function.comp_apply]
    split
    · rename_i e1; exact e1
    · rfl
  have hu' : Spec.Uniq (q.map (fun e => if e.1 = k then (k, v) else e)) := by
    unfold Spec.Uniq
    rw [← hm]
    exact hu
  refine Spec.perm_of_lookup hu' (uniq_assign h.2 k v) (fun x => ?_)
  rw [Spec.lookup_assign, ← h.lookup x]
  unfold Spec.lookup
  rw [List.find?_map, Option.map_map]
  by_cases e : x = k
  · subst e
    rw [if_pos rfl]
    obtain ⟨w, hw⟩ := Option.ne_none_iff_exists'.mp hk
    rw [← h.lookup] at hw
    unfold Spec.lookup at hw
    have e1 : ((fun p : K × V => decide (p.1 = x)) ∘ fun e : K × V => if e.1 = x then (x, v) else e) = fun p => decide (p.1 = x) := by
      funext p
      simp only [Function.comp_apply]
      split
      · rename_i h1; simp [h1]
      · rfl
    rw [e1]
    obtain ⟨p, hp, _⟩ := Option.map_eq_some_iff.mp hw
    rw [hp]
    have := List.find?_some hp
    simp only [decide_eq_true_eq] at this
    simp [this]
  · rw [if_neg e]
    have e1 : ((fun p : K × V => decide (p.1 = x)) ∘ fun e : K × V => if e.1 = k then (k, v) else e) = fun p => decide (p.1 = x) := by
      funext p
      simp only [Function.comp_apply]
      split
      · rename_i h1; rw [h1]
      · rfl
    rw [e1]
    cases hp : q.find? fun p => decide (p.1 = x) with
    | none => rfl
    | some p =>
      have := List.find?_some hp
      simp only [decide_eq_true_eq] at this
      simp only [Option.map_some, Function.comp_apply]
      rw [if_neg (by rw [this]; exact e)]

end Same

/-! ### Ordered sparse containers -/

theorem osparse_insert {q m : List (K × V)} (h : Same q m) (k : K) (v : V) :
    (OSwiss.Spec.insert q k v).1.Perm (Spec.insert m k v) ∧ (OSwiss.Spec.insert q k v).2.2 = (Spec.lookup m k).isNone := by
  have h1 := h.find_map k
  unfold OSwiss.Spec.insert OSwiss.Spec.find Spec.insert
  cases hf : q.find? fun e => e.1 = k with
  | none =>
    rw [hf] at h1
    rw [← h1]
    exact ⟨h.append h1.symm v, rfl⟩
  | some e =>
    rw [hf] at h1
    rw [← h1]
    exact ⟨h.1, rfl⟩

theorem osparse_inserts (xs : List (K × V)) : ∀ {q m : List (K × V)}, Same q m →
    (xs.foldl (fun l x => (OSwiss.Spec.insert l x.1 x.2).1) q).Perm (xs.foldl (fun m x => Spec.insert m x.1 x.2) m) := by
  induction xs with
  | nil => intro q m h; exact h.1
  | cons x xs ih => intro q m h; exact ih ⟨(osparse_insert h x.1 x.2).1, uniq_insert h.2 x.1 x.2⟩

theorem osparse_step {q m : List (K × V)} (h : Same q m) (c : Call K V) :
    Same (OSwiss.Spec.step q c.osparse).1 (Spec.step m c.sparse).1 ∧
      (c.seeOSparse (OSwiss.Spec.step q c.osparse).2).Same (c.seeSparse (Spec.step m c.sparse).2) := by
  suffices hs : (OSwiss.Spec.step q c.osparse).1.Perm (Spec.step m c.sparse).1 ∧
      (c.seeOSparse (OSwiss.Spec.step q c.osparse).2).Same (c.seeSparse (Spec.step m c.sparse).2) from
    ⟨⟨hs.1, uniq_call h.2 c⟩, hs.2⟩
  cases c <;> simp only [Call.osparse, Call.sparse, OSwiss.Spec.step, Spec.step, Call.seeOSparse, Call.seeSparse, Seen.Same]
  case insert k v => exact ⟨(osparse_insert h k v).1, by rw [(osparse_insert h k v).2]⟩
  case assign k v =>
    unfold OSwiss.Spec.assign OSwiss.Spec.find
    rw [h.find_isSome k]
    cases hl : Spec.lookup m k with
    | none =>
      refine ⟨?_, rfl⟩
      simp only [Option.isSome_none, Bool.false_eq_true, if_false]
      unfold Spec.assign
      rw [Spec.erase_of_absent hl]
      exact h.append hl v
    | some w =>
      refine ⟨?_, rfl⟩
      simp only [Option.isSome_some, if_true]
      exact h.set k v (by rw [hl]; simp)
  case erase k => exact ⟨h.1.filter _, trivial⟩
  case insertRange _ xs => exact ⟨osparse_inserts xs h, trivial⟩
  case clear => exact ⟨.refl _, trivial⟩
  case reserve => exact ⟨h.1, trivial⟩
  case rehash => exact ⟨h.1, trivial⟩
  case find k => exact ⟨h.1, by rw [← h.find_map k]; rfl⟩
  case contains k => exact ⟨h.1, by rw [← h.find_isSome k]; rfl⟩
  case size => exact ⟨h.1, by rw [h.1.length_eq]⟩
  case iterate => exact ⟨h.1, h.1⟩

/-! ### Ordered dense containers: the same lists as the ordered sparse ones -/

theorem flat_elem (x : K × V) : Call.flat (Call.elem x) = x := rfl

theorem elem_flat (e : Dense.Elem 1 K V) : Call.elem (Call.flat e) = e := by
  obtain ⟨f, v⟩ := e
  unfold Call.elem Call.flat
  congr 1
  funext j
  have : j = 0 := by omega
  rw [this]

theorem find_flat (l : List (Dense.Elem 1 K V)) (k : K) :
    (l.find? fun e => e.1 0 = k).map Call.flat = (l.map Call.flat).find? fun e => e.1 = k := by
  rw [List.find?_map]
  rfl

theorem any_find {α : Type} (l : List α) (p : α → Bool) : l.any p = (l.find? p).isSome := by
  rw [Bool.eq_iff_iff, List.find?_isSome, List.any_eq_true]

theorem odense_insert (l : List (Dense.Elem 1 K V)) (k : K) (v : V) :
    (ODense.Spec.insert l (fun _ => k) v).1.map Call.flat = (OSwiss.Spec.insert (l.map Call.flat) k v).1 ∧
      (ODense.Spec.insert l (fun _ => k) v).2.2 = (OSwiss.Spec.insert (l.map Call.flat) k v).2.2 := by
  unfold ODense.Spec.insert OSwiss.Spec.insert OSwiss.Spec.find ODense.Spec.hit
  rw [← find_flat, show List.finRange 1 = [0] from rfl, List.findSome?_cons]
  cases hf : l.find? fun e => e.1 0 = k with
  | none => simp only [List.findSome?_nil, Option.map_none, List.map_append]; exact ⟨rfl, trivial⟩
  | some e => exact ⟨rfl, rfl⟩

theorem odense_inserts (xs : List (K × V)) : ∀ l : List (Dense.Elem 1 K V),
    ((xs.map Call.elem).foldl (fun l x => (ODense.Spec.insert l x.1 x.2).1) l).map Call.flat =
      xs.foldl (fun l x => (OSwiss.Spec.insert l x.1 x.2).1) (l.map Call.flat) := by
  induction xs with
  | nil => intro l; rfl
  | cons x xs ih =>
    intro l
    simp only [List.map_cons, List.foldl_cons]
    rw [ih]
    congr 1
    exact (odense_insert l x.1 x.2).1

theorem odense_step (l : List (Dense.Elem 1 K V)) (c : Call K V) :
    (ODense.Spec.step l c.odense).1.map Call.flat = (OSwiss.Spec.step (l.map Call.flat) c.osparse).1 ∧
      c.seeODense (ODense.Spec.step l c.odense).2 = c.seeOSparse (OSwiss.Spec.step (l.map Call.flat) c.osparse).2 := by
  have hany : ∀ k, (l.any fun e => e.1 0 = k) = (OSwiss.Spec.find (l.map Call.flat) k).isSome := by
    intro k
    unfold OSwiss.Spec.find
    rw [← find_flat, Option.isSome_map, any_find]
  cases c <;> simp only [Call.odense, Call.osparse, OSwiss.Spec.step, ODense.Spec.step, Call.seeOSparse, Call.seeODense]
  case insert k v => exact ⟨(odense_insert l k v).1, by rw [(odense_insert l k v).2]⟩
  case assign k v =>
    unfold OSwiss.Spec.assign ODense.Spec.assign
    have := hany k
    simp only [Fin.zero_eta] at this ⊢
    rw [this]
    cases (OSwiss.Spec.find (l.map Call.flat) k).isSome with
    | true =>
      simp only [if_true, List.map_map]
      refine ⟨?_, trivial⟩
      apply List.map_congr_left
      intro e _
      simp only [Function.comp_apply, Call.flat]
      split
      · rename_i e1; simp [e1]
      · rename_i e1; exact (if_neg e1).symm
    | false => simp [Call.flat]
  case erase k =>
    refine ⟨?_, trivial⟩
    unfold OSwiss.Spec.erase
    rw [List.filter_map]
    rfl
  case insertRange _ xs => exact ⟨odense_inserts xs l, trivial⟩
  case clear => exact ⟨rfl, trivial⟩
  case reserve => exact ⟨trivial, trivial⟩
  case rehash => exact ⟨trivial, trivial⟩
  case find k =>
    refine ⟨trivial, ?_⟩
    unfold OSwiss.Spec.find
    rw [← find_flat, Option.map_map]
    rfl
  case contains k => exact ⟨trivial, by rw [hany k]⟩
  case size => exact ⟨trivial, by rw [List.length_map]⟩
  case iterate => exact ⟨trivial, trivial⟩

/-! ### Dense containers -/

theorem dense_index (l : List (Dense.Elem 1 K V)) (k : K) :
    (Dense.Spec.index l 0 k = none ∧ Spec.lookup (l.map Call.flat) k = none) ∨
    ∃ i, ∃ hi : i < l.length, Dense.Spec.index l 0 k = some i ∧ Call.flat l[i] = (k, l[i].2) ∧
      (∃ w, Spec.lookup (l.map Call.flat) k = some w) := by
  cases hx : Dense.Spec.index l 0 k with
  | none =>
    left
    refine ⟨rfl, ?_⟩
    unfold Dense.Spec.index at hx
    rw [List.findIdx?_eq_none_iff] at hx
    rw [Spec.lookup_none]
    intro v hv
    obtain ⟨e, he, e1⟩ := List.mem_map.mp hv
    have := hx e he
    simp only [decide_eq_false_iff_not] at this
    exact this (congrArg Prod.fst e1)
  | some i =>
    right
    unfold Dense.Spec.index at hx
    rw [List.findIdx?_eq_some_iff_getElem] at hx
    obtain ⟨hi, h1, _⟩ := hx
    simp only [decide_eq_true_eq] at h1
    refine ⟨i, hi, rfl, by unfold Call.flat; rw [h1], ?_⟩
    cases hl : Spec.lookup (l.map Call.flat) k with
    | some w => exact ⟨w, rfl⟩
    | none =>
      exact absurd (List.mem_map.mpr ⟨l[i], List.getElem_mem hi, by unfold Call.flat; rw [h1]⟩) (Spec.lookup_none.mp hl l[i].2)

theorem dense_insert {l : List (Dense.Elem 1 K V)} {m : List (K × V)} (h : Same (l.map Call.flat) m) (k : K) (v : V) :
    ((Dense.Spec.insert l (fun _ => k) v).1.map Call.flat).Perm (Spec.insert m k v) ∧
      (Dense.Spec.insert l (fun _ => k) v).2.2 = (Spec.lookup m k).isNone := by
  unfold Dense.Spec.insert Dense.Spec.clash Spec.insert
  rw [show List.finRange 1 = [0] from rfl, List.findSome?_cons, ← h.lookup k]
  rcases dense_index l k with ⟨e1, e2⟩ | ⟨i, hi, e1, _, w, e2⟩
  · rw [e1, e2]
    simp only [List.findSome?_nil, List.map_append]
    rw [h.lookup] at e2
    exact ⟨h.append e2 v, rfl⟩
  · rw [e1, e2]
    exact ⟨h.1, rfl⟩

theorem dense_inserts (xs : List (K × V)) : ∀ {l : List (Dense.Elem 1 K V)} {m : List (K × V)}, Same (l.map Call.flat) m →
    (((xs.map Call.elem).foldl (fun l x => (Dense.Spec.insert l x.1 x.2).1) l).map Call.flat).Perm
      (xs.foldl (fun m x => Spec.insert m x.1 x.2) m) := by
  induction xs with
  | nil => intro l m h; exact h.1
  | cons x xs ih => intro l m h; exact ih ⟨(dense_insert h x.1 x.2).1, uniq_insert h.2 x.1 x.2⟩

theorem flat_set (l : List (Dense.Elem 1 K V)) (hu : Spec.Uniq (l.map Call.flat)) {k : K} {i : Nat} (hi : i < l.length)
    (e : Call.flat l[i] = (k, l[i].2)) (v : V) :
    (l.set i (fun _ => k, v)).map Call.flat = (l.map Call.flat).map (fun e => if e.1 = k then (k, v) else e) := by
  apply List.ext_getElem
  · simp
  · intro j h1 h2
    simp only [List.getElem_map, List.getElem_set]
    have hj : j < l.length := by simpa using h1
    by_cases ej : i = j
    · subst ej
      rw [if_pos rfl, e]
      simp [Call.flat]
    · rw [if_neg ej, if_neg]
      intro e1
      apply ej
      unfold Spec.Uniq at hu
      rw [List.map_map] at hu
      have := (List.Nodup.getElem_inj_iff hu (i := i) (j := j) (hi := by simpa using hi) (hj := by simpa using hj)).mp
        (by simp only [List.getElem_map, Function.comp_apply]; rw [e, e1])
      exact this

theorem dense_step {l : List (Dense.Elem 1 K V)} {m : List (K × V)} (h : Same (l.map Call.flat) m) (c : Call K V) :
    Same ((Dense.Spec.step l c.dense).1.map Call.flat) (Spec.step m c.sparse).1 ∧
      (c.seeDense (Dense.Spec.step l c.dense).2).Same (c.seeSparse (Spec.step m c.sparse).2) := by
  suffices hs : ((Dense.Spec.step l c.dense).1.map Call.flat).Perm (Spec.step m c.sparse).1 ∧
      (c.seeDense (Dense.Spec.step l c.dense).2).Same (c.seeSparse (Spec.step m c.sparse).2) from
    ⟨⟨hs.1, uniq_call h.2 c⟩, hs.2⟩
  have hu := h.2.perm h.1.symm
  cases c <;> simp only [Call.dense, Call.sparse, Dense.Spec.step, Spec.step, Call.seeDense, Call.seeSparse, Seen.Same]
  case insert k v => exact ⟨(dense_insert h k v).1, by rw [(dense_insert h k v).2]⟩
  case assign k v =>
    simp only [Fin.zero_eta]
    rcases dense_index l k with ⟨e1, e2⟩ | ⟨i, hi, e1, e3, w, e2⟩
    · rw [e1]
      rw [h.lookup] at e2
      rw [e2]
      simp only [List.map_append]
      refine ⟨?_, rfl⟩
      unfold Spec.assign
      rw [Spec.erase_of_absent e2]
      exact h.append e2 v
    · rw [e1]
      rw [h.lookup] at e2
      rw [e2]
      refine ⟨?_, rfl⟩
      simp only
      rw [flat_set l hu hi e3 v]
      exact h.set k v (by rw [e2]; simp)
  case erase k =>
    refine ⟨?_, trivial⟩
    rcases dense_index l k with ⟨e1, e2⟩ | ⟨i, hi, e1, e3, w, e2⟩
    · rw [e1]
      rw [h.lookup] at e2
      rw [Spec.erase_of_absent e2]
      exact h.1
    · rw [e1]
      simp only
      have hp := (Dense.swapRemove_perm hi).map Call.flat
      rw [List.map_cons, e3] at hp
      have hp' := hp.trans h.1
      have := Spec.erase_cons_self (h.2.perm hp'.symm)
      rw [← this]
      exact Spec.erase_perm hp' k
  case insertRange _ xs => exact ⟨dense_inserts xs h, trivial⟩
  case clear => exact ⟨.refl _, trivial⟩
  case reserve => exact ⟨h.1, trivial⟩
  case rehash => exact ⟨h.1, trivial⟩
  case find k =>
    refine ⟨h.1, ?_⟩
    rw [← h.find_map k, ← find_flat, Option.map_map]
    rfl
  case contains k =>
    refine ⟨h.1, ?_⟩
    rw [← h.find_isSome k, ← find_flat, Option.isSome_map, any_find]
  case size => exact ⟨h.1, by rw [← h.1.length_eq, List.length_map]⟩
  case iterate => exact ⟨h.1, h.1⟩

/-! ### Histories -/

theorem guarded_dense : ∀ (cs : List (Call K V)) (b : Bool), Dense.Spec.Guarded b (cs.map Call.dense) = Call.guarded b cs
  | [], _ => rfl
  | c :: cs, b => by
    cases c <;> simp only [List.map_cons, Call.dense, Dense.Spec.Guarded, Call.guarded, guarded_dense cs, List.isEmpty_map]
    case rehash n => simp

theorem guarded_odense : ∀ (cs : List (Call K V)) (b : Bool), ODense.Spec.Guarded b (cs.map Call.odense) = Call.guarded b cs
  | [], _ => rfl
  | c :: cs, b => by
    cases c <;> simp only [List.map_cons, Call.odense, ODense.Spec.Guarded, Call.guarded, guarded_odense cs, List.isEmpty_map]
    case rehash n => simp

theorem dense_run : ∀ (cs : List (Call K V)) {l : List (Dense.Elem 1 K V)} {m : List (K × V)}, Same (l.map Call.flat) m →
    List.Forall₂ Seen.Same (List.zipWith Call.seeDense cs (Dense.Spec.run l (cs.map Call.dense)).2)
      (List.zipWith Call.seeSparse cs (Spec.run m (cs.map Call.sparse)).2)
  | [], _, _, _ => .nil
  | c :: cs, _, _, h => .cons (dense_step h c).2 (dense_run cs (dense_step h c).1)

theorem osparse_run : ∀ (cs : List (Call K V)) {q m : List (K × V)}, Same q m →
    List.Forall₂ Seen.Same (List.zipWith Call.seeOSparse cs (OSwiss.Spec.run q (cs.map Call.osparse)).2)
      (List.zipWith Call.seeSparse cs (Spec.run m (cs.map Call.sparse)).2)
  | [], _, _, _ => .nil
  | c :: cs, _, _, h => .cons (osparse_step h c).2 (osparse_run cs (osparse_step h c).1)

theorem odense_run : ∀ (cs : List (Call K V)) (l : List (Dense.Elem 1 K V)),
    List.zipWith Call.seeODense cs (ODense.Spec.run l (cs.map Call.odense)).2 =
      List.zipWith Call.seeOSparse cs (OSwiss.Spec.run (l.map Call.flat) (cs.map Call.osparse)).2
  | [], _ => rfl
  | c :: cs, l => by
    simp only [List.map_cons, ODense.Spec.run, OSwiss.Spec.run, List.zipWith_cons_cons]
    rw [(odense_step l c).2, odense_run cs, (odense_step l c).1]

/-- What a program sees does not depend on the order in which the model names the elements. -/
theorem see_agree (c : Call K V) {a b : Out K V} (h : a.Agree b) : (c.seeSparse a).Same (c.seeSparse b) := by
  cases c <;> cases a <;> cases b <;> simp only [Out.Agree] at h <;> simp only [Call.seeSparse, Seen.Same] <;>
    first | exact h | rw [h.2] | rw [h]

theorem see_agree_all : ∀ (cs : List (Call K V)) {a b : List (Out K V)}, List.Forall₂ Out.Agree a b →
    List.Forall₂ Seen.Same (List.zipWith Call.seeSparse cs a) (List.zipWith Call.seeSparse cs b)
  | [], _, _, _ => by simp
  | _ :: _, _, _, .nil => by simp
  | c :: cs, _, _, .cons h t => .cons (see_agree c h) (see_agree_all cs t)

theorem same_symm {a b : List (Seen K V)} (h : List.Forall₂ Seen.Same a b) : List.Forall₂ Seen.Same b a := by
  induction h with
  | nil => exact .nil
  | cons h _ ih => exact .cons h.symm ih

theorem same_trans {a b d : List (Seen K V)} (h : List.Forall₂ Seen.Same a b) (h' : List.Forall₂ Seen.Same b d) :
    List.Forall₂ Seen.Same a d := by
  induction h generalizing d with
  | nil => exact h'
  | cons h _ ih => cases h' with | cons h1 h2 => exact .cons (h.trans h1) (ih h2)

end Tpp
