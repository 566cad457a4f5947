import Mathlib.Data.List.Induction
import Verif.Dense.Ops

/-!
# The bucket interface of dense containers: `bucket`, `begin(n)`, `end(n)`, `bucket_size`

`bucket_iterator` does not compile when its members are used: `m_base + m_pos` (dense_table.hpp 195) adds an array to a pointer,
`bucket_pos m_pos = 0` (201) initialises an array with a number, `*operator->()` (185) dereferences a class without `operator*`.  The
model reads them as `m_base + m_pos[j]`, `m_pos[j] = 0` and the element of that node; `j` is the only component if there is one key.
-/

set_option linter.unusedSectionVars false

namespace Tpp.Dense

variable {k : Nat} {K V : Type} [DecidableEq K]

/-- `bucket_iterator` (dense_table.hpp 118-202): `base` tells whether `m_base` is not null, `pos` is `m_pos`. -/
structure LIter where
  base : Bool
  pos : Option Nat
  deriving DecidableEq

namespace Table

/-- `begin(n)` (dense_table.hpp 338-339); `m_dense` is null exactly if its capacity is 0. -/
def localBegin (t : Table k K V) (j : Fin k) (n : Nat) : M LIter :=
  if n < t.bc then .ok ⟨decide (t.cap ≠ 0), t.head n j⟩ else .error .oobMeta

/-- `end(n)` (dense_table.hpp 340-341): `local_iterator{}`, i.e. a null pointer and 0 (200-201). -/
def localEnd : LIter := ⟨false, some 0⟩

/-- `node()` (dense_table.hpp 195), dereferenced. -/
def localNode (t : Table k K V) (it : LIter) : M (Node k K V) :=
  if it.base then
    match it.pos with
    | some i => t.readNode i
    | none => .error .oobNode
  else .error .nullDeref

/-- `for (; it != last; ++it)` (dense_table.hpp 172-181, 187-190, 198): the elements visited. -/
def localWalk (t : Table k K V) (j : Fin k) (last : LIter) : Nat → LIter → M (List (Elem k K V))
  | 0, _ => .error .diverge
  | fuel + 1, it =>
    if it = last then .ok []
    else do
      let n ← t.localNode it
      let l ← t.localWalk j last fuel { it with pos := n.next j }
      .ok ((n.key, n.val) :: l)

/-- The elements from `begin(n)` to `end(n)`; `bucket_size(n)` (dense_table.hpp 345) is their number. -/
def localElements (t : Table k K V) (j : Fin k) (n : Nat) : M (List (Elem k K V)) := do
  let it ← t.localBegin j n
  t.localWalk j localEnd (t.cap + 2) it

/-- `bucket(key)` (dense_table.hpp 346-347). -/
def bucket (hash : K → Nat) (t : Table k K V) (x : K) : M Nat :=
  if t.bc = 0 then .error .divZero else .ok (hash x % t.bc)

end Table

/-- The walk along a chain that is not stopped. -/
theorem localWalk_over {t : Table k K V} {j : Fin k} {b : Bool} : ∀ {fuel : Nat} {p : Option Nat} {l : List Nat} {r : Ref},
    t.cell j r = p → Path (t.cell j) r l → (∀ i ∈ l, t.Valid (.next i)) → (b = false → l = []) → l.length < fuel →
    t.localWalk j Table.localEnd fuel ⟨b, p⟩ = .error (if b then .oobNode else .nullDeref) := by
  intro fuel
  induction fuel with
  | zero => intro p l r _ _ _ _ h; omega
  | succ fuel ih =>
    intro p l r hr hp hv hl hf
    have hne : (⟨b, p⟩ : LIter) ≠ Table.localEnd := by
      intro e
      injection e with e1 e2
      have := hl e1
      subst this
      rw [← hr, show t.cell j r = none from hp] at e2
      cases e2
    unfold Table.localWalk
    rw [if_neg hne]
    unfold Table.localNode
    cases l with
    | nil =>
      rw [← hr, show t.cell j r = none from hp]
      cases b <;> rfl
    | cons i l =>
      have hbt : b = true := by
        cases b with
        | true => rfl
        | false => exact absurd (hl rfl) (by simp)
      subst hbt
      have hvi := hv i List.mem_cons_self
      obtain ⟨n, hn⟩ := Option.ne_none_iff_exists'.mp hvi.2
      rw [← hr, show t.cell j r = some i from hp.1]
      simp only [if_true]
      rw [readNode_ok hvi.1 hn, bind_ok]
      have hcell : t.cell j (.next i) = n.next j := by simp [Table.cell, hn]
      rw [ih hcell hp.2 (fun i' hi' => hv i' (List.mem_cons_of_mem _ hi')) (fun e => by cases e) (by simp at hf; omega)]
      rfl

/-- However far the walk goes, it does not end. -/
theorem localWalk_never {t : Table k K V} {j : Fin k} {b : Bool} : ∀ {fuel : Nat} {p : Option Nat} {l : List Nat} {r : Ref},
    t.cell j r = p → Path (t.cell j) r l → (∀ i ∈ l, t.Valid (.next i)) → (b = false → l = []) → 
    ∃ f, t.localWalk j Table.localEnd fuel ⟨b, p⟩ = .error f := by
  intro fuel
  induction fuel with
  | zero => intro p l r _ _ _ _; exact ⟨_, rfl⟩
  | succ fuel ih =>
    intro p l r hr hp hv hl
    cases l with
    | nil => exact ⟨_, localWalk_over hr hp hv hl (Nat.succ_pos _)⟩
    | cons i l =>
      have hbt : b = true := by
        cases b with
        | true => rfl
        | false => exact absurd (hl rfl) (by simp)
      subst hbt
      have hvi := hv i List.mem_cons_self
      obtain ⟨n, hn⟩ := Option.ne_none_iff_exists'.mp hvi.2
      have hcell : t.cell j (.next i) = n.next j := by simp [Table.cell, hn]
      obtain ⟨f, e⟩ := ih hcell hp.2 (fun i' hi' => hv i' (List.mem_cons_of_mem _ hi')) (fun e => by cases e)
      refine ⟨f, ?_⟩
      unfold Table.localWalk
      rw [if_neg (by intro q; injection q with q; cases q), ← hr, show t.cell j r = some i from hp.1]
      unfold Table.localNode
      simp only [if_true]
      rw [readNode_ok hvi.1 hn, bind_ok, e]
      rfl

/-- The walk along a chain that stops at `npos`. -/
theorem localWalk_to {t : Table k K V} {j : Fin k} {b : Bool} : ∀ {fuel : Nat} {p : Option Nat} {l : List Nat} {r : Ref},
    t.cell j r = p → Path (t.cell j) r l → (∀ i ∈ l, t.Valid (.next i)) → (b = false → l = []) → l.length < fuel →
    t.localWalk j ⟨b, none⟩ fuel ⟨b, p⟩ = .ok (l.filterMap fun i => (t.node i).map fun n => (n.key, n.val)) := by
  intro fuel
  induction fuel with
  | zero => intro p l r _ _ _ _ h; omega
  | succ fuel ih =>
    intro p l r hr hp hv hl hf
    unfold Table.localWalk
    cases l with
    | nil =>
      rw [← hr, show t.cell j r = none from hp, if_pos rfl]
      rfl
    | cons i l =>
      have hbt : b = true := by
        cases b with
        | true => rfl
        | false => exact absurd (hl rfl) (by simp)
      subst hbt
      have hvi := hv i List.mem_cons_self
      obtain ⟨n, hn⟩ := Option.ne_none_iff_exists'.mp hvi.2
      have hcell : t.cell j (.next i) = n.next j := by simp [Table.cell, hn]
      rw [← hr, show t.cell j r = some i from hp.1, if_neg (by simp)]
      unfold Table.localNode
      simp only [if_true]
      rw [readNode_ok hvi.1 hn, bind_ok,
        ih hcell hp.2 (fun i' hi' => hv i' (List.mem_cons_of_mem _ hi')) (fun e => by cases e) (by simp at hf; omega), bind_ok]
      rw [List.filterMap_cons, hn]
      rfl

/-- The chain of a bucket. -/
theorem Inv.bucket {hash : K → Nat} {t : Table k K V} {l : List (Elem k K V)} (h : Inv hash t l) (j : Fin k) {b : Nat} (hb : b < t.bc) :
    ∃ c, Path (t.cell j) (.head b) c ∧ c.length ≤ t.cap ∧ (∀ i ∈ c, t.Valid (.next i)) ∧ (decide (t.cap ≠ 0) = false → c = []) ∧
      (c.filterMap fun i => (t.node i).map fun n => (n.key, n.val)).Perm (l.filter fun e : Elem k K V => hash (e.1 j) % t.bc = b) := by
  obtain ⟨c, h1, h2, h3⟩ := h.chained j b hb
  have hlt : ∀ i ∈ c, i < l.length := fun i hi => ((h3 i).mp hi).1
  have hsub : c ⊆ List.range l.length := fun i hi => List.mem_range.mpr (hlt i hi)
  have hlen : c.length ≤ l.length := by simpa using (h2.subperm hsub).length_le
  have hcap : l.length ≤ t.cap := h.size ▸ h.le_cap
  refine ⟨c, h1, by omega, fun i hi => h.toArr.valid (hlt i hi), ?_, ?_⟩
  · intro e
    have : t.cap = 0 := by simpa using e
    exact List.length_eq_zero_iff.mp (by omega)
  · have hperm : c.Perm ((List.range l.length).filter fun i => (l[i]?.map fun e : Elem k K V => decide (hash (e.1 j) % t.bc = b)) = some true) := by
      rw [List.perm_ext_iff_of_nodup h2 (List.nodup_range.filter _)]
      intro i
      rw [h3 i, List.mem_filter, List.mem_range]
      refine and_congr_right fun hi => ?_
      obtain ⟨n, hn, e⟩ := h.toArr.node_some hi
      rw [List.getElem?_eq_getElem hi, ← e]
      constructor
      · rintro ⟨n', hn', e'⟩
        rw [hn] at hn'
        cases hn'
        rw [h.hashed i n hn] at e'
        simp [e']
      · intro e'
        refine ⟨n, hn, ?_⟩
        rw [h.hashed i n hn]
        simpa using e'
    refine (hperm.filterMap _).trans (List.Perm.of_eq ?_)
    have hfun : (fun i => (t.node i).map fun n => (n.key, n.val)) = fun i => l[i]? := funext fun i => h.rep i
    rw [hfun]
    clear hperm hfun hsub hlen hcap hlt h1 h2 h3 h
    induction l using List.reverseRecOn with
    | nil => rfl
    | append_singleton l a ih =>
      rw [List.length_append, List.length_singleton, List.range_succ, List.filter_append, List.filterMap_append, List.filter_append, ← ih]
      congr 1
      · have hcong : (List.range l.length).filter (fun i => ((l ++ [a])[i]?.map fun e : Elem k K V => decide (hash (e.1 j) % t.bc = b)) = some true) =
            (List.range l.length).filter (fun i => (l[i]?.map fun e : Elem k K V => decide (hash (e.1 j) % t.bc = b)) = some true) := by
          refine List.filter_congr fun i hi => ?_
          rw [List.getElem?_append_left (List.mem_range.mp hi)]
        rw [hcong]
        refine List.filterMap_congr fun i hi => ?_
        rw [List.getElem?_append_left (List.mem_range.mp (List.mem_filter.mp hi).1)]
      · by_cases e : hash (a.1 j) % t.bc = b <;> simp [e]

end Tpp.Dense
