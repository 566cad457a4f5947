import Verif.Dense.Access
import Verif.Swiss.Multi
import Verif.Ordered.DenseIter
import Verif.Ordered.SwissIter

/-!
# Ordered containers: `find`, `at`, writing through iterators and references, `operator==`
-/

set_option linter.unusedSectionVars false

namespace Tpp.ODense

open Tpp.Dense (Elem LF Table Inv swapRemove conflict idxOf elemOf AtResult)
open Tpp.Ordered

variable {k : Nat} {K V : Type} [DecidableEq K]

namespace OTable

/-- `find` (dense_table.hpp 367-370, 534-548, 511-517): the address of the node, or of the header link if there is none. -/
def find (hash : K → Nat) (sz : Int) (t : OTable k K V) (j : Fin k) (x : K) : M Int := do
  let (i, _) ← t.core.findNode hash j x
  match i with
  | some i => .ok (t.addr sz i)
  | none => .ok t.hd

/-- `at` (dense_map.hpp 1182-1191, 1262-1269): `find`, compare with `end()`, dereference. -/
def at_ (hash : K → Nat) (sz : Int) (t : OTable k K V) (j : Fin k) (x : K) : M (AtResult V) := do
  let a ← t.find hash sz j x
  if a = t.hd then .ok .outOfRange
  else do
    let e ← t.elemAt sz a
    .ok (.value e.2)

/-- `it->second = v` (table_common.hpp 562-566, 679-680), also for the references `at` and `operator[]` return. -/
def write (sz : Int) (t : OTable k K V) (a : Int) (v : V) : M (OTable k K V) :=
  match t.slotOf sz a with
  | none => .error .dangling
  | some i => do
    let n ← t.core.readNode i
    .ok { t with core := { t.core with node := upd t.core.node i (some { n with val := v }) } }

/-- `operator==` (dense_map.hpp 1248-1251, dense_set.hpp 677-680): `std::is_permutation` of the two sequences. -/
def eq [DecidableEq V] (sz : Int) (m : Mem) (a b : OTable k K V) : M Bool := do
  let p ← a.first m
  let x ← walk m a.hd (a.elemAt sz) (a.core.size + 1) p
  let q ← b.first m
  let y ← walk m b.hd (b.elemAt sz) (b.core.size + 1) q
  .ok (decide (x.Perm y))

end OTable

variable {hash : K → Nat} {sz : Int} {m : Mem} {t : OTable k K V} {l : List (Elem k K V)} {o : List Nat}

/-- The address of the element at a position of the sequence. -/
theorem nth_getElem (h : Rep hash sz m t l o) {n : Nat} (hn : n < o.length) : t.nth m n = .ok (t.addr sz o[n]) := by
  rw [nth_ok h (by rw [← h.length]; omega), List.drop_eq_getElem_cons hn]
  rfl

theorem find_ok (h : Rep hash sz m t l o) (j : Fin k) (x : K) :
    t.find hash sz j x = .ok (match idxOf l j x with
      | some i => t.addr sz i
      | none => t.hd) := by
  unfold OTable.find
  obtain ⟨r, e⟩ := Dense.findNode_ok h.core j x
  rw [e, bind_ok]
  cases idxOf l j x <;> rfl

theorem addr_ne (h : Rep hash sz m t l o) {i : Nat} (hi : i < l.length) : t.addr sz i ≠ t.hd :=
  fun e => h.hdr (e ▸ h.addr_slots (h.mem hi))

/-- Where the element of an array position is in the sequence. -/
theorem pos_of (h : Rep hash sz m t l o) {i : Nat} (hi : i < l.length) :
    ∃ n, ∃ hn : n < o.length, o[n] = i ∧ (seq l o)[n]? = some l[i] := by
  obtain ⟨n, hn, e⟩ := List.getElem_of_mem (h.mem hi)
  refine ⟨n, hn, e, ?_⟩
  rw [seq_getElem? (fun i hi => h.lt hi), List.getElem?_eq_getElem hn, Option.bind_some, e, List.getElem?_eq_getElem hi]

theorem write_ok (hsz : 0 < sz) (h : Rep hash sz m t l o) {n : Nat} (hn : n < o.length) {e : Elem k K V} (he : (seq l o)[n]? = some e) (v : V) :
    ∃ t', t.write sz (t.addr sz o[n]) v = .ok t' ∧ Rep hash sz m t' (l.set o[n] (e.1, v)) o ∧
      seq (l.set o[n] (e.1, v)) o = (seq l o).set n (e.1, v) := by
  have hi := h.lt (List.getElem_mem hn)
  obtain ⟨x, hr, hx, e1⟩ := h.core.toArr.read hi
  have hlt : ∀ i ∈ o, i < l.length := fun i hi => h.lt hi
  have hel : l[o[n]] = e := by
    rw [seq_getElem? hlt, List.getElem?_eq_getElem hn, Option.bind_some, List.getElem?_eq_getElem hi] at he
    exact Option.some.inj he
  have hk : x.key = e.1 := by rw [← hel, ← e1]
  have hI := h.core.setVal hx v
  refine ⟨{ t with core := { t.core with node := upd t.core.node o[n] (some { x with val := v }) } }, ?_,
    ⟨by rw [← hk]; exact hI, by rw [List.length_set]; exact h.perm, h.ring, h.live, h.hdr⟩, ?_⟩
  · unfold OTable.write
    rw [slotOf_ok hsz (h.lt_cap hi)]
    simp only
    rw [hr, bind_ok]
  · have hlt' : ∀ i ∈ o, i < (l.set o[n] (e.1, v)).length := fun i hi => by rw [List.length_set]; exact h.lt hi
    apply List.ext_getElem?
    intro y
    rw [seq_getElem? hlt', List.getElem?_set, seq_getElem? hlt, seq_length h.perm]
    by_cases hy : y < o.length
    · rw [List.getElem?_eq_getElem hy, Option.bind_some, Option.bind_some, List.getElem?_set]
      by_cases q : n = y
      · subst q
        rw [if_pos rfl, if_pos hi, if_pos rfl, if_pos hn]
      · rw [if_neg (fun g => q ((List.Nodup.getElem_inj_iff h.nodup).mp g)), if_neg q]
    · rw [List.getElem?_eq_none (by omega), Option.bind_none, Option.bind_none]
      by_cases q : n = y
      · omega
      · rw [if_neg q]

end Tpp.ODense

namespace Tpp.OSwiss

open Tpp.Swiss (Node Ev Table Inv)
open Tpp.Ordered

variable {K V : Type} [DecidableEq K]

namespace OTable

/-- `find` (swiss_table.hpp 935-938, 1175-1188): the address of the node, or of the header link if there is none. -/
def find (c : Cfg K) (t : OTable K V) (k : K) : M Int := do
  let pos ← t.core.findNode c.isa k (c.hash k)
  .ok (t.iterAt c.sz pos)

/-- `at` (sparse_map.hpp 1096-1105, 1152-1159; stable_map.hpp 1190-1199, 1246-1253). -/
def at_ (c : Cfg K) (t : OTable K V) (k : K) : M (Swiss.Table.AtResult V) := do
  let a ← t.find c k
  if a = t.hd then .ok .outOfRange
  else do
    let e ← t.elemAt c.sz a
    .ok (.value e.2)

/-- `it->second = v` (table_common.hpp 562-566, 679-680), also for the references `at` and `operator[]` return. -/
def write (c : Cfg K) (t : OTable K V) (a : Int) (v : V) : M (OTable K V) :=
  match t.slotOf c.sz a with
  | none => .error .dangling
  | some i => do
    let n ← t.core.readNode i
    .ok { t with core := { t.core with node := upd t.core.node i (some { n with val := v }) } }

/-- `operator==` (sparse_map.hpp 1138-1141, sparse_set.hpp 588-591, stable_map.hpp 1232-1235, stable_set.hpp 653-656). -/
def eq [DecidableEq V] (c : Cfg K) (m : Mem) (a b : OTable K V) : M Bool := do
  let p ← a.first m
  let x ← walk m a.hd (a.elemAt c.sz) (a.core.size + 1) p
  let q ← b.first m
  let y ← walk m b.hd (b.elemAt c.sz) (b.core.size + 1) q
  .ok (decide (x.Perm y))

end OTable

variable {c : Cfg K} {m : Mem} {t : OTable K V} {o : List Nat}

theorem nth_getElem (h : Rep c m t o) {n : Nat} (hn : n < o.length) : t.nth m n = .ok (t.addr c.sz o[n]) := by
  rw [nth_ok h (by rw [← h.length]; omega), List.drop_eq_getElem_cons hn]
  rfl

theorem find_ok (h : Rep c m t o) (k : K) :
    (∃ n, ∃ hn : n < o.length, ∃ x, t.core.node o[n] = some x ∧ x.key = k ∧ t.find c k = .ok (t.addr c.sz o[n]) ∧
      (seqOf t.core.node o)[n]? = some (x.key, x.val) ∧ Spec.find (seqOf t.core.node o) k = some (x.key, x.val)) ∨
    (Spec.find (seqOf t.core.node o) k = none ∧ t.find c k = .ok t.hd) := by
  rcases h.cases k with ⟨i, x, hio, hi, hx, hk, hf, hs⟩ | ⟨_, hf, hs⟩
  · obtain ⟨n, hn, e⟩ := List.getElem_of_mem hio
    subst e
    refine Or.inl ⟨n, hn, x, hx, hk, ?_, ?_, hs⟩
    · unfold OTable.find OTable.iterAt
      rw [hf, bind_ok, if_pos hi]
    · rw [seqOf_getElem? h.link.isSome, List.getElem?_eq_getElem hn, Option.bind_some, hx]
      rfl
  · refine Or.inr ⟨hs, ?_⟩
    unfold OTable.find OTable.iterAt
    rw [hf, bind_ok, if_neg (by omega)]

theorem write_ok (hsz : 0 < c.sz) (h : Rep c m t o) {n : Nat} (hn : n < o.length) {e : K × V} (he : (seqOf t.core.node o)[n]? = some e)
    (v : V) :
    ∃ t', t.write c (t.addr c.sz o[n]) v = .ok t' ∧ Rep c m t' o ∧ seqOf t'.core.node o = (seqOf t.core.node o).set n (e.1, v) := by
  have hio := List.getElem_mem hn
  have hi := h.link.lt hio
  obtain ⟨x, hx⟩ := h.link.get hio
  have hel : (x.key, x.val) = e := by
    rw [seqOf_getElem? h.link.isSome, List.getElem?_eq_getElem hn, Option.bind_some, hx] at he
    exact Option.some.inj he
  have hsome : ∀ j, (upd t.core.node o[n] (some { x with val := v }) j).isSome = (t.core.node j).isSome := by
    intro j
    by_cases q : j = o[n]
    · rw [q, upd_same, hx]; rfl
    · rw [upd_ne _ _ q]
  refine ⟨{ t with core := { t.core with node := upd t.core.node o[n] (some { x with val := v }) } }, ?_,
    ⟨Swiss.setVal_inv h.core hi hx v, ⟨fun j => ?_, h.link.ring, h.link.live, h.link.hdr⟩⟩, ?_⟩
  · unfold OTable.write
    rw [slotOf_ok hsz hi]
    simp only
    rw [Swiss.readNode_some hi hx, bind_ok]
  · rw [h.link.occ j]
    show _ ↔ j < t.core.cap ∧ _
    rw [← hsome j]
  · have hs' : ∀ j ∈ o, (upd t.core.node o[n] (some { x with val := v }) j).isSome := fun j hj => by rw [hsome j]; exact h.link.isSome j hj
    show seqOf (upd t.core.node o[n] (some { x with val := v })) o = _
    apply List.ext_getElem?
    intro y
    rw [seqOf_getElem? hs', List.getElem?_set, seqOf_getElem? h.link.isSome, seqOf_length h.link.isSome]
    by_cases hy : y < o.length
    · rw [List.getElem?_eq_getElem hy, Option.bind_some, Option.bind_some]
      by_cases q : n = y
      · subst q
        rw [upd_same, if_pos rfl, if_pos hn, ← hel]
        rfl
      · rw [upd_ne _ _ (fun g => q ((List.Nodup.getElem_inj_iff h.link.nodup).mp g.symm)), if_neg q]
    · rw [List.getElem?_eq_none (by omega), Option.bind_none, Option.bind_none]
      by_cases q : n = y
      · omega
      · rw [if_neg q]

end Tpp.OSwiss
