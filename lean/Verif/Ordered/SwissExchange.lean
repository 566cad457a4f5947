import Verif.Ordered.SwissIter

/-!
# The exchange of two linked nodes in ordered sparse and stable containers (swiss_table.hpp 1438)
-/

set_option linter.unusedSectionVars false

namespace Tpp.OSwiss

open Tpp.Swiss (Node Ev Table Inv)
open Tpp.Ordered

variable {K V : Type} [DecidableEq K] {c : Cfg K}

/-- `swap(nodes[i], nodes[j])` in `rehash_impl` (swiss_table.hpp 1433-1441; table_common.hpp 292-298, 491-497): the elements, the stored
hashes and the raw links of two occupied slots are exchanged.  The control byte written there does not matter to iteration. -/
def OTable.exchange (c : Cfg K) (m : Mem) (t : OTable K V) (i j : Nat) : M (Mem × OTable K V) := do
  let x ← t.core.readNode i
  let y ← t.core.readNode j
  let m ← m.rawSwap (t.addr c.sz i) (t.addr c.sz j)
  .ok (m, { t with core := { t.core with node := upd (upd t.core.node i (some y)) j (some x) } })

/-- What a walk that ends has seen on the way along a path. -/
theorem walk_prefix {E : Type} {m : Mem} {hd : Int} {rd : Int → M E} {val : Int → E} {b : Int} {v : E} (hb : b ≠ hd) (hv : rd b = .ok v) :
    ∀ {as : List Int} {p : Int} {fuel : Nat} {l : List E}, Path m.nxt p as b → (∀ x ∈ as, x ≠ hd ∧ x ∈ m.live ∧ rd x = .ok (val x)) →
      walk m hd rd fuel (m.nxt p) = .ok l → ∃ l', l = as.map val ++ v :: l'
  | [], p, 0, l, _, _, e => by cases e
  | [], p, fuel + 1, l, hp, _, e => by
    unfold Path at hp
    unfold walk at e
    rw [hp, if_neg hb, hv, bind_ok] at e
    obtain ⟨n, _, e⟩ := Dense.bind_eq_ok e
    obtain ⟨l', _, e⟩ := Dense.bind_eq_ok e
    cases e
    exact ⟨l', rfl⟩
  | a :: as, p, 0, l, _, _, e => by cases e
  | a :: as, p, fuel + 1, l, hp, hx, e => by
    unfold Path at hp
    obtain ⟨h1, h2, h3⟩ := hx a (by simp)
    unfold walk at e
    rw [hp.1, if_neg h1, h3, bind_ok, Mem.nextOf_ok h2, bind_ok] at e
    obtain ⟨l1, e1, e⟩ := Dense.bind_eq_ok e
    cases e
    obtain ⟨l', rfl⟩ := walk_prefix hb hv hp.2 (fun x hx' => hx x (List.mem_cons_of_mem _ hx')) e1
    exact ⟨l', rfl⟩

/-- The exchange does not fail, and only touches the two nodes. -/
theorem exchange_ok {m : Mem} {t : OTable K V} {o : List Nat} (h : Rep c m t o) {i j : Nat} {x y : Node K V} (hi : i < t.core.cap)
    (hj : j < t.core.cap) (hx : t.core.node i = some x) (hy : t.core.node j = some y) :
    ∃ m', t.exchange c m i j = .ok (m', { t with core := { t.core with node := upd (upd t.core.node i (some y)) j (some x) } }) ∧
      m'.live = m.live ∧ ∀ a, a ≠ t.addr c.sz i → a ≠ t.addr c.sz j → m'.link a = m.link a := by
  have hli : t.addr c.sz i ∈ m.live := h.link.live _ (mem_slots.mpr ⟨i, hi, rfl⟩)
  have hlj : t.addr c.sz j ∈ m.live := h.link.live _ (mem_slots.mpr ⟨j, hj, rfl⟩)
  unfold OTable.exchange Mem.rawSwap
  rw [Swiss.readNode_some hi hx, bind_ok, Swiss.readNode_some hj hy, bind_ok, Mem.read_ok hli, bind_ok, Mem.read_ok hlj, bind_ok,
    Mem.write_ok hli, bind_ok]
  simp only [Mem.write, hlj, if_true, bind_ok]
  refine ⟨_, rfl, rfl, ?_⟩
  intro a h1 h2
  simp only
  rw [if_neg h2, if_neg h1]

/-- Iteration after the exchange: where the first of the two elements was, the other one is seen. -/
theorem exchange_walk (hsz : 0 < c.sz) {m m' : Mem} {t t' : OTable K V} {o1 o2 : List Nat} {p r : Nat} {y : Node K V}
    (h : Rep c m t (o1 ++ p :: o2)) (hr : r ∈ o2) (hy : t.core.node r = some y)
    (hcap : t'.core.cap = t.core.cap) (hbase : t'.base = t.base) (hhd : t'.hd = t.hd) (hnp : t'.core.node p = some y)
    (hn : ∀ i, i ≠ p → i ≠ r → t'.core.node i = t.core.node i) (hlive : m'.live = m.live)
    (hlink : ∀ a, a ≠ t.addr c.sz p → a ≠ t.addr c.sz r → m'.link a = m.link a) {fuel : Nat} {l : List (K × V)}
    (e : (do let a ← t'.first m'; walk m' t'.hd (t'.elemAt c.sz) fuel a) = .ok l) :
    ∃ l', l = seqOf t.core.node o1 ++ (y.key, y.val) :: l' := by
  have hnd := h.link.nodup
  have hp : p < t.core.cap := h.link.lt (by simp)
  have haddr : ∀ i, t'.addr c.sz i = t.addr c.sz i := fun i => by unfold OTable.addr; rw [hbase]
  have hring : Ring m t.hd (o1.map (t.addr c.sz) ++ t.addr c.sz p :: o2.map (t.addr c.sz)) := by
    have := h.link.ring
    rwa [List.map_append, List.map_cons] at this
  have hdne : ∀ i, i < t.core.cap → t.hd ≠ t.addr c.sz i := fun i hi q => h.link.hdr (q ▸ mem_slots.mpr ⟨i, hi, rfl⟩)
  have hrc : r < t.core.cap := h.link.lt (by simp [hr])
  have ho1 : ∀ i ∈ o1, i ≠ p ∧ i ≠ r := by
    intro i hi
    have h3 := (List.nodup_append.mp hnd).2.2 i hi
    exact ⟨h3 p (by simp), h3 r (by simp [hr])⟩
  have hpath : Path m'.nxt t.hd (o1.map (t.addr c.sz)) (t.addr c.sz p) := by
    refine (Path.append.mp hring.fwd).1.congr ?_
    intro z hz
    have : m'.link z = m.link z := by
      rcases List.mem_cons.mp hz with rfl | hz
      · exact hlink _ (hdne p hp) (hdne r hrc)
      · obtain ⟨i, hi, rfl⟩ := List.mem_map.mp hz
        exact hlink _ (fun q => (ho1 i hi).1 (addr_inj hsz q)) (fun q => (ho1 i hi).2 (addr_inj hsz q))
    unfold Mem.nxt
    rw [this]
  obtain ⟨a, ea, e⟩ := Dense.bind_eq_ok e
  unfold OTable.first at ea
  rw [hhd, Mem.nextOf_ok (by rw [hlive]; exact hring.live _ (by simp))] at ea
  cases ea
  rw [hhd] at e
  have hval : ∀ i, i < t.core.cap → ∀ n, t'.core.node i = some n → t'.elemAt c.sz (t.addr c.sz i) = .ok (n.key, n.val) := by
    intro i hi n hn
    rw [← haddr i]
    exact elemAt_ok hsz (by rw [hcap]; exact hi) hn
  let val : Int → K × V := fun a => match t'.elemAt c.sz a with | .ok q => q | .error _ => (y.key, y.val)
  obtain ⟨l', hl'⟩ := walk_prefix (val := val) (Ne.symm (hdne p hp)) (hval p hp y hnp) hpath (by
    intro z hz
    obtain ⟨i, hi, rfl⟩ := List.mem_map.mp hz
    have hic : i < t.core.cap := h.link.lt (by simp [hi])
    obtain ⟨n, hn'⟩ := h.link.get (i := i) (by simp [hi])
    refine ⟨Ne.symm (hdne i hic), by rw [hlive]; exact hring.live _ (List.mem_cons_of_mem _ (List.mem_append_left _ (List.mem_map.mpr ⟨i, hi, rfl⟩))), ?_⟩
    have := hval i hic n (by rw [hn i (ho1 i hi).1 (ho1 i hi).2, hn'])
    simp only [val, this]) e
  refine ⟨l', ?_⟩
  rw [hl']
  congr 1
  have hall : ∀ q : List Nat, (∀ i ∈ q, i ∈ o1) → (q.map (t.addr c.sz)).map val = seqOf t.core.node q := by
    intro q
    induction q with
    | nil => intro _; rfl
    | cons i q ih =>
      intro hq
      obtain ⟨n, hn'⟩ := h.link.get (i := i) (by simp [hq i (by simp)])
      have hi := hq i (by simp)
      rw [List.map_cons, List.map_cons, seqOf_cons hn', ih (fun j hj => hq j (List.mem_cons_of_mem _ hj))]
      have := hval i (h.link.lt (by simp [hi])) n (by rw [hn i (ho1 i hi).1 (ho1 i hi).2, hn'])
      simp only [val, this]
  exact hall o1 (fun _ q => q)

end Tpp.OSwiss
