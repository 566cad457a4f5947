import Mathlib.Tactic.Linarith
import Verif.Dense.Average
import Verif.Dense.CallCount
import Verif.Dense.Erase

/-!
# How many chain links an erasure from a dense container follows
-/

set_option linter.unusedSectionVars false

namespace Tpp.Dense

variable {k : Nat} {K V : Type} [DecidableEq K]

namespace Table

/-- `find_chain_ptr` (dense_table.hpp 528-533), with the number of nodes it passes. -/
def findChainPtrT (t : Table k K V) (j : Fin k) (pos : Nat) : Nat → Ref → M (Ref × Nat)
  | 0, _ => .error .diverge
  | fuel + 1, r => do
    match ← t.readRef j r with
    | none => .ok (r, 0)
    | some i =>
      if i = pos then .ok (r, 0)
      else do
        let q ← t.findChainPtrT j pos fuel (.next i)
        .ok (q.1, q.2 + 1)

/-- The chain references of a node (dense_table.hpp 731, 750), with the number of nodes passed. -/
def slicesT (t : Table k K V) (n : Node k K V) (pos : Nat) (js : List (Fin k)) : M (List (Fin k × Ref × Nat)) :=
  js.mapM fun j => do
    let r ← deref (t.getChain (n.hash j))
    let q ← t.findChainPtrT j pos (t.cap + 1) r
    .ok (j, q)

/-- `move_chain` (dense_table.hpp 570-576), with the number of nodes passed. -/
def moveChainT (t : Table k K V) (src dst : Nat) (j : Fin k) : M (Table k K V × Nat) := do
  let n ← t.readNode src
  let r ← deref (t.getChain (n.hash j))
  let q ← t.findChainPtrT j src (t.cap + 1) r
  match ← t.readRef j q.1 with
  | none => .error .assertFail
  | some _ => do
    let t ← t.writeRef j q.1 (some dst)
    .ok (t, q.2)

/-- `move_chain` for all components (dense_table.hpp 613). -/
def moveChainsT (src dst : Nat) : Table k K V → List (Fin k) → M (Table k K V × Nat)
  | t, [] => .ok (t, 0)
  | t, j :: js => do
    let q ← t.moveChainT src dst j
    let r ← moveChainsT src dst q.1 js
    .ok (r.1, q.2 + r.2)

/-- `erase_node` (dense_table.hpp 594-618) without the order links, with the number of nodes passed. -/
def eraseNodeT (t : Table k K V) (pos : Nat) (slice : List (Fin k × Ref)) : M (Table k K V × Nat) := do
  let t ← slice.foldlM (fun t jr => do
    let n ← t.readNode pos
    t.writeRef jr.1 jr.2 (n.next jr.1)) t
  if t.size = 0 then .error .underflow
  else if pos ≠ t.size - 1 then do
    let q ← moveChainsT (t.size - 1) pos t (slice.map (·.1))
    let last ← q.1.readNode (t.size - 1)
    let _ ← q.1.readNode pos
    let u ← ({ q.1 with node := upd q.1.node pos (some last) } : Table k K V).popNode
    .ok (u, q.2)
  else do
    let u ← t.popNode
    .ok (u, 0)

/-- `erase(const_iterator)` (dense_table.hpp 430-434, 725-734), with the number of nodes passed. -/
def eraseAtT (t : Table k K V) (pos : Nat) : M (Table k K V × Nat × Nat) :=
  if pos = t.size then .ok (t, pos, 0)
  else do
    let n ← t.readNode pos
    let slice ← t.slicesT n pos (List.finRange k)
    let q ← t.eraseNodeT pos (slice.map fun a => (a.1, a.2.1))
    .ok (q.1, pos, (slice.map fun a => a.2.2).sum + q.2)

/-- `do_erase(key)` (dense_table.hpp 740-762), with the number of nodes visited and passed. -/
def eraseT (hash : K → Nat) (t : Table k K V) (j : Fin k) (x : K) : M (Table k K V × (Nat × Bool) × Nat) := do
  let r ← deref (t.getChain (hash x))
  let ((i, r), vis, _) ← t.findLoopT j x (hash x) (t.cap + 1) r
  match i with
  | none => .ok (t, (t.size, false), vis.length)
  | some pos =>
    let n ← t.readNode pos
    let rest ← t.slicesT n pos ((List.finRange k).filter (· ≠ j))
    let q ← t.eraseNodeT pos ((j, r) :: rest.map fun a => (a.1, a.2.1))
    .ok (q.1, (pos, true), vis.length + (rest.map fun a => a.2.2).sum + q.2)

end Table

/-! ### Counting changes nothing else -/

theorem findChainPtrT_fst (t : Table k K V) (j : Fin k) (pos : Nat) : ∀ (fuel : Nat) (r : Ref),
    (t.findChainPtrT j pos fuel r).map Prod.fst = t.findChainPtr j pos fuel r := by
  intro fuel
  induction fuel with
  | zero => intro r; rfl
  | succ fuel ih =>
    intro r
    unfold Table.findChainPtrT Table.findChainPtr
    cases t.readRef j r with
    | error e => rfl
    | ok o =>
      simp only [bind_ok]
      cases o with
      | none => rfl
      | some i =>
        simp only
        split
        · rfl
        · rw [← ih (.next i)]
          cases t.findChainPtrT j pos fuel (.next i) <;> rfl

theorem slicesT_fst (t : Table k K V) (n : Node k K V) (pos : Nat) (js : List (Fin k)) :
    (t.slicesT n pos js).map (fun l => l.map fun a => (a.1, a.2.1)) = t.slices n pos js := by
  unfold Table.slicesT Table.slices
  induction js with
  | nil => rfl
  | cons j js ih =>
    rw [List.mapM_cons, List.mapM_cons, ← ih]
    cases Table.deref (t.getChain (n.hash j)) with
    | error e => rfl
    | ok r =>
      simp only [bind_ok]
      rw [← findChainPtrT_fst]
      cases t.findChainPtrT j pos (t.cap + 1) r with
      | error e => rfl
      | ok q =>
        simp only [bind_ok, Except.map]
        generalize (List.mapM _ js : M (List (Fin k × Ref × Nat))) = w
        cases w <;> rfl

theorem moveChainT_fst (t : Table k K V) (src dst : Nat) (j : Fin k) :
    (t.moveChainT src dst j).map Prod.fst = t.moveChain src dst j := by
  unfold Table.moveChainT Table.moveChain
  cases t.readNode src with
  | error e => rfl
  | ok n =>
    simp only [bind_ok]
    cases Table.deref (t.getChain (n.hash j)) with
    | error e => rfl
    | ok r =>
      simp only [bind_ok]
      rw [← findChainPtrT_fst]
      cases t.findChainPtrT j src (t.cap + 1) r with
      | error e => rfl
      | ok q =>
        simp only [bind_ok, Except.map]
        cases t.readRef j q.1 with
        | error e => rfl
        | ok o =>
          simp only [bind_ok]
          cases o with
          | none => rfl
          | some i =>
            simp only
            cases t.writeRef j q.1 (some dst) <;> rfl

theorem moveChain_size {t u : Table k K V} {src dst : Nat} {j : Fin k} (e : t.moveChain src dst j = .ok u) : u.size = t.size := by
  unfold Table.moveChain at e
  obtain ⟨n, _, e⟩ := bind_eq_ok e
  obtain ⟨r, _, e⟩ := bind_eq_ok e
  obtain ⟨r', _, e⟩ := bind_eq_ok e
  obtain ⟨o, _, e⟩ := bind_eq_ok e
  cases o with
  | none => cases e
  | some i =>
    simp only at e
    unfold Table.writeRef at e
    cases r' with
    | head b =>
      simp only at e
      split at e
      · cases e; rfl
      · cases e
    | next i =>
      simp only at e
      obtain ⟨m, _, e⟩ := bind_eq_ok e
      cases e
      rfl

theorem moveChainsT_fst (src dst : Nat) : ∀ (js : List (Fin k)) (t : Table k K V), src = t.size - 1 →
    (Table.moveChainsT src dst t js).map Prod.fst = js.foldlM (fun t j => t.moveChain (t.size - 1) dst j) t := by
  intro js
  induction js with
  | nil => intro t _; rfl
  | cons j js ih =>
    intro t hs
    rw [List.foldlM_cons]
    unfold Table.moveChainsT
    rw [← hs]
    have h1 := moveChainT_fst t src dst j
    cases hq : t.moveChainT src dst j with
    | error e =>
      rw [hq] at h1
      rw [← h1]
      rfl
    | ok q =>
      rw [hq] at h1
      simp only [Except.map] at h1
      rw [← h1]
      simp only [bind_ok]
      rw [← ih q.1 (by rw [moveChain_size h1.symm, ← hs])]
      cases Table.moveChainsT src dst q.1 js <;> rfl

theorem eraseNodeT_fst (t : Table k K V) (pos : Nat) (slice : List (Fin k × Ref)) :
    (t.eraseNodeT pos slice).map Prod.fst = t.eraseNode pos slice := by
  unfold Table.eraseNodeT Table.eraseNode
  generalize (slice.foldlM _ t : M (Table k K V)) = w
  cases w with
  | error e => rfl
  | ok t =>
    simp only [bind_ok]
    split
    · rfl
    · split
      · unfold Table.fillHole
        rw [← moveChainsT_fst (t.size - 1) pos _ t rfl]
        cases hm : Table.moveChainsT (t.size - 1) pos t (slice.map (·.1)) with
        | error e => rfl
        | ok q =>
          have hsz : q.1.size = t.size := by
            have h1 := moveChainsT_fst (t.size - 1) pos (slice.map (·.1)) t rfl
            rw [hm] at h1
            simp only [Except.map] at h1
            have : ∀ (js : List (Fin k)) (t u : Table k K V), js.foldlM (fun t j => t.moveChain (t.size - 1) pos j) t = .ok u → u.size = t.size := by
              intro js
              induction js with
              | nil => intro t u e; cases e; rfl
              | cons j js ih =>
                intro t u e
                rw [List.foldlM_cons] at e
                obtain ⟨t1, e1, e⟩ := bind_eq_ok e
                rw [ih _ _ e, moveChain_size e1]
            exact this _ _ _ h1.symm
          simp only [bind_ok, Except.map, hsz]
          cases q.1.readNode (t.size - 1) with
          | error e => rfl
          | ok a =>
            simp only [bind_ok]
            cases q.1.readNode pos with
            | error e => rfl
            | ok b =>
              simp only [bind_ok]
              generalize (Table.popNode _ : M (Table k K V)) = w
              cases w <;> rfl
      · simp only [bind_ok]
        cases t.popNode <;> rfl

theorem eraseAtT_fst (t : Table k K V) (pos : Nat) : (t.eraseAtT pos).map (fun r => (r.1, r.2.1)) = t.eraseAt pos := by
  unfold Table.eraseAtT Table.eraseAt
  split
  · rfl
  · cases t.readNode pos with
    | error e => rfl
    | ok n =>
      simp only [bind_ok]
      rw [← slicesT_fst]
      cases t.slicesT n pos (List.finRange k) with
      | error e => rfl
      | ok s =>
        simp only [bind_ok, Except.map]
        rw [← eraseNodeT_fst]
        cases t.eraseNodeT pos (s.map fun a => (a.1, a.2.1)) <;> rfl

theorem eraseT_fst (hash : K → Nat) (t : Table k K V) (j : Fin k) (x : K) :
    (t.eraseT hash j x).map (fun r => (r.1, r.2.1)) = t.erase hash j x := by
  unfold Table.eraseT Table.erase
  cases Table.deref (t.getChain (hash x)) with
  | error e => rfl
  | ok r =>
    simp only [bind_ok]
    rw [← findLoopT_fst]
    cases t.findLoopT j x (hash x) (t.cap + 1) r with
    | error e => rfl
    | ok q =>
      obtain ⟨⟨i, r'⟩, vis, cmp⟩ := q
      simp only [bind_ok, Except.map]
      cases i with
      | none => rfl
      | some pos =>
        simp only
        cases t.readNode pos with
        | error e => rfl
        | ok n =>
          simp only [bind_ok]
          rw [← slicesT_fst]
          cases t.slicesT n pos ((List.finRange k).filter (· ≠ j)) with
          | error e => rfl
          | ok s =>
            simp only [bind_ok, Except.map]
            rw [← eraseNodeT_fst]
            cases t.eraseNodeT pos ((j, r') :: s.map fun a => (a.1, a.2.1)) <;> rfl

/-! ### Bounds -/

/-- A chain is not longer than its bucket is crowded. -/
theorem chain_crowd {hash : K → Nat} {t : Table k K V} {l : List (Elem k K V)} (ha : Arr hash t l) {j : Fin k} {b : Nat} {c : List Nat}
    (hn : c.Nodup) (hc : ∀ i ∈ c, i < l.length ∧ ∃ m, t.node i = some m ∧ m.hash j % t.bc = b) : c.length ≤ crowd hash t.bc j l b := by
  have hsub : c ⊆ (List.range l.length).filter fun i => l[i]?.any fun e => decide (hash (e.1 j) % t.bc = b) := by
    intro i hi
    obtain ⟨h1, m, hm, h2⟩ := hc i hi
    rw [List.mem_filter, List.mem_range]
    refine ⟨h1, ?_⟩
    rw [ha.node_elem hm, Option.any_some, decide_eq_true_eq]
    rw [← ha.hashed i m hm j]
    exact h2
  have := (hn.subperm hsub).length_le
  rw [← List.countP_eq_length_filter, countP_range] at this
  exact this

theorem findChainPtrT_ok {t : Table k K V} {j : Fin k} {pos : Nat} : ∀ {fuel : Nat} {r : Ref} {x y : List Nat},
    Path (t.cell j) r (x ++ pos :: y) → pos ∉ x → t.Valid r → (∀ i ∈ x, t.Valid (.next i)) → x.length < fuel →
    t.findChainPtrT j pos fuel r = .ok (endRef r x, x.length) := by
  intro fuel
  induction fuel with
  | zero => intro r x y _ _ _ _ h; omega
  | succ fuel ih =>
    intro r x y hp hx hr hv hl
    unfold Table.findChainPtrT
    rw [readRef_ok j hr, bind_ok]
    cases x with
    | nil =>
      rw [show t.cell j r = some pos from hp.1]
      simp only [if_true]
      rfl
    | cons i x =>
      rw [show t.cell j r = some i from hp.1]
      simp only
      rw [if_neg (fun e : i = pos => hx (e ▸ List.mem_cons_self))]
      rw [ih hp.2 (fun h => hx (List.mem_cons_of_mem _ h)) (hv i List.mem_cons_self)
        (fun i' hi => hv i' (List.mem_cons_of_mem _ hi)) (by simp only [List.length_cons] at hl; omega)]
      rfl

/-- `find_chain_ptr` passes only nodes of the bucket, and not the one it looks for. -/
theorem findRefT {hash : K → Nat} {t : Table k K V} {l : List (Elem k K V)} (ha : Arr hash t l) (hb : 0 < t.bc) {j : Fin k}
    {S : Nat → Prop} (hS : ∀ i, S i → i < l.length) (hch : Chained t j S) {pos : Nat} (hp : S pos) {n : Node k K V}
    (hn : t.node pos = some n) :
    ∃ r d, t.findChainPtrT j pos (t.cap + 1) (.head (n.hash j % t.bc)) = .ok (r, d) ∧ d + 1 ≤ crowd hash t.bc j l (n.hash j % t.bc) := by
  obtain ⟨c, h1, h2, h3⟩ := hch (n.hash j % t.bc) (Nat.mod_lt _ hb)
  have hmem : pos ∈ c := (h3 pos).mpr ⟨hp, n, hn, rfl⟩
  obtain ⟨x, y, e⟩ := List.append_of_mem hmem
  subst e
  have hlt : ∀ i ∈ x ++ pos :: y, i < l.length := fun i hi => hS i ((h3 i).mp hi).1
  have hlen := chain_crowd ha h2 (fun i hi => ⟨hlt i hi, ((h3 i).mp hi).2⟩)
  rw [List.length_append, List.length_cons] at hlen
  refine ⟨_, x.length, findChainPtrT_ok h1 (not_mem_of_nodup h2) (Nat.mod_lt _ hb)
    (fun i hi => ha.valid (hlt i (List.mem_append_left _ hi))) ?_, by omega⟩
  have := Chained.length_le ha h2 hlt
  rw [List.length_append] at this
  omega

theorem slicesT_le {hash : K → Nat} {t : Table k K V} {l : List (Elem k K V)} (h : Inv hash t l) (hb : 0 < t.bc) {pos : Nat}
    {n : Node k K V} (hn : t.node pos = some n) (js : List (Fin k)) :
    ∃ s, t.slicesT n pos js = .ok s ∧
      (s.map fun a => a.2.2).sum + js.length ≤ (js.map fun j => crowd hash t.bc j l (n.hash j % t.bc)).sum := by
  have := fun j => findRefT h.toArr hb (fun i hi => hi) (h.chained j) (h.toArr.node_lt hn) hn
  choose r d hr1 hr2 using this
  refine ⟨js.map fun j => (j, r j, d j), ?_, ?_⟩
  · unfold Table.slicesT
    apply mapM_ok
    intro j _
    rw [getChain_pos hb]
    unfold Table.deref
    simp only [bind_ok]
    rw [hr1 j, bind_ok]
  · induction js with
    | nil => simp
    | cons j js ih =>
      have := hr2 j
      simp only [List.map_cons, List.sum_cons, List.length_cons] at ih ⊢
      omega

/-- The links followed when the last node is moved. -/
theorem moveChainsT_le {hash : K → Nat} {t : Table k K V} {l : List (Elem k K V)} (ha : Arr hash t l) (hb : 0 < t.bc)
    {S : Nat → Prop} (hS : ∀ i, S i → i < l.length) {src dst : Nat} {n : Node k K V} (hn : t.node src = some n)
    (hsrc : S src) (hch : ∀ j, Chained t j S) : ∀ (js : List (Fin k)), js.Nodup → ∀ t1 : Table k K V, t.SameBut t1 →
    (∀ j ∈ js, t1.cell j = t.cell j) → ∃ q, Table.moveChainsT src dst t1 js = .ok q ∧
      q.2 + js.length ≤ (js.map fun j => crowd hash t.bc j l (n.hash j % t.bc)).sum := by
  intro js
  induction js with
  | nil => intro _ t1 _ _; exact ⟨_, rfl, by simp⟩
  | cons j js ih =>
    intro hnd t1 hs hc
    rw [List.nodup_cons] at hnd
    obtain ⟨n', hn', _, _, e3⟩ := SameBut.node_some hs hn
    have ha1 := ha.sameBut hs
    have hb1 : 0 < t1.bc := hs.bc ▸ hb
    have hch1 := (hch j).congr hs (hc j List.mem_cons_self)
    obtain ⟨r, hr, t2, e, s2, c2, f2⟩ := moveChain_ok ha1 hb1 hS hn' hsrc hch1 (dst := dst)
    obtain ⟨r', d, e', hd⟩ := findRefT ha1 hb1 hS hch1 hsrc hn'
    have hq : t1.moveChainT src dst j = .ok (t2, d) := by
      have h1 := moveChainT_fst t1 src dst j
      rw [e] at h1
      cases hq : t1.moveChainT src dst j with
      | error x => rw [hq] at h1; cases h1
      | ok q =>
        rw [hq] at h1
        simp only [Except.map, Except.ok.injEq] at h1
        have h2 : q.2 = d := by
          unfold Table.moveChainT at hq
          obtain ⟨n'', hr'', hq⟩ := bind_eq_ok hq
          rw [readNode_ok (ha1.valid (hS _ hsrc)).1 hn'] at hr''
          cases hr''
          rw [getChain_pos hb1] at hq
          unfold Table.deref at hq
          simp only [bind_ok] at hq
          rw [e', bind_ok] at hq
          obtain ⟨o, _, hq⟩ := bind_eq_ok hq
          cases o with
          | none => cases hq
          | some i =>
            simp only at hq
            obtain ⟨u, _, hq⟩ := bind_eq_ok hq
            cases hq
            rfl
        rw [← h1, ← h2]
    obtain ⟨q, g1, g2⟩ := ih hnd.2 t2 (hs.trans s2) (by
      intro j' hj'
      rw [f2 j' (fun q => hnd.1 (q ▸ hj')), hc j' (List.mem_cons_of_mem _ hj')])
    refine ⟨(q.1, d + q.2), ?_, ?_⟩
    · simp only [Table.moveChainsT, hq, bind_ok, g1]
    · rw [e3, hs.bc] at hd
      simp only [List.map_cons, List.sum_cons, List.length_cons]
      omega

theorem eraseNodeT_le {hash : K → Nat} {t : Table k K V} {l : List (Elem k K V)} (h : Inv hash t l) {pos : Nat}
    {n : Node k K V} (hn : t.node pos = some n) {slice : List (Fin k × Ref)} (hnd : (slice.map (·.1)).Nodup)
    (hall : ∀ j, j ∈ slice.map (·.1)) (hsl : ∀ jr ∈ slice, RefTo t (· < l.length) n pos jr.1 jr.2) {z : Elem k K V}
    (hz : l.getLast? = some z) :
    ∃ q, t.eraseNodeT pos slice = .ok q ∧ (pos + 1 = l.length → q.2 = 0) ∧
      (pos + 1 ≠ l.length → q.2 + slice.length ≤ ((slice.map (·.1)).map fun j => crowd hash t.bc j l (hash (z.1 j) % t.bc)).sum) := by
  obtain ⟨t', e, _⟩ := eraseNode_ok h hn hnd hall hsl
  have hf := eraseNodeT_fst t pos slice
  rw [e] at hf
  cases hq : t.eraseNodeT pos slice with
  | error x => rw [hq] at hf; cases hf
  | ok q =>
    refine ⟨q, rfl, ?_⟩
    have hp := h.toArr.node_lt hn
    have hb : 0 < t.bc := by
      rcases Nat.eq_zero_or_pos t.bc with e | e
      · rw [h.empty e] at hp; simp at hp
      · exact e
    have hsz := h.size
    have hle := h.le_cap
    obtain ⟨t1, e1, s1, c1, _⟩ := fold_components (comp := fun a : Fin k × Ref => a.1)
      (step := fun (t : Table k K V) (jr : Fin k × Ref) => do
        let n ← t.readNode pos
        t.writeRef jr.1 jr.2 (n.next jr.1))
      (F := fun a => setc (t.cell a.1) a.2 (t.cell a.1 (.next pos))) (t := t) (as := slice) hnd
      (by
        intro t1 a ha hs hc
        obtain ⟨n1, hn1, _⟩ := SameBut.node_some hs hn
        have hv : t1.Valid a.2 := hs.valid ((hsl a ha).valid h.toArr hb (fun i hi => hi))
        obtain ⟨t2, e, s, c, f⟩ := writeRef_ok a.1 (n1.next a.1) hv
        refine ⟨t2, ?_, s, ?_, f⟩
        · rw [readNode_ok (by rw [hs.cap]; omega) hn1, bind_ok]; exact e
        · rw [c, hc]
          congr 1
          rw [← hc]
          unfold Table.cell
          simp only
          rw [hn1]
          rfl)
    have a1 : Arr hash t1 l := h.toArr.sameBut s1
    have hb1 : 0 < t1.bc := by rw [s1.bc]; exact hb
    have ch1 : ∀ j, Chained t1 j (fun i => i < l.length ∧ i ≠ pos) := by
      intro j
      obtain ⟨a, ha, e⟩ := List.mem_map.mp (hall j)
      subst e
      exact (h.chained a.1).unlink hn (hsl a ha) s1 (c1 a ha)
    unfold Table.eraseNodeT at hq
    rw [e1, bind_ok, if_neg (by rw [s1.size]; omega)] at hq
    have hsz1 : t1.size = l.length := a1.size
    constructor
    · intro hpl
      rw [if_neg (by rw [hsz1]; omega)] at hq
      obtain ⟨u, _, hq⟩ := bind_eq_ok hq
      cases hq
      rfl
    · intro hpl
      rw [if_pos (by rw [hsz1]; omega)] at hq
      obtain ⟨ne, hne, hnee⟩ := a1.node_some (i := l.length - 1) (by omega)
      obtain ⟨w, g1, g2⟩ := moveChainsT_le a1 hb1 (S := fun i => i < l.length ∧ i ≠ pos) (fun i hi => hi.1) (dst := pos) hne
        ⟨by omega, by omega⟩ ch1 (slice.map (·.1)) hnd t1 (Table.SameBut.refl t1) (fun _ _ => rfl)
      rw [hsz1, g1, bind_ok] at hq
      obtain ⟨_, _, hq⟩ := bind_eq_ok hq
      obtain ⟨_, _, hq⟩ := bind_eq_ok hq
      obtain ⟨_, _, hq⟩ := bind_eq_ok hq
      cases hq
      rw [List.length_map] at g2
      refine Nat.le_trans g2 (Nat.le_of_eq ?_)
      congr 1
      apply List.map_congr_left
      intro j _
      have hze := a1.node_elem hne
      rw [List.getLast?_eq_getElem?, hze] at hz
      cases hz
      rw [s1.bc, a1.hashed _ _ hne j]

/-- The elements in the buckets of an element, all components together. -/
def crowds (hash : K → Nat) (t : Table k K V) (l : List (Elem k K V)) (e : Elem k K V) : Nat :=
  ((List.finRange k).map fun j => crowd hash t.bc j l (hash (e.1 j) % t.bc)).sum

theorem eraseAtT_le {hash : K → Nat} {t : Table k K V} {l : List (Elem k K V)} (h : Inv hash t l) {pos : Nat} {e z : Elem k K V}
    (he : l[pos]? = some e) (hz : l.getLast? = some z) :
    ∃ t' N, t.eraseAtT pos = .ok (t', pos, N) ∧ (pos + 1 = l.length → N + k ≤ crowds hash t l e) ∧
      (pos + 1 ≠ l.length → N + 2 * k ≤ crowds hash t l e + crowds hash t l z) := by
  have hp : pos < l.length := (List.getElem?_eq_some_iff.mp he).1
  have hb : 0 < t.bc := by
    rcases Nat.eq_zero_or_pos t.bc with e | e
    · rw [h.empty e] at hp; simp at hp
    · exact e
  obtain ⟨n, hr, hn, _⟩ := h.toArr.read hp
  obtain ⟨r, e1, h1⟩ := slices_ok h hb hn (List.finRange k)
  obtain ⟨s, es, hs⟩ := slicesT_le h hb hn (List.finRange k)
  have hsl := slicesT_fst t n pos (List.finRange k)
  rw [es, e1] at hsl
  simp only [Except.map, Except.ok.injEq] at hsl
  obtain ⟨q, hq, q1, q2⟩ := eraseNodeT_le h hn (slice := (List.finRange k).map fun j => (j, r j))
    (by rw [List.map_map]; exact (List.map_id _).symm ▸ List.nodup_finRange k)
    (by intro j; rw [List.map_map]; exact List.mem_map.mpr ⟨j, List.mem_finRange j, rfl⟩)
    (by
      intro jr hjr
      obtain ⟨j, _, rfl⟩ := List.mem_map.mp hjr
      exact h1 j) hz
  have hel := h.toArr.node_elem hn
  rw [he] at hel
  cases hel
  have hcr : ((List.finRange k).map fun j => crowd hash t.bc j l (n.hash j % t.bc)).sum = crowds hash t l (n.key, n.val) := by
    unfold crowds
    congr 1
    apply List.map_congr_left
    intro j _
    rw [h.hashed pos n hn j]
  rw [hcr, List.length_finRange] at hs
  refine ⟨q.1, (s.map fun a => a.2.2).sum + q.2, ?_, ?_, ?_⟩
  · unfold Table.eraseAtT
    rw [if_neg (by have := h.size; omega), hr, bind_ok, es, bind_ok, hsl, hq, bind_ok]
  · intro hpl
    rw [q1 hpl]
    exact hs
  · intro hpl
    have hq2 := q2 hpl
    have : q.2 + k ≤ crowds hash t l z := by simpa [crowds, List.map_map, Function.comp_def] using hq2
    omega

theorem sum_without (js : List (Fin k)) (f : Fin k → Nat) {j : Fin k} (hj : j ∈ js) (hnd : js.Nodup) :
    f j + ((js.filter (· ≠ j)).map f).sum = (js.map f).sum := by
  induction js with
  | nil => cases hj
  | cons a js ih =>
    rw [List.nodup_cons] at hnd
    by_cases e : a = j
    · subst e
      have : js.filter (· ≠ a) = js := by
        rw [List.filter_eq_self]
        intro b hb
        simpa using fun q : b = a => hnd.1 (q ▸ hb)
      rw [List.filter_cons_of_neg (by simp), this, List.map_cons, List.sum_cons]
    · have := ih ((List.mem_cons.mp hj).resolve_left (fun q => e q.symm)) hnd.2
      rw [List.filter_cons_of_pos (by simpa using e)]
      simp only [List.map_cons, List.sum_cons]
      omega

/-- Erasure by key. -/
theorem eraseT_le {hash : K → Nat} {t : Table k K V} {l : List (Elem k K V)} (h : Inv hash t l) (hb : 0 < t.bc) (j : Fin k) (x : K) :
    ∃ t' r N, t.eraseT hash j x = .ok (t', r, N) ∧
      (idxOf l j x = none → N = crowd hash t.bc j l (hash x % t.bc)) ∧
      ∀ i e z, idxOf l j x = some i → l[i]? = some e → l.getLast? = some z →
        (i + 1 = l.length → N + k ≤ crowds hash t l e + 1) ∧
        (i + 1 ≠ l.length → N + 2 * k ≤ crowds hash t l e + crowds hash t l z + 1) := by
  have hf := eraseT_fst hash t j x
  obtain ⟨rr, he, _, _, _, hnone, hsome⟩ := erase_ok h hb j x
  rw [he] at hf
  obtain ⟨c, h1, h2, h3, h4, h5, h6⟩ := h.chain j (Nat.mod_lt (hash x) hb)
  obtain ⟨o, r', vis, cmp, ef, g1, _, _, _, _, g6⟩ := findLoopT_spec (x := x) (h := hash x) h1
      (show t.Valid (.head _) from Nat.mod_lt _ hb) h4 h3
  have ef' : t.findLoop j x (hash x) (t.cap + 1) (.head (hash x % t.bc)) = .ok (o, r') := by
    rw [← findLoopT_fst, ef]
    rfl
  have hvis : vis.length ≤ crowd hash t.bc j l (hash x % t.bc) := by
    rw [← h6]
    exact g1.length_le
  have hd : Table.deref (t.getChain (hash x)) = .ok (.head (hash x % t.bc)) := by
    rw [getChain_pos hb]
    rfl
  cases o with
  | none =>
    have hn : idxOf l j x = none := by
      cases hi : idxOf l j x with
      | none => rfl
      | some i =>
        exfalso
        have := (hsome i hi).1
        unfold Table.erase at he
        rw [hd, bind_ok, ef', bind_ok] at he
        simp only at he
        cases he
        cases this
    refine ⟨t, (t.size, false), vis.length, ?_, fun _ => ?_, fun i e z hi => by rw [hn] at hi; cases hi⟩
    · unfold Table.eraseT
      rw [hd, bind_ok, ef, bind_ok]
    · rw [g6 rfl, h6]
  | some pos =>
    unfold Table.eraseT at hf ⊢
    rw [hd, bind_ok, ef, bind_ok] at hf ⊢
    simp only at hf ⊢
    cases hrn : t.readNode pos with
    | error e => rw [hrn] at hf; cases hf
    | ok n =>
      obtain ⟨hpc, hn⟩ : pos < t.cap ∧ t.node pos = some n := by
        unfold Table.readNode at hrn
        split at hrn
        · rename_i hlt
          cases hq : t.node pos with
          | none => rw [hq] at hrn; cases hrn
          | some m => rw [hq] at hrn; cases hrn; exact ⟨hlt, rfl⟩
        · cases hrn
      have hp := h.toArr.node_lt hn
      obtain ⟨c', k0, k1, k2, k3⟩ := findLoop_spec h.toArr (h.chained j) hb x
      obtain ⟨z, hz⟩ : ∃ z, l.getLast? = some z := ⟨_, getLast?_idx (by omega)⟩
      rcases k3 with ⟨a, i, b, n', ec, ia, m1, m2, m3, m4⟩ | ⟨m1, m2⟩
      · rw [m4] at ef'
        simp only [Except.ok.injEq, Prod.mk.injEq, Option.some.injEq] at ef'
        obtain ⟨ei, er⟩ := ef'
        subst ei
        rw [hn] at m2
        cases m2
        have hhash : n.hash j = hash x := by rw [h.hashed i n hn j, m3]
        have hidx : idxOf l j x = some i := by
          have := idxOf_of_uniq (h.uniq j) (h.toArr.node_elem hn)
          rw [show (n.key, n.val).1 j = x from m3] at this
          exact this
        obtain ⟨r, e1, hr1⟩ := slices_ok h hb hn ((List.finRange k).filter (· ≠ j))
        obtain ⟨s, es, hs⟩ := slicesT_le h hb hn ((List.finRange k).filter (· ≠ j))
        have hsl := slicesT_fst t n i ((List.finRange k).filter (· ≠ j))
        rw [es, e1] at hsl
        simp only [Except.map, Except.ok.injEq] at hsl
        have hmap : List.map ((fun x : Fin k × Ref => x.1) ∘ fun j => (j, r j)) ((List.finRange k).filter (· ≠ j))
            = (List.finRange k).filter (· ≠ j) := List.map_id _
        obtain ⟨q, hq, q1, q2⟩ := eraseNodeT_le h hn
          (slice := (j, r') :: ((List.finRange k).filter (· ≠ j)).map fun j => (j, r j))
          (by
            rw [List.map_cons, List.map_map, hmap, List.nodup_cons]
            exact ⟨by simp, (List.nodup_finRange k).filter _⟩)
          (by
            intro j'
            rw [List.map_cons, List.map_map]
            by_cases e : j' = j
            · rw [e]; exact List.mem_cons_self
            · refine List.mem_cons_of_mem _ (List.mem_map.mpr ⟨j', ?_, rfl⟩)
              rw [List.mem_filter]
              exact ⟨List.mem_finRange j', by simpa using e⟩)
          (by
            intro jr hjr
            rcases List.mem_cons.mp hjr with e | e
            · rw [e]
              refine ⟨a, b, ?_, ?_, ?_, ?_⟩
              · rw [hhash, ← ec]; exact k0
              · rw [← ec]; exact k1
              · intro i'
                rw [← ec, hhash]; exact k2 i'
              · rw [hhash]; exact er.symm
            · obtain ⟨j', _, rfl⟩ := List.mem_map.mp e
              exact hr1 j') hz
        rw [bind_ok, es, bind_ok, hsl, hq, bind_ok]
        refine ⟨_, _, _, rfl, fun e => (by rw [hidx] at e; cases e), ?_⟩
        intro i' e z' hi' he' hz'
        rw [hidx] at hi'
        cases hi'
        rw [hz] at hz'
        cases hz'
        have hel := h.toArr.node_elem hn
        rw [he'] at hel
        cases hel
        have hflen : ((List.finRange k).filter (· ≠ j)).length + 1 = k := by
          have := sum_without (List.finRange k) (fun _ => 1) (List.mem_finRange j) (List.nodup_finRange k)
          simp only [List.map_const', List.sum_replicate_nat, List.length_finRange] at this
          omega
        have hcr : crowd hash t.bc j l (hash x % t.bc) +
            (((List.finRange k).filter (· ≠ j)).map fun j => crowd hash t.bc j l (n.hash j % t.bc)).sum = crowds hash t l (n.key, n.val) := by
          unfold crowds
          rw [← sum_without (List.finRange k) (fun j => crowd hash t.bc j l (hash ((n.key, n.val).1 j) % t.bc)) (List.mem_finRange j)
            (List.nodup_finRange k)]
          congr 1
          · show _ = crowd hash t.bc j l (hash (n.key j) % t.bc)
            rw [m3]
          · congr 1
            apply List.map_congr_left
            intro j' _
            rw [h.hashed i n hn j']
        refine ⟨fun hpl => ?_, fun hpl => ?_⟩
        · have := q1 hpl
          omega
        · have hq2 := q2 hpl
          have h7 : q.2 + k ≤ crowds hash t l z := by
            have e1 : crowds hash t l z = crowd hash t.bc j l (hash (z.1 j) % t.bc) +
                (((List.finRange k).filter (· ≠ j)).map fun j => crowd hash t.bc j l (hash (z.1 j) % t.bc)).sum := by
              unfold crowds
              rw [← sum_without (List.finRange k) (fun j => crowd hash t.bc j l (hash (z.1 j) % t.bc)) (List.mem_finRange j)
                (List.nodup_finRange k)]
            rw [List.length_cons, List.length_map, List.map_cons, List.map_map, hmap, List.map_cons, List.sum_cons] at hq2
            dsimp only at hq2
            omega
          omega
      · rw [m2] at ef'
        cases ef'

end Tpp.Dense
