import Verif.Swiss.Calls
import Verif.Swiss.Throw
import Verif.Ordered.SwissWorld

/-!
# Ordered sparse and stable containers: operations that end in an exception

`b` is the number of calls of the hash function, the comparison or the predicate that return; the next one throws.  The links of a
node are assigned before its element is constructed (table_common.hpp 228-239), and nothing is undone.
-/

set_option linter.unusedSectionVars false

namespace Tpp.OSwiss

open Tpp.Swiss (Node Ev Table AllocP Inv NoTomb)
open Tpp.Ordered

variable {K V : Type} [DecidableEq K]

namespace OTable

/-- An insertion whose part on the unordered table is `op`: nothing is linked if that ended in an exception (swiss_table.hpp
1264-1300, 1330-1359). -/
def insertCallWith (c : Cfg K) (m : Mem) (t : OTable K V) (op : Table K V → M (Table K V × Option (Nat × Bool × Nat)))
    (hint : Option Int) : M (Mem × OTable K V × Option (Int × Bool × Nat)) := do
  let r ← op (fresh t.core)
  match r.2 with
  | none => .ok (m, { t with core := r.1 }, none)
  | some (p, ins, b) => do
    let g ← t.replay c m r.1.log.reverse
    let a := g.2 + c.sz * (p : Int)
    let m ← (if ins then insertLink g.1 t.hd a hint else .ok g.1 : M Mem)
    .ok (m, { t with core := r.1, base := g.2 }, some (a, ins, b))

/-- `insert`, `try_emplace`, `insert_node` (swiss_table.hpp 935-987, 1330-1347). -/
def insertCall (c : Cfg K) (b : Nat) (m : Mem) (t : OTable K V) (k : K) (v : V) (hint : Option Int := none) :
    M (Mem × OTable K V × Option (Int × Bool × Nat)) :=
  insertCallWith c m t (fun x => x.insertC c.isa c.hash k v b) hint

/-- `insert_or_assign` (swiss_table.hpp 989-993, 1348-1359). -/
def assignCall (c : Cfg K) (b : Nat) (m : Mem) (t : OTable K V) (k : K) (v : V) (hint : Option Int := none) :
    M (Mem × OTable K V × Option (Int × Bool × Nat)) :=
  insertCallWith c m t (fun x => x.assignC c.isa c.hash k v b) hint

/-- `erase(key)` (swiss_table.hpp 1052-1059). -/
def eraseCall (c : Cfg K) (b : Nat) (m : Mem) (t : OTable K V) (k : K) : M (Mem × OTable K V × Option (Int × Nat)) := do
  match ← t.core.seekC c.isa c.hash k b with
  | none => .ok (m, t, none)
  | some (_, pos, b) =>
    if pos = t.core.cap then .ok (m, t, some (t.hd, b))
    else do
      let r ← t.doErase c m pos
      .ok (r.1, r.2.1, some (r.2.2, b))

/-- `extract(key)` (swiss_table.hpp 1077-1084). -/
def extractCall (c : Cfg K) (b : Nat) (m : Mem) (t : OTable K V) (k : K) : M (Mem × OTable K V × Option (Option (K × V) × Nat)) := do
  match ← t.core.seekC c.isa c.hash k b with
  | none => .ok (m, t, none)
  | some (_, pos, b) =>
    if pos = t.core.cap then .ok (m, t, some (none, b))
    else do
      let r ← t.extractAt c m pos
      .ok (r.1, r.2.1, some (some (r.2.2.key, r.2.2.val), b))

/-- The loop of `insert(first, last)` (swiss_table.hpp 985-986). -/
def insertAllCall (c : Cfg K) : List (K × V) → Nat → Mem → OTable K V → M (Mem × OTable K V × Option Nat)
  | [], b, m, t => .ok (m, t, some b)
  | x :: xs, b, m, t => do
    let r ← t.insertCall c b m x.1 x.2
    match r.2.2 with
    | none => .ok (r.1, r.2.1, none)
    | some (_, _, b) => insertAllCall c xs b r.1 r.2.1

/-- `insert(first, last)` (swiss_table.hpp 981-987). -/
def insertRangeCall (c : Cfg K) (b : Nat) (m : Mem) (t : OTable K V) (ra : Bool) (xs : List (K × V)) : M (Mem × OTable K V × Option Nat) := do
  let s ← (if ra then t.reserve c m (t.core.size + xs.length) else .ok (m, t) : M (Mem × OTable K V))
  insertAllCall c xs b s.1 s.2

/-- The loop of `erase_if` (sparse_set.hpp 606-620, stable_set.hpp 676-690 and the maps); the predicate returns `b` times. -/
def eraseIfCall (c : Cfg K) (p : K × V → Bool) : Nat → Nat → Mem → OTable K V → Int → Nat → M (Mem × OTable K V × Option Nat)
  | 0, _, _, _, _, _ => .error .diverge
  | fuel + 1, b, m, t, a, n =>
    if a = t.hd then .ok (m, t, some n)
    else do
      let e ← t.elemAt c.sz a
      match b with
      | 0 => .ok (m, t, none)
      | b + 1 =>
        if p e then do
          let r ← t.eraseIter c m a
          eraseIfCall c p fuel b r.1 r.2.1 r.2.2 (n + 1)
        else do
          let x ← m.nextOf a
          eraseIfCall c p fuel b m t x n

/-- `insert` and `try_emplace` (swiss_table.hpp 1264-1300, 1330-1347) if the constructor of the element throws; the flag tells whether
anything was constructed.  Room has been made by then, the new node is not linked yet. -/
def insertThrow (c : Cfg K) (m : Mem) (t : OTable K V) (k : K) : M (Mem × OTable K V × Bool) := do
  let r ← (fresh t.core).insertThrow c.isa c.hash k
  let g ← t.replay c m r.1.log.reverse
  .ok (g.1, { t with core := r.1, base := g.2 }, r.2)

/-- `do_rehash` into a buffer of `n` slots (swiss_table.hpp 1376-1393, 523-550; table_common.hpp 234-239, 265-275) if the relocation of
the element in slot `q` throws: its link is already in the new buffer, the old buffer is not freed. -/
def growThrow (c : Cfg K) (m : Mem) (t : OTable K V) (n q : Nat) : M (Option (Mem × OTable K V)) := do
  match ← (fresh t.core).doRehashThrow c.isa n q with
  | none => .ok none
  | some r => do
    let x ← t.core.readNode q
    let target ← r.2.findAvailable c.isa x.hash
    let a := m.alloc c.sz c.A n
    let m ← (r.2.log.reverse ++ [Ev.rel q target]).foldlM (replayEv c.sz c.strict t.base a.2) a.1
    .ok (some (m, { t with core := r.2, base := a.2 }))

/-- Copy assignment (swiss_table.hpp 856-869, 1448-1485; table_common.hpp 228-233) if the copy of the element in slot `q` throws: the
header has the offsets of the other header, the links of the slots up to `q` are copied, the ends are not linked to the header. -/
def copyAssignThrow (c : Cfg K) (al : AllocP) (m : Mem) (t other : OTable K V) (q : Nat) : M (Option (Mem × OTable K V)) := do
  match ← t.core.copyAssignThrow c.isa al other.core q with
  | none => .ok none
  | some x => do
    let m ← m.copyFrom t.hd other.hd
    let d ← t.dropArray c al.copyProp m
    let g ← reallocArray c d.1 d.2.base d.2.core.cap other.core.cap
    let m ← ((occupied other.core).filter (· ≤ q)).foldlM (fun (m : Mem) (i : Nat) =>
      m.copyFrom (g.2 + c.sz * (i : Int)) (other.base + c.sz * (i : Int))) g.1
    .ok (some (m, { t with core := x, base := g.2 }))

/-- Move assignment (swiss_table.hpp 870-883, 1486-1521; table_common.hpp 234-239) between unequal allocators that do not propagate,
if the relocation of the element in slot `q` throws: the header and the links of the slots up to `q` are moved. -/
def moveAssignThrow (c : Cfg K) (m : Mem) (t other : OTable K V) (q : Nat) : M (Option (Mem × OTable K V × OTable K V)) := do
  match ← t.core.moveAssignThrow c.isa other.core q with
  | none => .ok none
  | some x => do
    let m ← m.relinkFrom t.hd other.hd
    let g ← reallocArray c m t.base t.core.cap other.core.cap
    let m ← ((occupied other.core).filter (· ≤ q)).foldlM (fun (m : Mem) (i : Nat) =>
      m.relinkFrom (g.2 + c.sz * (i : Int)) (other.base + c.sz * (i : Int))) g.1
    .ok (some (m, { t with core := x.1, base := g.2 }, { other with core := x.2 }))

end OTable

/-! ## Calls -/

theorem insertC_costs (isa : Isa) (hash : K → Nat) (t : Table K V) (k : K) (v : V) :
    ∃ N, ∀ b, t.insertC isa hash k v b = if b < N + 1 then .ok (t, none) else
      (t.insert isa hash k v).map fun r => (r.1, some (r.2.1, r.2.2, b - (N + 1))) := by
  obtain ⟨N, h⟩ := Swiss.seekC_costs isa hash t k
  refine ⟨N, fun b => ?_⟩
  unfold Table.insertC Table.insert
  rw [h b]
  by_cases hb : b < N + 1
  · rw [if_pos hb, if_pos hb]; rfl
  · rw [if_neg hb, if_neg hb]
    simp only
    cases t.findNode isa k (hash k) with
    | error f => rfl
    | ok pos =>
      simp only [bind_ok]
      split
      · cases t.emplaceNode isa ⟨k, v, hash k⟩ <;> rfl
      · rfl

theorem assignC_costs (isa : Isa) (hash : K → Nat) (t : Table K V) (k : K) (v : V) :
    ∃ N, ∀ b, t.assignC isa hash k v b = if b < N + 1 then .ok (t, none) else
      (t.insertOrAssign isa hash k v).map fun r => (r.1, some (r.2.1, r.2.2, b - (N + 1))) := by
  obtain ⟨N, h⟩ := Swiss.seekC_costs isa hash t k
  refine ⟨N, fun b => ?_⟩
  unfold Table.assignC Table.insertOrAssign Table.insertOrAssignWith
  rw [h b]
  by_cases hb : b < N + 1
  · rw [if_pos hb, if_pos hb]; rfl
  · rw [if_neg hb, if_neg hb]
    simp only
    cases t.findNode isa k (hash k) with
    | error f => rfl
    | ok pos =>
      simp only [bind_ok]
      split
      · cases t.emplaceNode isa ⟨k, v, hash k⟩ <;> rfl
      · cases t.readNode pos <;> rfl

variable (c : Cfg K) (m : Mem) (t : OTable K V)

theorem insertCallWith_costs {op : Table K V → M (Table K V × Nat × Bool)} {opC : Nat → Table K V → M (Table K V × Option (Nat × Bool × Nat))}
    (h : ∃ N, ∀ b, opC b (fresh t.core) = if b < N + 1 then .ok (fresh t.core, none) else
      (op (fresh t.core)).map fun r => (r.1, some (r.2.1, r.2.2, b - (N + 1)))) (hint : Option Int) :
    ∃ N, ∀ b, t.insertCallWith c m (opC b) hint = if b < N + 1 then .ok (m, { t with core := fresh t.core }, none) else
      (t.insertWith c m op hint).map fun r => (r.1, r.2.1, some (r.2.2.1, r.2.2.2, b - (N + 1))) := by
  obtain ⟨N, h⟩ := h
  refine ⟨N, fun b => ?_⟩
  unfold OTable.insertCallWith OTable.insertWith
  rw [h b]
  by_cases hb : b < N + 1
  · rw [if_pos hb, if_pos hb]; rfl
  · rw [if_neg hb, if_neg hb]
    cases op (fresh t.core) with
    | error f => rfl
    | ok r =>
      simp only [Except.map, bind_ok]
      cases t.replay c m r.1.log.reverse with
      | error f => rfl
      | ok g =>
        simp only [bind_ok]
        generalize (if r.2.2 = true then OTable.insertLink g.1 t.hd (g.2 + c.sz * (r.2.1 : Int)) hint else .ok g.1) = x
        cases x <;> rfl

theorem insertCall_costs (k : K) (v : V) (hint : Option Int) :
    ∃ N, ∀ b, t.insertCall c b m k v hint = if b < N + 1 then .ok (m, { t with core := fresh t.core }, none) else
      (t.insert c m k v hint).map fun r => (r.1, r.2.1, some (r.2.2.1, r.2.2.2, b - (N + 1))) :=
  insertCallWith_costs c m t (opC := fun b x => x.insertC c.isa c.hash k v b) (insertC_costs c.isa c.hash (fresh t.core) k v) hint

theorem assignCall_costs (k : K) (v : V) (hint : Option Int) :
    ∃ N, ∀ b, t.assignCall c b m k v hint = if b < N + 1 then .ok (m, { t with core := fresh t.core }, none) else
      (t.assign c m k v hint).map fun r => (r.1, r.2.1, some (r.2.2.1, r.2.2.2, b - (N + 1))) :=
  insertCallWith_costs c m t (opC := fun b x => x.assignC c.isa c.hash k v b) (assignC_costs c.isa c.hash (fresh t.core) k v) hint

theorem eraseCall_costs (k : K) :
    ∃ N, ∀ b, t.eraseCall c b m k = if b < N + 1 then .ok (m, t, none) else
      (t.erase c m k).map fun r => (r.1, r.2.1, some (r.2.2, b - (N + 1))) := by
  obtain ⟨N, h⟩ := Swiss.seekC_costs c.isa c.hash t.core k
  refine ⟨N, fun b => ?_⟩
  unfold OTable.eraseCall OTable.erase
  rw [h b]
  by_cases hb : b < N + 1
  · rw [if_pos hb, if_pos hb]; rfl
  · rw [if_neg hb, if_neg hb]
    cases t.core.findNode c.isa k (c.hash k) with
    | error f => rfl
    | ok pos =>
      simp only [bind_ok]
      split
      · rfl
      · cases t.doErase c m pos <;> rfl

theorem extractCall_costs (k : K) :
    ∃ N, ∀ b, t.extractCall c b m k = if b < N + 1 then .ok (m, t, none) else
      (t.extract c m k).map fun r => (r.1, r.2.1, some (r.2.2, b - (N + 1))) := by
  obtain ⟨N, h⟩ := Swiss.seekC_costs c.isa c.hash t.core k
  refine ⟨N, fun b => ?_⟩
  unfold OTable.extractCall OTable.extract
  rw [h b]
  by_cases hb : b < N + 1
  · rw [if_pos hb, if_pos hb]; rfl
  · rw [if_neg hb, if_neg hb]
    cases t.core.findNode c.isa k (c.hash k) with
    | error f => rfl
    | ok pos =>
      simp only [bind_ok]
      split
      · rfl
      · cases t.extractAt c m pos <;> rfl

/-! ## Several calls -/

/-- `erase_if` whose predicate returns `b` times. -/
theorem eraseIfCall_ok {c : Cfg K} (hsz : 0 < c.sz) (p : K × V → Bool) : ∀ (fuel b : Nat) {m : Mem} {t : OTable K V} {o1 o2 : List Nat} (n : Nat),
    Rep c m t (o1 ++ o2) → o2.length < fuel →
    ∃ m' t', OTable.eraseIfCall c p fuel b m t ((o2.map (t.addr c.sz)).headD t.hd) n =
        .ok (m', t', if b < o2.length then none else some (n + ((seqOf t.core.node o2).filter p).length)) ∧
      Becomes c m t m' t' (seqOf t.core.node o1 ++
        (((seqOf t.core.node o2).take b).filter (fun e => !p e) ++ (seqOf t.core.node o2).drop b))
  | 0, _, _, _, _, _, _, _, hf => absurd hf (Nat.not_lt_zero _)
  | fuel + 1, b, m, t, o1, [], n, h, _ => by
    refine ⟨m, t, ?_, ?_⟩
    · simp [OTable.eraseIfCall, seqOf]
    · have := Becomes.refl h
      rw [seqOf_append] at this
      simpa [seqOf] using this
  | fuel + 1, b, m, t, o1, i :: o2, n, h, hf => by
    have hi : i ∈ o1 ++ i :: o2 := by simp
    obtain ⟨x, hx⟩ := h.link.get hi
    rw [seqOf_cons hx]
    simp only [List.map_cons, List.headD_cons, OTable.eraseIfCall]
    rw [if_neg (h.addr_ne hi), h.elem hsz hi hx, bind_ok]
    cases b with
    | zero =>
      refine ⟨m, t, by simp, ?_⟩
      have := Becomes.refl h
      rw [seqOf_append, seqOf_cons hx] at this
      simpa using this
    | succ b =>
      simp only [List.take_succ_cons, List.drop_succ_cons, List.length_cons, Nat.add_lt_add_iff_right]
      cases hp : p (x.key, x.val) with
      | false =>
        simp only [Bool.false_eq_true, if_false]
        have hr : Ring m t.hd (o1.map (t.addr c.sz) ++ t.addr c.sz i :: o2.map (t.addr c.sz)) := by
          have := h.ring
          rwa [List.map_append, List.map_cons] at this
        rw [Mem.nextOf_ok (h.addr_live hi), bind_ok, hr.around.1]
        have h' : Rep c m t ((o1 ++ [i]) ++ o2) := by rw [List.append_assoc]; exact h
        have := eraseIfCall_ok hsz p fuel b n h' (by simp at hf; omega)
        rw [List.filter_cons_of_neg (by simp [hp]), List.filter_cons_of_pos (by simp [hp])]
        rw [seqOf_append, seqOf_cons hx, List.append_assoc] at this
        exact this
      | true =>
        simp only [if_true]
        obtain ⟨m1, t1, e1, he⟩ := eraseIter_ok hsz h
        rw [e1, bind_ok]
        obtain ⟨m2, t2, e2, h2⟩ := eraseIfCall_ok hsz p fuel b (n + 1) he.rep (by simp at hf; omega)
        rw [he.addr, he.hd, he.seq h (fun i hi => List.mem_append_right _ hi)] at e2
        rw [he.seq h (fun i hi => List.mem_append_left _ hi), he.seq h (fun i hi => List.mem_append_right _ hi)] at h2
        rw [List.filter_cons_of_pos (by simp [hp]), List.filter_cons_of_neg (by simp [hp])]
        refine ⟨m2, t2, ?_, (he.becomes h).trans h2⟩
        rw [e2, List.length_cons, Nat.add_assoc, Nat.add_comm 1]

theorem OTable.insertCallWith_le (c : Cfg K) (m : Mem) (t : OTable K V) (op : Table K V → M (Table K V × Option (Nat × Bool × Nat)))
    (hint : Option Int) : Le (t.insertCallWith c.stop m op hint) (t.insertCallWith c m op hint) := by
  refine (Le.refl _).bind fun r => ?_
  rcases r with ⟨x, _ | ⟨p, ins, b⟩⟩
  · exact Le.refl _
  · exact (replay_le c _ _ _).bind fun _ => Le.refl _

theorem OTable.insertAllCall_le (c : Cfg K) : ∀ (xs : List (K × V)) (b : Nat) (m : Mem) (t : OTable K V),
    Le (insertAllCall c.stop xs b m t) (insertAllCall c xs b m t)
  | [], _, _, _ => Le.refl _
  | x :: xs, b, m, t => by
    refine (insertCallWith_le c m t _ _).bind fun r => ?_
    rcases r with ⟨m1, t1, _ | ⟨p, ins, b⟩⟩
    · exact Le.refl _
    · exact insertAllCall_le c xs b m1 t1

theorem OTable.insertRangeCall_le (c : Cfg K) (b : Nat) (m : Mem) (t : OTable K V) (ra : Bool) (xs : List (K × V)) :
    Le (t.insertRangeCall c.stop b m ra xs) (t.insertRangeCall c b m ra xs) := by
  unfold insertRangeCall
  refine Le.bind ?_ fun s => insertAllCall_le c _ _ _ _
  exact Le.ite (reserve_le c _ _ _) (Le.refl _)

/-- The elements inserted when an exception ends a range insertion are the first `j` of the range. -/
theorem insertAllCall_ok {c : Cfg K} (hsz : 0 < c.sz) (hA : c.A.Sound c.sz) (hst : c.strict = true) {g : Prop} : ∀ (xs : List (K × V)) (b : Nat)
    {m : Mem} {t : OTable K V} {s : List (K × V)}, Holds c m t s → (g ∨ NoTomb t.core ∨ Room t xs.length) →
    Okay g (OTable.insertAllCall c xs b m t) (fun r => ∃ j, (r.2.2 = none → j < xs.length) ∧ (r.2.2 ≠ none → j = xs.length) ∧
      Becomes c m t r.1 r.2.1 ((xs.take j).foldl (fun l x => (Spec.insert l x.1 x.2).1) s))
  | [], b, m, t, s, h, _ => by
    obtain ⟨o, h, rfl⟩ := h
    exact Okay.ok ⟨0, fun q => (by cases q), fun _ => rfl, Becomes.refl h⟩
  | x :: xs, b, m, t, s, h, hb => by
    obtain ⟨o, h, rfl⟩ := h
    obtain ⟨N, hN⟩ := insertCall_costs c m t x.1 x.2 none
    unfold OTable.insertAllCall
    rw [hN b]
    by_cases hbn : b < N + 1
    · rw [if_pos hbn, bind_ok]
      refine Okay.ok ⟨0, fun _ => by simp, fun q => absurd rfl q, ?_⟩
      exact ⟨⟨o, h.fresh, rfl⟩, rfl, Frame.refl _ _⟩
    · rw [if_neg hbn]
      rcases (insert_ok hsz hA hst h (hb.imp_right (Or.imp_right fun q => by have := q.1; simp at this; omega)) x.1 x.2).with
        (Q := fun r => ∀ n, Room t (n + 1) → Room r.2.1 n) (fun r e n q => Room.insert e q) with ⟨q1, q2⟩ | ⟨r, q2, ⟨_, _, h3, h4⟩, h5⟩
      · rw [q2]
        exact Or.inl ⟨q1, rfl⟩
      · rw [q2]
        simp only [Except.map, bind_ok]
        refine Okay.mono (insertAllCall_ok hsz hA hst xs (b - (N + 1)) h3.holds (hb.imp_right (Or.imp h4 (h5 _)))) id ?_
        rintro r' ⟨j, j1, j2, j3⟩
        refine ⟨j + 1, fun q => ?_, fun q => ?_, h3.trans j3⟩
        · rw [List.length_cons]; exact Nat.add_lt_add_right (j1 q) 1
        · rw [List.length_cons, j2 q]

theorem insertRangeCall_ok {c : Cfg K} {m : Mem} {t : OTable K V} {o : List Nat} (hsz : 0 < c.sz) (hA : c.A.Sound c.sz)
    (hst : c.strict = true) (h : Rep c m t o) (ra : Bool) (xs : List (K × V)) (b : Nat) {g : Prop}
    (hb : g ∨ NoTomb t.core ∨ Room t xs.length) :
    Okay g (t.insertRangeCall c b m ra xs) (fun r => ∃ j, (r.2.2 = none → j < xs.length) ∧ (r.2.2 ≠ none → j = xs.length) ∧
      Becomes c m t r.1 r.2.1 ((xs.take j).foldl (fun l x => (Spec.insert l x.1 x.2).1) (seqOf t.core.node o))) := by
  unfold OTable.insertRangeCall
  cases ra with
  | false =>
    simp only [Bool.false_eq_true, if_false, bind_ok]
    exact insertAllCall_ok hsz hA hst xs b ⟨o, h, rfl⟩ hb
  | true =>
    obtain ⟨m1, t1, e1, h1, h2, _, h3, h4⟩ := reserve_ok hsz hA hst h (t.core.size + xs.length)
    simp only [if_true]
    rw [e1, bind_ok]
    have hroom : ∀ n, Room t n → Room t1 n := fun n q => ⟨Nat.le_trans q.1 h3, q.2.imp_right h4⟩
    refine Okay.mono (insertAllCall_ok hsz hA hst xs b h1.holds (hb.imp_right (Or.imp h2 (hroom _)))) id ?_
    rintro r ⟨j, j1, j2, j3⟩
    exact ⟨j, j1, j2, h1.trans j3⟩

/-! ## The constructor of a new element -/

theorem OTable.insertThrow_le (c : Cfg K) (m : Mem) (t : OTable K V) (k : K) : Le (t.insertThrow c.stop m k) (t.insertThrow c m k) :=
  (Le.refl _).bind fun _ => (replay_le c _ _ _).bind fun _ => Le.refl _

theorem insertThrow_ok {c : Cfg K} {m : Mem} {t : OTable K V} {o : List Nat} (hsz : 0 < c.sz) (hA : c.A.Sound c.sz)
    (hst : c.strict = true) (h : Rep c m t o) {g : Prop} {k : K}
    (hb : Spec.find (seqOf t.core.node o) k = none → g ∨ NoTomb t.core ∨ 0 < t.core.numEmpty) :
    Okay g (t.insertThrow c m k) (fun r => r.2.2 = (Spec.find (seqOf t.core.node o) k).isNone ∧
      Becomes c m t r.1 r.2.1 (seqOf t.core.node o)) := by
  unfold OTable.insertThrow Table.insertThrow
  rcases h.fresh.cases k with ⟨i, n, hio, hi, hn, hk, hf, hl⟩ | ⟨hno, hf, hl⟩
  · have hf' : (fresh t.core).findNode c.isa k (c.hash k) = .ok i := hf
    simp only
    rw [hf', bind_ok, if_neg (show i ≠ (fresh t.core).cap from Nat.ne_of_lt hi), bind_ok]
    refine Okay.ok ⟨?_, ⟨o, h.fresh, rfl⟩, rfl, Frame.refl _ _⟩
    have : Spec.find (seqOf t.core.node o) k = some (n.key, n.val) := hl
    rw [this]; rfl
  · have hf' : (fresh t.core).findNode c.isa k (c.hash k) = .ok t.core.cap := hf
    have hl' : Spec.find (seqOf t.core.node o) k = none := hl
    obtain ⟨t1, target, p1, p2, _⟩ := Swiss.prepare_spec (fresh_inv h.core) (c.hash k)
    simp only
    rw [hf', bind_ok, if_pos (show t.core.cap = (fresh t.core).cap from rfl), p1, bind_ok, bind_ok]
    have hb' : g ∨ t1 = fresh t.core ∨ ∃ n, (fresh t.core).doRehash c.isa n = .ok t1 := by
      rcases hb hl' with q | q | q
      · exact Or.inl q
      · exact Or.inr (Swiss.prepare_noTomb p1 (fresh_inv h.core) q)
      · rcases Nat.eq_zero_or_pos t.core.cap with q' | q'
        · exact Or.inr (Swiss.prepare_noTomb p1 (fresh_inv h.core) (fun i hi => absurd (show i < t.core.cap from hi) (by omega)))
        · exact Or.inr (Or.inl (Swiss.prepare_room p1 q q'))
    refine Okay.bind (replay_ok hsz hA hst h (Swiss.prepare_log p1) hb') id ?_
    rintro ⟨m1, b⟩ ⟨o', h1, h2, h3⟩
    exact Okay.ok ⟨by rw [hl']; rfl, ⟨o', ⟨p2, h1⟩, h2⟩, rfl, h3⟩

/-! ## Growth -/

/-- The relocations up to the one that throws. -/
theorem doRehashThrow_log {isa : Isa} {hash : K → Nat} {t : Table K V} (h : Inv isa hash t) {n k q : Nat} (hn : n + 1 = 2 ^ k)
    (hs : t.size ≤ maxSize isa n) (hq : q < t.cap) (ho : (t.ctl q).isOccupied = true) :
    ∃ old new x js d, t.doRehashThrow isa n q = .ok (some (old, new)) ∧ new.cap = n ∧ new.size = t.size ∧
      t.readNode q = .ok x ∧ new.findAvailable isa x.hash = .ok (d q) ∧ new.node (d q) = none ∧
      new.log.reverse ++ [Ev.rel q (d q)] = t.log.reverse ++ .grow n :: Swiss.rels js d ∧ js.Nodup ∧
      (∀ j, j ∈ js ↔ j ≤ q ∧ (t.ctl j).isOccupied = true) ∧ (∀ i ∈ js, d i < n) ∧ (∀ i ∈ js, ∀ j ∈ js, d i = d j → i = j) := by
  obtain ⟨p, e1, e2, e3⟩ := Swiss.relocOne_prefix h hn hs (Nat.le_of_lt hq)
  obtain ⟨p', f1, f2, f3⟩ := Swiss.relocOne_prefix h hn hs (show q + 1 ≤ t.cap from hq)
  have g1 := f1
  rw [List.range_succ, List.foldlM_append, e1, bind_ok] at g1
  have hm := h.meta_ok (show 0 < t.cap by omega)
  have hstep : Table.relocOne isa p q = .ok p' := by
    revert g1
    simp only [List.foldlM_cons, List.foldlM_nil]
    cases Table.relocOne isa p q <;> intro g <;> exact g
  unfold Table.relocOne at hstep
  have hp1 : p.1.ctl = t.ctl := by rw [e2]
  obtain ⟨cc, a1, hstep⟩ := Dense.bind_eq_ok hstep
  have a1' := Swiss.readCtl_eq a1
  rw [hp1] at a1'
  rw [a1', if_pos ho] at hstep
  obtain ⟨x, a2, hstep⟩ := Dense.bind_eq_ok hstep
  obtain ⟨tg, a3, hstep⟩ := Dense.bind_eq_ok hstep
  obtain ⟨p1, a4, hstep⟩ := Dense.bind_eq_ok hstep
  obtain ⟨s1, a5, hstep⟩ := Dense.bind_eq_ok hstep
  obtain ⟨p2, a6, hstep⟩ := Dense.bind_eq_ok hstep
  obtain ⟨b1, b2, b3⟩ := Swiss.construct_eq a4
  obtain ⟨_, _, b6⟩ := Swiss.setMetadata_node a6
  rw [b3] at b6
  have hlog : p'.2.log = .rel q tg :: p.2.log := by
    injection hstep with hstep
    rw [← hstep]
    simp only
    rw [b6]
  unfold Table.grown at f1
  obtain ⟨_, _, js, d, c1, c2, c3, c4⟩ := Swiss.reloc_log f1
  have hqj : q ∈ js := (c4 q).mpr ⟨by omega, ho⟩
  obtain ⟨js0, z, hz⟩ : ∃ js0 z, js = js0 ++ [z] := by
    rcases List.eq_nil_or_concat js with g | ⟨a, b, g⟩
    · rw [g] at hqj; cases hqj
    · exact ⟨a, b, by rw [g]; simp⟩
  have hd : d q = tg := by
    rw [hlog, hz] at c1
    simp only [Swiss.rels, List.map_append, List.map_cons, List.map_nil, List.reverse_append, List.reverse_cons, List.reverse_nil,
      List.nil_append, List.cons_append, List.cons.injEq, Ev.rel.injEq] at c1
    rw [c1.1.1, c1.1.2]
  obtain ⟨r1, r2⟩ := Swiss.readNode_eq a2
  rw [e2] at r1 r2
  simp only [Nat.lt_irrefl, if_false] at r1 r2
  refine ⟨p.1, p.2, x, js, d, ?_, e3.cap_eq, e3.size_eq, ?_, hd ▸ a3, hd ▸ b2, ?_, c3.nodup, ?_, c3.lt, c3.inj⟩
  · unfold Table.doRehashThrow
    rw [if_pos hq, Swiss.readCtl_ok hm (by omega)]
    simp only [bind_ok, ho, if_true, e1]
  · unfold Table.readNode
    simp [hq, r2]
  · rw [hd, show p.2.log.reverse ++ [Ev.rel q tg] = (Ev.rel q tg :: p.2.log).reverse by simp, ← hlog, c1]
    simp
  · intro j
    rw [c4, Nat.lt_succ_iff]

/-- The element that throws is linked in the new array, where there is no element; the elements after it are linked in the old
array. -/
theorem growThrow_ok {c : Cfg K} {m : Mem} {t : OTable K V} {o : List Nat} (hsz : 0 < c.sz) (hA : c.A.Sound c.sz) (h : Rep c m t o)
    {n k q : Nat} (hn : n + 1 = 2 ^ k) (hs : t.core.size ≤ maxSize c.isa n) (hq : q ∈ o) :
    ∃ m' x b, ∃ d : Nat → Nat, t.growThrow c m n q = .ok (some (m', { t with core := x, base := b })) ∧ x.cap = n ∧ x.size = t.core.size ∧
      d q < n ∧ x.node (d q) = none ∧ Ring m' t.hd (o.map (fun i => if i ≤ q then b + c.sz * (d i : Int) else t.addr c.sz i)) ∧
      t.hd ∉ slots c.sz b n ∧ Frame m m' (t.foot c.sz) (t.foot c.sz ++ slots c.sz b n) := by
  have hqc := h.link.lt hq
  have hqo : (t.core.ctl q).isOccupied = true := by rw [← h.core.live q hqc]; exact h.link.isSome q hq
  obtain ⟨old, new, x, js, d, e1, e2, e3, e4, e5, e6, e7, e8, e9, e10, e11⟩ :=
    doRehashThrow_log (fresh_inv h.core) hn (show (fresh t.core).size ≤ maxSize c.isa n from hs) (q := q) hqc hqo
  have hjo : ∀ i ∈ js, i ∈ o := by
    intro i hi
    obtain ⟨q1, q2⟩ := (e9 i).mp hi
    refine (h.link.occ i).mpr ⟨by omega, ?_⟩
    rw [h.core.live i (by omega)]
    exact q2
  have hoj : ∀ i ∈ o, (i ∈ js ↔ i ≤ q) := by
    intro i hi
    rw [e9]
    refine ⟨fun g => g.1, fun g => ⟨g, ?_⟩⟩
    have := h.link.isSome i hi
    rw [h.core.live i (h.link.lt hi)] at this
    exact this
  have hqj : q ∈ js := (hoj q hq).mpr (Nat.le_refl _)
  have hnew := hA m.clock m.live n
  have hal : (m.alloc c.sz c.A n).2 = c.A m.clock m.live n := rfl
  have hlv : (m.alloc c.sz c.A n).1.live = slots c.sz (c.A m.clock m.live n) n ++ m.live := rfl
  have hlk : (m.alloc c.sz c.A n).1.link = m.link := rfl
  have hring := h.link.ring
  have h0 : Ring (m.alloc c.sz c.A n).1 t.hd (o.map (t.addr c.sz)) :=
    hring.frame (fun x hx => by rw [hlv]; exact List.mem_append_right _ (hring.live x hx)) (fun x _ => by rw [hlk])
  have hmem : ∀ i ∈ js, c.A m.clock m.live n + c.sz * (d i : Int) ∈ slots c.sz (c.A m.clock m.live n) n :=
    fun i hi => mem_slots.mpr ⟨d i, e10 i hi, rfl⟩
  obtain ⟨m1, f1, f2, f3⟩ := relinkAll_ok (f := t.addr c.sz) (g := fun i => c.A m.clock m.live n + c.sz * (d i : Int)) (js := js) h0 e8 hjo
    (fun _ _ => rfl) (fun i hi => by rw [hlv]; exact List.mem_append_left _ (hmem i hi))
    (fun i hi q => hnew _ (hmem i hi) (hring.live _ q)) (fun i hi j hj e => e11 i hi j hj (slot_inj hsz e))
  have hfold : (new.log.reverse ++ [Ev.rel q (d q)]).foldlM (replayEv c.sz c.strict t.base (m.alloc c.sz c.A n).2) (m.alloc c.sz c.A n).1 = .ok m1 := by
    rw [e7]
    simp only [fresh, List.reverse_nil, List.nil_append, List.foldlM_cons, replayEv, bind_ok, Swiss.rels, List.foldlM_map]
    exact f1
  refine ⟨m1, new, c.A m.clock m.live n, d, ?_, e2, e3, e10 q hqj, e6, ?_, ?_, ?_⟩
  · unfold OTable.growThrow
    rw [e1, bind_ok]
    simp only
    rw [show t.core.readNode q = .ok x from e4, bind_ok, e5, bind_ok, hfold, bind_ok, hal]
  · have : o.map (fun i => if i ∈ js then c.A m.clock m.live n + c.sz * (d i : Int) else t.addr c.sz i) =
        o.map (fun i => if i ≤ q then c.A m.clock m.live n + c.sz * (d i : Int) else t.addr c.sz i) := by
      refine List.map_congr_left ?_
      intro i hi
      by_cases g : i ≤ q
      · rw [if_pos g, if_pos ((hoj i hi).mpr g)]
      · rw [if_neg g, if_neg (fun q => g ((hoj i hi).mp q))]
    rw [← this]
    exact f2
  · intro g
    exact hnew _ g h.hd_live
  · refine ⟨?_, ?_⟩
    · intro y hy hn'
      refine ⟨by rw [f3.live, hlv]; exact List.mem_append_right _ hy, ?_⟩
      rw [f3.link y ⟨?_, fun g => hn' (h.link.foot y g)⟩, hlk]
      intro g
      rw [List.mem_map] at g
      obtain ⟨i, hi, g⟩ := g
      exact hnew _ (hmem i hi) (g ▸ hy)
    · intro y hy
      rcases List.mem_append.mp hy with g | g
      · exact Or.inl g
      · exact Or.inr (hnew y g)

/-! ## Assignment -/

theorem copyDataThrow_core {isa : Isa} {hash : K → Nat} {t u : Table K V} (h : Inv isa hash u) (ht : t.size = 0) (hraw : Swiss.Raw t)
    (hshape : t.cap = 0 ∨ ((∃ m, t.cap + 1 = 2 ^ m) ∧ t.len = t.cap + isa.W)) {q : Nat} (hq : q < u.cap)
    (ho : (u.ctl q).isOccupied = true) :
    ∃ x t1, t.copyDataThrow isa u q = .ok (some x) ∧ x.cap = max t.cap u.cap ∧ x.size = 0 ∧
      (∀ i, i < x.cap → x.node i = if i < q then u.node i else none) ∧
      (do let t ← t.reallocate isa u.cap; t.fill isa) = .ok t1 ∧ (List.range q).foldlM (Table.copyOne isa u) t1 = .ok x := by
  obtain ⟨x, t1, e1, e2, e3, _, _, _, e4, e5⟩ := Swiss.copyDataThrow_spec h ht hraw hshape hq ho
  obtain ⟨t1', g1, c1, l1, r1, ctl1, p1, _, _⟩ := Swiss.copyStart (isa := isa) h.pow ht hraw hshape (show 0 < u.cap by omega)
  rw [e4] at g1
  cases g1
  obtain ⟨x', f1, ⟨f2, _, _⟩, _, _, f5⟩ := Swiss.copyOne_prefix h (show 0 < u.cap by omega) (t1 := t1) (by omega) l1 r1 ctl1 p1 (Nat.le_of_lt hq)
  rw [e5] at f1
  cases f1
  exact ⟨x, t1, e1, e2, e3, fun i hi => f5 i (by omega), e4, e5⟩

variable {c : Cfg K} {m : Mem} {t u : OTable K V} {o o' : List Nat}

/-- The target's header has the offsets of the source's header. -/
theorem copyAssignThrow_ok (hsz : 0 < c.sz) (hA : c.A.Sound c.sz) (al : AllocP) (ht : Rep c m t o') (h : Rep c m u o)
    (ha : Apart c.sz u t) {q : Nat} (hq : q ∈ o) :
    ∃ m' x b, t.copyAssignThrow c al m u q = .ok (some (m', { t with core := x, base := b })) ∧ x.size = 0 ∧ u.core.cap ≤ x.cap ∧
      (∀ i, i < x.cap → x.node i = if i < q then u.core.node i else none) ∧
      m'.link t.hd = m.link u.hd ∧ t.hd ∈ m'.live ∧ (∀ y ∈ slots c.sz b x.cap, y ∈ m'.live) ∧ t.hd ∉ slots c.sz b x.cap ∧
      Frame m m' (t.foot c.sz) (t.hd :: slots c.sz b x.cap) := by
  have hqc := h.link.lt hq
  have hqo : (u.core.ctl q).isOccupied = true := by rw [← h.core.live q hqc]; exact h.link.isSome q hq
  have hcore : ∃ x, t.core.copyAssignThrow c.isa al u.core q = .ok (some x) ∧ x.size = 0 ∧
      (∀ i, i < x.cap → x.node i = if i < q then u.core.node i else none) ∧
      x.cap = max (if al.copyProp then 0 else t.core.cap) u.core.cap := by
    obtain ⟨f, h1, h2⟩ := ht.core.erased
    unfold Table.copyAssignThrow
    rw [h1, bind_ok]
    unfold Table.bufAssign
    cases al.copyProp with
    | true =>
      simp only [if_true]
      rw [Swiss.dropBuffer_spec (t := { t.core with node := f, size := 0 }) h2, bind_ok]
      obtain ⟨x, _, e1, e2, e3, e4, _⟩ := copyDataThrow_core
        (t := { t.core with node := fun _ => none, size := 0, cap := 0, len := 0, ctl := fun _ => .empty }) h.core rfl
        (fun i hi => absurd hi (Nat.not_lt_zero _)) (Or.inl rfl) hqc hqo
      exact ⟨x, e1, e3, e4, e2⟩
    | false =>
      simp only [Bool.false_eq_true, if_false, bind_ok]
      obtain ⟨x, _, e1, e2, e3, e4, _⟩ := copyDataThrow_core (t := { t.core with node := f, size := 0 }) h.core rfl h2 ht.core.copyShape
        hqc hqo
      exact ⟨x, e1, e3, e4, e2⟩
  obtain ⟨x, e0, x1, x2, hcap⟩ := hcore
  obtain ⟨m1, e1, k1, l1, f1⟩ := copyHeader_ok (c := c) (t := t) h.hd_live ht.hd_live
  have h1 := h.frame f1 ha
  obtain ⟨m2, t2, e2, hd2, hcap2, hl2, hs2, hh2, hk2, f2, hsub⟩ := dropArray_ok (c := c) (prop := al.copyProp) (t := t) (m := m1)
    (by rw [l1]; exact ht.hd_live) (by rw [l1]; exact ht.link.live) ht.link.hdr
  have h2 := h1.frame f2 ha
  have ha2 : Apart c.sz u t2 := fun x hx q => ha x hx (hsub x q)
  obtain ⟨m3, b, e3, l3, f3⟩ := realloc_ok hA hs2 u.core.cap
  rw [hcap2, ← hcap] at l3 f3
  have h3 : Rep c m3 u o := h2.frame f3 (fun x hx q => ha2 x hx (List.mem_cons_of_mem _ (by rw [hcap2]; exact q)))
  have hdb : t.hd ∉ slots c.sz b x.cap := by
    intro g
    rcases f3.fresh _ g with g | g
    · rw [← hcap2, ← hd2] at g; exact hh2 g
    · rw [← hd2] at g; exact g hl2
  have hub : ∀ y ∈ u.foot c.sz, y ∉ slots c.sz b x.cap := by
    intro y hy g
    rcases f3.fresh _ g with g | g
    · exact ha2 y hy (List.mem_cons_of_mem _ (by rw [hcap2]; exact g))
    · exact g (h2.link.foot_live y hy)
  have hcl : u.core.cap ≤ x.cap := by omega
  have hlt : ∀ i ∈ (OTable.occupied u.core).filter (· ≤ q), i < u.core.cap := fun i hi =>
    ((mem_occupied h.core).mp (List.mem_filter.mp hi).1).1
  have hsl : ∀ i ∈ (OTable.occupied u.core).filter (· ≤ q), b + c.sz * (i : Int) ∈ slots c.sz b x.cap := by
    intro i hi
    have := hlt i hi
    exact mem_slots.mpr ⟨i, by omega, rfl⟩
  have hso : ∀ i ∈ (OTable.occupied u.core).filter (· ≤ q), u.base + c.sz * (i : Int) ∈ slots c.sz u.base u.core.cap := by
    intro i hi
    exact mem_slots.mpr ⟨i, hlt i hi, rfl⟩
  have hnd : ((OTable.occupied u.core).filter (· ≤ q)).Nodup := (List.nodup_range.filter _).filter _
  obtain ⟨m4, e4, k4, s4⟩ := copyAll_ok (f := fun i => u.base + c.sz * (i : Int)) (g := fun i => b + c.sz * (i : Int)) (m := m3)
    hnd (fun i hi => h3.link.live _ (hso i hi)) (fun i hi => l3 _ (hsl i hi)) (fun i _ j _ q => slot_inj hsz q)
    (fun i hi j hj q => hub _ (List.mem_cons_of_mem _ (hso j hj)) (q ▸ hsl i hi))
  have f4 : Frame m3 m4 (slots c.sz b x.cap) (slots c.sz b x.cap) := s4.frame (by
    intro y hy i hi q
    exact hy (q ▸ hsl i hi))
  have hdm : t.hd ∈ m2.live := hd2 ▸ hl2
  have hdn : t.hd ∉ slots c.sz t2.base (if al.copyProp = true then 0 else t.core.cap) := by rw [← hcap2, ← hd2]; exact hh2
  obtain ⟨g1, g2⟩ := f3.keep t.hd hdm hdn
  obtain ⟨g3, g4⟩ := f4.keep t.hd g1 hdb
  unfold OTable.copyAssignThrow
  rw [e0, bind_ok]
  simp only
  rw [e1, bind_ok, e2, bind_ok, e3, bind_ok]
  simp only
  rw [e4, bind_ok]
  refine ⟨m4, x, b, rfl, x1, hcl, x2, ?_, g3, ?_, hdb, ?_⟩
  · rw [g4, g2, hk2, k1]
  · intro y hy
    rw [s4.live]
    exact l3 y hy
  · have f34 := (f3.trans f4).add [t.hd]
    refine (f1.trans f2).trans (f34.congr ?_ ?_)
    · intro y hy
      unfold OTable.foot
      rw [hd2, hcap2]
      exact hy
    · intro y hy
      exact Or.inl hy

theorem moveAssignThrow_ok (hsz : 0 < c.sz) (hA : c.A.Sound c.sz) (ht : Rep c m t o') (h : Rep c m u o) (ha : Apart c.sz t u)
    {q : Nat} (hq : q ∈ o) :
    ∃ m' x b, t.moveAssignThrow c m u q =
        .ok (some (m', { t with core := x, base := b }, { u with core := u.core.without (List.range q) })) ∧ x.size = 0 ∧
      u.core.cap ≤ x.cap ∧ (∀ i, i < x.cap → x.node i = if i < q then u.core.node i else none) ∧ Ring m' u.hd [] ∧
      Ring m' t.hd (o.map (fun i => if i ≤ q then b + c.sz * (i : Int) else u.addr c.sz i)) ∧
      (∀ y ∈ slots c.sz b x.cap, y ∉ u.foot c.sz) ∧ t.hd ∉ slots c.sz b x.cap ∧
      Frame m m' (t.foot c.sz ++ u.foot c.sz) ((t.hd :: slots c.sz b x.cap) ++ u.foot c.sz) := by
  have hqc := h.link.lt hq
  have hqo : (u.core.ctl q).isOccupied = true := by rw [← h.core.live q hqc]; exact h.link.isSome q hq
  have hnf : t.hd ∉ u.hd :: o.map (u.addr c.sz) := fun q => ha _ List.mem_cons_self (h.link.foot _ q)
  obtain ⟨m1, e1, r1, r2, s1⟩ := h.ring.rebase ht.hd_live hnf
  obtain ⟨f, e2, c2⟩ := ht.core.erased
  obtain ⟨x, t1, _, hcap, x1, x2, y1, y2⟩ := copyDataThrow_core (t := { t.core with node := f, size := 0 }) h.core rfl c2 ht.core.copyShape
    hqc hqo
  have e3 := Swiss.moveDataThrow_spec h.core rfl hqc hqo y1 y2
  change x.cap = max t.core.cap u.core.cap at hcap
  have hlt : ∀ y ∈ slots c.sz t.base t.core.cap, y ∈ m1.live := by rw [s1.live]; exact ht.link.live
  obtain ⟨m2, b, e4, l2, f2⟩ := realloc_ok hA hlt u.core.cap
  rw [← hcap] at l2 f2
  have hcl : u.core.cap ≤ x.cap := by omega
  have hdb : t.hd ∉ slots c.sz b x.cap := by
    intro g
    rcases f2.fresh _ g with g | g
    · exact ht.link.hdr g
    · exact g (by rw [s1.live]; exact ht.hd_live)
  have hub : ∀ y ∈ slots c.sz b x.cap, y ∉ u.foot c.sz := by
    intro y g hy
    rcases f2.fresh _ g with g | g
    · exact ha y (List.mem_cons_of_mem _ g) hy
    · exact g (by rw [s1.live]; exact h.link.foot_live y hy)
  have hring : ∀ y ∈ t.hd :: o.map (u.addr c.sz), y = t.hd ∨ y ∈ slots c.sz u.base u.core.cap := by
    intro y hy
    rcases List.mem_cons.mp hy with g | g
    · exact Or.inl g
    · rw [List.mem_map] at g
      obtain ⟨i, hi, rfl⟩ := g
      exact Or.inr (h.link.slot hi)
  have hjs : ∀ i, i ∈ (OTable.occupied u.core).filter (· ≤ q) ↔ i ∈ o ∧ i ≤ q := by
    intro i
    rw [List.mem_filter, mem_occupied h.core, h.link.occ, decide_eq_true_iff]
  have hsl : ∀ i ∈ (OTable.occupied u.core).filter (· ≤ q), b + c.sz * (i : Int) ∈ slots c.sz b x.cap := by
    intro i hi
    have := h.link.lt ((hjs i).mp hi).1
    exact mem_slots.mpr ⟨i, by omega, rfl⟩
  have hr2 : Ring m2 t.hd (o.map (u.addr c.sz)) := f2.ring r1 (by
    intro y hy g
    rcases hring y hy with q | q
    · exact ht.link.hdr (q ▸ g)
    · exact ha y (List.mem_cons_of_mem _ g) (List.mem_cons_of_mem _ q))
  have hr2' : Ring m2 u.hd [] := f2.ring r2 (by
    intro y hy g
    rw [List.mem_singleton] at hy
    exact ha y (List.mem_cons_of_mem _ g) (hy ▸ List.mem_cons_self))
  have hnd : ((OTable.occupied u.core).filter (· ≤ q)).Nodup := (List.nodup_range.filter _).filter _
  obtain ⟨m3, e5, r3, s3⟩ := relinkAll_ok (f := u.addr c.sz) (g := fun i : Nat => b + c.sz * (i : Int)) hr2
    hnd (fun i hi => ((hjs i).mp hi).1) (fun _ _ => rfl) (fun i hi => l2 _ (hsl i hi))
    (fun i hi g => by
      rcases hring _ g with g | g
      · exact hdb (g ▸ hsl i hi)
      · exact hub _ (hsl i hi) (List.mem_cons_of_mem _ g))
    (fun i _ j _ e => slot_inj hsz e)
  have hmap : o.map (fun i => if i ∈ (OTable.occupied u.core).filter (· ≤ q) then b + c.sz * (i : Int) else u.addr c.sz i) =
      o.map (fun i => if i ≤ q then b + c.sz * (i : Int) else u.addr c.sz i) := by
    refine List.map_congr_left ?_
    intro i hi
    by_cases g : i ≤ q
    · rw [if_pos g, if_pos ((hjs i).mpr ⟨hi, g⟩)]
    · rw [if_neg g, if_neg (fun q => g ((hjs i).mp q).2)]
  rw [hmap] at r3
  have hud : u.hd ∉ t.hd :: o.map (u.addr c.sz) := by
    intro g
    rcases hring _ g with g | g
    · exact ha t.hd List.mem_cons_self (g ▸ List.mem_cons_self)
    · exact h.link.hdr g
  have hs3 : ∀ y, y ∉ slots c.sz b x.cap → y ∉ t.hd :: o.map (u.addr c.sz) → m3.link y = m2.link y := by
    intro y hy hy'
    refine s3.link y ⟨?_, hy'⟩
    intro g
    rw [List.mem_map] at g
    obtain ⟨i, hi, g⟩ := g
    exact hy (g ▸ hsl i hi)
  have hr3' : Ring m3 u.hd [] := hr2'.frame (fun y hy => by rw [s3.live]; exact hr2'.live y hy) (fun y hy => by
    rw [List.mem_singleton] at hy
    rw [hy]
    exact hs3 _ (fun g => hub _ g List.mem_cons_self) hud)
  unfold OTable.moveAssignThrow Table.moveAssignThrow
  rw [e2, bind_ok, e3, bind_ok]
  simp only
  rw [e1, bind_ok, e4, bind_ok]
  simp only
  rw [show (fun (m : Mem) (i : Nat) => m.relinkFrom (b + c.sz * (i : Int)) (u.base + c.sz * (i : Int))) =
    (fun (m : Mem) (i : Nat) => m.relinkFrom (b + c.sz * (i : Int)) (u.addr c.sz i)) from rfl, e5, bind_ok]
  refine ⟨m3, x, b, rfl, x1, hcl, x2, hr3', r3, hub, hdb, ?_⟩
  have f1 : Frame m m1 (t.foot c.sz ++ u.foot c.sz) (t.foot c.sz ++ u.foot c.sz) := s1.frame (by
    intro y hy
    rw [List.mem_append, not_or] at hy
    exact ⟨fun q => hy.1 (q ▸ List.mem_cons_self), fun q => hy.2 (h.link.foot y q)⟩)
  have f3 : Frame m2 m3 ((t.hd :: slots c.sz b x.cap) ++ u.foot c.sz) ((t.hd :: slots c.sz b x.cap) ++ u.foot c.sz) :=
    ⟨fun y hy hn => by
      rw [List.mem_append, not_or] at hn
      refine ⟨by rw [s3.live]; exact hy, hs3 y (fun g => hn.1 (List.mem_cons_of_mem _ g)) ?_⟩
      intro g
      rcases hring y g with g | g
      · exact hn.1 (g ▸ List.mem_cons_self)
      · exact hn.2 (List.mem_cons_of_mem _ g), fun _ hy => Or.inl hy⟩
  refine f1.trans (Frame.trans ?_ f3)
  refine (f2.add (t.hd :: u.foot c.sz)).congr ?_ ?_
  · intro y hy
    simp only [OTable.foot, List.cons_append, List.mem_cons, List.mem_append] at hy ⊢
    tauto
  · intro y hy
    simp only [OTable.foot, List.cons_append, List.mem_cons, List.mem_append] at hy ⊢
    tauto

end Tpp.OSwiss
