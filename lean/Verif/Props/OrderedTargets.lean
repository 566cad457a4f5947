import Verif.Props.Targets
import Verif.Props.OrderedIndex

/-!
# C120 for ordered sparse and stable containers
-/

set_option linter.unusedSectionVars false

namespace Tpp.OSwiss

open Tpp.Swiss (Node Ev Table Inv AllocP)
open Tpp.Ordered
open Tpp.ODense (bump bump_sound mem0)

variable {K V : Type} [DecidableEq K]

/-- The same program compiled with another block variant (swiss_table.hpp 184-193). -/
def Cfg.on (c : Cfg K) (isa : Isa) : Cfg K := { c with isa := isa }

variable {c : Cfg K}

theorem replay_eight : @OTable.replay K V (c.on .neon) = OTable.replay (c.on .portable) := rfl

theorem inv_fresh {isa : Isa} {hash : K → Nat} {t : Table K V} (h : Inv isa hash t) : Inv isa hash (fresh t) :=
  ⟨h.shape, h.live, h.tag, h.hash_ok, h.uniq, h.reach, h.size_eq, h.budget⟩

theorem insert_eight {m : Mem} {t : OTable K V} (h : Inv .neon c.hash t.core) (k : K) (v : V) (hint : Option Int) :
    t.insert (c.on .neon) m k v hint = t.insert (c.on .portable) m k v hint := by
  show OTable.insertWith _ _ _ _ _ = OTable.insertWith _ _ _ _ _
  simp only [OTable.insertWith, replay_eight]
  show (Table.insert .neon c.hash (fresh t.core) k v >>= _) = (Table.insert .portable c.hash (fresh t.core) k v >>= _)
  rw [Swiss.insert_eight (inv_fresh h)]
  rfl

theorem assign_eight {m : Mem} {t : OTable K V} (h : Inv .neon c.hash t.core) (k : K) (v : V) (hint : Option Int) :
    t.assign (c.on .neon) m k v hint = t.assign (c.on .portable) m k v hint := by
  show OTable.insertWith _ _ _ _ _ = OTable.insertWith _ _ _ _ _
  simp only [OTable.insertWith, replay_eight]
  show (Table.insertOrAssign .neon c.hash (fresh t.core) k v >>= _) = (Table.insertOrAssign .portable c.hash (fresh t.core) k v >>= _)
  rw [Swiss.insertOrAssign_eight (inv_fresh h)]
  rfl

theorem doErase_eight : @OTable.doErase K V (c.on .neon) = OTable.doErase (c.on .portable) := rfl
theorem extractAt_eight : @OTable.extractAt K V (c.on .neon) = OTable.extractAt (c.on .portable) := rfl
theorem eraseIter_eight : @OTable.eraseIter K V (c.on .neon) = OTable.eraseIter (c.on .portable) := rfl
theorem clear_eight : @OTable.clear K V (c.on .neon) = OTable.clear (c.on .portable) := rfl

theorem eraseRange_eight : @OTable.eraseRange K V (c.on .neon) = OTable.eraseRange (c.on .portable) := by
  funext first fuel
  induction fuel with
  | zero => rfl
  | succ fuel ih => funext m t last result; simp only [OTable.eraseRange, ih, eraseIter_eight]

theorem eraseIf_eight : @OTable.eraseIf K V (c.on .neon) = OTable.eraseIf (c.on .portable) := by
  funext p fuel
  induction fuel with
  | zero => rfl
  | succ fuel ih => funext m t a n; simp only [OTable.eraseIf, ih, eraseIter_eight]; rfl

theorem reserve_eight : @OTable.reserve K V (c.on .neon) = OTable.reserve (c.on .portable) := by
  funext m t n
  simp only [OTable.reserve, replay_eight]
  show ((fresh t.core).reserve .neon n >>= _) = ((fresh t.core).reserve .portable n >>= _)
  rw [Swiss.reserve_eight]

theorem rehash_eight : @OTable.rehash K V (c.on .neon) = OTable.rehash (c.on .portable) := by
  funext m t n
  simp only [OTable.rehash, replay_eight]
  show ((fresh t.core).rehash .neon n >>= _) = ((fresh t.core).rehash .portable n >>= _)
  rw [Swiss.rehash_eight]

theorem erase_eight {m : Mem} {t : OTable K V} (h : Inv .neon c.hash t.core) (k : K) :
    t.erase (c.on .neon) m k = t.erase (c.on .portable) m k := by
  simp only [OTable.erase, doErase_eight]
  show (t.core.findNode .neon k (c.hash k) >>= _) = (t.core.findNode .portable k (c.hash k) >>= _)
  rw [Swiss.findNode_eight h]

theorem extract_eight {m : Mem} {t : OTable K V} (h : Inv .neon c.hash t.core) (k : K) :
    t.extract (c.on .neon) m k = t.extract (c.on .portable) m k := by
  simp only [OTable.extract, extractAt_eight]
  show (t.core.findNode .neon k (c.hash k) >>= _) = (t.core.findNode .portable k (c.hash k) >>= _)
  rw [Swiss.findNode_eight h]

theorem insertAll_eight (hsz : 0 < c.sz) (xs : List (K × V)) : ∀ {s : Mem × OTable K V}, Inv .neon c.hash s.2.core →
    xs.foldlM (fun (s : Mem × OTable K V) (x : K × V) => do
      let r ← s.2.insert (c.on .neon) s.1 x.1 x.2
      .ok (r.1, r.2.1)) s =
    xs.foldlM (fun (s : Mem × OTable K V) (x : K × V) => do
      let r ← s.2.insert (c.on .portable) s.1 x.1 x.2
      (.ok (r.1, r.2.1) : M (Mem × OTable K V))) s := by
  induction xs with
  | nil => intro s _; rfl
  | cons x xs ih =>
    intro s h
    rw [List.foldlM_cons, List.foldlM_cons, ← insert_eight h]
    cases e : s.2.insert (c.on .neon) s.1 x.1 x.2 none with
    | error f => rfl
    | ok r => exact ih (insert_index (c := c.on .neon) hsz h e).1

theorem insertRange_eight (hsz : 0 < c.sz) {m : Mem} {t : OTable K V} (h : Inv .neon c.hash t.core) (ra : Bool) (xs : List (K × V)) :
    t.insertRange (c.on .neon) m ra xs = t.insertRange (c.on .portable) m ra xs := by
  simp only [OTable.insertRange, ← reserve_eight]
  cases ra with
  | false => exact insertAll_eight hsz xs (s := (m, t)) h
  | true =>
    simp only [if_true]
    cases e : t.reserve (c.on .neon) m (t.core.size + xs.length) with
    | error f => rfl
    | ok r => exact insertAll_eight hsz xs (reserve_index (c := c.on .neon) h e).1

/-- C120 for ordered containers and the 8-byte variants: every operation does the same to the links, the elements and the index, gives the
same answer, and has the same faults. -/
theorem C120_ordered_exact_step (hsz : 0 < c.sz) {m : Mem} {t : OTable K V} (h : Inv .neon c.hash t.core) (op : Op K V) :
    t.step (c.on .neon) m op = t.step (c.on .portable) m op := by
  cases op with
  | insert k v => simp only [OTable.step, insert_eight h]; rfl
  | assign k v => simp only [OTable.step, assign_eight h]; rfl
  | index k d => simp only [OTable.step, insert_eight h]; rfl
  | erase k => simp only [OTable.step, erase_eight h]; rfl
  | eraseNth n => rfl
  | eraseRange i j => simp only [OTable.step, eraseRange_eight]
  | eraseIf p => simp only [OTable.step, eraseIf_eight]
  | extract k => simp only [OTable.step, extract_eight h]
  | insertRange ra xs => simp only [OTable.step, insertRange_eight hsz h]
  | assignRange ra xs =>
    simp only [OTable.step, ← clear_eight]
    cases e : t.clear (c.on .neon) m with
    | error f => rfl
    | ok r => simp only [bind_ok, insertRange_eight hsz (clear_index (c := c.on .neon) h e).1]
  | clear => rfl
  | reserve n => simp only [OTable.step, reserve_eight]
  | rehash n => simp only [OTable.step, rehash_eight]
  | find k =>
    simp only [OTable.step]
    show (t.core.findNode .neon k (c.hash k) >>= _) = (t.core.findNode .portable k (c.hash k) >>= _)
    rw [Swiss.findNode_eight h]; rfl
  | contains k =>
    simp only [OTable.step, Table.contains]
    show ((t.core.findNode .neon k (c.hash k) >>= _) >>= _) = ((t.core.findNode .portable k (c.hash k) >>= _) >>= _)
    rw [Swiss.findNode_eight h]
  | size => rfl
  | front => rfl
  | back => rfl
  | iterate => rfl
  | reverse => rfl

theorem run_eight (hsz : 0 < c.sz) (hA : c.A.Sound c.sz) (os : List (Op K V)) : ∀ {m : Mem} {t : OTable K V}, Inv .neon c.hash t.core →
    Sep (c.on .neon) m t → t.run (c.on .neon) m os = t.run (c.on .portable) m os := by
  induction os with
  | nil => intros; rfl
  | cons op os ih =>
    intro m t h hs
    simp only [OTable.run, ← C120_ordered_exact_step hsz h]
    cases e : t.step (c.on .neon) m op with
    | error f => rfl
    | ok r =>
      simp only [bind_ok, ih (step_index (c := c.on .neon) hsz h hs e).1 (step_sep (c := c.on .neon) hA h hs e)]

/-- C120 for ordered containers and the 8-byte variants: every history from the construction on has the same answers, the same orders, the
same links and the same faults, also if linked nodes are exchanged on the way (C52). -/
theorem C120_ordered_exact (hsz : 0 < c.sz) (hA : c.A.Sound c.sz) (m : Mem) (os : List (Op K V)) :
    (OTable.create (V := V) c m).2.run (c.on .neon) (OTable.create (V := V) c m).1 os =
      (OTable.create (V := V) c m).2.run (c.on .portable) (OTable.create (V := V) c m).1 os :=
  run_eight hsz hA os (Swiss.Inv.init _ _) (create_sep (c.on .neon) m)

/-- Nine insertions, erasures and an iteration on both variants. -/
example : ((OTable.create (V := Nat) c8 mem0).2.run (c8.on .portable) (OTable.create (V := Nat) c8 mem0).1
    ((List.range 9).map (fun i => .insert i i) ++ [.erase 3, .assign 5 0, .iterate])).toOption.map (fun r => (r.2.1.core.cap, r.2.2.getLast?)) =
    some (15, some (.list [(0, 0), (1, 1), (2, 2), (4, 4), (5, 0), (6, 6), (7, 7), (8, 8)])) := by decide +kernel

/-- C120 for ordered containers on any two targets, which may also differ in hash function, size of a node and allocator: a program of
supported operations on any number of containers gives exactly the same answers, orders included, unless one of the two comes to exchange
linked nodes.  Missing: what happens after such an exchange, which may be on one target only (`C120_ordered_false`). -/
theorem C120_ordered_answers_partial {d : Cfg K} (hsz : 0 < c.sz) (hA : c.A.Sound c.sz) (hsz' : 0 < d.sz) (hA' : d.A.Sound d.sz) (m m' : Mem)
    (os : List (WOp K V)) (hg : World.Guarded c.stop ⟨m, fun _ => none⟩ (fun _ => none) os = true)
    (hg' : World.Guarded d.stop ⟨m', fun _ => none⟩ (fun _ => none) os = true) :
    World.run c.stop ⟨m, fun _ => none⟩ os = .error .rawSwap ∨ World.run d.stop ⟨m', fun _ => none⟩ os = .error .rawSwap ∨
    ∃ w w' outs, World.run c ⟨m, fun _ => none⟩ os = .ok (w, outs) ∧ World.run d ⟨m', fun _ => none⟩ os = .ok (w', outs) := by
  rcases C52_swiss_insertion_order_partial hsz hA m os hg with e | ⟨w, e, -⟩
  · exact Or.inl e
  · rcases C52_swiss_insertion_order_partial hsz' hA' m' os hg' with e' | ⟨w', e', -⟩
    · exact Or.inr (Or.inl e')
    · exact Or.inr (Or.inr ⟨w, w', _, e, e'⟩)

/-- C120 for ordered containers without erasures: on any two targets exactly the same answers and orders. -/
theorem C120_ordered_growing {d : Cfg K} (hsz : 0 < c.sz) (hA : c.A.Sound c.sz) (hsz' : 0 < d.sz) (hA' : d.A.Sound d.sz) (m m' : Mem)
    {n k : Nat} (hn : n + 1 = 2 ^ k) (ops : List (Op K V)) (hno : ∀ o ∈ ops, o.erases = false) :
    ∃ m0 t0 m1 t1, OTable.createN (V := V) c m n = .ok (m0, t0) ∧ OTable.createN (V := V) d m' n = .ok (m1, t1) ∧
    ∃ r r', t0.run c m0 ops = .ok r ∧ t1.run d m1 ops = .ok r' ∧ r.2.2 = r'.2.2 := by
  obtain ⟨m0, t0, e, m2, t2, f, -⟩ := C52_swiss_growing_partial hsz hA m hn ops hno
  obtain ⟨m1, t1, e', m3, t3, f', -⟩ := C52_swiss_growing_partial hsz' hA' m' hn ops hno
  exact ⟨m0, t0, m1, t1, e, e', _, _, f, f', rfl⟩

set_option maxRecDepth 100000 in
/-- C120 is false for ordered containers: a queue of 11 elements works with 16-byte blocks and breaks with 8-byte blocks. -/
theorem C120_ordered_false : fine c16 (slide 11 18) = true ∧ lost c8 (slide 11 18) = true := by
  constructor <;> decide +kernel

end Tpp.OSwiss
