import Verif.Props.OrderedDense

/-!
# An ordered dense container is an unordered one with links
-/

set_option linter.unusedSectionVars false

namespace Tpp.ODense

open Tpp.Dense (Elem LF Table)
open Tpp.Ordered

variable {k : Nat} {K V : Type} [DecidableEq K]

/-- The same operation on an unordered container.  `pos` is the position in the array of the element that `erase(iterator)` erases; looking at
the elements in insertion order changes nothing. -/
def Op.plain (pos : Nat) : Op k K V → Dense.Op k K V
  | .insert key v => .insert key v
  | .emplace key v => .emplace key v
  | .assign hk x v => .assign hk x v
  | .erase j x => .erase j x
  | .eraseNth _ => .eraseAt pos
  | .insertRange ra xs => .insertRange ra xs
  | .assignRange ra xs => .assignRange ra xs
  | .clear => .clear
  | .reserve n => .reserve n
  | .rehash n => .rehash n
  | .setLoad lf => .setLoad lf
  | .find j x => .find j x
  | .contains j x => .contains j x
  | .size => .size
  | .front => .size
  | .back => .size
  | .iterate => .size
  | .reverse => .size

theorem insertWith_plain {sz : Int} {A : Alloc} {m : Mem} {t : OTable k K V} {op : Table k K V → M (Table k K V × Nat × Bool)} {hint : Option Int}
    {r : Mem × OTable k K V × Int × Bool} (e : OTable.insertWith sz A m t op hint = .ok r) :
    ∃ p b, op t.core = .ok (r.2.1.core, p, b) := by
  unfold OTable.insertWith at e
  obtain ⟨g, _, e⟩ := Dense.bind_eq_ok e
  obtain ⟨s, e1, e⟩ := Dense.bind_eq_ok e
  obtain ⟨m', _, e⟩ := Dense.bind_eq_ok e
  cases e
  exact ⟨s.2.1, s.2.2, e1⟩

theorem eraseIter_plain {sz : Int} {m : Mem} {t : OTable k K V} {a : Int} {r : Mem × OTable k K V × Int} (e : t.eraseIter sz m a = .ok r) :
    ∃ pos q, pos < t.core.size ∧ t.core.eraseAt pos = .ok (r.2.1.core, q) := by
  unfold OTable.eraseIter at e
  cases hs : t.slotOf sz a with
  | none => rw [hs] at e; cases e
  | some pos =>
    rw [hs] at e
    simp only at e
    split at e
    · rename_i hp
      obtain ⟨g, _, e⟩ := Dense.bind_eq_ok e
      obtain ⟨c, e1, e⟩ := Dense.bind_eq_ok e
      cases e
      exact ⟨pos, c.2, hp, e1⟩
    · cases e

theorem erase_plain {hash : K → Nat} {sz : Int} {m : Mem} {t : OTable k K V} {j : Fin k} {x : K} {r : Mem × OTable k K V × Int × Bool}
    (e : t.erase hash sz m j x = .ok r) : ∃ p b, t.core.erase hash j x = .ok (r.2.1.core, p, b) := by
  unfold OTable.erase at e
  obtain ⟨c, e1, e⟩ := Dense.bind_eq_ok e
  split at e
  · obtain ⟨g, _, e⟩ := Dense.bind_eq_ok e
    cases e
    exact ⟨c.2.1, c.2.2, e1⟩
  · cases e
    exact ⟨c.2.1, c.2.2, e1⟩

theorem reserve_plain {sz : Int} {A : Alloc} {m : Mem} {t : OTable k K V} {n : Nat} {r : Mem × OTable k K V} (e : t.reserve sz A m n = .ok r) :
    t.core.reserve n = .ok r.2.core := by
  unfold OTable.reserve at e
  obtain ⟨g, _, e⟩ := Dense.bind_eq_ok e
  obtain ⟨c, e1, e⟩ := Dense.bind_eq_ok e
  cases e
  exact e1

theorem clear_plain {m : Mem} {t : OTable k K V} {r : Mem × OTable k K V} (e : t.clear m = .ok r) : t.core.clear = .ok r.2.core := by
  unfold OTable.clear at e
  obtain ⟨g, _, e⟩ := Dense.bind_eq_ok e
  obtain ⟨c, e1, e⟩ := Dense.bind_eq_ok e
  cases e
  exact e1

theorem inserts_plain {hash : K → Nat} {sz : Int} {A : Alloc} : ∀ (xs : List (Elem k K V)) {s r : Mem × OTable k K V},
    xs.foldlM (fun (s : Mem × OTable k K V) x => do
      let r ← s.2.insert hash sz A s.1 x.1 x.2
      .ok (r.1, r.2.1)) s = .ok r →
    xs.foldlM (fun (t : Table k K V) x => do
      let r ← t.insert hash x.1 x.2
      .ok r.1) s.2.core = .ok r.2.core
  | [], s, r, e => by cases e; rfl
  | x :: xs, s, r, e => by
    rw [List.foldlM_cons] at e ⊢
    obtain ⟨s1, e1, e⟩ := Dense.bind_eq_ok e
    obtain ⟨q, e2, e3⟩ := Dense.bind_eq_ok e1
    cases e3
    obtain ⟨p, b, e4⟩ := insertWith_plain (op := fun c => c.insert hash x.1 x.2) e2
    rw [e4, bind_ok, bind_ok]
    exact inserts_plain xs e

theorem insertRange_plain {hash : K → Nat} {sz : Int} {A : Alloc} {m : Mem} {t : OTable k K V} {ra : Bool} {xs : List (Elem k K V)}
    {r : Mem × OTable k K V} (e : t.insertRange hash sz A m ra xs = .ok r) : t.core.insertRange hash ra xs = .ok r.2.core := by
  unfold OTable.insertRange at e
  obtain ⟨s, e1, e⟩ := Dense.bind_eq_ok e
  unfold Table.insertRange
  have h1 : (if ra then t.core.reserve (t.core.size + xs.length) else .ok t.core : M (Table k K V)) = .ok s.2.core := by
    cases ra with
    | true => exact reserve_plain e1
    | false => cases e1; rfl
  rw [h1, bind_ok]
  exact inserts_plain xs e

/-- Every operation changes the table as the operation of the unordered container does. -/
theorem step_plain {hash : K → Nat} {sz : Int} {A : Alloc} {m : Mem} {t : OTable k K V} {o : Op k K V} {r : Mem × OTable k K V × Out k K V}
    (e : t.step hash sz A m o = .ok r) : ∃ pos out, t.core.step hash (o.plain pos) = .ok (r.2.1.core, out) := by
  cases o with
  | insert key v =>
    simp only [OTable.step] at e
    obtain ⟨s, e1, e⟩ := Dense.bind_eq_ok e
    obtain ⟨x, _, e⟩ := Dense.bind_eq_ok e
    cases e
    obtain ⟨p, b, e2⟩ := insertWith_plain (op := fun c => c.insert hash key v) e1
    refine ⟨0, .ins p b, ?_⟩
    simp only [Op.plain, Table.step]
    rw [e2, bind_ok]
  | emplace key v =>
    simp only [OTable.step] at e
    obtain ⟨s, e1, e⟩ := Dense.bind_eq_ok e
    obtain ⟨x, _, e⟩ := Dense.bind_eq_ok e
    cases e
    obtain ⟨p, b, e2⟩ := insertWith_plain (op := fun c => c.emplace hash key v) e1
    refine ⟨0, .ins p b, ?_⟩
    simp only [Op.plain, Table.step]
    rw [e2, bind_ok]
  | assign hk x v =>
    simp only [OTable.step] at e
    obtain ⟨s, e1, e⟩ := Dense.bind_eq_ok e
    obtain ⟨y, _, e⟩ := Dense.bind_eq_ok e
    cases e
    obtain ⟨p, b, e2⟩ := insertWith_plain (op := fun c => Table.assignStep hash hk c x v) e1
    refine ⟨0, .ins p b, ?_⟩
    simp only [Op.plain, Table.step]
    rw [e2, bind_ok]
  | erase j x =>
    simp only [OTable.step] at e
    obtain ⟨s, e1, e⟩ := Dense.bind_eq_ok e
    cases e
    obtain ⟨p, b, e2⟩ := erase_plain e1
    refine ⟨0, .pos p, ?_⟩
    simp only [Op.plain, Table.step]
    rw [e2, bind_ok]
  | eraseNth n =>
    simp only [OTable.step] at e
    split at e
    · obtain ⟨b, _, e⟩ := Dense.bind_eq_ok e
      obtain ⟨a, _, e⟩ := Dense.bind_eq_ok e
      obtain ⟨s, e1, e⟩ := Dense.bind_eq_ok e
      cases e
      obtain ⟨pos, q, hp, e2⟩ := eraseIter_plain e1
      refine ⟨pos, .pos q, ?_⟩
      simp only [Op.plain, Table.step]
      rw [if_pos hp, e2, bind_ok]
    · cases e
      refine ⟨t.core.size, .unit, ?_⟩
      simp only [Op.plain, Table.step]
      rw [if_neg (Nat.lt_irrefl _)]
  | insertRange ra xs =>
    simp only [OTable.step] at e
    obtain ⟨s, e1, e⟩ := Dense.bind_eq_ok e
    cases e
    refine ⟨0, .unit, ?_⟩
    simp only [Op.plain, Table.step]
    rw [insertRange_plain e1, bind_ok]
  | assignRange ra xs =>
    simp only [OTable.step] at e
    obtain ⟨s, e1, e⟩ := Dense.bind_eq_ok e
    obtain ⟨s', e2, e⟩ := Dense.bind_eq_ok e
    cases e
    refine ⟨0, .unit, ?_⟩
    simp only [Op.plain, Table.step, Table.assignRange]
    rw [clear_plain e1, bind_ok, insertRange_plain e2, bind_ok]
  | clear =>
    simp only [OTable.step] at e
    obtain ⟨s, e1, e⟩ := Dense.bind_eq_ok e
    cases e
    refine ⟨0, .unit, ?_⟩
    simp only [Op.plain, Table.step]
    rw [clear_plain e1, bind_ok]
  | reserve n =>
    simp only [OTable.step] at e
    obtain ⟨s, e1, e⟩ := Dense.bind_eq_ok e
    cases e
    refine ⟨0, .unit, ?_⟩
    simp only [Op.plain, Table.step]
    rw [reserve_plain e1, bind_ok]
  | rehash n =>
    simp only [OTable.step] at e
    obtain ⟨s, e1, e⟩ := Dense.bind_eq_ok e
    cases e
    refine ⟨0, .unit, ?_⟩
    simp only [Op.plain, Table.step]
    rw [e1, bind_ok]
  | setLoad lf => cases e; exact ⟨0, .unit, rfl⟩
  | find j x =>
    simp only [OTable.step] at e
    obtain ⟨s, e1, e⟩ := Dense.bind_eq_ok e
    cases e
    refine ⟨0, .elem s, ?_⟩
    simp only [Op.plain, Table.step]
    rw [e1, bind_ok]
  | contains j x =>
    simp only [OTable.step] at e
    obtain ⟨s, e1, e⟩ := Dense.bind_eq_ok e
    cases e
    refine ⟨0, .bool s, ?_⟩
    simp only [Op.plain, Table.step]
    rw [e1, bind_ok]
  | size => cases e; exact ⟨0, _, rfl⟩
  | front =>
    simp only [OTable.step] at e
    split at e
    · cases e; exact ⟨0, _, rfl⟩
    · obtain ⟨a, _, e⟩ := Dense.bind_eq_ok e
      obtain ⟨x, _, e⟩ := Dense.bind_eq_ok e
      cases e; exact ⟨0, _, rfl⟩
  | back =>
    simp only [OTable.step] at e
    split at e
    · cases e; exact ⟨0, _, rfl⟩
    · obtain ⟨a, _, e⟩ := Dense.bind_eq_ok e
      obtain ⟨x, _, e⟩ := Dense.bind_eq_ok e
      cases e; exact ⟨0, _, rfl⟩
  | iterate =>
    simp only [OTable.step] at e
    obtain ⟨a, _, e⟩ := Dense.bind_eq_ok e
    obtain ⟨x, _, e⟩ := Dense.bind_eq_ok e
    cases e; exact ⟨0, _, rfl⟩
  | reverse =>
    simp only [OTable.step] at e
    obtain ⟨a, _, e⟩ := Dense.bind_eq_ok e
    obtain ⟨x, _, e⟩ := Dense.bind_eq_ok e
    cases e; exact ⟨0, _, rfl⟩

theorem run_plain {hash : K → Nat} {sz : Int} {A : Alloc} : ∀ {os : List (Op k K V)} {m : Mem} {t : OTable k K V}
    {r : Mem × OTable k K V × List (Out k K V)}, t.run hash sz A m os = .ok r →
    ∃ ps : List Nat, ps.length = os.length ∧ ∃ outs, t.core.run hash (List.zipWith Op.plain ps os) = .ok (r.2.1.core, outs)
  | [], m, t, r, e => by cases e; exact ⟨[], rfl, [], rfl⟩
  | o :: os, m, t, r, e => by
    simp only [OTable.run] at e
    obtain ⟨s, e1, e⟩ := Dense.bind_eq_ok e
    obtain ⟨s', e2, e⟩ := Dense.bind_eq_ok e
    obtain ⟨p, out, h1⟩ := step_plain e1
    obtain ⟨ps, hl, outs, h2⟩ := run_plain e2
    cases e
    refine ⟨p :: ps, by simp [hl], out :: outs, ?_⟩
    simp only [List.zipWith_cons_cons, Table.run]
    rw [h1, bind_ok, h2, bind_ok]

end Tpp.ODense
