import Verif.Props.OrderedIndex
import Verif.Swiss.Ghost

/-!
# An ordered sparse container is an unordered one with links
-/

set_option linter.unusedSectionVars false

namespace Tpp.OSwiss

open Tpp.Swiss (Node Ev Table Inv Ends)
open Tpp.Ordered

variable {K V : Type} [DecidableEq K] {c : Cfg K} {m : Mem} {t : OTable K V} {u : Table K V}

/-- The same operation on an unordered container.  Elements named by iterators, or by a predicate in the order of the links, are erased by their
keys, which are `ks`; `extract` takes out what `erase` erases (swiss_table.hpp 1052-1094); looking at the elements in insertion order changes
nothing. -/
def Op.plain (ks : List K) : Op K V → List (Tpp.Op K V)
  | .insert k v => [.insert k v]
  | .assign k v => [.assign k v]
  | .index k v => [.index k v]
  | .erase k => [.erase k]
  | .eraseNth _ => ks.map .erase
  | .eraseRange _ _ => ks.map .erase
  | .eraseIf _ => ks.map .erase
  | .extract k => [.erase k]
  | .insertRange ra xs => [.insertRange ra xs]
  | .assignRange ra xs => [.clear, .insertRange ra xs]
  | .clear => [.clear]
  | .reserve n => [.reserve n]
  | .rehash n => [.rehash n]
  | _ => []

/-- `u` is in good order and holds what `t` holds, at the same places. -/
def Core (c : Cfg K) (u : Table K V) (t : OTable K V) : Prop := Inv c.isa c.hash u ∧ fresh u = fresh t.core

theorem Core.log (h : Core c u t) : u = (fresh t.core).addLog u.log := by
  rw [← h.2]
  rfl

theorem fresh_addLog (l : List Ev) (x : Table K V) : fresh (x.addLog l) = fresh x := rfl

theorem Core.inv (h : Core c u t) : Inv c.isa c.hash t.core := by
  have h1 := fresh_inv h.1
  rw [h.2] at h1
  exact ⟨h1.shape, h1.live, h1.tag, h1.hash_ok, h1.uniq, h1.reach, h1.size_eq, h1.budget⟩

theorem step_go (h : Core c u t) (op : Tpp.Op K V) {t' : OTable K V} (hb : ∀ s, u.step c.isa c.hash op = .ok s → fresh s.1 = fresh t'.core) :
    Ends c.isa (u.step c.isa c.hash op) (fun s => Core c s.1 t') := by
  rcases Swiss.step_spec h.1 (List.Perm.refl _) op with ⟨s, e, hs⟩ | g
  · exact Or.inl ⟨s, e, hs.1, hb s e⟩
  · exact Or.inr g

/-- What is to be shown of an operation: the unordered container ends up the same. -/
def Mirrors (c : Cfg K) (u : Table K V) (ops : List (Tpp.Op K V)) (t' : OTable K V) : Prop :=
  Ends c.isa (u.run c.isa c.hash ops) (fun s => Core c s.1 t')

theorem Mirrors.nil (h : Core c u t) : Mirrors c u [] t := Ends.of_ok rfl h

theorem Mirrors.cons {op : Tpp.Op K V} {ops : List (Tpp.Op K V)} {t' t'' : OTable K V}
    (h : Ends c.isa (u.step c.isa c.hash op) (fun s => Core c s.1 t')) (h' : ∀ u', Core c u' t' → Mirrors c u' ops t'') :
    Mirrors c u (op :: ops) t'' := by
  unfold Mirrors Table.run
  refine h.bind ?_
  rintro ⟨s, o⟩ hs
  refine (h' s hs).bind ?_
  rintro ⟨s', os⟩ hs'
  exact Ends.of_ok rfl hs'

theorem Mirrors.one {op : Tpp.Op K V} {t' : OTable K V} (h : Ends c.isa (u.step c.isa c.hash op) (fun s => Core c s.1 t')) :
    Mirrors c u [op] t' := Mirrors.cons h fun _ h => Mirrors.nil h

theorem Mirrors.append : ∀ {ops ops' : List (Tpp.Op K V)} {u : Table K V} {t' t'' : OTable K V}, Mirrors c u ops t' →
    (∀ s, u.run c.isa c.hash ops = .ok s → Core c s.1 t' → Mirrors c s.1 ops' t'') → Mirrors c u (ops ++ ops') t''
  | [], ops', u, t', t'', h, h' => by
    rcases h with ⟨s, e, hs⟩ | ⟨_, e⟩
    · cases e; exact h' _ rfl hs
    · cases e
  | op :: ops, ops', u, t', t'', h, h' => by
    unfold Mirrors Table.run at h
    show Mirrors c u (op :: (ops ++ ops')) t''
    unfold Mirrors Table.run
    cases e : u.step c.isa c.hash op with
    | error f =>
      rw [e] at h
      rcases h with ⟨s, e', _⟩ | ⟨hw, e'⟩
      · cases e'
      · cases e'; exact Or.inr ⟨hw, rfl⟩
    | ok s =>
      rw [e, bind_ok] at h
      have hm : Mirrors c s.1 ops t' := by
        rcases h with ⟨q, e', hq⟩ | ⟨hw, e'⟩
        · obtain ⟨q', e1, e2⟩ := Dense.bind_eq_ok e'
          cases e2
          exact Or.inl ⟨q', e1, hq⟩
        · cases e1 : s.1.run c.isa c.hash ops with
          | ok q' => simp only [e1, bind_ok] at e'; cases e'
          | error f =>
            simp only [e1] at e'
            cases e'
            exact Or.inr ⟨hw, e1⟩
      rw [bind_ok]
      refine (hm.append fun q eq hq => h' (q.1, s.2 :: q.2) ?_ hq).bind ?_
      · simp only [Table.run, e, bind_ok, eq]
      · rintro ⟨s', os⟩ hs'
        exact Ends.of_ok rfl hs'

theorem insertWith_plain {op : Table K V → M (Table K V × Nat × Bool)} {hint : Option Int} {r : Mem × OTable K V × Int × Bool}
    (e : OTable.insertWith c m t op hint = .ok r) : ∃ p b, op (fresh t.core) = .ok (r.2.1.core, p, b) := by
  unfold OTable.insertWith at e
  obtain ⟨x, h1, e⟩ := Dense.bind_eq_ok e
  obtain ⟨g, _, e⟩ := Dense.bind_eq_ok e
  obtain ⟨m', _, e⟩ := Dense.bind_eq_ok e
  cases e
  exact ⟨_, _, h1⟩

theorem insert_plain {k : K} {v : V} {hint : Option Int} {r : Mem × OTable K V × Int × Bool} (h : Core c u t) (e : t.insert c m k v hint = .ok r) :
    ∃ x p b, u.insert c.isa c.hash k v = .ok (x, p, b) ∧ fresh x = fresh r.2.1.core := by
  obtain ⟨p, b, e1⟩ := insertWith_plain (op := fun x => x.insert c.isa c.hash k v) e
  refine ⟨_, p, b, ?_, fresh_addLog u.log _⟩
  rw [h.log, Swiss.insert_ghost, e1]
  rfl

theorem assign_plain {k : K} {v : V} {hint : Option Int} {r : Mem × OTable K V × Int × Bool} (h : Core c u t) (e : t.assign c m k v hint = .ok r) :
    ∃ x p b, u.insertOrAssign c.isa c.hash k v = .ok (x, p, b) ∧ fresh x = fresh r.2.1.core := by
  obtain ⟨p, b, e1⟩ := insertWith_plain (op := fun x => x.insertOrAssign c.isa c.hash k v) e
  refine ⟨_, p, b, ?_, fresh_addLog u.log _⟩
  rw [h.log, Swiss.insertOrAssign_ghost, e1]
  rfl

theorem find_plain (h : Core c u t) (k : K) (x : Nat) : u.findNode c.isa k x = t.core.findNode c.isa k x := by
  rw [h.log, Swiss.findNode_ghost]
  conv_rhs => rw [show t.core = (fresh t.core).addLog t.core.log from rfl, Swiss.findNode_ghost]

theorem cap_plain (h : Core c u t) : u.cap = t.core.cap := by rw [h.log]; rfl

theorem size_plain (h : Core c u t) : u.size = t.core.size := by rw [h.log]; rfl

/-- Erasing the key found at a slot erases the slot. -/
theorem eraseAt_plain (h : Core c u t) {k : K} {pos : Nat} (hf : t.core.findNode c.isa k (c.hash k) = .ok pos) (hp : pos ≠ t.core.cap)
    {x : Table K V} (e : OTable.eraseCore c (fresh t.core) pos = .ok x) {t' : OTable K V} (ht : t'.core = x) : Mirrors c u [.erase k] t' := by
  refine .one (step_go h _ fun s es => ?_)
  simp only [Table.step, Table.erase, find_plain h, hf, bind_ok, cap_plain h, if_pos hp, Table.doErase] at es
  unfold OTable.eraseCore at e
  obtain ⟨y, e1, e2⟩ := Dense.bind_eq_ok e
  have e3 : u.eraseNode c.isa pos = .ok (y.addLog u.log) := by
    rw [h.log, Swiss.eraseNode_ghost, e1]
    rfl
  have e4 : (y.addLog u.log).destroy pos = .ok (x.addLog u.log) := by
    rw [Swiss.destroy_ghost, e2]
    rfl
  rw [e3, bind_ok] at es
  obtain ⟨z, es1, es2⟩ := Dense.bind_eq_ok es
  obtain ⟨it, _, es3⟩ := Dense.bind_eq_ok es1
  rw [e4, bind_ok] at es3
  cases es3
  cases es2
  rw [ht]
  rfl

theorem doErase_plain (h : Core c u t) {pos : Nat} {r : Mem × OTable K V × Int} (e : t.doErase c m pos = .ok r) :
    ∃ k, Mirrors c u [.erase k] r.2.1 ∧ r.2.1.hd = t.hd := by
  obtain ⟨_, hd, n, hp, hn, _⟩ := doErase_index h.inv e
  unfold OTable.doErase at e
  obtain ⟨g, _, e⟩ := Dense.bind_eq_ok e
  obtain ⟨x, h1, e⟩ := Dense.bind_eq_ok e
  cases e
  refine ⟨n.key, eraseAt_plain h ?_ (Nat.ne_of_lt hp) h1 rfl, rfl⟩
  rcases Swiss.findNode_spec h.inv n.key with ⟨i, n', hi, hn', hk, e⟩ | ⟨hno, _⟩
  · rw [e, h.inv.uniq i hi pos hp n' n hn' hn hk]
  · exact absurd rfl (hno pos hp n hn)

theorem eraseIter_plain (h : Core c u t) {a : Int} {r : Mem × OTable K V × Int} (e : t.eraseIter c m a = .ok r) :
    ∃ ks : List K, Mirrors c u (ks.map .erase) r.2.1 := by
  unfold OTable.eraseIter at e
  by_cases ha : a = t.hd
  · rw [if_pos ha] at e
    cases e
    exact ⟨[], .nil h⟩
  · rw [if_neg ha] at e
    cases hs : t.slotOf c.sz a with
    | none => rw [hs] at e; cases e
    | some pos =>
      rw [hs] at e
      obtain ⟨k, h1, _⟩ := doErase_plain h e
      exact ⟨[k], h1⟩

/-- If the first step stops, so does the whole run. -/
theorem Mirrors.chain {ks : List K} {t' t'' : OTable K V} (h : Mirrors c u (ks.map .erase) t')
    (h' : ∀ u', Core c u' t' → ∃ ks' : List K, Mirrors c u' (ks'.map .erase) t'') : ∃ ks : List K, Mirrors c u (ks.map .erase) t'' := by
  rcases h with ⟨s, e, hs⟩ | ⟨hw, e⟩
  · obtain ⟨ks', h2⟩ := h' s.1 hs
    refine ⟨ks ++ ks', ?_⟩
    rw [List.map_append]
    refine Mirrors.append (t' := t') (Or.inl ⟨s, e, hs⟩) fun s' e' _ => ?_
    rw [e] at e'
    cases e'
    exact h2
  · exact ⟨ks, Or.inr ⟨hw, e⟩⟩

theorem eraseRange_plain {first : Int} : ∀ (fuel : Nat) {m : Mem} {t : OTable K V} {u : Table K V} {last result : Int} {r : Mem × OTable K V × Int},
    Core c u t → t.eraseRange c first fuel m last result = .ok r → ∃ ks : List K, Mirrors c u (ks.map .erase) r.2.1
  | 0, _, _, _, _, _, _, _, e => by cases e
  | fuel + 1, m, t, u, last, result, r, h, e => by
    unfold OTable.eraseRange at e
    by_cases hl : last = first
    · rw [if_pos hl] at e
      cases e
      exact ⟨[], .nil h⟩
    · rw [if_neg hl] at e
      obtain ⟨p, _, e⟩ := Dense.bind_eq_ok e
      obtain ⟨q, h1, e⟩ := Dense.bind_eq_ok e
      obtain ⟨ks, h2⟩ := eraseIter_plain h h1
      exact h2.chain fun u' hu' => eraseRange_plain fuel hu' e

theorem eraseIf_plain {p : K × V → Bool} : ∀ (fuel : Nat) {m : Mem} {t : OTable K V} {u : Table K V} {a : Int} {n : Nat} {r : Mem × OTable K V × Nat},
    Core c u t → OTable.eraseIf c p fuel m t a n = .ok r → ∃ ks : List K, Mirrors c u (ks.map .erase) r.2.1
  | 0, _, _, _, _, _, _, _, e => by cases e
  | fuel + 1, m, t, u, a, n, r, h, e => by
    unfold OTable.eraseIf at e
    by_cases ha : a = t.hd
    · rw [if_pos ha] at e
      cases e
      exact ⟨[], .nil h⟩
    · rw [if_neg ha] at e
      obtain ⟨x, hx, e⟩ := Dense.bind_eq_ok e
      by_cases hp : p x = true
      · rw [if_pos hp] at e
        obtain ⟨q, h1, e⟩ := Dense.bind_eq_ok e
        obtain ⟨ks, h2⟩ := eraseIter_plain h h1
        exact h2.chain fun u' hu' => eraseIf_plain fuel hu' e
      · rw [if_neg hp] at e
        obtain ⟨b, _, e⟩ := Dense.bind_eq_ok e
        exact eraseIf_plain fuel h e

theorem reserve_plain (h : Core c u t) {n : Nat} {r : Mem × OTable K V} (e : t.reserve c m n = .ok r) :
    ∃ x, u.reserve c.isa n = .ok x ∧ fresh x = fresh r.2.core := by
  unfold OTable.reserve at e
  obtain ⟨x, h1, e⟩ := Dense.bind_eq_ok e
  obtain ⟨g, _, e⟩ := Dense.bind_eq_ok e
  cases e
  refine ⟨_, ?_, fresh_addLog u.log _⟩
  rw [h.log, Swiss.reserve_ghost, h1]
  rfl

theorem clear_plain (h : Core c u t) {r : Mem × OTable K V} (e : t.clear c m = .ok r) : Mirrors c u [.clear] r.2 := by
  refine .one (step_go h _ fun s es => ?_)
  unfold OTable.clear at e
  obtain ⟨g, _, e⟩ := Dense.bind_eq_ok e
  obtain ⟨x, h1, e⟩ := Dense.bind_eq_ok e
  cases e
  rw [show t.core = (fresh t.core).addLog t.core.log from rfl, Swiss.clear_ghost] at h1
  simp only [Table.step] at es
  rw [h.log, Swiss.clear_ghost] at es
  cases h2 : (fresh t.core).clear c.isa with
  | error f => rw [h2] at h1; cases h1
  | ok y =>
    rw [h2] at h1 es
    cases h1
    cases es
    rfl

theorem inserts_plain : ∀ (xs : List (K × V)) {s r : Mem × OTable K V} {u : Table K V}, Inv c.isa c.hash u → fresh u = fresh s.2.core →
    xs.foldlM (fun (s : Mem × OTable K V) (x : K × V) => do
      let r ← s.2.insert c s.1 x.1 x.2
      .ok (r.1, r.2.1)) s = .ok r →
    ∃ y, xs.foldlM (fun (t : Table K V) x => do
      let (t, _, _) ← t.insert c.isa c.hash x.1 x.2
      .ok t) u = .ok y ∧ fresh y = fresh r.2.core
  | [], s, r, u, h, hu, e => by
    cases e
    exact ⟨u, rfl, hu⟩
  | x :: xs, s, r, u, h, hu, e => by
    simp only [List.foldlM_cons] at e ⊢
    obtain ⟨s', e1, e⟩ := Dense.bind_eq_ok e
    obtain ⟨q, e2, e3⟩ := Dense.bind_eq_ok e1
    cases e3
    obtain ⟨y, p, b, h1, h2⟩ := insert_plain (u := u) ⟨h, hu⟩ e2
    have hy : Inv c.isa c.hash y := by
      obtain ⟨t', p', b', g1, g2, _⟩ := Swiss.insert_spec h x.1 x.2
      rw [h1] at g1
      cases g1
      exact g2
    rw [h1, bind_ok, bind_ok]
    exact inserts_plain xs hy h2 e

theorem insertRange_plain (h : Core c u t) {ra : Bool} {xs : List (K × V)} {r : Mem × OTable K V} (e : t.insertRange c m ra xs = .ok r) :
    Mirrors c u [.insertRange ra xs] r.2 := by
  refine .one (step_go h _ fun s es => ?_)
  simp only [Table.step, Table.insertRange] at es
  unfold OTable.insertRange at e
  obtain ⟨q, h1, e⟩ := Dense.bind_eq_ok e
  have hq : ∃ y, (if ra = true then u.reserve c.isa (u.size + xs.length) else .ok u) = .ok y ∧ fresh y = fresh q.2.core ∧ Inv c.isa c.hash y := by
    cases ra with
    | true =>
      simp only [if_true] at h1 ⊢
      obtain ⟨y, e1, e2⟩ := reserve_plain h h1
      rw [size_plain h, e1]
      refine ⟨y, rfl, e2, ?_⟩
      obtain ⟨z, g1, g2, _⟩ := Swiss.reserve_spec h.1 (t.core.size + xs.length)
      rw [e1] at g1
      cases g1
      exact g2
    | false =>
      cases h1
      exact ⟨u, rfl, h.2, h.1⟩
  obtain ⟨y, e1, e2, e3⟩ := hq
  obtain ⟨z, e4, e5⟩ := inserts_plain xs e3 e2 e
  cases ra with
  | true =>
    simp only [if_true] at e1 es
    rw [e1] at es
    simp only [bind_ok] at es
    rw [e4] at es
    cases es
    exact e5
  | false =>
    cases e1
    simp only [Bool.false_eq_true, if_false, bind_ok] at es
    rw [e4] at es
    cases es
    exact e5

/-- One operation: an unordered container ends up with the same elements at the same places, unless making an iterator runs into `ctz(0)`. -/
theorem step_plain (h : Core c u t) {o : Op K V} {r : Mem × OTable K V × Out K V} (e : t.step c m o = .ok r) :
    ∃ ks : List K, Mirrors c u (o.plain ks) r.2.1 := by
  cases o with
  | insert k v =>
    simp only [OTable.step] at e
    obtain ⟨q, e1, e⟩ := Dense.bind_eq_ok e
    obtain ⟨x, _, e⟩ := Dense.bind_eq_ok e
    cases e
    obtain ⟨x, p, b, h1, h2⟩ := insert_plain h e1
    refine ⟨[], .one (step_go h _ fun s es => ?_)⟩
    simp only [Table.step, h1, bind_ok] at es
    obtain ⟨it, _, es⟩ := Dense.bind_eq_ok es
    obtain ⟨n, _, es⟩ := Dense.bind_eq_ok es
    cases es
    exact h2
  | assign k v =>
    simp only [OTable.step] at e
    obtain ⟨q, e1, e⟩ := Dense.bind_eq_ok e
    obtain ⟨x, _, e⟩ := Dense.bind_eq_ok e
    cases e
    obtain ⟨x, p, b, h1, h2⟩ := assign_plain h e1
    refine ⟨[], .one (step_go h _ fun s es => ?_)⟩
    simp only [Table.step, h1, bind_ok] at es
    obtain ⟨it, _, es⟩ := Dense.bind_eq_ok es
    obtain ⟨n, _, es⟩ := Dense.bind_eq_ok es
    cases es
    exact h2
  | index k v =>
    simp only [OTable.step] at e
    obtain ⟨q, e1, e⟩ := Dense.bind_eq_ok e
    obtain ⟨x, _, e⟩ := Dense.bind_eq_ok e
    cases e
    obtain ⟨x, p, b, h1, h2⟩ := insert_plain h e1
    refine ⟨[], .one (step_go h _ fun s es => ?_)⟩
    simp only [Table.step, Table.index, h1, bind_ok] at es
    obtain ⟨z, es, es'⟩ := Dense.bind_eq_ok es
    obtain ⟨it, _, es⟩ := Dense.bind_eq_ok es
    obtain ⟨n, _, es⟩ := Dense.bind_eq_ok es
    cases es
    cases es'
    exact h2
  | erase k =>
    simp only [OTable.step] at e
    obtain ⟨q, e1, e⟩ := Dense.bind_eq_ok e
    obtain ⟨x, _, e⟩ := Dense.bind_eq_ok e
    cases e
    refine ⟨[], ?_⟩
    unfold OTable.erase at e1
    obtain ⟨pos, hf, e1⟩ := Dense.bind_eq_ok e1
    by_cases hp : pos = t.core.cap
    · rw [if_pos hp] at e1
      cases e1
      refine .one (step_go h _ fun s es => ?_)
      simp only [Table.step, Table.erase, find_plain h, hf, bind_ok, cap_plain h, hp, ne_eq, not_true_eq_false, if_false] at es
      obtain ⟨z, es, es'⟩ := Dense.bind_eq_ok es
      obtain ⟨it, _, es⟩ := Dense.bind_eq_ok es
      cases es
      cases es'
      exact h.2
    · rw [if_neg hp] at e1
      unfold OTable.doErase at e1
      obtain ⟨g, _, e1⟩ := Dense.bind_eq_ok e1
      obtain ⟨y, h1, e1⟩ := Dense.bind_eq_ok e1
      cases e1
      exact eraseAt_plain h hf hp h1 rfl
  | eraseNth n =>
    simp only [OTable.step] at e
    split at e
    · obtain ⟨a, _, e⟩ := Dense.bind_eq_ok e
      obtain ⟨q, e1, e⟩ := Dense.bind_eq_ok e
      obtain ⟨x, _, e⟩ := Dense.bind_eq_ok e
      cases e
      exact eraseIter_plain h e1
    · cases e
      exact ⟨[], .nil h⟩
  | eraseRange i j =>
    simp only [OTable.step] at e
    split at e
    · obtain ⟨a, _, e⟩ := Dense.bind_eq_ok e
      obtain ⟨b, _, e⟩ := Dense.bind_eq_ok e
      obtain ⟨q, e1, e⟩ := Dense.bind_eq_ok e
      cases e
      exact eraseRange_plain _ h e1
    · cases e
      exact ⟨[], .nil h⟩
  | eraseIf p =>
    simp only [OTable.step] at e
    obtain ⟨a, _, e⟩ := Dense.bind_eq_ok e
    obtain ⟨q, e1, e⟩ := Dense.bind_eq_ok e
    cases e
    exact eraseIf_plain _ h e1
  | extract k =>
    simp only [OTable.step] at e
    obtain ⟨q, e1, e⟩ := Dense.bind_eq_ok e
    cases e
    refine ⟨[], ?_⟩
    unfold OTable.extract at e1
    obtain ⟨pos, hf, e1⟩ := Dense.bind_eq_ok e1
    by_cases hp : pos = t.core.cap
    · rw [if_pos hp] at e1
      cases e1
      refine .one (step_go h _ fun s es => ?_)
      simp only [Table.step, Table.erase, find_plain h, hf, bind_ok, cap_plain h, hp, ne_eq, not_true_eq_false, if_false] at es
      obtain ⟨z, es, es'⟩ := Dense.bind_eq_ok es
      obtain ⟨it, _, es⟩ := Dense.bind_eq_ok es
      cases es
      cases es'
      exact h.2
    · rw [if_neg hp] at e1
      obtain ⟨z, e2, e1⟩ := Dense.bind_eq_ok e1
      cases e1
      unfold OTable.extractAt at e2
      obtain ⟨g, _, e2⟩ := Dense.bind_eq_ok e2
      obtain ⟨y, h1, e2⟩ := Dense.bind_eq_ok e2
      cases e2
      unfold OTable.extractCore at h1
      obtain ⟨a1, g1, h1⟩ := Dense.bind_eq_ok h1
      obtain ⟨a2, g2, h1⟩ := Dense.bind_eq_ok h1
      obtain ⟨a3, g3, h1⟩ := Dense.bind_eq_ok h1
      cases h1
      refine eraseAt_plain h hf hp (x := a3) ?_ rfl
      unfold OTable.eraseCore
      rw [g1, bind_ok, g3]
  | insertRange ra xs =>
    simp only [OTable.step] at e
    obtain ⟨q, e1, e⟩ := Dense.bind_eq_ok e
    cases e
    exact ⟨[], insertRange_plain h e1⟩
  | assignRange ra xs =>
    simp only [OTable.step] at e
    obtain ⟨q, e1, e⟩ := Dense.bind_eq_ok e
    obtain ⟨q', e2, e⟩ := Dense.bind_eq_ok e
    cases e
    exact ⟨[], Mirrors.append (ops := [.clear]) (clear_plain h e1) fun s _ hs => insertRange_plain hs e2⟩
  | clear =>
    simp only [OTable.step] at e
    obtain ⟨q, e1, e⟩ := Dense.bind_eq_ok e
    cases e
    exact ⟨[], clear_plain h e1⟩
  | reserve n =>
    simp only [OTable.step] at e
    obtain ⟨q, e1, e⟩ := Dense.bind_eq_ok e
    cases e
    obtain ⟨x, h1, h2⟩ := reserve_plain h e1
    refine ⟨[], .one (step_go h _ fun s es => ?_)⟩
    simp only [Table.step, h1, bind_ok] at es
    cases es
    exact h2
  | rehash n =>
    simp only [OTable.step] at e
    obtain ⟨q, e1, e⟩ := Dense.bind_eq_ok e
    cases e
    unfold OTable.rehash at e1
    obtain ⟨x, h1, e1⟩ := Dense.bind_eq_ok e1
    obtain ⟨g, _, e1⟩ := Dense.bind_eq_ok e1
    cases e1
    refine ⟨[], .one (step_go h _ fun s es => ?_)⟩
    simp only [Table.step] at es
    rw [h.log, Swiss.rehash_ghost, h1] at es
    cases es
    rfl
  | find k =>
    simp only [OTable.step] at e
    obtain ⟨q, _, e⟩ := Dense.bind_eq_ok e
    obtain ⟨x, _, e⟩ := Dense.bind_eq_ok e
    cases e
    exact ⟨[], .nil h⟩
  | contains k =>
    simp only [OTable.step] at e
    obtain ⟨q, _, e⟩ := Dense.bind_eq_ok e
    cases e
    exact ⟨[], .nil h⟩
  | size => cases e; exact ⟨[], .nil h⟩
  | front =>
    simp only [OTable.step] at e
    split at e
    · cases e; exact ⟨[], .nil h⟩
    · obtain ⟨q, _, e⟩ := Dense.bind_eq_ok e
      obtain ⟨x, _, e⟩ := Dense.bind_eq_ok e
      cases e
      exact ⟨[], .nil h⟩
  | back =>
    simp only [OTable.step] at e
    split at e
    · cases e; exact ⟨[], .nil h⟩
    · obtain ⟨q, _, e⟩ := Dense.bind_eq_ok e
      obtain ⟨x, _, e⟩ := Dense.bind_eq_ok e
      cases e
      exact ⟨[], .nil h⟩
  | iterate =>
    simp only [OTable.step] at e
    obtain ⟨q, _, e⟩ := Dense.bind_eq_ok e
    obtain ⟨x, _, e⟩ := Dense.bind_eq_ok e
    cases e
    exact ⟨[], .nil h⟩
  | reverse =>
    simp only [OTable.step] at e
    obtain ⟨q, _, e⟩ := Dense.bind_eq_ok e
    obtain ⟨x, _, e⟩ := Dense.bind_eq_ok e
    cases e
    exact ⟨[], .nil h⟩

/-- The operations on the unordered container, one after the other. -/
def plainRun (ks : List (List K)) (os : List (Op K V)) : List (Tpp.Op K V) := (List.zipWith Op.plain ks os).flatten

theorem run_plain : ∀ {os : List (Op K V)} {m : Mem} {t : OTable K V} {u : Table K V} {r : Mem × OTable K V × List (Out K V)}, Core c u t →
    t.run c m os = .ok r → ∃ ks : List (List K), ks.length = os.length ∧ Mirrors c u (plainRun ks os) r.2.1
  | [], m, t, u, r, h, e => by cases e; exact ⟨[], rfl, .nil h⟩
  | o :: os, m, t, u, r, h, e => by
    simp only [OTable.run] at e
    obtain ⟨s, e1, e⟩ := Dense.bind_eq_ok e
    obtain ⟨s', e2, e⟩ := Dense.bind_eq_ok e
    obtain ⟨k, h1⟩ := step_plain h e1
    cases e
    rcases h1 with ⟨x, ex, hx⟩ | ⟨hw, ex⟩
    · obtain ⟨ks, hl, h2⟩ := run_plain hx e2
      refine ⟨k :: ks, by simp [hl], ?_⟩
      show Mirrors c u (o.plain k ++ plainRun ks os) _
      refine Mirrors.append (t' := s.2.1) (Or.inl ⟨x, ex, hx⟩) fun y ey _ => ?_
      rw [ex] at ey
      cases ey
      exact h2
    · refine ⟨k :: os.map (fun _ => []), by simp, ?_⟩
      show Mirrors c u (o.plain k ++ _) _
      exact Mirrors.append (t' := s'.2.1) (Or.inr ⟨hw, ex⟩) fun y ey _ => by rw [ex] at ey; cases ey

end Tpp.OSwiss
