import Verif.Ordered.SwissWild
import Verif.Ordered.SwissCopy
import Verif.Props.OrderedSwiss

/-!
# C126: ordered containers with hash functions and comparisons that answer arbitrarily

Whatever the hash function and the comparison answer, the elements of an ordered sparse or stable container are those whose insertions reported
success, without those that were erased, in the order of their insertion, and iterating in both directions visits them.  As for C52 this is up to the
exchange of two linked nodes when erased slots are reclaimed in place, which breaks the links with proper functions too (`C52_swiss_reclaim_false`);
`C126_growing` and `C126_reserved` are about histories in which that cannot happen.
-/

set_option linter.unusedSectionVars false

namespace Tpp.OSwiss

open Tpp.Swiss (Node Ev Table Inv NoTomb Answers)
open Tpp.Ordered
open Tpp.ODense (bump bump_sound mem0)

variable {K V : Type}

/-- What an operation with arbitrary answers may do to a container with the sequence `l`: `l'` is the sequence afterwards. -/
def Does (l l' : List (K × V)) (out : Out K V) : WildOp K V → Prop
  | .insert _ p k v => (l' = l ++ [(k, v)] ∧ out = .ins (k, v) true) ∨ (l' = l ∧ ∃ e ∈ l, p.accepts e.1 ∧ out = .ins e false)
  | .assign _ p k v => (l' = l ++ [(k, v)] ∧ out = .ins (k, v) true) ∨
      ∃ a e b, p.accepts e.1 ∧ l = a ++ e :: b ∧ l' = a ++ (e.1, v) :: b ∧ out = .ins (e.1, v) false
  | .erase _ p => (l' = l ∧ out = .elem none) ∨ ∃ a e b, p.accepts e.1 ∧ l = a ++ e :: b ∧ l' = a ++ b ∧ out = .elem b.head?
  | .find _ p => l' = l ∧ (out = .elem none ∨ ∃ e ∈ l, p.accepts e.1 ∧ out = .elem (some e))
  | .contains _ p => l' = l ∧ (out = .bool false ∨ ∃ e ∈ l, p.accepts e.1 ∧ out = .bool true)
  | .extract _ p => (l' = l ∧ out = .elem none) ∨ ∃ a e b, p.accepts e.1 ∧ l = a ++ e :: b ∧ l' = a ++ b ∧ out = .elem (some e)
  | .eraseNth n => l' = l.eraseIdx n ∧ out = .elem (if n < l.length then l[n + 1]? else none)
  | .eraseRange i j => l' = (if i ≤ j ∧ j ≤ l.length then l.take i ++ l.drop j else l) ∧ out = .unit
  | .eraseIf q => l' = l.filter (fun e => !q e) ∧ out = .nat (l.filter q).length
  | .clear => l' = [] ∧ out = .unit
  | .reserve _ | .rehash _ => l' = l ∧ out = .unit
  | .size => l' = l ∧ out = .nat l.length
  | .front => l' = l ∧ out = .elem l.head?
  | .back => l' = l ∧ out = .elem l.getLast?
  | .iterate => l' = l ∧ out = .list l
  | .reverse => l' = l ∧ out = .list l.reverse

/-- A history each operation of which does what it may. -/
inductive Did : List (K × V) → List (WildOp K V) → List (Out K V) → List (K × V) → Prop
  | nil {l} : Did l [] [] l
  | cons {l l' l'' op ops o os} : Does l l' o op → Did l' ops os l'' → Did l (op :: ops) (o :: os) l''

theorem does_turns {g : Nat} {s : List ((Nat × Nat) × (K × V))} (hu : Spec.Uniq s) (hg : ∀ x ∈ s, x.1.1 < g) {op : WildOp K V}
    {q : Op (Nat × Nat) (K × V)} (hq : Turns g s op q) :
    Does (s.map Prod.snd) ((Spec.step s q).1.map Prod.snd) (Spec.step s q).2.strip op ∧ ∀ x ∈ (Spec.step s q).1, x.1.1 < g + 1 := by
  have hnew : ∀ h, Spec.find s (g, h) = none := fun h => find_none fun e he e' => by
    have := hg e he
    rw [e'] at this
    exact Nat.lt_irrefl _ this
  have same : ∀ x ∈ s, x.1.1 < g + 1 := fun x hx => Nat.lt_succ_of_lt (hg x hx)
  have one : ∀ {h : Nat} {y : K × V}, ∀ x ∈ s ++ [((g, h), y)], x.1.1 < g + 1 := by
    intro h y x hx
    rcases List.mem_append.mp hx with e | e
    · exact same x e
    · rw [List.mem_singleton.mp e]
      exact Nat.lt_succ_self g
  have fewer : ∀ {l : List ((Nat × Nat) × (K × V))}, l ⊆ s → ∀ x ∈ l, x.1.1 < g + 1 := fun hl x hx => same x (hl hx)
  cases hq with
  | @insert h p k v =>
    simp only [Spec.step, Spec.insert, hnew]
    exact ⟨Or.inl ⟨by simp, rfl⟩, one⟩
  | @inserted h p k v x hx hp =>
    simp only [Spec.step, Spec.insert, find_some hu hx]
    exact ⟨Or.inr ⟨rfl, x.2, List.mem_map_of_mem hx, hp, rfl⟩, same⟩
  | @assign h p k v =>
    simp only [Spec.step, Spec.assign, hnew]
    exact ⟨Or.inl ⟨by simp, rfl⟩, one⟩
  | @assigned h p k v x hx hp =>
    have hf := find_some hu hx
    obtain ⟨a, b, rfl⟩ := List.append_of_mem hx
    obtain ⟨h1, h2⟩ := split_uniq hu
    have e1 : ∀ l : List ((Nat × Nat) × (K × V)), (∀ y ∈ l, y.1 ≠ x.1) →
        l.map (fun e => if e.1 = x.1 then (x.1, (x.2.1, v)) else e) = l := by
      intro l hl
      conv_rhs => rw [← List.map_id l]
      refine List.map_congr_left fun y hy => ?_
      rw [if_neg (hl y hy)]
      rfl
    have e2 : Spec.step (a ++ x :: b) (.assign x.1 (x.2.1, v)) = (a ++ (x.1, (x.2.1, v)) :: b, .ins (x.1, (x.2.1, v)) false) := by
      simp only [Spec.step, Spec.assign, hf, Option.isSome_some, if_true]
      rw [List.map_append, List.map_cons, e1 a h1, e1 b h2, if_pos rfl]
    rw [e2]
    refine ⟨Or.inr ⟨a.map Prod.snd, x.2, b.map Prod.snd, hp, by simp, by simp, rfl⟩, ?_⟩
    intro y hy
    rcases List.mem_append.mp hy with e | e
    · exact same y (List.mem_append_left _ e)
    · rcases List.mem_cons.mp e with e | e
      · rw [e]
        exact same x hx
      · exact same y (List.mem_append_right _ (List.mem_cons_of_mem _ e))
  | @erase h p =>
    simp only [Spec.step, erase_absent (hnew h), next_absent (hnew h)]
    exact ⟨Or.inl ⟨rfl, rfl⟩, same⟩
  | @erased h p x hx hp =>
    obtain ⟨a, b, rfl⟩ := List.append_of_mem hx
    simp only [Spec.step, erase_split hu, next_split hu]
    exact ⟨Or.inr ⟨a.map Prod.snd, x.2, b.map Prod.snd, hp, by simp, by simp, by simp [Out.strip]⟩, fewer (by simp)⟩
  | @find h p =>
    simp only [Spec.step, hnew]
    exact ⟨⟨rfl, Or.inl rfl⟩, same⟩
  | @found h p x hx hp =>
    simp only [Spec.step, find_some hu hx]
    exact ⟨⟨rfl, Or.inr ⟨x.2, List.mem_map_of_mem hx, hp, rfl⟩⟩, same⟩
  | @contains h p =>
    simp only [Spec.step, hnew]
    exact ⟨⟨rfl, Or.inl rfl⟩, same⟩
  | @contained h p x hx hp =>
    simp only [Spec.step, find_some hu hx]
    exact ⟨⟨rfl, Or.inr ⟨x.2, List.mem_map_of_mem hx, hp, rfl⟩⟩, same⟩
  | @extract h p =>
    simp only [Spec.step, erase_absent (hnew h), hnew h]
    exact ⟨Or.inl ⟨rfl, rfl⟩, same⟩
  | @extracted h p x hx hp =>
    have hf := find_some hu hx
    obtain ⟨a, b, rfl⟩ := List.append_of_mem hx
    simp only [Spec.step, erase_split hu, hf]
    exact ⟨Or.inr ⟨a.map Prod.snd, x.2, b.map Prod.snd, hp, by simp, by simp, rfl⟩, fewer (by simp)⟩
  | @eraseNth n =>
    simp only [Spec.step]
    refine ⟨⟨?_, ?_⟩, fewer (List.eraseIdx_sublist s n).subset⟩
    · rw [List.eraseIdx_map]
    · simp only [Out.strip, List.length_map]
      split <;> simp
  | @eraseRange i j =>
    simp only [Spec.step]
    refine ⟨⟨?_, rfl⟩, ?_⟩
    · rw [List.length_map]
      split
      · rw [List.map_append, List.map_take, List.map_drop]
      · rfl
    · split
      · exact fewer (List.append_subset.mpr ⟨List.take_subset _ _, List.drop_subset _ _⟩)
      · exact same
  | @eraseIf q =>
    simp only [Spec.step]
    refine ⟨⟨?_, ?_⟩, fewer List.filter_sublist.subset⟩
    · rw [List.filter_map]
      rfl
    · rw [List.filter_map, List.length_map]
      rfl
  | clear => exact ⟨⟨rfl, rfl⟩, fun x hx => by cases hx⟩
  | reserve => exact ⟨⟨rfl, rfl⟩, same⟩
  | rehash => exact ⟨⟨rfl, rfl⟩, same⟩
  | size => exact ⟨⟨rfl, by simp [Spec.step, Out.strip]⟩, same⟩
  | front => exact ⟨⟨rfl, by simp [Spec.step, Out.strip]⟩, same⟩
  | back => exact ⟨⟨rfl, by simp [Spec.step, Out.strip]⟩, same⟩
  | iterate => exact ⟨⟨rfl, rfl⟩, same⟩
  | reverse => exact ⟨⟨rfl, by simp [Spec.step, Out.strip]⟩, same⟩

/-- The operations that erase single elements. -/
def WildOp.erases : WildOp K V → Bool
  | .erase .. | .extract .. | .eraseNth _ | .eraseRange .. | .eraseIf _ => true
  | _ => false

/-- The number of elements an operation may insert. -/
def WildOp.inserts : WildOp K V → Nat
  | .insert .. | .assign .. => 1
  | _ => 0

/-- `rehash` may give up room. -/
def WildOp.rehashes : WildOp K V → Bool
  | .rehash _ => true
  | _ => false

theorem Turns.flags {g : Nat} {s : List ((Nat × Nat) × (K × V))} {op : WildOp K V} {q : Op (Nat × Nat) (K × V)} (h : Turns g s op q) :
    q.erases = op.erases ∧ q.inserts = op.inserts ∧ q.rehashes = op.rehashes := by
  cases h <;> exact ⟨rfl, rfl, rfl⟩

/-- The sequence without the serial numbers is a sequence of elements the container is seen to hold. -/
def Has (c : Cfg (Nat × Nat)) (m : Mem) (t : OTable (Nat × Nat) (K × V)) (l : List (K × V)) : Prop := ∃ s, Holds c m t s ∧ s.map Prod.snd = l

theorem Holds.uniq {c : Cfg (Nat × Nat)} {m : Mem} {t : OTable (Nat × Nat) (K × V)} {s : List ((Nat × Nat) × (K × V))} (h : Holds c m t s) :
    Spec.Uniq s := by
  obtain ⟨o, h, rfl⟩ := h
  exact h.uniq

/-- One operation, with instrumentation and without. -/
theorem stepWild_ok {c : Cfg (Nat × Nat)} (hsz : 0 < c.sz) (hA : c.A.Sound c.sz) (hh : c.hash = Prod.snd) {g : Nat} {m : Mem}
    {t : OTable (Nat × Nat) (K × V)} {s : List ((Nat × Nat) × (K × V))} (h : Holds c m t s) (hg : ∀ x ∈ s, x.1.1 < g) (op : WildOp K V)
    {b : Prop} (hb : b ∨ NoTomb t.core ∨ Room t op.inserts) :
    (b ∧ t.stepWild c.stop g m op = .error .rawSwap) ∨ ∃ m' t' o s', t.stepWild c.stop g m op = .ok (m', t', o) ∧ t.stepWild c g m op = .ok (m', t', o) ∧
      Does (s.map Prod.snd) (s'.map Prod.snd) o op ∧ Holds c m' t' s' ∧ (∀ x ∈ s', x.1.1 < g + 1) ∧
      (op.erases = false → NoTomb t.core → NoTomb t'.core) ∧ (op.rehashes = false → ∀ n, Room t (op.inserts + n) → Room t' n) := by
  obtain ⟨q, h1, h2⟩ := stepWild_plain hh h hg op
  obtain ⟨f1, f2, f3⟩ := h1.flags
  obtain ⟨d1, d2⟩ := does_turns h.uniq hg h1
  rw [← f1, ← f2, ← f3]
  rw [← f2] at hb
  have e1 : t.stepWild c.stop g m op = (t.step c.stop m q).map (fun r => (r.1, r.2.1, r.2.2.strip)) := h2 true
  have e2 : t.stepWild c g m op = (t.step c m q).map (fun r => (r.1, r.2.1, r.2.2.strip)) := h2 c.strict
  rcases step_ok (c := c.stop) hsz hA rfl h.restop q hb with ⟨hb', e⟩ | ⟨r, e, r1, r2, r3, r4⟩
  · left
    refine ⟨hb', ?_⟩
    rw [e1, e]
    rfl
  · right
    refine ⟨r.1, r.2.1, r.2.2.strip, (Spec.step s q).1, ?_, ?_, ?_, r2.holds.unstop, d2, r3, r4⟩
    · rw [e1, e]
      rfl
    · rw [e2, (OTable.step_le c m t q).ok e]
      rfl
    · rw [r1]
      exact d1

theorem runWild_ok {c : Cfg (Nat × Nat)} (hsz : 0 < c.sz) (hA : c.A.Sound c.sz) (hh : c.hash = Prod.snd) : ∀ (ops : List (WildOp K V)) {g : Nat} {m : Mem}
    {t : OTable (Nat × Nat) (K × V)} {s : List ((Nat × Nat) × (K × V))}, Holds c m t s → (∀ x ∈ s, x.1.1 < g) → ∀ {b : Prop},
    b ∨ (NoTomb t.core ∧ ∀ o ∈ ops, o.erases = false) ∨ (Room t (ops.map WildOp.inserts).sum ∧ ∀ o ∈ ops, o.rehashes = false) →
    (b ∧ t.runWild c.stop g m ops = .error .rawSwap) ∨ ∃ m' t' os l, t.runWild c.stop g m ops = .ok (m', t', os) ∧
      t.runWild c g m ops = .ok (m', t', os) ∧ Did (s.map Prod.snd) ops os l ∧ Has c m' t' l
  | [], g, m, t, s, h, _, _, _ => Or.inr ⟨m, t, [], s.map Prod.snd, rfl, rfl, .nil, s, h, rfl⟩
  | op :: ops, g, m, t, s, h, hg, b, hb => by
    have hi : ((op :: ops).map WildOp.inserts).sum = op.inserts + (ops.map WildOp.inserts).sum := by simp
    have hb1 : b ∨ NoTomb t.core ∨ Room t op.inserts :=
      hb.imp_right (Or.imp (fun x => x.1) (fun x => x.1.mono (by omega)))
    rcases stepWild_ok hsz hA hh h hg op hb1 with ⟨hb', e⟩ | ⟨m', t', o, s', e, e', d, h', hg', n1, n2⟩
    · left
      refine ⟨hb', ?_⟩
      simp only [OTable.runWild]
      rw [e]
      rfl
    · have hb2 : b ∨ (NoTomb t'.core ∧ ∀ o ∈ ops, o.erases = false) ∨
          (Room t' (ops.map WildOp.inserts).sum ∧ ∀ o ∈ ops, o.rehashes = false) := by
        rcases hb with hb | ⟨x, y⟩ | ⟨x, y⟩
        · exact Or.inl hb
        · exact Or.inr (Or.inl ⟨n1 (y op (by simp)) x, fun o ho => y o (by simp [ho])⟩)
        · rw [hi] at x
          exact Or.inr (Or.inr ⟨n2 (y op (by simp)) _ x, fun o ho => y o (by simp [ho])⟩)
      rcases runWild_ok hsz hA hh ops h' hg' hb2 with ⟨hb', e3⟩ | ⟨m2, t2, os, l, e3, e4, d2, h2⟩
      · left
        refine ⟨hb', ?_⟩
        simp only [OTable.runWild]
        rw [e, bind_ok, e3]
        rfl
      · right
        refine ⟨m2, t2, o :: os, l, ?_, ?_, .cons d d2, h2⟩
        · simp only [OTable.runWild]
          rw [e, bind_ok, e3]
          rfl
        · simp only [OTable.runWild]
          rw [e', bind_ok, e4]
          rfl

/-- What `Has` says of the code: iteration visits the elements, in order, and `size()` is their number. -/
theorem Has.elements {c : Cfg (Nat × Nat)} (hsz : 0 < c.sz) {m : Mem} {t : OTable (Nat × Nat) (K × V)} {l : List (K × V)} (h : Has c m t l) :
    (t.elements c.sz m).map (List.map Prod.snd) = .ok l ∧ t.core.size = l.length := by
  obtain ⟨s, h, rfl⟩ := h
  refine ⟨by rw [h.elements hsz]; rfl, ?_⟩
  obtain ⟨o, h, rfl⟩ := h
  rw [List.length_map, ← h.length, seqOf_length h.link.isSome]

/-- C126: whatever the hash function and the comparison answer, every history of operations of a new ordered sparse or stable container, in any memory
and with any allocator, ends without undefined behaviour, each operation does to the sequence of elements what it may do and reports what it did, and
iteration visits that sequence; unless two linked nodes are exchanged on the way (the instrumented program stops with `rawSwap`, see C52). -/
theorem C126_history {c : Cfg (Nat × Nat)} (hsz : 0 < c.sz) (hA : c.A.Sound c.sz) (hh : c.hash = Prod.snd) {m m0 : Mem}
    {t0 : OTable (Nat × Nat) (K × V)} (hc : OTable.create c m = (m0, t0)) (ops : List (WildOp K V)) :
    t0.runWild c.stop 0 m0 ops = .error .rawSwap ∨
    ∃ m' t' os l, t0.runWild c 0 m0 ops = .ok (m', t', os) ∧ Did [] ops os l ∧
      (t'.elements c.sz m').map (List.map Prod.snd) = .ok l ∧ t'.core.size = l.length := by
  obtain ⟨m1, t1, e, -, -, h, -⟩ := create_ok (V := K × V) hA m
  rw [hc] at e
  cases e
  rcases runWild_ok hsz hA hh ops (g := 0) ⟨[], h, rfl⟩ (fun x hx => by cases hx) (Or.inl trivial) with ⟨-, e1⟩ | ⟨m', t', os, l, -, e2, d, h2⟩
  · exact Or.inl e1
  · exact Or.inr ⟨m', t', os, l, e2, d, h2.elements hsz⟩

/-- C126 for the code as it is, for histories that erase no single elements: no exchange can happen. -/
theorem C126_growing {c : Cfg (Nat × Nat)} (hsz : 0 < c.sz) (hA : c.A.Sound c.sz) (hh : c.hash = Prod.snd) {m m0 : Mem}
    {t0 : OTable (Nat × Nat) (K × V)} (hc : OTable.create c m = (m0, t0)) (ops : List (WildOp K V)) (hno : ∀ o ∈ ops, o.erases = false) :
    ∃ m' t' os l, t0.runWild c 0 m0 ops = .ok (m', t', os) ∧ Did [] ops os l ∧
      (t'.elements c.sz m').map (List.map Prod.snd) = .ok l ∧ t'.core.size = l.length := by
  obtain ⟨m1, t1, e, ec, -, h, -⟩ := create_ok (V := K × V) hA m
  rw [hc] at e
  cases e
  have hn : NoTomb t0.core := by
    rw [ec]
    exact fun i hi => absurd hi (Nat.not_lt_zero _)
  rcases runWild_ok hsz hA hh ops (g := 0) ⟨[], h, rfl⟩ (fun x hx => by cases hx) (b := False) (Or.inr (Or.inl ⟨hn, hno⟩)) with
    ⟨hf, -⟩ | ⟨m', t', os, l, -, e2, d, h2⟩
  · exact hf.elim
  · exact ⟨m', t', os, l, e2, d, h2.elements hsz⟩

/-- C126 for the code as it is, for histories that begin by reserving room for all their insertions and do not call `rehash`: they may erase. -/
theorem C126_reserved {c : Cfg (Nat × Nat)} (hsz : 0 < c.sz) (hA : c.A.Sound c.sz) (hh : c.hash = Prod.snd) {m m0 : Mem}
    {t0 : OTable (Nat × Nat) (K × V)} (hc : OTable.create c m = (m0, t0)) (ops : List (WildOp K V)) (hno : ∀ o ∈ ops, o.rehashes = false)
    {n : Nat} (hn : (ops.map WildOp.inserts).sum ≤ n) :
    ∃ m' t' os l, t0.runWild c 0 m0 (.reserve n :: ops) = .ok (m', t', os) ∧ Did [] (.reserve n :: ops) os l ∧
      (t'.elements c.sz m').map (List.map Prod.snd) = .ok l ∧ t'.core.size = l.length := by
  obtain ⟨m1, t1, e0, ec, -, h, -⟩ := create_ok (V := K × V) hA m
  rw [hc] at e0
  cases e0
  have hr : Rep c.stop m0 t0 [] := ⟨h.core, h.link⟩
  obtain ⟨m1, t1, e, hb, _, h1, _⟩ := reserve_ok (c := c.stop) hsz hA rfl hr n
  have e' := (OTable.reserve_le c m0 t0 _).ok e
  have hs : Holds c m1 t1 [] := hb.holds.unstop
  have hsize : t1.core.size = 0 := by
    obtain ⟨o', hr', e2⟩ := hs
    rw [← hr'.length, ← seqOf_length hr'.link.isSome, e2]
    rfl
  have hroom : Room t1 (ops.map WildOp.inserts).sum := by
    refine ⟨by omega, ?_⟩
    rcases Nat.eq_zero_or_pos (ops.map WildOp.inserts).sum with g | g
    · exact Or.inl g
    · right
      unfold OTable.reserve at e
      obtain ⟨x, ex, e⟩ := Dense.bind_eq_ok e
      obtain ⟨y, ey, e⟩ := Dense.bind_eq_ok e
      cases e
      obtain ⟨x', ex', _, _, _, _, hx, _⟩ := Swiss.reserve_spec (fresh_inv h.core) n
      have ex2 : (fresh t0.core).reserve c.isa n = .ok x := ex
      rw [ex2] at ex'
      cases ex'
      refine (hx ?_).2 (by omega)
      rw [ec]
      exact fun _ => rfl
  have est : t0.stepWild c 0 m0 (.reserve n : WildOp K V) = .ok (m1, t1, .unit) := by
    simp only [OTable.stepWild, OTable.stepSame, OTable.step]
    rw [e']
    rfl
  rcases runWild_ok hsz hA hh ops (g := 1) hs (fun x hx => by cases hx) (b := False) (Or.inr (Or.inr ⟨hroom, hno⟩)) with
    ⟨hf, -⟩ | ⟨m', t', os, l, -, e2, d, h2⟩
  · exact hf.elim
  · refine ⟨m', t', .unit :: os, l, ?_, .cons (l' := []) ⟨rfl, rfl⟩ d, h2.elements hsz⟩
    simp only [OTable.runWild]
    rw [est, bind_ok, e2]
    rfl

/-- C126: after a history without such an exchange an element is found again, or another one in its place, if the hash is what it was when the element
was inserted and the comparison always accepts the element. -/
theorem C126_found {c : Cfg (Nat × Nat)} (hsz : 0 < c.sz) (hA : c.A.Sound c.sz) (hh : c.hash = Prod.snd) {m m0 : Mem}
    {t0 : OTable (Nat × Nat) (K × V)} (hc : OTable.create c m = (m0, t0)) {ops : List (WildOp K V)}
    {r : Mem × OTable (Nat × Nat) (K × V) × List (Out K V)} (e : t0.runWild c.stop 0 m0 ops = .ok r) {x : (Nat × Nat) × (K × V)}
    {l : List ((Nat × Nat) × (K × V))} (hl : r.2.1.elements c.sz r.1 = .ok l) (hx : x ∈ l) {p : Answers K} (hp : ∀ a b, p a b x.2.1 = true) (g : Nat) :
    t0.runWild c 0 m0 ops = .ok r ∧ r.2.1.stepWild c g r.1 (.contains x.1.2 p) = .ok (r.1, r.2.1, .bool true) := by
  obtain ⟨m1, t1, e0, -, -, h, -⟩ := create_ok (V := K × V) hA m
  rw [hc] at e0
  cases e0
  rcases runWild_ok hsz hA hh ops (g := 0) ⟨[], h, rfl⟩ (fun x hx => by cases hx) (Or.inl trivial) with
    ⟨-, e1⟩ | ⟨m', t', os, l', e1, e2, -, s, h2, -⟩
  · rw [e] at e1
    cases e1
  · rw [e] at e1
    cases e1
    refine ⟨e2, ?_⟩
    rw [h2.elements hsz] at hl
    cases hl
    obtain ⟨o, h2, rfl⟩ := h2
    obtain ⟨i, n, h3, h4⟩ := Swiss.findNodeWild_some (hh ▸ h2.core) (h2.perm.mem_iff.mp hx) hp
    have hi := (Swiss.readNode_eq h4).1
    have hne : (i != t'.core.cap) = true := by
      simp only [bne_iff_ne]
      omega
    simp only [OTable.stepWild, h3, bind_ok, hne]

/-- C126: after such a history the container can be copied, whatever was answered: the copy has the elements of the original in the same order, and the
original keeps them. -/
theorem C126_copy {c : Cfg (Nat × Nat)} (hsz : 0 < c.sz) (hA : c.A.Sound c.sz) (hh : c.hash = Prod.snd) {m m0 : Mem}
    {t0 : OTable (Nat × Nat) (K × V)} (hc : OTable.create c m = (m0, t0)) {ops : List (WildOp K V)}
    {r : Mem × OTable (Nat × Nat) (K × V) × List (Out K V)} (e : t0.runWild c.stop 0 m0 ops = .ok r) :
    ∃ m1 u l, OTable.copyCtor c r.1 r.2.1 = .ok (m1, u) ∧ r.2.1.elements c.sz r.1 = .ok l ∧ r.2.1.elements c.sz m1 = .ok l ∧
      u.elements c.sz m1 = .ok l ∧ u.core.size = l.length := by
  obtain ⟨m1, t1, e0, -, -, h, -⟩ := create_ok (V := K × V) hA m
  rw [hc] at e0
  cases e0
  rcases runWild_ok hsz hA hh ops (g := 0) ⟨[], h, rfl⟩ (fun x hx => by cases hx) (Or.inl trivial) with
    ⟨-, e1⟩ | ⟨m', t', os, l', e1, e2, -, s, ⟨o, h2, rfl⟩, -⟩
  · rw [e] at e1
    cases e1
  · rw [e] at e1
    cases e1
    obtain ⟨m2, u, f1, f2, f3, -, -, f4⟩ := copyCtor_ok hsz hA h2
    have h3 := h2.frame f4 (fun _ _ => by simp)
    refine ⟨m2, u, seqOf t'.core.node o, f1, Holds.elements hsz ⟨o, h2, rfl⟩, Holds.elements hsz ⟨o, h3, rfl⟩, ?_, ?_⟩
    · rw [← f3]
      exact f2.elements hsz
    · rw [← f3, seqOf_length f2.link.isSome, f2.size]

/-- C126: after such a history the container can be moved, with equal allocators or not: the new container has the elements in the same order, and the
former one is empty. -/
theorem C126_move {c : Cfg (Nat × Nat)} (hsz : 0 < c.sz) (hA : c.A.Sound c.sz) (hh : c.hash = Prod.snd) {m m0 : Mem}
    {t0 : OTable (Nat × Nat) (K × V)} (hc : OTable.create c m = (m0, t0)) {ops : List (WildOp K V)}
    {r : Mem × OTable (Nat × Nat) (K × V) × List (Out K V)} (e : t0.runWild c.stop 0 m0 ops = .ok r) (al : Swiss.AllocP) :
    ∃ m1 u t1 l, OTable.moveCtor c al r.1 r.2.1 = .ok (m1, u, t1) ∧ r.2.1.elements c.sz r.1 = .ok l ∧ u.elements c.sz m1 = .ok l ∧
      u.core.size = l.length ∧ t1.elements c.sz m1 = .ok [] ∧ t1.core.size = 0 := by
  obtain ⟨m1, t1, e0, -, -, h, -⟩ := create_ok (V := K × V) hA m
  rw [hc] at e0
  cases e0
  rcases runWild_ok hsz hA hh ops (g := 0) ⟨[], h, rfl⟩ (fun x hx => by cases hx) (Or.inl trivial) with
    ⟨-, e1⟩ | ⟨m', t', os, l', e1, e2, -, s, ⟨o, h2, rfl⟩, -⟩
  · rw [e] at e1
    cases e1
  · rw [e] at e1
    cases e1
    obtain ⟨m2, u, t2, f1, f2, f3, -, f4, -⟩ := moveCtor_ok hsz hA al h2
    refine ⟨m2, u, t2, seqOf t'.core.node o, f1, Holds.elements hsz ⟨o, h2, rfl⟩, ?_, ?_, Holds.elements hsz ⟨[], f4, rfl⟩, f4.length.symm⟩
    · rw [← f3]
      exact f2.elements hsz
    · rw [← f3, seqOf_length f2.link.isSome, f2.size]

/-- The code, with serial numbers and 16-byte blocks. -/
def w16 : Cfg (Nat × Nat) := ⟨.sse2, Prod.snd, 24, bump, false⟩

/-- The outcome of a history of a new container: the answers and the elements in order of iteration. -/
def wildly (c : Cfg (Nat × Nat)) (ops : List (WildOp Nat Nat)) : M (List (Out Nat Nat) × List (Nat × Nat)) := do
  let r ← (OTable.create (V := Nat × Nat) c mem0).2.runWild c 0 (OTable.create (V := Nat × Nat) c mem0).1 ops
  let l ← r.2.1.elements c.sz r.1
  .ok (r.2.2, l.map Prod.snd)

/-- Contradictory answers: four insertions of the same key with hashes 7, 7, 9 and 9, of which the last finds an element; then one is erased that the
comparison takes for the key, and the next element is returned. -/
example : wildly w16 [.insert 7 (fun _ _ _ => false) 1 10, .insert 7 (fun _ _ _ => false) 1 11, .insert 9 (fun _ _ k => k == 1) 1 12,
    .insert 9 (fun _ _ k => k == 1) 1 13, .contains 8 (fun _ _ _ => true), .erase 7 (fun _ i _ => i == 0), .assign 9 (fun _ _ _ => true) 5 50,
    .erase 7 (fun _ _ _ => true), .reverse] =
    .ok ([.ins (1, 10) true, .ins (1, 11) true, .ins (1, 12) true, .ins (1, 12) false, .bool false, .elem (some (1, 11)), .ins (1, 50) false,
      .elem (some (1, 50)), .list [(1, 50)]], [(1, 50)]) := by
  decide +kernel

/-- Twenty insertions of one key with one hash that the comparison rejects each time: the order is kept while the array grows. -/
example : (wildly w16 ((List.range 20).map fun v => .insert 5 (fun _ _ _ => false) 1 v)).map Prod.snd = .ok ((List.range 20).map fun v => (1, v)) := by
  decide +kernel

/-- Twelve elements with one key, of which four are erased; the copy and the original. -/
example : (do
    let r ← (OTable.create (V := Nat × Nat) w16 mem0).2.runWild w16 0 (OTable.create (V := Nat × Nat) w16 mem0).1
      (((List.range 12).map fun v => .insert (v * 128) (fun _ _ _ => false) 1 v) ++ (List.range 4).map fun v => .erase (v * 3 * 128) (fun _ _ _ => true))
    let d ← OTable.copyCtor w16 r.1 r.2.1
    let a ← r.2.1.elements 24 d.1
    let b ← d.2.elements 24 d.1
    .ok (a.map fun x => x.2.2, decide (a = b)) : M (List Nat × Bool)) = .ok ([1, 2, 4, 5, 7, 8, 10, 11], true) := by
  decide +kernel

/-- Moved with unequal allocators. -/
example : (do
    let r ← (OTable.create (V := Nat × Nat) w16 mem0).2.runWild w16 0 (OTable.create (V := Nat × Nat) w16 mem0).1
      (((List.range 5).map fun v => .insert (v * 128) (fun _ _ _ => false) 1 v) ++ [.erase 256 (fun _ _ _ => true)])
    let d ← OTable.moveCtor w16 ⟨false, false, false⟩ r.1 r.2.1
    let a ← d.2.1.elements 24 d.1
    let b ← d.2.2.elements 24 d.1
    .ok (a.map fun x => x.2.2, b.length) : M (List Nat × Nat)) = .ok ([0, 1, 3, 4], 0) := by
  decide +kernel

end Tpp.OSwiss
