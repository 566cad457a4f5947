import Verif.Dense.Words
import Verif.Props.Dense

/-!
# C119: the words of dense containers
-/

set_option linter.unusedSectionVars false

namespace Tpp.Dense

variable {k : Nat} {K V : Type} [DecidableEq K]

theorem Reachable.dead {hash : K → Nat} {t : Table k K V} (h : Reachable hash t) : Dead t := by
  obtain ⟨l, hl⟩ := h.inv
  intro i n hn
  rw [hl.size]
  exact hl.node_lt hn

/-- C119 for one operation: on every container a program can obtain, the code that computes with unsigned 64-bit words, marks the end of a
chain by `npos` and checks no arithmetic gives the same container and answer as the model with unbounded numbers, provided the two arrays it
leaves behind have fewer than 2^64 entries. -/
theorem C119_step {hash : K → UInt64} {w : WTable k K V} (h : Reachable (hashNat hash) w.dec) {op : Op k K V}
    {r : Table k K V × Out k K V} (e : w.dec.step (hashNat hash) op = .ok r) (hc : r.1.cap < 2 ^ 64) (hb : r.1.bc < 2 ^ 64) :
    ∃ w', w.step hash op = .ok (w', r.2) ∧ w'.dec = r.1 := by
  obtain ⟨r', f, h1, h2⟩ := step_word hash w h.dead op e hc hb
  exact ⟨r'.1, by rw [f, ← h2], h1⟩

theorem run_caps (hash : K → Nat) (ops : List (Op k K V)) : ∀ {t : Table k K V} {r}, t.run hash ops = .ok r → Grows t r.1 := by
  induction ops with
  | nil => intro t r e; cases e; exact Grows.refl t
  | cons op ops ih =>
    intro t r e
    unfold Table.run at e
    obtain ⟨s, e1, e⟩ := Dense.bind_eq_ok e
    obtain ⟨u, e2, e⟩ := Dense.bind_eq_ok e
    cases e
    obtain ⟨h1, h2⟩ := C116_dense hash (t' := s.1) (o := s.2) e1
    have g : Grows s.1 u.1 := ih e2
    exact Grows.trans ⟨by omega, by omega⟩ g

theorem runs_word {hash : K → UInt64} (ops : List (Op k K V)) : ∀ {w : WTable k K V}, Reachable (hashNat hash) w.dec →
    ∀ {r : Table k K V × List (Out k K V)}, w.dec.run (hashNat hash) ops = .ok r → r.1.cap < 2 ^ 64 → r.1.bc < 2 ^ 64 →
    ∃ w', w.run hash ops = .ok (w', r.2) ∧ w'.dec = r.1 := by
  induction ops with
  | nil =>
    intro w _ r e _ _
    cases e
    exact ⟨w, rfl, rfl⟩
  | cons op ops ih =>
    intro w h r e hc hb
    unfold Table.run at e
    obtain ⟨s, e1, e⟩ := Dense.bind_eq_ok e
    obtain ⟨u, e2, e⟩ := Dense.bind_eq_ok e
    cases e
    have g := run_caps _ ops e2
    dsimp only at hc hb
    obtain ⟨w1, f1, h1⟩ := C119_step h e1 (by have := g.1; omega) (by have := g.2; omega)
    have hr := h.step e1
    rw [← h1] at e2 hr
    obtain ⟨w2, f2, h2⟩ := ih hr e2 hc hb
    refine ⟨w2, ?_, h2⟩
    unfold WTable.run
    rw [f1, bind_ok]
    simp only
    rw [f2, bind_ok]

/-- C119 for a history on an empty container: the words run to the end with the answers of the specification, unless one of the arrays
would get 2^64 entries or more. -/
theorem C119_history {hash : K → UInt64} (lf : LF) {ops : List (Op k K V)} (hg : Spec.Guarded false ops = true)
    (hs : ∀ r, (Table.init lf : Table k K V).run (hashNat hash) ops = .ok r → r.1.cap < 2 ^ 64 ∧ r.1.bc < 2 ^ 64) :
    ∃ w, (WTable.init lf : WTable k K V).run hash ops = .ok (w, (Spec.run [] ops).2) := by
  obtain ⟨t, e⟩ := C36_history_agrees (hashNat hash) lf ops hg
  obtain ⟨h1, h2⟩ := hs _ e
  have h0 : (WTable.init lf : WTable k K V).dec = Table.init lf := rfl
  obtain ⟨w, f, _⟩ := runs_word ops (w := WTable.init lf) (by rw [h0]; exact Reachable.init lf) (by rw [h0]; exact e) h1 h2
  exact ⟨w, f⟩

/-- C119: the bound is needed. A full array of 2^63 nodes is replaced by one without room (2 * 2^63 = 0 in 64 bits), and the nodes are moved
behind its end. -/
theorem C119_limit (hash : K → UInt64) (w : WTable k K V) (hs : w.size = 0x8000000000000000) (hc : w.cap = 0x8000000000000000) (key : Fin k → K) (v : V) :
    w.insert hash key v = .error .oobNode := by
  unfold WTable.insert WTable.maybeResize WTable.resizeData
  rw [hs, hc, if_pos rfl, if_pos (by decide)]
  rfl

/-- Three insertions with equal hashes (all bits set), an erasure and lookups. -/
example : ((WTable.init LF.initial : WTable 1 Nat Nat).run (fun _ => npos)
    [.insert (fun _ => 1) 10, .insert (fun _ => 2) 20, .insert (fun _ => 3) 30, .erase 0 1, .contains 0 3, .contains 0 1, .size]).map
      (fun r => ([r.1.size, r.1.cap, r.1.bc, r.1.head 7 0], (List.range 3).map fun i => (r.1.node i).map fun n => (n.key 0, n.next 0))) =
    .ok ([2, 4, 8, 1], [some (3, npos), some (2, 0), none]) := by
  decide +kernel

/-- Its answers. -/
example : ((WTable.init LF.initial : WTable 1 Nat Nat).run (fun _ => npos)
    [.insert (fun _ => 1) 10, .insert (fun _ => 2) 20, .insert (fun _ => 3) 30, .erase 0 1, .contains 0 3, .contains 0 1, .size]).map
      (fun r => r.2.map fun o => match o with | .ins n b => (n, b) | .pos n => (n, true) | .bool b => (0, b) | .nat n => (n, false) | _ => (9, false)) =
    .ok [(0, true), (1, true), (2, true), (0, true), (0, true), (0, false), (2, false)] := by
  decide +kernel

/-- `npos` is not a position: the last position of the largest array is the word below. -/
example : chainIdx npos = none ∧ chainIdx (npos - 1) = some (2 ^ 64 - 2) ∧ npos + 1 = 0 := by decide

/-- The other array: 2^63 buckets cannot be doubled either; the code then rebuilds the chains in the buckets it has. -/
example : (0x8000000000000000 : UInt64) * 2 = 0 := by decide

end Tpp.Dense
