import Verif.Props.Behaves
import Verif.Props.Dense
import Verif.Swiss.Write
import Verif.Dense.Write

/-!
# C99: mapped values may be written through references at any time
-/

set_option linter.unusedSectionVars false

namespace Tpp.Swiss

variable {K V : Type} [DecidableEq K]

/-- **C99** (sparse_map, stable_map).  Any program that mixes operations with writes through `at`, through `operator[]` and in
loops over the container: every answer is that of a mathematical map whose values are written, and so is everything the user
can observe afterwards. -/
theorem C99_swiss {isa : Isa} {hash : K → Nat} {t : Table K V} (h : Reachable isa hash t) {m : List (K × V)}
    (hb : Behaves isa hash t m) (ops : List (WrOp K V)) :
    Ends isa (t.wrun isa hash ops) (fun r => List.Forall₂ Out.Agree r.2 (Spec.wrun m ops).2 ∧
      Behaves isa hash r.1 (Spec.wrun m ops).1) :=
  (wrun_spec ops h.inv (hb.contents_perm h.inv)).mono fun _ hr => ⟨hr.2.2, hr.1.behaves hr.2.1⟩

/-- **C99** (sparse_map, stable_map).  A write through an iterator changes the value of that element and nothing else: the same
elements stay in the same places, and the control bytes, the size and the capacity are untouched. -/
theorem C99_swiss_iterator {isa : Isa} {hash : K → Nat} {t : Table K V} (h : Reachable isa hash t) {m : List (K × V)}
    (hb : Behaves isa hash t m) {pos : Nat} {n : Node K V} (hr : t.readNode pos = .ok n) (v : V) :
    ∃ t', t.write pos v = .ok t' ∧ t'.readNode pos = .ok { n with val := v } ∧ (∀ i, i ≠ pos → t'.readNode i = t.readNode i) ∧
      t'.ctl = t.ctl ∧ t'.cap = t.cap ∧ t'.size = t.size ∧
      Behaves isa hash t' (m.map fun p => if p.1 = n.key then (p.1, v) else p) := by
  obtain ⟨hp, hn⟩ : pos < t.cap ∧ t.node pos = some n := by
    unfold Table.readNode at hr
    by_cases hp : pos < t.cap
    · refine ⟨hp, ?_⟩
      simp only [hp] at hr
      cases hh : t.node pos with
      | none => rw [hh] at hr; simp at hr
      | some x => rw [hh] at hr; simp at hr; rw [hr]
    · simp [hp] at hr
  obtain ⟨t', h1, h2, h3, h4, h5⟩ := write_spec h.inv hp hn v
  have e := h3.rest
  have hn' : t'.node pos = some { n with val := v } := by
    have := h1
    simp only [Table.write, readNode_some hp hn, bind_ok, Except.ok.injEq] at this
    rw [← this]
    simp
  refine ⟨t', h1, ?_, ?_, by rw [e], by rw [e], by rw [e], ?_⟩
  · exact readNode_some (by rw [e]; exact hp) hn'
  · intro i hi
    unfold Table.readNode
    rw [h5 i hi, show t'.cap = t.cap by rw [e]]
  · refine h2.behaves ?_
    rw [h4]
    refine (spec_set_perm (hb.contents_perm h.inv) _ _).trans ?_
    unfold Spec.set
    rw [List.map_congr_left]
    intro p _
    by_cases hk : p.1 = n.key <;> simp [hk]

/-- Values are doubled in a loop, written through `at` and `operator[]`, and the program goes on. -/
def writeOps : List (WrOp Nat Nat) :=
  [.each fun _ v => 2 * v, .atSet 3 7, .atSet 2 8, .indexSet 9 0 90, .op (.insert 9 1), .op (.erase 1), .each fun k v => k + v,
    .op (.find 3), .op (.find 9), .indexSet 4 0 1, .op .iterate]

example : (match demo.wrun .sse2 h64 writeOps with
    | .ok r => (r.2.map fun
      | .bool b => [(b.toNat, 0)]
      | .opt o => [(1, o.getD 0)]
      | .list l => [3, 4, 5, 9, 1].filterMap fun k => l.find? (·.1 = k)
      | .ins x b => [x, (b.toNat, 0)]
      | _ => [])
    | _ => []) =
    [[], [(1, 0)], [(0, 0)], [], [(9, 90), (0, 0)], [], [], [(1, 10)], [(1, 99)], [], [(3, 10), (4, 1), (5, 105), (9, 99)]] := by
  decide +kernel

example : (Spec.wrun [(5, 50), (4, 40), (3, 33), (1, 10)] writeOps).1 = [(4, 1), (9, 99), (5, 105), (3, 10)] := by
  decide +kernel

/-- There is an element to write in the illustration. -/
example : ∃ pos n, demo.readNode pos = .ok n ∧ n.key = 3 ∧ n.val = 33 := by
  refine ⟨(match demo.findNode .sse2 3 (h64 3) with
    | .ok p => p
    | _ => 0), ⟨3, 33, h64 3⟩, ?_, rfl, rfl⟩
  decide +kernel

end Tpp.Swiss

namespace Tpp.Dense

variable {k : Nat} {K V : Type} [DecidableEq K]

/-- **C99** (dense_map, dense_multimap).  Any program that mixes operations with writes through `at`, through iterators and in
loops (guard as in C36: no `erase(key)` before there are buckets). -/
theorem C99_dense {hash : K → Nat} {t : Table k K V} (h : Reachable hash t) {l : List (Elem k K V)} (hl : t.iterate = .ok l)
    (ops : List (WrOp k K V)) (hg : Spec.Guarded (decide (0 < t.bc)) (Spec.plain ops) = true) :
    ∃ t', t.wrun hash ops = .ok (t', (Spec.wrun l ops).2) ∧ Behaves hash t' (Spec.wrun l ops).1 := by
  obtain ⟨t', e, i⟩ := wrun_ok ops (h.of_iterate hl) (by intro g; simpa using g) hg
  exact ⟨t', e, i.behaves⟩

/-- **C99** (dense_map, dense_multimap).  A write through an iterator changes the value of that element and nothing else. -/
theorem C99_dense_iterator {hash : K → Nat} {t : Table k K V} (h : Reachable hash t) {l : List (Elem k K V)}
    (hl : t.iterate = .ok l) {i : Nat} (hi : i < l.length) (v : V) :
    ∃ t', t.write i v = .ok t' ∧ (∀ j, j ≠ i → t'.readNode j = t.readNode j) ∧ t'.bc = t.bc ∧
      Behaves hash t' (l.take i ++ (l[i].1, v) :: l.drop (i + 1)) := by
  obtain ⟨n, hr, hn, _⟩ := (h.of_iterate hl).toArr.read hi
  obtain ⟨t', e, i1, b, hnode⟩ := write_ok (h.of_iterate hl) hi v
  refine ⟨t', e, ?_, b, ?_⟩
  · intro j hj
    have hs : t'.cap = t.cap := by
      simp only [Table.write, hr, bind_ok, Except.ok.injEq] at e
      rw [← e]
    unfold Table.readNode
    rw [hnode j hj, hs]
  · rw [List.set_eq_take_append_cons_drop, if_pos hi] at i1
    exact i1.behaves

/-- Both keys of an element lead to the same value; there is no element with second key 5. -/
def writeOps : List (WrOp 2 Nat Nat) :=
  [.each fun key v => key 0 + v, .atSet 1 6 7, .op (.find 0 2), .atSet 1 5 1, .posSet 0 5, .posSet 9 5, .op (.erase 1 8),
    .each fun _ v => v * 10, .op .iterate]

example : (match demo2.wrun h3 writeOps with
    | .ok r => (r.2.map fun
      | .bool b => [[b.toNat]]
      | .elem o => o.toList.map fun e => [e.1 0, e.1 1, e.2]
      | .pos i => [[i]]
      | .list l => l.map fun e => [e.1 0, e.1 1, e.2]
      | _ => [])
    | _ => []) =
    [[], [[1]], [[2, 6, 7]], [[0]], [], [], [[0]], [], [[4, 9, 440], [2, 6, 70]]] := by
  decide +kernel

example : Spec.Guarded (decide (0 < demo2.bc)) (Spec.plain writeOps) = true := by decide +kernel

end Tpp.Dense
