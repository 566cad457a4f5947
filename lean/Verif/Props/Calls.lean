import Verif.Swiss.Calls
import Verif.Props.Behaves

/-!
# C84: exceptions from the user's hash function, comparison and predicate in unordered sparse and stable containers

The argument `c` of an operation is the number of calls of the user's functions that return; the next call throws.
-/

set_option linter.unusedSectionVars false

namespace Tpp.Swiss

variable {K V : Type} [DecidableEq K]

/-- C84: an operation with a key makes a number `N ≥ 1` of calls; whichever of them throws, the container is exactly as before,
and if none throws the operation is the one without exceptions.  All calls are made before anything is changed; growing the table
calls nothing. -/
theorem C84_strong (isa : Isa) (hash : K → Nat) (t : Table K V) (op : Op K V) (hop : op.keyed = true) :
    ∃ N, 0 < N ∧ ∀ c, (c < N → t.stepC isa hash c op = .ok (t, none)) ∧
      (N ≤ c → t.stepC isa hash c op = do let (u, o) ← t.step isa hash op; .ok (u, some (o, c - N))) := by
  obtain ⟨N, h⟩ := stepC_keyed isa hash t op hop
  refine ⟨N + 1, by omega, fun c => ⟨fun hc => ?_, fun hc => ?_⟩⟩
  · rw [h c, if_pos hc]
  · rw [h c, if_neg (by omega)]

-- five calls are made inserting 7: the hash function and four comparisons with elements of the same tag (one of them twice)
example : ((demo.stepC .sse2 h64 4 (.insert 7 70)).map fun r => (r.1.contents, r.2)) = .ok (demo.contents, none) := by decide +kernel
example : ((demo.stepC .sse2 h64 9 (.insert 7 70)).map fun r => (r.1.size, r.2)) = .ok (5, some (.ins (7, 70) true, 4)) := by
  decide +kernel

/-- C84: `clear`, `reserve`, `rehash`, `size` and iteration call neither the hash function nor the comparison. -/
theorem C84_no_call (isa : Isa) (hash : K → Nat) (t : Table K V) (op : Op K V) (hop : op.keyed = false)
    (hr : ∀ ra xs, op ≠ .insertRange ra xs) (c : Nat) :
    t.stepC isa hash c op = (do let (u, o) ← t.step isa hash op; .ok (u, some (o, c))) := by
  cases op with
  | insertRange ra xs => exact absurd rfl (hr ra xs)
  | insert | assign | erase | find | contains | index | extract | insertNode | insertThrow => cases hop
  | _ => rfl

example : ((demo.stepC .sse2 h64 0 (.rehash 100)).map fun r => (r.1.cap, r.2)) = .ok (127, some (.unit, 0)) := by decide +kernel

/-- C84: an exception during `insert(node_type&&)` leaves the element in the caller's handle. -/
theorem C84_insert_node (isa : Isa) (hash : K → Nat) (t : Table K V) (x : K × V) {c : Nat} {u : Table K V} {y : Option (K × V)}
    (e : t.insertNodeC isa hash x c = .ok (u, none, y)) : u = t ∧ y = some x := by
  obtain ⟨N, h⟩ := seekC_costs isa hash t x.1
  unfold Table.insertNodeC at e
  rw [h c] at e
  by_cases hc : c < N + 1
  · rw [if_pos hc] at e
    injection e with e
    exact ⟨(congrArg Prod.fst e).symm, (congrArg (fun z => z.2.2) e).symm⟩
  · rw [if_neg hc] at e
    cases hf : t.findNode isa x.1 (hash x.1) with
    | error e' => rw [hf] at e; cases e
    | ok pos =>
      rw [hf] at e
      simp only [bind_ok] at e
      split at e
      · cases he : t.emplaceNode isa ⟨x.1, x.2, hash x.1⟩ with
        | error e' => rw [he] at e; cases e
        | ok r => rw [he] at e; cases e
      · cases e

example : ((demo.insertNodeC .sse2 h64 (8, 80) 0).map fun r => (r.1.contents, r.2)) = .ok (demo.contents, none, some (8, 80)) := by
  decide +kernel

/-- C84: an exception during range insertion leaves a proper prefix of the range inserted; with enough calls there is none, and the
insertion is the one without exceptions. -/
theorem C84_range {isa : Isa} {hash : K → Nat} {t : Table K V} {m : List (K × V)} (h : Reachable isa hash t)
    (hb : Behaves isa hash t m) (ra : Bool) (xs : List (K × V)) :
    (∃ N, ∀ c, N ≤ c → ∃ u o c', t.stepC isa hash c (.insertRange ra xs) = .ok (u, some (o, c'))) ∧
    ∀ c, ∃ u r, t.stepC isa hash c (.insertRange ra xs) = .ok (u, r) ∧
      (r = none → ∃ n, n < xs.length ∧ Behaves isa hash u ((xs.take n).foldl (fun m x => Spec.insert m x.1 x.2) m)) ∧
      (∀ o c', r = some (o, c') → t.step isa hash (.insertRange ra xs) = .ok (u, o)) := by
  have hi := h.inv
  have hm := hb.contents_perm hi
  obtain ⟨d, d1, d2, d3⟩ : ∃ d, (if ra then t.reserve isa (t.size + xs.length) else (.ok t : M (Table K V))) = .ok d ∧
      Inv isa hash d ∧ d.contents.Perm m := by
    cases ra with
    | false => exact ⟨t, rfl, hi, hm⟩
    | true =>
      obtain ⟨d, d1, d2, d3, d4, _⟩ := reserve_spec hi (t.size + xs.length)
      exact ⟨d, by simpa using d1, d2, (contents_perm d4).trans hm⟩
  have hC : ∀ c, t.insertRangeC isa hash ra xs c = d.insertListC isa hash xs c := by
    intro c
    unfold Table.insertRangeC
    cases ra with
    | false => cases d1; rfl
    | true => simp only [if_true] at d1 ⊢; rw [d1, bind_ok]
  have hR : t.insertRange isa hash ra xs = xs.foldlM (fun (t : Table K V) x => do
      let (t, _, _) ← t.insert isa hash x.1 x.2
      .ok t) d := by
    unfold Table.insertRange
    cases ra with
    | false => cases d1; rfl
    | true => simp only [if_true] at d1 ⊢; rw [d1, bind_ok]
  refine ⟨?_, fun c => ?_⟩
  · obtain ⟨N, hN⟩ := insertListC_total xs d d2
    refine ⟨N, fun c hc => ?_⟩
    obtain ⟨u, c', e⟩ := hN c hc
    refine ⟨u, .unit, c', ?_⟩
    simp only [Table.stepC, hC, e, bind_ok]
  · obtain ⟨u, r, g1, g2, g3⟩ := insertListC_spec xs d c d2
    cases r with
    | none =>
      refine ⟨u, none, ?_, fun _ => ?_, fun _ _ e => by cases e⟩
      · simp only [Table.stepC, hC, g1, bind_ok]
      · obtain ⟨n, n1, n2⟩ := g2 rfl
        obtain ⟨u', w1, w2, w3, _⟩ := insertList_spec (xs.take n) d m d2 d3
        rw [n2] at w1
        cases w1
        exact ⟨n, n1, w2.behaves w3⟩
    | some c' =>
      refine ⟨u, some (.unit, c'), ?_, fun e => (by cases e), ?_⟩
      · simp only [Table.stepC, hC, g1, bind_ok]
      · intro o c'' e
        cases e
        simp only [Table.step]
        rw [hR, (g3 _ rfl).2, bind_ok]

example : ((demo.stepC .sse2 h64 4 (.insertRange true [(9, 90), (10, 100), (11, 110)])).map fun r => (r.1.contents.length, r.2.isNone))
    = .ok (5, true) := by decide +kernel

/-- C84: if the predicate of `erase_if` throws at its call number `c + 1`, the first `c` elements in the order of iteration have been
treated and the others are untouched; the container is sound. -/
theorem C84_erase_if {isa : Isa} {hash : K → Nat} {t : Table K V} {m : List (K × V)} (h : Reachable isa hash t)
    (hb : Behaves isa hash t m) : ∃ l, l.Perm m ∧ Ends isa (t.iterate isa) (fun l' => l' = l) ∧
    ∀ (p : K × V → Bool) (c : Nat), Ends isa (t.eraseIfC isa p c) (fun r =>
      Behaves isa hash r.1 ((l.take c).filter (fun x => !p x) ++ l.drop c) ∧
      r.2 = if c < m.length then none else some (m.filter p).length) := by
  have hi := h.inv
  have hm := hb.contents_perm hi
  refine ⟨t.contents, hm, iterate_spec hi, fun p c => (eraseIfC_spec p hi c).mono ?_⟩
  rintro r ⟨r1, r2, r3⟩
  refine ⟨r1.behaves r2, ?_⟩
  rw [r3, hm.length_eq, (hm.filter p).length_eq]

example : ((demo.eraseIfC .sse2 (fun x => x.1 < 4) 1).map fun r => (r.1.contents, r.2)) = .ok ([(3, 33), (4, 40), (5, 50)], none) := by
  decide +kernel
example : ((demo.eraseIfC .sse2 (fun x => x.1 < 4) 4).map fun r => (r.1.contents, r.2)) = .ok ([(4, 40), (5, 50)], some 2) := by
  decide +kernel

/-- C84, negation for `emplace`: whichever call throws, the temporary element is never destroyed (B36). -/
theorem C84_emplace_false (isa : Isa) (hash : K → Nat) (t : Table K V) (k : K) (v : V) :
    ∃ N, 0 < N ∧ ∀ c, c < N → t.emplaceC isa hash k v c = .ok (t, 1, none) := by
  obtain ⟨N, h⟩ := seekC_costs isa hash t k
  refine ⟨N + 1, by omega, fun c hc => ?_⟩
  simp only [Table.emplaceC, Table.insertC, h c, if_pos hc, bind_ok]

example : ((demo.emplaceC .sse2 h64 1 11 0).map fun r => (r.1.contents, r.2)) = .ok (demo.contents, 1, none) := by decide +kernel

/-- C84 for `emplace` without exception: the temporary is gone, and `emplace` is `insert`. Missing: the calls that throw. -/
theorem C84_emplace_partial {isa : Isa} {hash : K → Nat} {t u : Table K V} {k : K} {v : V} {c n c' p : Nat} {b : Bool}
    (h : Reachable isa hash t) (e : t.emplaceC isa hash k v c = .ok (u, n, some (p, b, c'))) :
    n = 0 ∧ t.insert isa hash k v = .ok (u, p, b) := by
  rcases insertC_spec h.inv k v c with e1 | ⟨t', p', b', c'', e1, _, e2⟩
  · simp only [Table.emplaceC, e1, bind_ok] at e
    cases e
  · simp only [Table.emplaceC, e1, bind_ok] at e
    cases e
    exact ⟨rfl, e2⟩

example : ((demo.emplaceC .sse2 h64 7 70 5).map fun r => (r.1.contents.length, r.2.1, r.2.2.isSome)) = .ok (5, 0, true) := by
  decide +kernel

/-- C84, negation for `merge`: a call that throws while elements are transferred ends the program (`std::terminate`), whatever the
containers are; there are at least as many such calls as elements in the other container. -/
theorem C84_merge_false {isa : Isa} {hash hash' : K → Nat} {dst src : Table K V} (hd : Reachable isa hash dst)
    (hs : Reachable isa hash' src) :
    ∃ N, src.size ≤ N ∧ ∀ c, c < N → Ends isa (dst.mergeC isa hash src c) (fun r => r = none) := by
  obtain ⟨N, h1, h2⟩ := mergeC_spec hd.inv hs.inv
  exact ⟨N, h1, fun c hc => (h2 c).1 hc⟩

example : ((demo.mergeC .sse2 h64 demo 3).map fun r => r.isNone) = .ok true := by decide +kernel

/-- C84 for `merge` when no call throws. Missing: the calls that throw. -/
theorem C84_merge_partial {isa : Isa} {hash hash' : K → Nat} {dst src : Table K V} (hd : Reachable isa hash dst)
    (hs : Reachable isa hash' src) :
    ∃ N, ∀ c, N ≤ c → Ends isa (dst.mergeC isa hash src c)
      (fun r => ∃ d s, r = some (d, s, c - N) ∧ dst.merge isa hash src = .ok (d, s)) := by
  obtain ⟨N, _, h2⟩ := mergeC_spec hd.inv hs.inv
  exact ⟨N, fun c hc => (h2 c).2 hc⟩

example : ((demo.mergeC .sse2 h64 demo 100).map fun r => r.map fun x => (x.1.size, x.2.1.size)) = .ok (some (4, 4)) := by decide +kernel

end Tpp.Swiss
