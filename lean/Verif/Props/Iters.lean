import Verif.Swiss.Iters
import Verif.Dense.Iters
import Verif.Dense.Faults

/-!
# C98: iterators and references after `reserve`
-/

set_option linter.unusedSectionVars false

namespace Tpp.Swiss

variable {K V : Type} [DecidableEq K]

/-- C98, what holds for sparse containers: as long as no more elements are added than there are free slots (erasures do not give
slots back), nothing is allocated or relocated, and a slot from which an element could be read still holds that element, with the
mapped value that the history gives it. -/
theorem C98_swiss_room_partial {isa : Isa} {hash : K → Nat} {t t' : Table K V} (h : Reachable isa hash t) {ops : List (Op K V)}
    {os : List (Out K V)} {b : Nat} (hb : b ≤ t.numEmpty) (hf : Spec.Fits b t.contents ops) {i : Nat} {n : Node K V}
    (hi : t.readNode i = .ok n) (hk : ∀ op ∈ ops, op.keeps n.key) (hr : t.run isa hash ops = .ok (t', os)) :
    t'.cap = t.cap ∧ t'.log = t.log ∧ ∃ n', t'.readNode i = .ok n' ∧ n'.key = n.key ∧
      Spec.lookup (Spec.run t.contents ops).1 n.key = some n'.val := by
  obtain ⟨hic, hin⟩ := readNode_eq hi
  obtain ⟨⟨h1, h2⟩, h3, n', h4, h5⟩ := run_holds ops h.inv (List.Perm.refl _) hb hf hk hr ⟨hic, n, hin, rfl⟩
  refine ⟨h1, h2, n', readNode_some h3 h4, h5, ?_⟩
  rcases run_spec ops h.inv (List.Perm.refl _) with ⟨r, e, r1, r2, _⟩ | ⟨_, e⟩
  · rw [hr] at e
    cases e
    rw [← Spec.lookup_perm r2 r1.contents_uniq, Spec.lookup_some r1.contents_uniq, mem_contents]
    exact ⟨i, n', h3, h4, h5, rfl⟩
  · rw [hr] at e; cases e

/-- C98, what holds after `reserve(n)`: the elements may grow to `n` in number by insertions; every element added counts, also after
erasures.  Missing: histories in which the size stays at most `n` because elements are erased in between, see
`C98_swiss_reserve_false`. -/
theorem C98_swiss_reserve_partial {isa : Isa} {hash : K → Nat} {t t1 t' : Table K V} (h : Reachable isa hash t) {n : Nat}
    (h1 : t.reserve isa n = .ok t1) {ops : List (Op K V)} {os : List (Out K V)} (hf : Spec.Fits (n - t.size) t1.contents ops)
    {i : Nat} {x : Node K V} (hi : t1.readNode i = .ok x) (hk : ∀ op ∈ ops, op.keeps x.key)
    (hr : t1.run isa hash ops = .ok (t', os)) :
    t'.cap = t1.cap ∧ t'.log = t1.log ∧ ∃ y, t'.readNode i = .ok y ∧ y.key = x.key ∧
      Spec.lookup (Spec.run t1.contents ops).1 x.key = some y.val := by
  obtain ⟨u, r1, r2, r3, r4, r5, r6, _⟩ := reserve_spec h.inv n
  rw [h1] at r1
  cases r1
  have hreach : Reachable isa hash t1 := .step (op := .reserve n) (o := .unit) h (by
    simp only [Table.step, h1, bind_ok])
  exact C98_swiss_room_partial hreach (by omega) hf hi hk hr

/-- The insertions of elements with home slot 0 or `k`, then four erasures. -/
def crowded : List (Op Nat Nat) :=
  (List.range 26).map (fun i => .insert (if i < 20 then 32 * i else i) i) ++ [.erase 0, .erase 32, .erase 64, .erase 96]

/-- C98 fails for sparse containers when elements are erased in between: after `reserve(26)`, with at most 26 elements at any time
and the same bucket count throughout, the element with key 512 leaves its slot. -/
theorem C98_swiss_reserve_false : ∃ (hash : Nat → Nat) (t t1 t2 : Table Nat Nat) (os os' : List (Out Nat Nat)),
    (Table.init : Table Nat Nat).reserve .sse2 26 = .ok t ∧ t.run .sse2 hash crowded = .ok (t1, os) ∧
    t1.run .sse2 hash [.insert 26 26, .insert 27 27, .insert 28 28] = .ok (t2, os') ∧
    (∀ j ≤ 30, (Spec.run [] (crowded.take j)).1.length ≤ 26) ∧ t2.size ≤ 26 ∧ t1.cap = t.cap ∧ t2.cap = t.cap ∧
    (∃ n, t1.readNode 16 = .ok n ∧ n.key = 512 ∧ n.val = 16) ∧ t2.readNode 16 = .error .deadRead ∧
    ∃ n, t2.readNode 0 = .ok n ∧ n.key = 512 := by
  have key : (match (Table.init : Table Nat Nat).reserve .sse2 26 with
      | .error _ => false
      | .ok t => match t.run .sse2 (· * 128) crowded with
        | .error _ => false
        | .ok (t1, _) => match t1.run .sse2 (· * 128) [.insert 26 26, .insert 27 27, .insert 28 28] with
          | .error _ => false
          | .ok (t2, _) => decide (t2.size ≤ 26 ∧ t1.cap = t.cap ∧ t2.cap = t.cap) &&
            (match t1.readNode 16, t2.readNode 16, t2.readNode 0 with
              | .ok a, .error .deadRead, .ok b => decide (a.key = 512 ∧ a.val = 16 ∧ b.key = 512)
              | _, _, _ => false)) = true := by
    set_option maxRecDepth 100000 in decide +kernel
  have hlen : ∀ j ≤ 30, (Spec.run ([] : List (Nat × Nat)) (crowded.take j)).1.length ≤ 26 := by
    set_option maxRecDepth 100000 in decide +kernel
  split at key
  · cases key
  · rename_i t e0
    split at key
    · cases key
    · rename_i t1 os e1
      split at key
      · cases key
      · rename_i t2 os' e2
        rw [Bool.and_eq_true, decide_eq_true_eq] at key
        obtain ⟨⟨k1, k2, k3⟩, key⟩ := key
        split at key
        · rename_i a b f1 f2 f3
          obtain ⟨k4, k5, k6⟩ := of_decide_eq_true key
          exact ⟨(· * 128), t, t1, t2, os, os', e0, e1, e2, hlen, k1, k2, k3, ⟨a, f1, k4, k5⟩, f2, b, f3, k6⟩
        · cases key

/-- The bound is exact where nothing was erased: if no slot is free and none is erased, adding an element replaces the buffer. -/
theorem C98_swiss_full {isa : Isa} {hash : K → Nat} {t t' : Table K V} (h : Reachable isa hash t) (hc : 0 < t.cap)
    (hn : t.numEmpty = 0) (hno : NoTomb t) {k : K} {v : V} (habs : t.contains isa hash k = .ok false) {p : Nat} {b : Bool}
    (hr : t.insert isa hash k v = .ok (t', p, b)) : t.cap < t'.cap ∧ t'.log ≠ t.log := by
  rw [contains_spec h.inv] at habs
  rcases find_cases h.inv k with ⟨_, _, _, _, _, _, hl⟩ | ⟨hfresh, hf, hl⟩
  · rw [hl] at habs; cases habs
  simp only [Table.insert, hf, bind_ok, if_true] at hr
  obtain ⟨⟨u, q⟩, e1, e2⟩ := ok_of_bind hr
  cases e2
  obtain ⟨⟨w, target⟩, e3, e4⟩ := ok_of_bind e1
  obtain ⟨_, _, _, _, c5, c6⟩ := commit_log e4
  obtain ⟨w', target', p1, p2, p3, p4, p5, p6, p7, p8, p9, p10⟩ := prepare_spec h.inv (hash k)
  rw [e3] at p1
  cases p1
  rcases prepare_noTomb_grow e3 h.inv hno with rfl | ⟨n, hn', hlt⟩
  · rcases p8 with p8 | p8
    · exact absurd p8 (hno _ p5)
    · omega
  · obtain ⟨js, d, g1, g2, g3, g4⟩ := doRehash_log hn'
    refine ⟨?_, ?_⟩
    · simp only
      omega
    · rw [c6, g1]
      intro e
      have := congrArg List.length e
      simp at this
      omega

/-- Ten slots left after `reserve(20)` and ten insertions: further insertions, overwrites, erasures and reads leave the element with key 5 in
its slot, and the mapped value is the new one. -/
def visits : List (Op Nat Nat) := [.insert 33 1, .erase 3, .assign 5 50, .insertRange true [(34, 1), (35, 2)], .insert 4 9, .reserve 12,
  .extract 2, .insertThrow 77, .find 5]

example : Spec.Fits 10 ((List.range 10).map fun i => (i, i)) visits ∧ ∀ op ∈ visits, op.keeps 5 := by
  simp [visits, Spec.Fits, Spec.step, Op.hasRoom, Op.takes, Op.keeps, Spec.lookup, Spec.insert, Spec.assign, Spec.erase, List.range,
    List.range.loop]

example : (do
    let t ← (Table.init : Table Nat Nat).reserve .sse2 20
    let (t, _) ← t.run .sse2 (· * 128) ((List.range 10).map fun i => .insert i i)
    let n ← t.readNode 5
    let (t', _) ← t.run .sse2 (· * 128) visits
    let n' ← t'.readNode 5
    .ok [t.numEmpty, n.key, n.val, n'.key, n'.val, t'.log.length - t.log.length, t'.cap]) = (.ok [18, 5, 5, 5, 50, 0, 31] : M _) := by
  set_option maxRecDepth 100000 in decide +kernel

-- a full container: one more element replaces the buffer
example : (do
    let (t, _) ← (Table.init : Table Nat Nat).run .sse2 (· * 128) ((List.range 7).map fun i => .insert i i)
    let (t', _, _) ← t.insert .sse2 (· * 128) 9 9
    .ok (t.numEmpty, t.cap, t'.cap)) = (.ok (0, 7, 15) : M _) := by
  set_option maxRecDepth 100000 in decide +kernel

end Tpp.Swiss

namespace Tpp.Dense

variable {k : Nat} {K V : Type} [DecidableEq K]

/-- C98, what holds for dense containers: while every insertion call finds the array not full (calls that are rejected count too),
the array is not replaced, and the position of an element that is not erased, and not the last one when another is erased, still
designates this element. -/
theorem C98_dense_room_partial {hash : K → Nat} {t t' : Table k K V} (h : Reachable hash t) {l : List (Elem k K V)}
    (hl : t.iterate = .ok l) {c : Nat} (hc : c ≤ t.cap) {os : List (Op k K V)} {outs : List (Out k K V)} (hf : Spec.Fits c l os)
    {p : Nat} {n : Node k K V} (hp : t.readNode p = .ok n) (hs : Spec.Spares p l os) (hr : t.run hash os = .ok (t', outs)) :
    t'.cap = t.cap ∧ ∃ n', t'.readNode p = .ok n' ∧ n'.key = n.key ∧ (Spec.run l os).1[p]? = some (n'.key, n'.val) := by
  obtain ⟨l', hI⟩ := h.inv
  have : l' = l := by
    have := iterate_ok hI.toArr
    rw [hl] at this
    cases this
    rfl
  subst this
  obtain ⟨h1, h2⟩ := run_room os hI (hf.mono hc) hr
  have hn : t.node p = some n := by
    unfold Table.readNode at hp
    split at hp
    · split at hp
      · cases hp; assumption
      · cases hp
    · cases hp
  have hrep := hI.rep p
  rw [hn, Option.map_some] at hrep
  obtain ⟨e, h3, h4⟩ := specRun_spare os hrep.symm hs
  obtain ⟨hlt, h5⟩ := List.getElem?_eq_some_iff.mp h3
  obtain ⟨n', h6, _, h7⟩ := h2.toArr.read hlt
  rw [h5] at h7
  cases h7
  exact ⟨h1, n', h6, h4, h3⟩

/-- C98, after `reserve(n)`. -/
theorem C98_dense_reserve_partial {hash : K → Nat} {t t1 t' : Table k K V} (h : Reachable hash t) {c : Nat}
    (h1 : t.reserve c = .ok t1) {l : List (Elem k K V)} (hl : t1.iterate = .ok l) {os : List (Op k K V)} {outs : List (Out k K V)}
    (hf : Spec.Fits c l os) {p : Nat} {n : Node k K V} (hp : t1.readNode p = .ok n) (hs : Spec.Spares p l os)
    (hr : t1.run hash os = .ok (t', outs)) :
    t'.cap = t1.cap ∧ ∃ n', t'.readNode p = .ok n' ∧ n'.key = n.key ∧ (Spec.run l os).1[p]? = some (n'.key, n'.val) := by
  have hreach : Reachable hash t1 := .step (o := .reserve c) (r := (t1, .unit)) h (by simp only [Table.step, h1, bind_ok])
  obtain ⟨l0, hI⟩ := h.inv
  obtain ⟨u, e, _, hc, _⟩ := reserve_ok hI c
  rw [h1] at e
  cases e
  exact C98_dense_room_partial hreach hl hc hf hp hs hr

/-- C98 fails for dense containers that are full, in every state: an insertion that is rejected because the key is present still
replaces the array, and with it all iterators and references. -/
theorem C98_dense_rejected_false {hash : K → Nat} {t : Table k K V} (h : Reachable hash t) (hfull : t.size = t.cap) {key : Fin k → K}
    {v : V} {j : Fin k} (hpres : t.contains hash j (key j) = .ok true) :
    ∃ t' i, t.insert hash key v = .ok (t', i, false) ∧ t'.cap = 2 * t.cap ∧ t.cap < t'.cap ∧ t'.iterate = t.iterate := by
  obtain ⟨l, hI⟩ := h.inv
  rw [contains_ok hI, elemOf_eq] at hpres
  obtain ⟨r, e, hr⟩ := insert_ok hI key v
  obtain ⟨t1, e1, i1, c1, f1, b1, s1⟩ := maybeResize_ok hI
  have hsome : ∃ i, idxOf l j (key j) = some i := by
    cases hi : idxOf l j (key j) with
    | none => rw [hi] at hpres; cases hpres
    | some i => exact ⟨i, rfl⟩
  obtain ⟨i, hi⟩ := hsome
  have hpos : 0 < t.cap := by
    obtain ⟨h3, _⟩ := List.findIdx?_eq_some_iff_getElem.mp hi
    have := hI.size
    omega
  cases hc : conflict l key with
  | none => rw [conflict_none hc j] at hi; cases hi
  | some q =>
    obtain ⟨d1, d2⟩ := hr.dup q hc
    obtain ⟨t', r2⟩ := r
    simp only at d1
    subst d1
    have hcap : t1.cap = 2 * t.cap := by
      unfold Table.maybeResize at e1
      rw [if_pos hfull.symm, if_neg (by omega)] at e1
      obtain ⟨u, e2, _, h2, _⟩ := resizeData_ok hI (c := t.cap * 2) (by omega)
      rw [e1] at e2
      cases e2
      omega
    have := hr.cap t1 e1
    simp only at this
    exact ⟨t', q, e, by omega, by omega, by rw [iterate_ok d2.toArr, iterate_ok hI.toArr]⟩

/-- Insertions (one of them rejected) and erasures of other elements. -/
def visits : List (Op 1 Nat Nat) := [.insert (fun _ => 7) 7, .insert (fun _ => 1) 0, .eraseAt 0, .erase 0 2, .assign rfl 1 11, .rehash 100,
  .reserve 6]

example : Spec.Fits 7 ((List.range 5).map fun i => ((fun _ => i, i) : Elem 1 Nat Nat)) visits ∧
    Spec.Spares 1 ((List.range 5).map fun i => ((fun _ => i, i) : Elem 1 Nat Nat)) visits := by
  refine ⟨⟨show (_ : Nat) < _ by decide, show (_ : Nat) < _ by decide, trivial, trivial, show (_ : Nat) < _ by decide, trivial,
    show (_ : Nat) ≤ _ by decide, trivial⟩, trivial, trivial, fun _ => ⟨by decide, by decide⟩, ?_, trivial, trivial, trivial, trivial⟩
  intro i hi
  have : some 2 = some i := hi
  cases this
  exact ⟨by decide, by decide⟩

example : (do
    let t ← (Table.init LF.initial : Table 1 Nat Nat).reserve 7
    let (t, _) ← t.run id ((List.range 5).map fun i => .insert (fun _ => i) i)
    let n ← t.readNode 1
    let (t', _) ← t.run id visits
    let n' ← t'.readNode 1
    .ok (n.key 0, n.val, n'.key 0, n'.val, t.cap, t'.cap)) = (.ok (1, 1, 1, 11, 7, 7) : M _) := by
  set_option maxRecDepth 100000 in decide +kernel

-- four elements in an array of four: a rejected insertion replaces the array
example : (do
    let t ← (Table.init LF.initial : Table 1 Nat Nat).reserve 4
    let (t, _) ← t.run id ((List.range 4).map fun i => .insert (fun _ => i) i)
    let (t', i, b) ← t.insert id (fun _ => 2) 9
    .ok (t.size, t.cap, t'.size, t'.cap, i, b)) = (.ok (4, 4, 4, 8, 2, false) : M _) := by
  set_option maxRecDepth 100000 in decide +kernel

end Tpp.Dense
