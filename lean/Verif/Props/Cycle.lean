import Verif.Swiss.Cycle
import Verif.Dense.Cycle
import Verif.Props.CapacityOf

/-!
# C106: inserting and erasing the same key again and again

Full statement: if a key is inserted and erased again any number of times, the container is left as after the first time; in particular
no memory is allocated and no other element is moved after the first time.
-/

set_option linter.unusedSectionVars false

namespace Tpp.Swiss

variable {K V : Type} [DecidableEq K]

/-- C106 for sparse containers: after a key was inserted and erased once, a second insertion puts it into the same slot of the same buffer
without touching anything else, and a second erasure restores the very same state, including the log of allocations and relocations. -/
theorem C106_sparse {isa : Isa} {hash : K → Nat} {t t1 t2 : Table K V} {k : K} {v : V} {p it : Nat} (h : Reachable isa hash t)
    (e1 : t.insert isa hash k v = .ok (t1, p, true)) (e2 : t1.erase isa hash k = .ok (t2, it)) (v' : V) :
    t2.insert isa hash k v' = .ok ({ t1 with node := upd t1.node p (some ⟨k, v', hash k⟩) }, p, true) ∧
      Table.erase isa hash { t1 with node := upd t1.node p (some ⟨k, v', hash k⟩) } k = .ok (t2, it) := by
  have hI := h.inv
  have hI1 : Inv isa hash t1 := by
    obtain ⟨a, b, c, e, hI1, _⟩ := insert_spec hI k v
    rw [e] at e1
    cases e1
    exact hI1
  -- the first insertion
  rcases find_cases hI k with ⟨i, n, hi, hn, hk, hf, hl⟩ | ⟨hno, hf, hl⟩
  · simp [Table.insert, hf, show i ≠ t.cap by omega] at e1
  simp only [Table.insert, hf, bind_ok, if_true] at e1
  obtain ⟨⟨a, q⟩, e1', e1⟩ := ok_of_bind e1
  simp only [Except.ok.injEq, Prod.mk.injEq, and_true] at e1
  rw [e1.1, e1.2] at e1'
  unfold Table.emplaceNode at e1'
  obtain ⟨⟨w, target⟩, ep, ec⟩ := ok_of_bind e1'
  obtain ⟨w', tg', ep', hIw, hperm, hsz, htg, hav, _, _, _, _⟩ := prepare_spec hI (hash k)
  rw [ep] at ep'
  cases ep'
  have hfa := prepare_avail ep
  obtain ⟨q1, q2, q3, q4, q5, q6⟩ := commit_eq ec
  have q1 : p = target := q1
  subst q1
  have hnow : ∀ i, i < w.cap → ∀ n, w.node i = some n → n.key ≠ k := by
    intro i hi n hn
    have hm : n ∈ w.nodes := mem_collect.mpr ⟨i, hi, hn⟩
    obtain ⟨j, hj, hnj⟩ := mem_collect.mp (hperm.mem_iff.1 hm)
    exact hno j hj n hnj
  -- the first erasure
  have found : ∀ (u : Table K V) (x : V), Inv isa hash u → u.cap = w.cap → u.node = upd w.node p (some ⟨k, x, hash k⟩) →
      u.findNode isa k (hash k) = .ok p := by
    intro u x hu hc hn
    rcases find_cases hu k with ⟨i, n, hi, hni, hk, hf, _⟩ | ⟨hno', _, _⟩
    · rw [hn] at hni
      simp only [upd_apply] at hni
      split at hni
      · rename_i hip
        rw [hf, hip]
      · exact absurd hk (hnow i (by omega) n hni)
    · refine absurd rfl (hno' p (by omega) ⟨k, x, hash k⟩ ?_)
      rw [hn]
      simp [upd_apply]
  have hf1 := found t1 v hI1 (by rw [q6]) (by rw [q6])
  unfold Table.erase at e2
  rw [hf1] at e2
  have hc1 : t1.cap = w.cap := by rw [q6]
  simp only [bind_ok] at e2
  rw [if_pos (by omega)] at e2
  have hI2 : Inv isa hash t2 := by
    have hs := doErase_spec hI1 (n := ⟨k, v, hash k⟩) (pos := p) (by omega) (by rw [q6]; simp [upd_apply])
    rcases hs with ⟨r, hr, hP, _⟩ | ⟨_, hr⟩
    · rw [e2] at hr
      cases hr
      exact hP
    · rw [e2] at hr
      cases hr
  obtain ⟨d1, d2, d3, d4, d5, d6, d7, d8⟩ := doErase_eq e2
  have ht2 : t2 = { w with
      ctl := upd (upd w.ctl (mirrorIdx isa w.cap p) .deleted) p .deleted
      numEmpty := w.numEmpty - (if w.ctl p = .empty then 1 else 0) } := by
    rw [d7, q6]
    simp only [Table.mk.injEq, true_and, and_true]
    refine ⟨?_, ?_, by omega⟩
    · exact upd_twice _ _ _ _ _
    · funext i
      simp only [upd_apply]
      split
      · rename_i hi
        rw [hi, q3]
      · rfl
  have hmw := hIw.meta_ok (by omega)
  have hav2 := avail_mark hmw q2 q4 hav
  -- the second insertion
  have hf2 : t2.findNode isa k (hash k) = .ok t2.cap := by
    rcases find_cases hI2 k with ⟨i, n, hi, hn, hk, _, _⟩ | ⟨_, hf, _⟩
    · rw [ht2] at hn hi
      exact absurd hk (hnow i hi n hn)
    · exact hf
  have hins : t2.insert isa hash k v' = .ok ({ t1 with node := upd t1.node p (some ⟨k, v', hash k⟩) }, p, true) := by
    have hfa2 : t2.findAvailable isa (hash k) = .ok p := by
      rw [← hfa]
      refine findAvailable_congr (by rw [ht2]) (by rw [ht2]) ?_ _
      intro i
      rw [ht2]
      exact hav2 i
    have hctl : t2.ctl p = .deleted := by rw [ht2]; simp [upd_apply]
    have hcap : t2.cap = w.cap := by rw [ht2]
    have hlen : t2.len = w.len := by rw [ht2]
    have hnode : t2.node p = none := by rw [ht2]; exact q3
    have hprep : t2.prepare isa (hash k) = .ok (t2, p) := by
      unfold Table.prepare
      rw [if_neg (by omega), hfa2]
      simp only [bind_ok, Table.readCtl]
      rw [if_pos (by omega)]
      simp [bind_ok, hctl]
    have hcom : t2.commit isa p ⟨k, v', hash k⟩ = .ok ({ t1 with node := upd t1.node p (some ⟨k, v', hash k⟩) }, p) := by
      unfold Table.commit Table.construct
      rw [if_pos (by omega), hnode]
      simp only [bind_ok, Table.readCtl]
      rw [if_pos (by omega), hctl]
      simp only [bind_ok, Nat.zero_le, if_true, reduceCtorEq, if_false]
      rw [setMetadata_of _ (by simp only [hcap, hlen]; exact q4) (by simp only [hlen]; exact q5)]
      rw [q6, ht2]
      simp only [bind_ok, Except.ok.injEq, Prod.mk.injEq, Table.mk.injEq, true_and, and_true, Nat.sub_zero]
      refine ⟨upd_twice _ _ _ _ _, ?_⟩
      funext i
      simp only [upd_apply]
      split <;> rfl
    unfold Table.insert
    simp only [hf2, bind_ok, if_true, Table.emplaceNode, hprep, hcom]
  refine ⟨hins, ?_⟩
  -- the second erasure
  have hI3 : Inv isa hash ({ t1 with node := upd t1.node p (some ⟨k, v', hash k⟩) } : Table K V) := by
    obtain ⟨a, b, c, e, hI3, _⟩ := insert_spec hI2 k v'
    rw [hins] at e
    cases e
    exact hI3
  have hf3 := found _ v' hI3 hc1 (by
    rw [q6]
    funext i
    simp only [upd_apply]
    split <;> rfl)
  unfold Table.erase
  rw [hf3]
  simp only [bind_ok]
  rw [if_pos (by omega)]
  have hT : ({ t1 with
        node := upd (upd t1.node p (some ⟨k, v', hash k⟩)) p none
        ctl := upd (upd t1.ctl (mirrorIdx isa t1.cap p) .deleted) p .deleted
        size := t1.size - 1 } : Table K V) = t2 := by
    rw [d7]
    simp only [Table.mk.injEq, true_and, and_true]
    funext i
    simp only [upd_apply]
    split <;> rfl
  have := doErase_of (t := { t1 with node := upd t1.node p (some ⟨k, v', hash k⟩) }) (isa := isa) (it := it) d1 d2 d3 (by simp [upd_apply])
    d5 d6 (by rw [← d8]; exact congrArg (fun u : Table K V => u.toIter isa p) hT)
  rw [this]
  exact congrArg (fun u => Except.ok (u, it)) hT

/-- One cycle: insertion of a key, then its erasure. -/
def Table.cycle (isa : Isa) (hash : K → Nat) (k : K) (t : Table K V) (v : V) : M (Table K V) := do
  let r ← t.insert isa hash k v
  let r ← r.1.erase isa hash k
  .ok r.1

/-- C106: any number of cycles of one key has the same result as one cycle. -/
theorem C106_sparse_cycles {isa : Isa} {hash : K → Nat} {t t2 : Table K V} {k : K} {v : V} (h : Reachable isa hash t)
    (habs : t.contains isa hash k = .ok false) (e : t.cycle isa hash k v = .ok t2) (vs : List V) :
    (v :: vs).foldlM (Table.cycle isa hash k) t = .ok t2 := by
  unfold Table.cycle at e
  obtain ⟨⟨t1, p, b⟩, e1, e⟩ := ok_of_bind e
  obtain ⟨⟨t2', it⟩, e2, e⟩ := ok_of_bind e
  simp only [Except.ok.injEq] at e
  rw [e] at e2
  have hb : b = true := by
    rw [contains_spec h.inv] at habs
    obtain ⟨a, q, c, e, _, _, hc⟩ := insert_spec h.inv k v
    rw [e1] at e
    cases e
    rcases hc with ⟨hb, _⟩ | ⟨w, _, hl, _⟩
    · exact hb
    · rw [hl] at habs
      cases habs
  subst hb
  have step : ∀ v', t2.cycle isa hash k v' = .ok t2 := by
    intro v'
    obtain ⟨c1, c2⟩ := C106_sparse h e1 e2 v'
    simp only [Table.cycle, c1, c2, bind_ok]
  rw [List.foldlM_cons]
  simp only [Table.cycle, e1, e2, bind_ok]
  induction vs with
  | nil => rfl
  | cons x xs ih =>
    rw [List.foldlM_cons, step x]
    exact ih

/-- Three elements in three buckets of 16-byte blocks: the fourth insertion makes it seven buckets, the following ones keep them; the log
(one growth, three relocations) does not grow any more. -/
example : (do
    let t ← [1, 2, 3].foldlM (fun (t : Table Nat Nat) k => do let r ← t.insert .sse2 (fun k => k * 77) k k; .ok r.1) Table.init
    let a ← t.cycle .sse2 (fun k => k * 77) 9 0
    let b ← (List.range 40).foldlM (Table.cycle .sse2 (fun k => k * 77) 9) t
    .ok [[t.cap, t.numEmpty, t.size, t.log.length], [a.cap, a.numEmpty, a.size, a.log.length], [b.cap, b.numEmpty, b.size, b.log.length]] :
      M (List (List Nat))) = .ok [[3, 0, 3, 3], [7, 3, 3, 7], [7, 3, 3, 7]] := by decide +kernel

end Tpp.Swiss

namespace Tpp.Dense

variable {k : Nat} {K V : Type} [DecidableEq K]

/-- C106 for dense containers with room for an element: inserting any new element and erasing it (by any component of its key) restores the
very same state: array, buckets and all chains. -/
theorem C106_dense_identity {hash : K → Nat} {t t1 : Table k K V} (h : Reachable hash t) (hcap : t.size < t.cap) (hb : 0 < t.bc)
    (hfull : t.lf.full t.size t.bc = false) {key : Fin k → K} {v : V} {p : Nat} (e : t.insert hash key v = .ok (t1, p, true)) (j : Fin k) :
    t1.erase hash j (key j) = .ok (t, p, true) := by
  obtain ⟨l, hI⟩ := h.inv
  obtain ⟨a, b, q1, q2, _, _, _, _, q⟩ := erase_inserted hI e
  unfold Table.maybeResize at q1
  rw [if_neg (by omega)] at q1
  cases q1
  unfold Table.maybeRehash at q2
  rw [if_neg (by omega), hfull] at q2
  cases q2
  exact q j

/-- One cycle: insertion of an element, then its erasure by component `j` of its key. -/
def Table.cycle (hash : K → Nat) (j : Fin k) (key : Fin k → K) (t : Table k K V) (v : V) : M (Table k K V) := do
  let r ← t.insert hash key v
  let r ← r.1.erase hash j (key j)
  .ok r.1

/-- The first cycle makes room as the insertion would, and keeps the elements. -/
theorem cycle_room {hash : K → Nat} {t t2 : Table k K V} {l : List (Elem k K V)} (h : Inv hash t l) {j : Fin k} {key : Fin k → K} {v : V}
    (hc : conflict l key = none) (e : t.cycle hash j key v = .ok t2) :
    ∃ t1, t.maybeResize = .ok t1 ∧ t1.maybeRehash = .ok t2 ∧ Inv hash t2 l ∧ t2.size < t2.cap ∧ 0 < t2.bc := by
  obtain ⟨r, er, hr⟩ := insert_ok h key v
  obtain ⟨t3, p, b⟩ := r
  have := (hr.fresh hc).1
  cases this
  obtain ⟨a, b, q1, q2, q3, _, q4, q5, q⟩ := erase_inserted h er
  unfold Table.cycle at e
  simp only [er, q j, bind_ok] at e
  cases e
  exact ⟨a, q1, q2, q3, q4, q5⟩

theorem cycle_fix {hash : K → Nat} {t : Table k K V} {l : List (Elem k K V)} (h : Inv hash t l) {j : Fin k} {key : Fin k → K}
    (hc : conflict l key = none) (hcap : t.size < t.cap) (hb : 0 < t.bc) (hfull : t.lf.full t.size t.bc = false) (v : V) :
    t.cycle hash j key v = .ok t := by
  obtain ⟨r, er, hr⟩ := insert_ok h key v
  obtain ⟨t3, p, b⟩ := r
  have := (hr.fresh hc).1
  cases this
  obtain ⟨a, b, q1, q2, _, _, _, _, q⟩ := erase_inserted h er
  unfold Table.maybeResize at q1
  rw [if_neg (by omega)] at q1
  cases q1
  unfold Table.maybeRehash at q2
  rw [if_neg (by omega), hfull] at q2
  cases q2
  simp only [Table.cycle, er, q j, bind_ok]

theorem cycles_fix {hash : K → Nat} {t : Table k K V} {l : List (Elem k K V)} (h : Inv hash t l) {j : Fin k} {key : Fin k → K}
    (hc : conflict l key = none) (hcap : t.size < t.cap) (hb : 0 < t.bc) (hfull : t.lf.full t.size t.bc = false) (vs : List V) :
    vs.foldlM (Table.cycle hash j key) t = .ok t := by
  induction vs with
  | nil => rfl
  | cons v vs ih => rw [List.foldlM_cons, cycle_fix h hc hcap hb hfull v, bind_ok, ih]

theorem conflict_eq_none {l : List (Elem k K V)} {key : Fin k → K} (h : ∀ e ∈ l, ∀ i, e.1 i ≠ key i) : conflict l key = none := by
  unfold conflict
  rw [List.findSome?_eq_none_iff]
  intro j _
  exact idxOf_none (fun e he => h e he j)

/-- After an insertion made room the load is below the maximum, or there are at least as many buckets as `rehash` computes from the
size. -/
theorem maybeRehash_first {hash : K → Nat} {t t' : Table k K V} {l : List (Elem k K V)} (h : Inv hash t l) {p q : Nat} (hp : 0 < p)
    (hlf : t.lf = LF.ratio p q) (e : t.maybeRehash = .ok t') :
    t'.lf.full t'.size t'.bc = false ∨ t'.size * q / p ≤ t'.bc := by
  obtain ⟨u, eu, hu, hc, hl, hb, hb0⟩ := maybeRehash_ok h
  rw [e] at eu
  cases eu
  have hs : t'.size = t.size := by rw [hu.size, h.size]
  unfold Table.maybeRehash at e
  split at e
  · rename_i hz
    left
    rw [hl, hlf, hs, h.size, h.empty hz]
    simp only [LF.ratio, List.length_nil, Nat.zero_mul, decide_eq_false_iff_not, Nat.not_le]
    exact Nat.mul_pos hp hb0
  · split at e
    · right
      unfold Table.rehash at e
      rw [if_neg (by omega)] at e
      simp only at e
      have hd : t.lf.div t.size = t'.size * q / p := by rw [hlf, hs]; rfl
      rw [hd] at e
      split at e
      · obtain ⟨u, eu, _, _, _, _, hbc, _⟩ := doRehash_ok h.toArr (c := max (t'.size * q / p) (t.bc * 2)) (by omega)
        rw [e] at eu
        cases eu
        rw [hbc]
        split <;> omega
      · cases e
        omega
    · rename_i hf
      cases e
      left
      simpa using hf

/-- With at least as many buckets as `rehash` computes from the size one doubling is enough. -/
theorem maybeRehash_second {hash : K → Nat} {t t' : Table k K V} {l : List (Elem k K V)} (h : Inv hash t l) {p q : Nat} (hp : 0 < p)
    (hlf : t.lf = LF.ratio p q) (h0 : 0 < t.bc) (hd : t.size * q / p ≤ t.bc) (e : t.maybeRehash = .ok t') :
    t'.lf.full t'.size t'.bc = false := by
  obtain ⟨u, eu, hu, hc, hl, hb, hb0⟩ := maybeRehash_ok h
  rw [e] at eu
  cases eu
  have hs : t'.size = t.size := by rw [hu.size, h.size]
  unfold Table.maybeRehash at e
  rw [if_neg (by omega)] at e
  split at e
  · obtain ⟨u, eu, _, _, _, _, hn⟩ := rehash_ok h (t.bc * 2)
    rw [e] at eu
    cases eu
    rw [hl, hlf, hs]
    simp only [LF.ratio, decide_eq_false_iff_not, Nat.not_le]
    have h1 : t.size * q < p * (t.size * q / p + 1) := Nat.lt_mul_div_succ _ hp
    have h2 : p * (t.size * q / p + 1) ≤ p * t'.bc := Nat.mul_le_mul_left _ (by omega)
    omega
  · rename_i hf
    cases e
    simpa using hf

/-- C106: if the load after the first cycle is below the maximum, any number of cycles of one key has the same result as one cycle. -/
theorem C106_dense_cycles_partial {hash : K → Nat} {t t2 : Table k K V} (h : Reachable hash t) {l : List (Elem k K V)}
    (hl : t.iterate = .ok l) {j : Fin k} {key : Fin k → K} {v : V} (hnew : ∀ e ∈ l, ∀ i, e.1 i ≠ key i)
    (e : t.cycle hash j key v = .ok t2) (hfull : t2.lf.full t2.size t2.bc = false) (vs : List V) :
    (v :: vs).foldlM (Table.cycle hash j key) t = .ok t2 := by
  have hI := h.of_iterate hl
  have hc : conflict l key = none := conflict_eq_none hnew
  obtain ⟨t1, q1, q2, q3, q4, q5⟩ := cycle_room hI hc e
  rw [List.foldlM_cons, e, bind_ok]
  exact cycles_fix q3 hc q4 q5 hfull vs

/-- C106 with the maximal load factor `p / q`, whatever the load is: any number of cycles of one key has the same result as two
cycles. -/
theorem C106_dense_two {hash : K → Nat} {t t2 t3 : Table k K V} (h : Reachable hash t) {l : List (Elem k K V)}
    (hl : t.iterate = .ok l) {j : Fin k} {key : Fin k → K} {v v' : V} (hnew : ∀ e ∈ l, ∀ i, e.1 i ≠ key i)
    {p q : Nat} (hp : 0 < p) (hlf : t.lf = LF.ratio p q)
    (e : t.cycle hash j key v = .ok t2) (e' : t2.cycle hash j key v' = .ok t3) (vs : List V) :
    (v :: v' :: vs).foldlM (Table.cycle hash j key) t = .ok t3 := by
  have hI := h.of_iterate hl
  have hc : conflict l key = none := conflict_eq_none hnew
  obtain ⟨t1, a1, a2, a3, a4, a5⟩ := cycle_room hI hc e
  obtain ⟨t1', b1, b2, b3, b4, b5⟩ := cycle_room a3 hc e'
  rw [List.foldlM_cons, e, bind_ok, List.foldlM_cons, e', bind_ok]
  refine cycles_fix b3 hc b4 b5 ?_ vs
  obtain ⟨s1, x1, y1, z1, w1, _⟩ := maybeResize_ok hI
  rw [a1] at x1
  cases x1
  obtain ⟨s2, x2, y2, z2, w2, _⟩ := maybeRehash_ok y1
  rw [a2] at x2
  cases x2
  unfold Table.maybeResize at b1
  rw [if_neg (by omega)] at b1
  cases b1
  rcases maybeRehash_first y1 hp (w1.trans hlf) a2 with hf | hf
  · unfold Table.maybeRehash at b2
    rw [if_neg (by omega), hf] at b2
    cases b2
    exact hf
  · exact maybeRehash_second a3 hp (w2.trans (w1.trans hlf)) a5 hf b2

/-- C106 for dense containers is false: if the maximal load factor is (set to) `1 / q` and twice the buckets would not do, the first two
cycles both rehash. -/
theorem C106_dense_false {hash : K → Nat} {t : Table k K V} (h : Reachable hash t) {l : List (Elem k K V)}
    (hl : t.iterate = .ok l) (j : Fin k) {key : Fin k → K} (v v' : V) (hnew : ∀ e ∈ l, ∀ i, e.1 i ≠ key i)
    {q : Nat} (hlf : t.lf = LF.ratio 1 q) (hb : 0 < t.bc) (hq : 2 * t.bc ≤ t.size * q) :
    ∃ t2 t3, t.cycle hash j key v = .ok t2 ∧ t2.cycle hash j key v' = .ok t3 ∧ t2.bc = t.size * q ∧ t3.bc = 2 * t2.bc := by
  have hI := h.of_iterate hl
  have hc : conflict l key = none := conflict_eq_none hnew
  have run : ∀ (u : Table k K V) (x : V), Inv hash u l → ∃ w, u.cycle hash j key x = .ok w := by
    intro u x hu
    obtain ⟨⟨t3, p, b⟩, er, hr⟩ := insert_ok hu key x
    cases (hr.fresh hc).1
    obtain ⟨a, b, _, _, _, _, _, _, q⟩ := erase_inserted hu er
    exact ⟨b, by simp only [Table.cycle, er, q j, bind_ok]⟩
  have rehashed : ∀ (u w : Table k K V), Inv hash u l → u.lf = LF.ratio 1 q → 0 < u.bc → u.bc ≤ u.size * q → u.maybeRehash = .ok w →
      w.bc = max (u.size * q) (u.bc * 2) := by
    intro u w hu hf h0 hle e
    unfold Table.maybeRehash at e
    rw [if_neg (by omega), hf] at e
    simp only [LF.ratio, Nat.one_mul, decide_eq_true hle, if_true] at e
    unfold Table.rehash at e
    rw [if_neg (by omega), hf] at e
    simp only [LF.ratio, Nat.div_one] at e
    rw [if_pos (by omega)] at e
    obtain ⟨x, ex, _, _, _, _, hbc, _⟩ := doRehash_ok hu.toArr (c := max (u.size * q) (u.bc * 2)) (by omega)
    rw [e] at ex
    cases ex
    rw [hbc, if_pos (by omega)]
  obtain ⟨t2, e⟩ := run t v hI
  obtain ⟨t1, a1, a2, a3, a4, a5⟩ := cycle_room hI hc e
  obtain ⟨t3, e'⟩ := run t2 v' a3
  obtain ⟨t1', b1, b2, b3, b4, b5⟩ := cycle_room a3 hc e'
  obtain ⟨s1, x1, y1, z1, w1, w2, _⟩ := maybeResize_ok hI
  rw [a1] at x1
  cases x1
  obtain ⟨s2, x2, y2, z2, w3, _⟩ := maybeRehash_ok y1
  rw [a2] at x2
  cases x2
  unfold Table.maybeResize at b1
  rw [if_neg (by omega)] at b1
  cases b1
  have hs1 : t1.size = t.size := by rw [y1.size, hI.size]
  have hs2 : t2.size = t.size := by rw [a3.size, hI.size]
  have r1 := rehashed t1 t2 y1 (w1.trans hlf) (by omega) (by rw [hs1]; omega) a2
  rw [hs1, w2] at r1
  have r2 := rehashed t2 t3 a3 (w3.trans (w1.trans hlf)) a5 (by rw [hs2]; omega) b2
  rw [hs2] at r2
  exact ⟨t2, t3, e, e', by omega, by omega⟩

/-- Seven elements in eight buckets; after `max_load_factor(1 / 4)` the first insertion makes it 28 buckets, the second one 56, and there it
stays. -/
example : (do
    let t ← (List.range 7).foldlM (fun (t : Table 1 Nat Nat) k => do let r ← t.insert id (fun _ => k) k; .ok r.1) (Table.init (LF.ratio 7 8))
    let t := t.setLoad (LF.ratio 1 4)
    let a ← t.cycle id 0 (fun _ => 100) 0
    let b ← a.cycle id 0 (fun _ => 100) 0
    let c ← (List.range 5).foldlM (Table.cycle id 0 (fun _ => 100)) b
    .ok [[t.bc, t.cap, t.size], [a.bc, a.cap, a.size], [b.bc, b.cap, b.size], [c.bc, c.cap, c.size]] : M (List (List Nat))) =
    .ok [[8, 8, 7], [28, 8, 7], [56, 8, 7], [56, 8, 7]] := by decide +kernel

end Tpp.Dense
