import Verif.Swiss.Alias
import Verif.Dense.Alias
import Verif.Props.SwissA
import Verif.Props.Dense

/-!
# C65, C66: arguments that refer to an element of the container; a mapped value whose replacement fails
-/

set_option linter.unusedSectionVars false

namespace Tpp.Swiss

variable {K V W : Type} [DecidableEq K]

/-! ## C65, sparse containers -/

/-- C65 for `emplace` of sparse and stable containers: passing a reference to the mapped value of an element is passing its
value. -/
theorem C65_swiss_emplace {isa : Isa} {hash : K → Nat} {t : Table K V} {j : Nat} {n : Node K V}
    (hj : t.readNode j = .ok n) (k : K) : t.emplaceRef isa hash k j = t.insert isa hash k n.val := by
  unfold Table.emplaceRef
  rw [hj, bind_ok]

/-- C65 for `try_emplace` of sparse containers when the key is present or no room has to be made. -/
theorem C65_sparse_try_emplace_partial {isa : Isa} {hash : K → Nat} {t : Table K V} (h : Reachable isa hash t) {j : Nat}
    {n : Node K V} (hj : t.readNode j = .ok n) {k : K}
    (hr : t.contains isa hash k = .ok true ∨ HasRoom isa t (hash k)) :
    t.tryEmplaceRef isa hash k j = t.insert isa hash k n.val := by
  unfold Table.tryEmplaceRef Table.insert
  rcases find_cases h.inv k with ⟨i, m, hi, hm, hk, hf, hl⟩ | ⟨hno, hf, hl⟩
  · simp only [hf, bind_ok, show ¬ i = t.cap by omega, if_false]
  · simp only [hf, bind_ok, if_true]
    rcases hr with hr | hr
    · rw [contains_spec h.inv, hl] at hr; cases hr
    · rw [emplaceNodeRef_room h.inv hj hr]

/-- C65 is false for `try_emplace` of sparse containers: whenever the insertion has to grow the table, the argument is read from
the freed buffer. -/
theorem C65_sparse_try_emplace_false {isa : Isa} {hash : K → Nat} {t : Table K V} (h : Reachable isa hash t) (j : Nat) {k : K}
    (hk : t.contains isa hash k = .ok false) (hg : MustGrow isa t (hash k)) :
    t.tryEmplaceRef isa hash k j = .error .dangling := by
  unfold Table.tryEmplaceRef
  rcases find_cases h.inv k with ⟨i, m, hi, hm, hk', hf, hl⟩ | ⟨hno, hf, hl⟩
  · rw [contains_spec h.inv, hl] at hk; cases hk
  · rw [hf]
    simp only [bind_ok]
    rw [if_pos trivial, emplaceNodeRef_grow h.inv hg]
    rfl

/-- C65 for `insert_or_assign` of sparse containers when no room has to be made and the argument is not the value being
replaced. -/
theorem C65_sparse_insert_or_assign_partial {isa : Isa} {hash : K → Nat} {t : Table K V} (h : Reachable isa hash t) {j : Nat}
    {n : Node K V} (hj : t.readNode j = .ok n) {k : K} (hne : n.key ≠ k)
    (hr : t.contains isa hash k = .ok true ∨ HasRoom isa t (hash k)) :
    t.insertOrAssignRef isa hash k j = t.insertOrAssign isa hash k n.val := by
  unfold Table.insertOrAssignRef Table.insertOrAssign Table.insertOrAssignWith
  rcases find_cases h.inv k with ⟨i, m, hi, hm, hk, hf, hl⟩ | ⟨hno, hf, hl⟩
  · simp only [hf, bind_ok, show ¬ i = t.cap by omega, if_false]
    unfold Table.replaceRef
    have hij : i ≠ j := by
      rintro rfl
      rw [readNode_some hi hm] at hj
      cases hj
      exact hne hk
    rw [if_neg hij, hj]
    simp only [bind_ok, readNode_some hi hm]
  · simp only [hf, bind_ok, if_true]
    rcases hr with hr | hr
    · rw [contains_spec h.inv, hl] at hr; cases hr
    · rw [emplaceNodeRef_room h.inv hj hr]

/-- C65 is false for `insert_or_assign` of sparse containers: replacing a mapped value by (a reference to) itself reads it after
its destruction. -/
theorem C65_sparse_assign_self_false {isa : Isa} {hash : K → Nat} {t : Table K V} (h : Reachable isa hash t) {j : Nat}
    {n : Node K V} (hj : t.readNode j = .ok n) : t.insertOrAssignRef isa hash n.key j = .error .deadRead := by
  unfold Table.insertOrAssignRef
  rcases find_cases h.inv n.key with ⟨i, m, hi, hm, hk, hf, hl⟩ | ⟨hno, hf, hl⟩
  · rw [hf]
    simp only [bind_ok]
    rw [if_neg (by omega)]
    have hij : i = j := by
      unfold Table.readNode at hj
      split at hj
      · rename_i hlt
        cases hn : t.node j with
        | none => rw [hn] at hj; cases hj
        | some x => rw [hn] at hj; cases hj; exact h.inv.uniq i hi j hlt m n hm hn hk
      · cases hj
    unfold Table.replaceRef
    rw [if_pos hij]
    rfl
  · exfalso
    unfold Table.readNode at hj
    split at hj
    · rename_i hlt
      cases hn : t.node j with
      | none => rw [hn] at hj; cases hj
      | some x => rw [hn] at hj; cases hj; exact hno j hlt n hn rfl
    · cases hj

/-- C65 is false for `insert_or_assign` of an absent key when the table grows. -/
theorem C65_sparse_insert_or_assign_false {isa : Isa} {hash : K → Nat} {t : Table K V} (h : Reachable isa hash t) (j : Nat)
    {k : K} (hk : t.contains isa hash k = .ok false) (hg : MustGrow isa t (hash k)) :
    t.insertOrAssignRef isa hash k j = .error .dangling := by
  unfold Table.insertOrAssignRef
  rcases find_cases h.inv k with ⟨i, m, hi, hm, hk', hf, hl⟩ | ⟨hno, hf, hl⟩
  · rw [contains_spec h.inv, hl] at hk; cases hk
  · rw [hf]
    simp only [bind_ok]
    rw [if_pos trivial, emplaceNodeRef_grow h.inv hg]
    rfl

/-- A hash function that sends the keys to four start positions. -/
def hFour : Nat → Nat := fun n =>
  1024 * [2, 3, 0, 2, 3, 0, 1, 2, 3, 1, 2, 3, 0, 1, 2, 0, 1, 2, 3, 0, 2, 3, 0, 1, 2, 3, 1, 2, 3, 0].getD n 0

/-- 31 buckets without a free slot; erased slots can be reclaimed. -/
def reclaimable : Table Nat Nat :=
  after .sse2 hFour (((List.range 28).map fun i => Op.insert i i) ++ ([6, 11, 16, 21, 26, 3].map fun i => Op.erase i))

set_option maxRecDepth 100000 in
/-- C65 is false also when the insertion reclaims erased slots in place: the reference to the value 0 of the element in slot 16
yields the value 27 of another element (which has been moved there), and the reference to that element's value reads a dead
slot. -/
theorem C65_sparse_reclaim_false :
    Reachable .sse2 hFour reclaimable ∧ reclaimable.lookup .sse2 hFour 0 = .ok (some 0) ∧
    (reclaimable.readNode 16).map (fun n => (n.key, n.val)) = .ok (0, 0) ∧
    (reclaimable.tryEmplaceRef .sse2 hFour 29 16 >>= fun r => r.1.lookup .sse2 hFour 29) = .ok (some 27) ∧
    (reclaimable.readNode 6).map (fun n => (n.key, n.val)) = .ok (27, 27) ∧
    (reclaimable.tryEmplaceRef .sse2 hFour 29 6).map (fun r => r.2) = .error .deadRead := by
  refine ⟨after_reachable _ _ _, ?_, ?_, ?_, ?_, ?_⟩ <;> decide +kernel

/-- Three elements in three buckets: the next insertion grows. -/
def fullThree : Table Nat Nat := after .sse2 h64 [.insert 1 10, .insert 2 20, .insert 3 30]

example : fullThree.cap = 3 ∧ fullThree.contains .sse2 h64 9 = .ok false ∧
    (fullThree.tryEmplaceRef .sse2 h64 9 0).map (fun r => r.2) = .error .dangling ∧
    (fullThree.tryEmplaceRef .sse2 h64 2 0).map (fun r => r.2.2) = .ok false := by decide

/-- The hypothesis of `C65_sparse_try_emplace_false` holds of it. -/
example : MustGrow .sse2 fullThree (h64 9) := by
  refine ⟨?_, Or.inl (by decide)⟩
  rintro ⟨_, hr | ⟨p, hp, hd⟩⟩
  · exact absurd hr (by decide)
  · have h1 : fullThree.findAvailable .sse2 (h64 9) = .ok 3 := by decide
    rw [h1] at hp
    cases hp
    exact absurd hd (by decide)

example : HasRoom .sse2 demo (h64 9) := ⟨by decide, Or.inl (by decide)⟩

example : (demo.tryEmplaceRef .sse2 h64 9 0 >>= fun r => r.1.lookup .sse2 h64 9) =
    (demo.readNode 0).map (fun n => some n.val) := by decide

/-! ## C65, stable containers -/

/-- C65 for `try_emplace` of stable containers: the elements do not move, so the argument is always the value it referred to. -/
theorem C65_stable_try_emplace {isa : Isa} {hash : K → Nat} {t : Table K (Nat × W)} (h : Reachable isa hash t)
    (hd : (t.contents.map fun x => x.2.1).Nodup) {k' : K} {a : Nat} {w : W}
    (ha : t.lookup isa hash k' = .ok (some (a, w))) (k : K) (a' : Nat) :
    t.tryEmplaceAddr isa hash k a' a = t.insert isa hash k (a', w) :=
  tryEmplaceAddr_eq h.inv hd ha k a'

/-- C65 for `insert_or_assign` of stable containers, if the argument is not the value being replaced. -/
theorem C65_stable_insert_or_assign_partial {isa : Isa} {hash : K → Nat} {t : Table K (Nat × W)} (h : Reachable isa hash t)
    (hd : (t.contents.map fun x => x.2.1).Nodup) {k' : K} {a : Nat} {w : W}
    (ha : t.lookup isa hash k' = .ok (some (a, w))) {k : K} (hne : k' ≠ k) (a' : Nat) :
    t.insertOrAssignAddr isa hash k a' a = t.insertOrAssignWith isa hash k (a', w) (fun old => (old.1, w)) :=
  insertOrAssignAddr_eq h.inv hd ha hne a'

/-- C65 is false for `insert_or_assign` of stable containers as well: replacing a mapped value by itself. -/
theorem C65_stable_assign_self_false {isa : Isa} {hash : K → Nat} {t : Table K (Nat × W)} (h : Reachable isa hash t) {k : K}
    {a : Nat} {w : W} (ha : t.lookup isa hash k = .ok (some (a, w))) (a' : Nat) :
    t.insertOrAssignAddr isa hash k a' a = .error .deadRead := by
  unfold Table.insertOrAssignAddr
  rw [lookup_spec h.inv] at ha
  have ha := Except.ok.inj ha
  rcases find_cases h.inv k with ⟨i, m, hi, hm, hk, hf, hl⟩ | ⟨hno, hf, hl⟩
  · rw [hl] at ha
    rw [hf]
    simp only [bind_ok]
    rw [if_neg (by omega), readNode_some hi hm]
    simp only [bind_ok]
    rw [if_pos (by have := Option.some.inj ha; rw [this])]
  · rw [hl] at ha; cases ha

/-- Three elements at the addresses 100, 101, 102; the next insertion grows. -/
def stableThree : Table Nat (Nat × Nat) :=
  after .sse2 h64 [.insert 1 (100, 10), .insert 2 (101, 20), .insert 3 (102, 30)]

example : (stableThree.contents.map fun x => x.2.1).Nodup ∧ stableThree.lookup .sse2 h64 2 = .ok (some (101, 20)) ∧
    (stableThree.tryEmplaceAddr .sse2 h64 9 103 101 >>= fun r => r.1.lookup .sse2 h64 9) = .ok (some (103, 20)) ∧
    (stableThree.insertOrAssignAddr .sse2 h64 1 103 101 >>= fun r => r.1.lookup .sse2 h64 1) = .ok (some (100, 20)) ∧
    (stableThree.insertOrAssignAddr .sse2 h64 2 103 101).map (fun r => r.2) = .error .deadRead := by decide

/-! ## C66 -/

/-- C66 is false: if constructing the new mapped value throws, `insert_or_assign` of a present key leaves an element whose mapped
value has been destroyed: reading it is an access to a dead object. -/
theorem C66_swiss_false {isa : Isa} {hash : K → Nat} {t : Table K (Option W)} (h : Reachable isa hash t) {k : K}
    (hk : t.contains isa hash k = .ok true) :
    ∃ t', t.assignThrow isa hash k = .ok (t', false) ∧ t'.contains isa hash k = .ok true ∧
      t'.readMapped isa hash k = .error .deadRead := by
  rcases find_cases h.inv k with ⟨i, m, hi, hm, hk', hf, hl⟩ | ⟨hno, hf, hl⟩
  · refine ⟨{ t with node := upd t.node i (some { m with val := none }) }, ?_, ?_⟩
    · unfold Table.assignThrow
      rw [hf]
      simp only [bind_ok]
      rw [if_neg (by omega), readNode_some hi hm]
      simp only [bind_ok]
    · have hI := setVal_inv h.inv hi hm none
      have hl' : Spec.lookup ({ t with node := upd t.node i (some { m with val := none }) } : Table K (Option W)).contents k =
          some none := by
        rw [Spec.lookup_some hI.contents_uniq, mem_contents]
        exact ⟨i, _, hi, upd_same _ _ _, hk', rfl⟩
      refine ⟨by rw [contains_spec hI, hl']; rfl, ?_⟩
      unfold Table.readMapped
      rw [lookup_spec hI, hl']
      rfl
  · rw [contains_spec h.inv, hl] at hk; cases hk

/-- C66, what holds: for an absent key the container is unchanged, and for a present one all other elements are. -/
theorem C66_swiss_partial {isa : Isa} {hash : K → Nat} {t : Table K (Option W)} (h : Reachable isa hash t)
    {m : List (K × Option W)} (hb : Behaves isa hash t m) (k : K) :
    (Spec.lookup m k = none → ∃ t', t.assignThrow isa hash k = .ok (t', true) ∧ Behaves isa hash t' m) ∧
    (∀ w, Spec.lookup m k = some w →
      ∃ t', t.assignThrow isa hash k = .ok (t', false) ∧ Behaves isa hash t' ((k, none) :: Spec.erase m k)) := by
  have hm := hb.contents_perm h.inv
  have hll := Spec.lookup_perm hm h.inv.contents_uniq k
  constructor
  · intro hn
    rcases find_cases h.inv k with ⟨i, n, hi, hn', hk', hf, hl⟩ | ⟨hno, hf, hl⟩
    · rw [← hll, hl] at hn; cases hn
    · obtain ⟨t1, target, p1, p2, p3, _⟩ := prepare_spec h.inv (hash k)
      refine ⟨t1, ?_, p2.behaves ((contents_perm p3).trans hm)⟩
      unfold Table.assignThrow
      rw [hf]
      simp only [bind_ok]
      rw [if_pos trivial, p1]
      simp only [bind_ok]
  · intro w hw
    obtain ⟨t', p, b, h1, h2, _, h3⟩ := insertOrAssignWith_spec h.inv k none (fun _ => none)
    rcases h3 with ⟨_, h4, _⟩ | ⟨w', hb', h4, h5, _⟩
    · rw [hll, hw] at h4; cases h4
    · refine ⟨t', ?_, h2.behaves (h5.trans ((Spec.erase_perm hm k).cons _))⟩
      unfold Table.insertOrAssignWith at h1
      unfold Table.assignThrow
      rcases find_cases h.inv k with ⟨i, n, hi, hn, hk', hf, hl⟩ | ⟨hno, hf, hl⟩
      · simp only [hf, bind_ok, show ¬ i = t.cap by omega, if_false, readNode_some hi hn] at h1 ⊢
        cases h1
        rfl
      · rw [hl] at h4; cases h4

/-- A map whose mapped values are all alive. -/
def liveMap : Table Nat (Option Nat) := after .sse2 h64 [.insert 1 (some 10), .insert 2 (some 20), .insert 3 (some 30)]

example : (liveMap.assignThrow .sse2 h64 2 >>= fun r => r.1.readMapped .sse2 h64 2) = .error .deadRead ∧
    (liveMap.assignThrow .sse2 h64 2 >>= fun r => r.1.readMapped .sse2 h64 3) = .ok (some 30) ∧
    (liveMap.assignThrow .sse2 h64 7 >>= fun r => r.1.readMapped .sse2 h64 2) = .ok (some 20) := by decide

end Tpp.Swiss

namespace Tpp.Dense

variable {k : Nat} {K V W : Type} [DecidableEq K]

/-! ## C65, dense containers -/

/-- C65 for `try_emplace` of dense containers with room in the array. -/
theorem C65_dense_try_emplace_partial {hash : K → Nat} {t : Table k K V} (h : Reachable hash t) {l : List (Elem k K V)}
    (hl : t.iterate = .ok l) (hr : t.cap ≠ t.size) {i : Nat} {e : Elem k K V} (he : l[i]? = some e) (key : Fin k → K) :
    t.tryEmplaceRef hash key i = t.insert hash key e.2 :=
  tryEmplaceRef_room (h.of_iterate hl) hr key he

/-- C65 for `emplace` of dense containers with room in the array. -/
theorem C65_dense_emplace_partial {hash : K → Nat} {t : Table k K V} (h : Reachable hash t) {l : List (Elem k K V)}
    (hl : t.iterate = .ok l) (hr : t.cap ≠ t.size) {i : Nat} {e : Elem k K V} (he : l[i]? = some e) (key : Fin k → K) :
    t.emplaceRef hash key i = t.emplace hash key e.2 :=
  emplaceRef_room (h.of_iterate hl) hr key he

/-- C65 for `insert_or_assign` of dense containers with room in the array, if the argument is not the value being replaced. -/
theorem C65_dense_insert_or_assign_partial {hash : K → Nat} {t : Table 1 K V} (h : Reachable hash t) {l : List (Elem 1 K V)}
    (hl : t.iterate = .ok l) (hr : t.cap ≠ t.size) {i : Nat} {e : Elem 1 K V} (he : l[i]? = some e) {x : K} (hx : e.1 0 ≠ x) :
    t.insertOrAssignRef hash x i = t.insertOrAssign hash x e.2 :=
  (insertOrAssignRef_cases (h.of_iterate hl) x he).2.2 hr hx

/-- C65 is false for dense containers: with a full array, `emplace` of any element, `try_emplace` of an absent key and
`insert_or_assign` of any key read the argument from the freed array. -/
theorem C65_dense_false {hash : K → Nat} {t : Table 1 K V} (h : Reachable hash t) {l : List (Elem 1 K V)}
    (hl : t.iterate = .ok l) (hf : t.cap = t.size) {i : Nat} (hi : i < l.length) (x : K) :
    t.emplaceRef hash (fun _ => x) i = .error .dangling ∧
    t.insertOrAssignRef hash x i = .error .dangling ∧
    ((∀ e ∈ l, e.1 0 ≠ x) → t.tryEmplaceRef hash (fun _ => x) i = .error .dangling) := by
  have hin := h.of_iterate hl
  refine ⟨emplaceRef_full hin hf _ i, ?_, ?_⟩
  · exact (insertOrAssignRef_cases hin x (List.getElem?_eq_getElem hi)).1 hf
  · intro hx
    refine (tryEmplaceRef_full hin hf _ i (l[i]).2).1 ?_
    unfold conflict
    rw [List.findSome?_eq_none_iff]
    intro j _
    rw [Subsingleton.elim j 0]
    unfold idxOf
    rw [List.findIdx?_eq_none_iff]
    intro e he
    simpa using hx e he

/-- C65 is false for dense containers: replacing a mapped value by itself. -/
theorem C65_dense_assign_self_false {hash : K → Nat} {t : Table 1 K V} (h : Reachable hash t) {l : List (Elem 1 K V)}
    (hl : t.iterate = .ok l) (hr : t.cap ≠ t.size) {i : Nat} {e : Elem 1 K V} (he : l[i]? = some e) :
    t.insertOrAssignRef hash (e.1 0) i = .error .deadRead :=
  (insertOrAssignRef_cases (h.of_iterate hl) (e.1 0) he).2.1 hr rfl

/-- Two elements in an array of size two. -/
def fullTwo : Table 1 Nat Nat := after h3 LF.initial [.insert (fun _ => 1) 10, .insert (fun _ => 2) 20]

example : fullTwo.cap = fullTwo.size ∧ (fullTwo.tryEmplaceRef h3 (fun _ => 9) 0).map (fun r => r.2) = .error .dangling ∧
    (fullTwo.tryEmplaceRef h3 (fun _ => 2) 0).map (fun r => r.2.2) = .ok false ∧
    (fullTwo.insertOrAssignRef h3 2 0).map (fun r => r.2) = .error .dangling := ⟨rfl, rfl, rfl, rfl⟩

/-- Five elements in an array of size eight. -/
def roomy : Table 1 Nat Nat := after h3 LF.initial (demoOps ++ [.insert (fun _ => 9) 90])

example : roomy.cap = 8 ∧ roomy.size = 5 ∧
    (roomy.tryEmplaceRef h3 (fun _ => 11) 0 >>= fun r => r.1.lookup h3 0 11) = .ok (some (el 11 30)) ∧
    (roomy.insertOrAssignRef h3 2 0 >>= fun r => r.1.lookup h3 0 2) = .ok (some (el 2 30)) ∧
    (roomy.insertOrAssignRef h3 3 0).map (fun r => r.2) = .error .deadRead := ⟨rfl, rfl, rfl, rfl, rfl⟩

/-! ## C66, dense containers -/

/-- C66 is false for dense containers: the mapped value of a present key is dead after its construction threw. -/
theorem C66_dense_false {hash : K → Nat} {t : Table 1 K (Option W)} (h : Reachable hash t) {l : List (Elem 1 K (Option W))}
    (hl : t.iterate = .ok l) {e : Elem 1 K (Option W)} (he : e ∈ l) :
    ∃ t', t.assignThrow hash (e.1 0) = .ok (t', false) ∧ t'.readMapped hash (e.1 0) = .error .deadRead := by
  have hin := h.of_iterate hl
  obtain ⟨i, hi, hie⟩ := List.getElem_of_mem he
  have he' : l[i]? = some e := by rw [List.getElem?_eq_getElem hi, hie]
  obtain ⟨t1, e1, i1, c1, f1, b1, s1⟩ := maybeResize_ok hin
  obtain ⟨t2, e2, i2, c2, f2, b2, p2⟩ := maybeRehash_ok i1
  obtain ⟨r, e3, _⟩ := findNode_full i2.toArr i2.uniq (i2.chained 0) p2 (e.1 0)
  have hidx := idxOf_of_uniq (i2.uniq 0) he'
  rw [hidx] at e3
  obtain ⟨n, hr1, hn, _⟩ := i2.toArr.read hi
  have hne := i2.toArr.node_elem hn
  rw [he'] at hne
  cases hne
  have i3 := i2.setVal hn none
  refine ⟨{ t2 with node := upd t2.node i (some { n with val := none }) }, ?_, ?_⟩
  · unfold Table.assignThrow
    rw [e1, bind_ok, e2, bind_ok, e3, bind_ok]
    simp only
    rw [hr1, bind_ok]
  · unfold Table.readMapped
    rw [lookup_ok i3]
    have hx : (l.set i (n.key, (none : Option W)))[i]? = some (n.key, none) := by
      rw [List.getElem?_set, if_pos rfl, if_pos hi]
    have hfind : (l.set i (n.key, (none : Option W))).find? (fun e => e.1 0 = n.key 0) = some (n.key, none) :=
      Swiss.find?_of_uniq (List.mem_of_getElem? hx) (by simp)
        (fun y hy hp => Swiss.eq_of_nodup_map (i3.uniq 0) hy (List.mem_of_getElem? hx) (by simpa using hp))
    simp only [bind_ok]
    rw [show elemOf (l.set i (n.key, (none : Option W))) 0 (n.key 0) = some (n.key, none) from hfind]

/-- C66, what holds for dense containers: a present key's exception leaves all elements in their places, only the mapped value of
that one is dead. -/
theorem C66_dense_partial {hash : K → Nat} {t : Table 1 K (Option W)} (h : Reachable hash t) {l : List (Elem 1 K (Option W))}
    (hl : t.iterate = .ok l) {i : Nat} {e : Elem 1 K (Option W)} (he : l[i]? = some e) :
    ∃ t', t.assignThrow hash (e.1 0) = .ok (t', false) ∧ Behaves hash t' (l.set i (e.1, none)) := by
  have hin := h.of_iterate hl
  obtain ⟨t1, e1, i1, c1, f1, b1, s1⟩ := maybeResize_ok hin
  obtain ⟨t2, e2, i2, c2, f2, b2, p2⟩ := maybeRehash_ok i1
  obtain ⟨r, e3, _⟩ := findNode_full i2.toArr i2.uniq (i2.chained 0) p2 (e.1 0)
  have hidx := idxOf_of_uniq (i2.uniq 0) he
  rw [hidx] at e3
  obtain ⟨n, hr1, hn, _⟩ := i2.toArr.read (List.getElem?_eq_some_iff.mp he).1
  have hne := i2.toArr.node_elem hn
  rw [he] at hne
  cases hne
  refine ⟨_, ?_, (i2.setVal hn none).behaves⟩
  unfold Table.assignThrow
  rw [e1, bind_ok, e2, bind_ok, e3, bind_ok]
  simp only
  rw [hr1, bind_ok]

/-- C66 is false for dense containers also if the key is absent: the container counts an element it does not have, and iterating
or destroying it is undefined. -/
theorem C66_dense_absent_false {hash : K → Nat} {t : Table 1 K (Option W)} (h : Reachable hash t)
    {l : List (Elem 1 K (Option W))} (hl : t.iterate = .ok l) {x : K} (hx : ∀ e ∈ l, e.1 0 ≠ x) :
    ∃ t', t.assignThrow hash x = .ok (t', true) ∧ t'.size = l.length + 1 ∧ t'.iterate = .error .deadRead ∧
      t'.destroy = .error .deadDestroy := by
  have hin := h.of_iterate hl
  obtain ⟨t1, e1, i1, c1, f1, b1, s1⟩ := maybeResize_ok hin
  obtain ⟨t2, e2, i2, c2, f2, b2, p2⟩ := maybeRehash_ok i1
  obtain ⟨r, e3, _⟩ := findNode_full i2.toArr i2.uniq (i2.chained 0) p2 x
  have hcap : t2.size < t2.cap := by rw [i2.size, ← i1.size, c2]; exact s1
  rw [idxOf_none hx] at e3
  unfold Table.assignThrow
  rw [e1, bind_ok, e2, bind_ok, e3, bind_ok]
  simp only
  unfold Table.pushThrow
  rw [if_pos hcap, bind_ok]
  exact ⟨_, rfl, by simp only; rw [i2.size], iterate_hole i2 hcap, destroy_hole i2⟩

/-- A dense map whose mapped values are all alive. -/
def liveMap : Table 1 Nat (Option Nat) :=
  after h3 LF.initial [.insert (fun _ => 1) (some 10), .insert (fun _ => 2) (some 20), .insert (fun _ => 4) (some 40)]

example : (liveMap.assignThrow h3 2 >>= fun r => r.1.readMapped h3 2) = .error .deadRead ∧
    (liveMap.assignThrow h3 2 >>= fun r => r.1.readMapped h3 4) = .ok (some 40) := ⟨rfl, rfl⟩

example : (liveMap.assignThrow h3 5).map (fun r => (r.1.size, r.2)) = .ok (4, true) := rfl

end Tpp.Dense
