import Verif.Dense.Throw
import Verif.Dense.CallCount
import Verif.Props.Dense

/-!
# C71–C74: exceptions in dense containers

The hash function or the key comparison throws (C71), an element's constructor or assignment throws while the container is copied
or moved (C72), while it makes room or fills the hole left by an erased element (C73), an allocation fails in a copy (C74).
-/

set_option linter.unusedSectionVars false

namespace Tpp.Dense

variable {k : Nat} {K V : Type} [DecidableEq K]

/-! ## C71 -/

/-- C71 for `insert` and `try_emplace`: whichever call of the hash function or of the comparison throws, the container is what
it was; if none throws, the answer and the container are those of `insert`. -/
theorem C71_insert {hash : K → Nat} {t : Table k K V} (h : Reachable hash t) {l : List (Elem k K V)} (hl : t.iterate = .ok l)
    (b : Nat) (key : Fin k → K) (v : V) :
    ∃ t' r, t.insertCall hash b key v = .ok (t', r) ∧ (b < k → r = none) ∧ (r = none → Behaves hash t' l) ∧
      ∀ a, r = some a → t.insert hash key v = .ok (t', a) := by
  have hi := h.of_iterate hl
  obtain ⟨t1, e1, i1, c1, f1, b1, s1⟩ := maybeResize_ok hi
  obtain ⟨t2, e2, i2, c2, f2, b2, p2⟩ := maybeRehash_ok i1
  obtain ⟨r, e3, hr⟩ := locate_ok i2.toArr i2.uniq i2.chained p2 key
  obtain ⟨c, e4, hc⟩ := locateCalls_ok e3
  obtain ⟨q, e5, _⟩ := insert_ok hi key v
  unfold Table.insertCall
  rw [e1, bind_ok, e2, bind_ok, e4, bind_ok]
  by_cases hb : b < c
  · rw [if_pos hb]
    exact ⟨t2, none, rfl, fun _ => rfl, fun _ => i2.behaves, fun a ha => (by cases ha)⟩
  · rw [if_neg hb]
    have e6 := e5
    unfold Table.insert at e6
    rw [e1, bind_ok, e2, bind_ok] at e6
    obtain ⟨found, ef, e6⟩ := bind_eq_ok e6
    rw [ef, bind_ok]
    refine ⟨q.1, some q.2, ?_, fun hk => absurd (Nat.lt_of_lt_of_le hk hc) hb, fun ha => (by cases ha),
      fun a ha => (by cases ha; exact e5)⟩
    cases hf : found.findSome? (fun x => x.2.1) with
    | some i =>
      rw [hf] at e6
      cases e6
      rfl
    | none =>
      rw [hf] at e6
      simp only at e6 ⊢
      obtain ⟨p, ep, e6⟩ := bind_eq_ok e6
      obtain ⟨t3, e7, e6⟩ := bind_eq_ok e6
      cases e6
      rw [ep, bind_ok]
      simp only at e7 ⊢
      rw [e7, bind_ok]

/-- C71 is false for `emplace`, all containers, all keys, whichever call throws: the new element stays in the array, counted and
seen by iterating, but it is in no chain: lookups do not find it (if the key was present it is there twice), and erasing any other
element violates an assertion.  (`g`: the uninitialised hashes of the new element.) -/
theorem C71_emplace_false {hash : K → Nat} {t : Table k K V} (h : Reachable hash t) {l : List (Elem k K V)} (hl : t.iterate = .ok l)
    (hk : 0 < k) (b : Nat) (g : Fin k → Nat) (key : Fin k → K) (v : V) :
    ∃ t' r, t.emplaceCall hash b g key v = .ok (t', r) ∧ (b < k → r = none) ∧
      (r = none → t'.size = l.length + 1 ∧ t'.iterate = .ok (l ++ [(key, v)]) ∧
        (∀ j x, t'.lookup hash j x = .ok (l.find? (fun e => e.1 j = x))) ∧
        (∀ pos, pos < l.length → t'.eraseAt pos = .error .assertFail) ∧ ∀ l', ¬ Behaves hash t' l') ∧
      ∀ a, r = some a → t.emplace hash key v = .ok (t', a) := by
  have hi := h.of_iterate hl
  obtain ⟨t1, e1, i1, c1, f1, b1, s1⟩ := maybeResize_ok hi
  obtain ⟨t2, e2, i2, c2, f2, b2, p2⟩ := maybeRehash_ok i1
  obtain ⟨r, e3, hr⟩ := locate_ok i2.toArr i2.uniq i2.chained p2 key
  have hcap : t2.size < t2.cap := by rw [i2.size, ← i1.size, c2]; exact s1
  have hsz : t2.size = l.length := i2.size
  have hext : ∀ m, Extends t2 ({ t2 with size := t2.size + 1, node := upd t2.node t2.size (some m) } : Table k K V) := by
    intro m
    refine ⟨rfl, rfl, rfl, ?_⟩
    intro i n hn
    have := i2.toArr.node_lt hn
    show upd t2.node t2.size (some m) i = some n
    rw [upd_ne _ _ (by omega)]
    exact hn
  obtain ⟨c, e4, hc⟩ := locateCalls_ok ((hext ⟨key, v, fun _ => 0, fun _ => none⟩).locate e3)
  obtain ⟨q, e5, _⟩ := emplace_ok hi key v
  unfold Table.emplaceCall
  rw [e1, bind_ok, e2, bind_ok, pushNode_ok i2.toArr hcap, bind_ok]
  simp only
  rw [e4, bind_ok]
  by_cases hb : b < c
  · rw [if_pos hb]
    unfold Table.setHashes
    generalize hu : upd t2.node t2.size (some (⟨key, v, fun _ => 0, fun _ => none⟩ : Node k K V)) = u
    have hul : u t2.size = some ⟨key, v, fun _ => 0, fun _ => none⟩ := by rw [← hu]; exact upd_same ..
    rw [readNode_ok (t := ({ t2 with size := t2.size + 1, node := u } : Table k K V)) hcap hul, bind_ok, bind_ok]
    simp only
    have hor : Orphan hash t2 l (key, v)
        ({ t2 with size := t2.size + 1, node := upd u t2.size (some ⟨key, v, g, fun _ => none⟩) } : Table k K V) := by
      refine ⟨i2, ⟨rfl, rfl, rfl, ?_⟩, by simp only; omega, by simp only; omega, ?_, p2⟩
      · intro i n hn
        have := i2.toArr.node_lt hn
        show upd _ _ _ i = some n
        rw [upd_ne _ _ (by omega), ← hu, upd_ne _ _ (by omega)]
        exact hn
      · refine ⟨⟨key, v, g, fun _ => none⟩, ?_, rfl⟩
        show upd _ _ _ l.length = _
        rw [← hsz]
        exact upd_same ..
    refine ⟨_, none, rfl, fun _ => rfl, fun _ => ⟨hor.size, hor.iterate, hor.lookup, fun pos hp => hor.eraseAt hk hp, ?_⟩,
      fun a ha => (by cases ha)⟩
    intro l' hB
    have hl' := hB.iterate
    rw [hor.iterate] at hl'
    cases hl'
    have h1 := hB.lookup ⟨0, hk⟩ (key ⟨0, hk⟩)
    rw [hor.lookup] at h1
    injection h1 with h1
    have hu := hB.uniq ⟨0, hk⟩
    rw [List.map_append, List.nodup_append] at hu
    cases hf : l.find? (fun e => e.1 ⟨0, hk⟩ = key ⟨0, hk⟩) with
    | none =>
      rw [hf, List.find?_append, hf] at h1
      simp at h1
    | some e =>
      have hm := List.mem_of_find?_eq_some hf
      have hx := List.find?_some hf
      exact hu.2.2 _ (List.mem_map_of_mem hm) (key ⟨0, hk⟩) (by simp) (by simpa using hx)
  · rw [if_neg hb]
    have e6 := e5
    unfold Table.emplace at e6
    rw [e1, bind_ok, e2, bind_ok, pushNode_ok i2.toArr hcap, bind_ok] at e6
    simp only at e6
    obtain ⟨found, ef, e6⟩ := bind_eq_ok e6
    rw [ef, bind_ok]
    refine ⟨q.1, some q.2, ?_, fun hk => absurd (Nat.lt_of_lt_of_le hk hc) hb, fun ha => (by cases ha),
      fun a ha => (by cases ha; exact e5)⟩
    cases hf : found.findSome? (fun x => x.2.1) with
    | some i =>
      rw [hf] at e6
      simp only at e6 ⊢
      obtain ⟨p, ep, e6⟩ := bind_eq_ok e6
      cases e6
      rw [ep, bind_ok]
    | none =>
      rw [hf] at e6
      simp only at e6 ⊢
      obtain ⟨t3, e7, e6⟩ := bind_eq_ok e6
      cases e6
      rw [e7, bind_ok]

/-- C71, how many calls there are: `insert`, `try_emplace` and `emplace` call the hash function once per component, and compare, in
every component, all elements with the hash of the key if the key is absent there, otherwise at least one of them.  If the call
that throws is one of these the exception leaves the function, otherwise there is none. -/
theorem C71_calls {hash : K → Nat} {t : Table k K V} (h : Reachable hash t) {l : List (Elem k K V)} (hl : t.iterate = .ok l)
    (key : Fin k → K) :
    ∃ n : Fin k → Nat, (∀ j, n j ≤ l.countP (fun e => hash (e.1 j) = hash (key j))) ∧
      (∀ j, (∀ e ∈ l, e.1 j ≠ key j) → n j = l.countP (fun e => hash (e.1 j) = hash (key j))) ∧
      (∀ j, (∃ e ∈ l, e.1 j = key j) → 1 ≤ n j) ∧
      ∀ (b : Nat) (v : V),
        (∃ t' r, t.insertCall hash b key v = .ok (t', r) ∧ (r = none ↔ b < k + ((List.finRange k).map n).sum)) ∧
        ∀ g, ∃ t' r, t.emplaceCall hash b g key v = .ok (t', r) ∧ (r = none ↔ b < k + ((List.finRange k).map n).sum) := by
  have hi := h.of_iterate hl
  obtain ⟨t1, e1, i1, c1, f1, b1, s1⟩ := maybeResize_ok hi
  obtain ⟨t2, e2, i2, c2, f2, b2, p2⟩ := maybeRehash_ok i1
  have hcap : t2.size < t2.cap := by rw [i2.size, ← i1.size, c2]; exact s1
  obtain ⟨n, hn, h1, h2, h3⟩ := locateCalls_count i2 p2 key
  refine ⟨n, h1, h2, h3, fun b v => ⟨?_, fun g => ?_⟩⟩
  · rcases insertCall_ok hi e1 e2 i2 p2 b key v with e | ⟨_, q, e, _⟩
    · refine ⟨_, _, e, ?_⟩
      unfold Table.insertCall at e
      rw [e1, bind_ok, e2, bind_ok, locateCalls_sum p2 hn, bind_ok] at e
      by_cases hb : b < k + ((List.finRange k).map n).sum
      · exact iff_of_true rfl hb
      · exfalso
        rw [if_neg hb] at e
        obtain ⟨found, _, e⟩ := bind_eq_ok e
        cases hf : found.findSome? (fun x => x.2.1) with
        | some i => rw [hf] at e; cases e
        | none =>
          rw [hf] at e
          obtain ⟨p, _, e⟩ := bind_eq_ok e
          obtain ⟨t3, _, e⟩ := bind_eq_ok e
          cases e
    · refine ⟨_, _, e, iff_of_false (fun g => (by cases g)) fun hb => ?_⟩
      unfold Table.insertCall at e
      rw [e1, bind_ok, e2, bind_ok, locateCalls_sum p2 hn, bind_ok, if_pos hb] at e
      cases e
  · have hext : Extends t2
        ({ t2 with size := t2.size + 1, node := upd t2.node t2.size (some ⟨key, v, fun _ => 0, fun _ => none⟩) } : Table k K V) := by
      refine ⟨rfl, rfl, rfl, ?_⟩
      intro i m hm
      have := i2.toArr.node_lt hm
      have hsz : t2.size = l.length := i2.size
      show upd t2.node t2.size _ i = some m
      rw [upd_ne _ _ (by omega)]
      exact hm
    have hsum := locateCalls_sum (t := ({ t2 with size := t2.size + 1, node := upd t2.node t2.size (some ⟨key, v, fun _ => 0, fun _ => none⟩) } : Table k K V))
      p2 (fun j => hext.findCalls (hn j))
    rcases emplaceCall_ok hi e1 e2 i2 p2 hcap b g key v with ⟨t', e, _⟩ | ⟨_, q, e, _⟩
    · refine ⟨_, _, e, ?_⟩
      unfold Table.emplaceCall at e
      rw [e1, bind_ok, e2, bind_ok, pushNode_ok i2.toArr hcap, bind_ok] at e
      simp only at e
      rw [hsum, bind_ok] at e
      by_cases hb : b < k + ((List.finRange k).map n).sum
      · exact iff_of_true rfl hb
      · exfalso
        rw [if_neg hb] at e
        obtain ⟨found, _, e⟩ := bind_eq_ok e
        cases hf : found.findSome? (fun x => x.2.1) with
        | some i =>
          rw [hf] at e
          obtain ⟨p, _, e⟩ := bind_eq_ok e
          cases e
        | none =>
          rw [hf] at e
          obtain ⟨t3, _, e⟩ := bind_eq_ok e
          cases e
    · refine ⟨_, _, e, iff_of_false (fun g => (by cases g)) fun hb => ?_⟩
      unfold Table.emplaceCall at e
      rw [e1, bind_ok, e2, bind_ok, pushNode_ok i2.toArr hcap, bind_ok] at e
      simp only at e
      rw [hsum, bind_ok, if_pos hb] at e
      obtain ⟨t3, _, e⟩ := bind_eq_ok e
      cases e

/-- The first comparison throws (call 1; call 0 is the hash function): 1 has the hash of 4 and 7. -/
example : ∃ t', demo.emplaceCall h3 1 (fun _ => 99) (el 1 0).1 5 = .ok (t', none) ∧
    t'.iterate = .ok [el 3 30, el 2 20, el 4 44, el 7 70, el 1 5] ∧ t'.lookup h3 0 1 = .ok none ∧
    t'.eraseAt 2 = .error .assertFail := ⟨_, rfl, rfl, rfl, rfl⟩

example : ∃ t', demo.insertCall h3 1 (el 1 0).1 5 = .ok (t', none) ∧ t'.iterate = .ok [el 3 30, el 2 20, el 4 44, el 7 70] :=
  ⟨_, rfl, rfl⟩

/-- 1 is absent and two elements have its hash: three calls. -/
example : (demo.insertCall h3 2 (el 1 0).1 5).map (·.2) = .ok none := rfl

example : (demo.insertCall h3 3 (el 1 0).1 5).map (·.2) = .ok (some (4, true)) := rfl

/-! ## C72 -/

/-- C72 for copy assignment: if the copy of any element throws, the target holds the elements before it and works. -/
theorem C72_copy_assign {hash : K → Nat} {prop : Bool} {t other : Table k K V} (ht : Reachable hash t) (ho : Reachable hash other)
    {l : List (Elem k K V)} (hl : other.iterate = .ok l) {q : Nat} (hq : q < l.length) :
    ∃ t', t.copyAssignThrow prop other q = .ok (some t') ∧ Behaves hash t' (l.take q) := by
  obtain ⟨l', hi⟩ := ht.inv
  unfold Table.copyAssignThrow
  obtain ⟨t1, e1, c1⟩ := clearData_ok (hi.setLoad other.lf).toArr
  rw [show ({ t with lf := other.lf } : Table k K V) = t.setLoad other.lf from rfl, e1, bind_ok]
  cases prop with
  | true =>
    obtain ⟨t', e, h', _⟩ := copyDataThrow_ok (ho.of_iterate hl) hq (t := t1.dropBuffers) c1.size (fun _ => rfl)
    exact ⟨t', e, h'.behaves⟩
  | false =>
    obtain ⟨t', e, h', _⟩ := copyDataThrow_ok (ho.of_iterate hl) hq (t := t1) c1.size c1.node
    exact ⟨t', e, h'.behaves⟩

/-- C72 is false for copy construction, all sources, whichever element throws: both buffers of the unfinished copy and the
elements copied before are lost (no destructor runs). -/
theorem C72_copy_construct_false {hash : K → Nat} {other : Table k K V} (ho : Reachable hash other)
    {l : List (Elem k K V)} (hl : other.iterate = .ok l) {q : Nat} (hq : q < l.length) :
    ∃ t', other.copyCtorThrow q = .ok (some t') ∧ 0 < t'.bc ∧ l.length ≤ t'.cap ∧ t'.iterate = .ok (l.take q) := by
  obtain ⟨t', e, h', _, hb, hc, _⟩ := copyDataThrow_ok (ho.of_iterate hl) hq (t := Table.init other.lf) rfl (fun _ => rfl)
  exact ⟨t', e, hb, hc, iterate_ok h'.toArr⟩

/-- C72, move assignment between unequal allocators that do not propagate: the target holds the elements before the one that
throws and works; the source works exactly if that was the first, otherwise it counts destroyed elements. -/
theorem C72_move_assign_iff {hash : K → Nat} {t other : Table k K V} (ht : Reachable hash t) (ho : Reachable hash other)
    {l : List (Elem k K V)} (hl : other.iterate = .ok l) {q : Nat} (hq : q < l.length) :
    ∃ t' o', t.moveAssignThrow other q = .ok (some (t', o')) ∧ Behaves hash t' (l.take q) ∧
      (q = 0 → Behaves hash o' l) ∧
      (q ≠ 0 → o'.size = l.length ∧ o'.iterate = .error .deadRead ∧ o'.destroy = .error .deadDestroy) := by
  obtain ⟨l', hi⟩ := ht.inv
  have hio := ho.of_iterate hl
  unfold Table.moveAssignThrow
  obtain ⟨t1, e1, c1⟩ := clearData_ok (hi.setLoad other.lf).toArr
  rw [show ({ t with lf := other.lf } : Table k K V) = t.setLoad other.lf from rfl, e1, bind_ok]
  obtain ⟨t', e, h', _⟩ := copyDataThrow_ok hio hq (t := t1) c1.size c1.node
  unfold Table.moveDataThrow
  rw [e, bind_ok]
  have hne : l ≠ [] := by intro e; rw [e] at hq; cases hq
  refine ⟨t', _, rfl, h'.behaves, ?_, ?_⟩
  · intro h0
    subst h0
    have : ({ other with node := fun i => if i < 0 then none else other.node i } : Table k K V) = other := by simp
    rw [this]
    exact hio.behaves
  · intro h0
    exact ⟨hio.size, iterate_dead hio (by omega) hne, destroy_dead hio (by omega) hne⟩

example : ∃ t', demo.copyAssignThrow false demo 2 = .ok (some t') ∧ t'.iterate = .ok [el 3 30, el 2 20] ∧
    t'.lookup h3 0 2 = .ok (some (el 2 20)) ∧ t'.lookup h3 0 4 = .ok none := ⟨_, rfl, rfl, rfl, rfl⟩

example : ∃ t' o', (Table.init LF.initial).moveAssignThrow demo 1 = .ok (some (t', o')) ∧ t'.iterate = .ok [el 3 30] ∧
    o'.iterate = .error .deadRead ∧ o'.lookup h3 0 3 = .error .deadRead := ⟨_, _, rfl, rfl, rfl, rfl⟩

/-! ## C73 -/

/-- C73, making room: if the relocation of element `q` throws while an insertion or `reserve` enlarges the array, the container
works exactly if that was the first element; otherwise it counts elements that are destroyed, and their successors
(`lost`) are never destroyed. -/
theorem C73_room_iff {hash : K → Nat} {t : Table k K V} (h : Reachable hash t) {l : List (Elem k K V)} (hl : t.iterate = .ok l)
    {q : Nat} (hq : q < l.length) :
    ∃ t', (t.cap = t.size → t.insertRoomThrow q = .ok (some (t', l.take q))) ∧
      (∀ n, t.cap < n → t.reserveThrow n q = .ok (some (t', l.take q))) ∧
      (q = 0 → Behaves hash t' l) ∧
      (q ≠ 0 → t'.size = l.length ∧ t'.iterate = .error .deadRead ∧ t'.destroy = .error .deadDestroy) := by
  have hi := h.of_iterate hl
  have hne : l ≠ [] := by intro e; rw [e] at hq; cases hq
  refine ⟨{ t with node := fun i => if i < q then none else t.node i }, ?_, ?_, ?_, ?_⟩
  · intro hc
    unfold Table.insertRoomThrow
    rw [if_pos hc]
    exact resizeThrow_ok hi hq
  · intro n hn
    unfold Table.reserveThrow
    rw [if_pos hn]
    exact resizeThrow_ok hi hq
  · intro h0
    subst h0
    have : ({ t with node := fun i => if i < 0 then none else t.node i } : Table k K V) = t := by simp
    rw [this]
    exact hi.behaves
  · intro h0
    exact ⟨hi.size, iterate_dead hi (by omega) hne, destroy_dead hi (by omega) hne⟩

example : demo.cap = 8 ∧ demo.size = 4 := ⟨rfl, rfl⟩

example : ∃ t', demo.reserveThrow 10 2 = .ok (some (t', [el 3 30, el 2 20])) ∧ t'.iterate = .error .deadRead ∧
    t'.lookup h3 0 7 = .ok (some (el 7 70)) := ⟨_, rfl, rfl, rfl⟩

/-- C73, erasing: if the assignment that moves the last element into the hole throws, the container still has all elements, but
the last one is no longer found by any of its components (unless it was next to the erased one in the chain). -/
theorem C73_erase_false {hash : K → Nat} {t : Table k K V} (h : Reachable hash t) {l : List (Elem k K V)} (hl : t.iterate = .ok l)
    {pos : Nat} (hp : pos + 1 < l.length) :
    ∃ t', t.eraseMoveThrow pos = .ok (some t') ∧ t'.size = l.length ∧ t'.iterate = .ok l ∧
      ∀ j, t.readRef j (.next pos) ≠ .ok (some (l.length - 1)) → ∀ e, t'.lookup hash j (l[l.length - 1].1 j) ≠ .ok (some e) := by
  have hi := h.of_iterate hl
  obtain ⟨t', e1, s1, h1⟩ := eraseMoveThrow_ok hi hp
  have a1 := hi.toArr.sameBut s1
  refine ⟨t', e1, a1.size, iterate_ok a1, ?_⟩
  intro j hj
  have hv : t.readRef j (.next pos) = .ok (t.cell j (.next pos)) := readRef_ok j (hi.toArr.valid (by omega))
  rw [hv] at hj
  refine lookup_never (h1 j (fun e => hj (by rw [e]))) ?_
  intro i n hn hx
  have hil := a1.node_lt hn
  have he := a1.node_elem hn
  rw [List.getElem?_eq_getElem hil] at he
  injection he with he
  have hu := hi.uniq j
  have := (List.Nodup.getElem_inj_iff hu (i := i) (j := l.length - 1) (hi := by simpa using hil) (hj := by simp; omega)).mp
    (by simp only [List.getElem_map]; rw [he]; exact hx)
  exact this

/-- Elements 3, 6, 0 in one chain. -/
def demoChain : Table 1 Nat Nat := after h3 LF.initial [.insert (el 3 0).1 30, .insert (el 6 0).1 60, .insert (el 0 0).1 0]

/-- C73, erasing: the chain may become a cycle, in which lookups never end. -/
theorem C73_erase_cycle_false : ∃ t', Reachable h3 demoChain ∧ demoChain.iterate = .ok [el 3 30, el 6 60, el 0 0] ∧
    demoChain.eraseMoveThrow 0 = .ok (some t') ∧ t'.lookup h3 0 0 = .error .diverge ∧ t'.lookup h3 0 9 = .error .diverge :=
  ⟨_, after_reachable .., rfl, rfl, rfl, rfl⟩

/-- C73, erasing the last element: nothing is assigned. -/
theorem C73_erase_last_partial {hash : K → Nat} {t : Table k K V} (h : Reachable hash t) {l : List (Elem k K V)}
    (hl : t.iterate = .ok l) {pos : Nat} (hp : pos + 1 = l.length) :
    t.eraseMoveThrow pos = .ok none ∧ ∃ t', t.eraseAt pos = .ok (t', pos) ∧ Behaves hash t' (l.take pos) := by
  have hi := h.of_iterate hl
  have hsz := hi.size
  obtain ⟨t', e, h', _⟩ := eraseAt_ok hi (pos := pos) (by omega)
  refine ⟨?_, t', e, ?_⟩
  · unfold Table.eraseMoveThrow
    rw [if_neg (by omega)]
  · have : swapRemove l pos = l.take pos := by
      apply List.ext_getElem?
      intro i
      rw [swapRemove_getElem? (by omega), List.getElem?_take]
      by_cases hi : i < l.length - 1
      · rw [if_pos hi, if_neg (by omega), if_pos (by omega)]
      · rw [if_neg hi, if_neg (by omega)]
    rw [this] at h'
    exact h'.behaves

example : ∃ t', demo.eraseMoveThrow 1 = .ok (some t') ∧ t'.size = 4 ∧ t'.lookup h3 0 7 = .ok none := ⟨_, rfl, rfl, rfl⟩

/-! ## C74 -/

/-- What the user needs after a failed assignment: the target is empty and usable. -/
structure Usable (hash : K → Nat) (a : Table.B k K V) : Prop where
  lookup : ∀ j x, a.lookup hash j x = .ok none
  destroy : a.destroy = .ok ()

/-- C74, the allocation of the buckets fails in a copy assignment: the target works exactly if it had no buckets or the allocator
propagates; otherwise it keeps the freed ones. -/
theorem C74_buckets_iff {hash : K → Nat} {prop fails2 : Bool} {t other : Table k K V} (ht : Reachable hash t)
    (hk : 0 < k) [Nonempty K] (hs : other.size ≠ 0) (hb : t.bc < other.bc) :
    ∃ a, t.copyAssignB true fails2 prop other = .ok (a, true) ∧ (Usable hash a ↔ prop = true ∨ t.bc = 0) := by
  obtain ⟨l', hi⟩ := ht.inv
  unfold Table.copyAssignB
  obtain ⟨t1, e1, c1⟩ := clearData_ok (hi.setLoad other.lf).toArr
  rw [show ({ t with lf := other.lf } : Table k K V) = t.setLoad other.lf from rfl, e1, bind_ok]
  have hb1 : t1.bc = t.bc := c1.bc
  have hs1 : t1.size = 0 := c1.size
  have hcl : ∀ u : Table k K V, u.size = 0 → u.clearData = .ok { u with size := 0 } := by
    intro u hu
    unfold Table.clearData
    rw [hu]
    rfl
  cases prop with
  | true =>
    simp only [if_true]
    unfold Table.copyDataB
    have hd : t1.dropBuffers.size = 0 := hs1
    rw [if_neg (by simpa using hd), if_neg hs, if_pos ⟨by show 0 < other.bc; omega, rfl⟩]
    refine ⟨_, rfl, ⟨fun _ => Or.inl trivial, fun _ => ⟨fun j x => rfl, ?_⟩⟩⟩
    unfold Table.B.destroy
    simp only
    rw [hcl _ hd]
    rfl
  | false =>
    simp only [Bool.false_eq_true, if_false]
    unfold Table.copyDataB
    rw [if_neg (by simpa using hs1), if_neg hs, if_pos ⟨by omega, rfl⟩]
    refine ⟨_, rfl, ⟨?_, ?_⟩⟩
    · intro hu
      right
      rcases Nat.eq_zero_or_pos t.bc with g | g
      · exact g
      · have := hu.destroy
        unfold Table.B.destroy at this
        simp only at this
        rw [hcl _ hs1, bind_ok, show decide (t1.bc ≠ 0) = true by simpa using (by omega : t1.bc ≠ 0)] at this
        cases this
    · intro g
      have g : t1.bc = 0 := by
        rcases g with g | g
        · cases g
        · omega
      refine ⟨fun j x => ?_, ?_⟩
      · unfold Table.B.lookup
        rw [if_pos g]
      · unfold Table.B.destroy
        simp only
        rw [hcl _ hs1, bind_ok, g]
        rfl

/-- C74, the allocation of the elements fails in a copy assignment: the target works exactly if it keeps its own buckets and
never had room for elements; otherwise its buckets are uninitialised or its array is freed a second time. -/
theorem C74_elements_iff {hash : K → Nat} {prop : Bool} {t other : Table k K V} (ht : Reachable hash t) (ho : Reachable hash other)
    (hk : 0 < k) [Nonempty K] (hs : t.cap < other.size) :
    ∃ a, t.copyAssignB false true prop other = .ok (a, true) ∧
      (Usable hash a ↔ prop = false ∧ t.cap = 0 ∧ other.bc ≤ t.bc) := by
  obtain ⟨l', hi⟩ := ht.inv
  obtain ⟨lo, hio⟩ := ho.inv
  have hob : 0 < other.bc := by
    rcases Nat.eq_zero_or_pos other.bc with e | e
    · have := hio.empty e; have h2 := hio.size; rw [this] at h2; simp at h2; omega
    · exact e
  unfold Table.copyAssignB
  obtain ⟨t1, e1, c1⟩ := clearData_ok (hi.setLoad other.lf).toArr
  rw [show ({ t with lf := other.lf } : Table k K V) = t.setLoad other.lf from rfl, e1, bind_ok]
  have hb1 : t1.bc = t.bc := c1.bc
  have hc1 : t1.cap = t.cap := c1.cap
  have hs1 : t1.size = 0 := c1.size
  have hcl : ∀ u : Table k K V, u.size = 0 → u.clearData = .ok { u with size := 0 } := by
    intro u hu
    unfold Table.clearData
    rw [hu]
    rfl
  obtain ⟨x0⟩ := ‹Nonempty K›
  cases prop with
  | true =>
    simp only [if_true]
    unfold Table.copyDataB
    have hd : t1.dropBuffers.size = 0 := hs1
    rw [if_neg (by simpa using hd), if_neg (by omega), if_neg (by simp), if_pos ⟨by show 0 < other.size; omega, rfl⟩]
    refine ⟨_, rfl, ⟨fun hu => ?_, fun hu => absurd hu.1 (by simp)⟩⟩
    have := hu.lookup ⟨0, hk⟩ x0
    unfold Table.B.lookup at this
    have hbd : t1.dropBuffers.bc = 0 := rfl
    simp [hbd, hob, Nat.ne_of_gt hob] at this
  | false =>
    simp only [Bool.false_eq_true, if_false]
    unfold Table.copyDataB
    rw [if_neg (by simpa using hs1), if_neg (by omega), if_neg (by simp), if_pos ⟨by omega, rfl⟩]
    refine ⟨_, rfl, ⟨?_, ?_⟩⟩
    · intro hu
      refine ⟨trivial, ?_, ?_⟩
      · rcases Nat.eq_zero_or_pos t.cap with g | g
        · exact g
        · have := hu.destroy
          unfold Table.B.destroy at this
          simp only at this
          rw [hcl _ (by exact hs1), bind_ok, show decide (t1.cap ≠ 0) = true by simpa using (by omega : t1.cap ≠ 0)] at this
          cases this
      · rcases Nat.lt_or_ge t.bc other.bc with g | g
        · have := hu.lookup ⟨0, hk⟩ x0
          unfold Table.B.lookup at this
          simp [show t1.bc < other.bc by omega, Nat.ne_of_gt hob] at this
        · exact g
    · rintro ⟨_, g1, g2⟩
      have hl' : l' = [] := by
        have h1 := hi.le_cap
        have h2 := hi.size
        exact List.eq_nil_of_length_eq_zero (by omega)
      subst hl'
      have hinv : Inv hash ({ t1 with bc := if t1.bc < other.bc then other.bc else t1.bc } : Table k K V) [] := by
        rw [if_neg (by omega)]
        refine inv_empty (c1.arr) ?_
        intro b hbb j
        obtain ⟨c, q1, _, q3⟩ := hi.chained j b (by rw [← hb1]; exact hbb)
        have : c = [] := by
          cases c with
          | nil => rfl
          | cons i c => exact absurd ((q3 i).mp List.mem_cons_self).1 (Nat.not_lt_zero _)
        subst this
        rw [c1.head]
        exact q1
      refine ⟨fun j x => ?_, ?_⟩
      · unfold Table.B.lookup
        by_cases hz : ({ t1 with bc := if t1.bc < other.bc then other.bc else t1.bc } : Table k K V).bc = 0
        · rw [if_pos hz]
        · rw [if_neg hz, if_neg (by simp), if_neg (by simp; omega)]
          exact lookup_ok hinv j x
      · unfold Table.B.destroy
        simp only
        rw [hcl _ (by exact hs1), bind_ok, show decide (t1.cap ≠ 0) = false by simp; omega]
        rfl

/-- 32 buckets and no array. -/
def demoBig : Table 1 Nat Nat := after h3 LF.initial [.rehash 32]

example : ∃ a, demo.copyAssignB true false false (after h3 LF.initial (demoOps ++ [.rehash 32])) = .ok (a, true) ∧
    a.lookup h3 0 3 = .error .dangling ∧ a.destroy = .error .badFree := ⟨_, rfl, rfl, rfl⟩

example : ∃ a, (Table.init LF.initial).copyAssignB false true false demo = .ok (a, true) ∧
    a.lookup h3 0 3 = .error .deadRead ∧ a.destroy = .ok () := ⟨_, rfl, rfl, rfl⟩

example : ∃ a, demoBig.copyAssignB false true false demo = .ok (a, true) ∧ a.lookup h3 0 3 = .ok none ∧ a.destroy = .ok () :=
  ⟨_, rfl, rfl, rfl⟩

end Tpp.Dense
