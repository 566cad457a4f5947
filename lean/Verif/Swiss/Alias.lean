import Verif.Swiss.Stable

/-!
# Swiss tables: arguments that refer to an element of the same container, and `replace`

`try_emplace(key, x)`, `insert_or_assign(key, x)` and `emplace(key, x)` take `x` by reference.  Here `x` refers to the mapped
value of an element of the container itself.  `Verif.Swiss.Model` takes the value; this file says at which moment it is read.
-/

set_option linter.unusedSectionVars false

namespace Tpp.Swiss

variable {K V W : Type} [DecidableEq K]

namespace Table

/-- Reading the argument when the new element is constructed (swiss_table.hpp 1291, `target->construct`), for a node that holds
its element (table_common.hpp 210-306): it lives in slot `j` of the buffer the table had at the call.  `emplace_node` replaces
the buffer exactly if it changes the bucket count (1270, 1283); the old one is then freed. -/
def readArg (t0 t : Table K V) (j : Nat) : M V :=
  if t.cap ≠ t0.cap then .error .dangling
  else do
    let n ← t.readNode j
    .ok n.val

/-- `emplace_node` with the mapped value given by reference (swiss_table.hpp 1264-1300). -/
def emplaceNodeRef (isa : Isa) (t : Table K V) (k : K) (h j : Nat) : M (Table K V × Nat) := do
  let (t1, target) ← t.prepare isa h
  let v ← t.readArg t1 j
  t1.commit isa target ⟨k, v, h⟩

/-- `try_emplace(k, x)` where `x` refers to the mapped value of the element in slot `j` (swiss_table.hpp 1330-1338). -/
def tryEmplaceRef (isa : Isa) (hash : K → Nat) (t : Table K V) (k : K) (j : Nat) : M (Table K V × Nat × Bool) := do
  let pos ← t.findNode isa k (hash k)
  if pos = t.cap then do
    let (t, p) ← t.emplaceNodeRef isa k (hash k) j
    .ok (t, p, true)
  else .ok (t, pos, false)

/-- `emplace(k, x)` where `x` refers to the mapped value of the element in slot `j` (swiss_table.hpp 1318-1329): the temporary
is built before anything else happens. -/
def emplaceRef (isa : Isa) (hash : K → Nat) (t : Table K V) (k : K) (j : Nat) : M (Table K V × Nat × Bool) := do
  let n ← t.readNode j
  t.insert isa hash k n.val

/-- `replace(x)` (table_common.hpp 246-258) of the mapped value in slot `pos`, where `x` refers to the mapped value in slot `j`:
the old value is destroyed before `x` is read.  (For trivially destructible types there is no destructor call; the model is for
the others.) -/
def replaceRef (t : Table K V) (pos j : Nat) : M (Table K V) :=
  if pos = j then .error .deadRead
  else do
    let x ← t.readNode j
    let n ← t.readNode pos
    .ok { t with node := upd t.node pos (some { n with val := x.val }) }

/-- `insert_or_assign(k, x)` where `x` refers to the mapped value of the element in slot `j` (swiss_table.hpp 1348-1359). -/
def insertOrAssignRef (isa : Isa) (hash : K → Nat) (t : Table K V) (k : K) (j : Nat) : M (Table K V × Nat × Bool) := do
  let pos ← t.findNode isa k (hash k)
  if pos = t.cap then do
    let (t, p) ← t.emplaceNodeRef isa k (hash k) j
    .ok (t, p, true)
  else do
    let t ← t.replaceRef pos j
    .ok (t, pos, false)

/-- `insert_or_assign(k, x)` when constructing the mapped value from `x` throws (swiss_table.hpp 1348-1359, table_common.hpp
246-258).  A mapped value `none` is one whose destructor has run.  The flag tells whether the element is new; the exception
leaves the function in both cases. -/
def assignThrow (isa : Isa) (hash : K → Nat) (t : Table K (Option W)) (k : K) : M (Table K (Option W) × Bool) := do
  let pos ← t.findNode isa k (hash k)
  if pos = t.cap then do
    let (t, _) ← t.prepare isa (hash k)
    .ok (t, true)
  else do
    let n ← t.readNode pos
    .ok ({ t with node := upd t.node pos (some { n with val := none }) }, false)

/-- Reading the mapped value of an element whose mapped value may have been destroyed. -/
def readMapped (isa : Isa) (hash : K → Nat) (t : Table K (Option W)) (k : K) : M (Option W) := do
  match ← t.lookup isa hash k with
  | none => .ok none
  | some none => .error .deadRead
  | some (some w) => .ok (some w)

/-- The element at address `a` (stable containers: the payload is the pair of the address and the mapped value). -/
def readAddr (t : Table K (Nat × W)) (a : Nat) : M W :=
  match t.contents.find? (fun x => x.2.1 = a) with
  | some x => .ok x.2.2
  | none => .error .dangling

/-- `try_emplace(k, x)` of a stable container where `x` refers to the mapped value at address `a` (swiss_table.hpp 1330-1338);
the new element is allocated at `a'` (table_common.hpp 440-445). -/
def tryEmplaceAddr (isa : Isa) (hash : K → Nat) (t : Table K (Nat × W)) (k : K) (a' a : Nat) :
    M (Table K (Nat × W) × Nat × Bool) := do
  let pos ← t.findNode isa k (hash k)
  if pos = t.cap then do
    let (t1, target) ← t.prepare isa (hash k)
    let w ← t1.readAddr a
    let (t, p) ← t1.commit isa target ⟨k, (a', w), hash k⟩
    .ok (t, p, true)
  else .ok (t, pos, false)

/-- `insert_or_assign(k, x)` of a stable container where `x` refers to the mapped value at address `a` (swiss_table.hpp
1348-1359, table_common.hpp 451-463). -/
def insertOrAssignAddr (isa : Isa) (hash : K → Nat) (t : Table K (Nat × W)) (k : K) (a' a : Nat) :
    M (Table K (Nat × W) × Nat × Bool) := do
  let pos ← t.findNode isa k (hash k)
  if pos = t.cap then do
    let (t1, target) ← t.prepare isa (hash k)
    let w ← t1.readAddr a
    let (t, p) ← t1.commit isa target ⟨k, (a', w), hash k⟩
    .ok (t, p, true)
  else do
    let n ← t.readNode pos
    if n.val.1 = a then .error .deadRead
    else do
      let w ← t.readAddr a
      .ok ({ t with node := upd t.node pos (some { n with val := (n.val.1, w) }) }, pos, false)

end Table

/-- Inserting a new key with hash `h` makes no room first: there is a free slot left, or the slot found is an erased one. -/
def HasRoom (isa : Isa) (t : Table K V) (h : Nat) : Prop :=
  0 < t.cap ∧ (0 < t.numEmpty ∨ ∃ p, t.findAvailable isa h = .ok p ∧ t.ctl p = .deleted)

/-- Inserting a new key makes a new buffer: there is no room, and the table is small or more than 25/32 full. -/
def MustGrow (isa : Isa) (t : Table K V) (h : Nat) : Prop :=
  ¬ HasRoom isa t h ∧ (t.cap ≤ isa.W ∨ t.cap * 25 < t.size * 32)

/-- What `prepare` does in the two cases. -/
theorem prepare_hasRoom {isa : Isa} {hash : K → Nat} {t : Table K V} (h : Inv isa hash t) {hh : Nat} (hr : HasRoom isa t hh) :
    ∃ target, t.prepare isa hh = .ok (t, target) := by
  obtain ⟨hc, hr⟩ := hr
  rcases hr with hr | ⟨p, hp, hd⟩
  · obtain ⟨t', target, h1, _, _, _, _, _, _, _, h2, _⟩ := prepare_spec h hh
    rw [h2 hc hr] at h1
    exact ⟨target, h1⟩
  · refine ⟨p, ?_⟩
    have hm := h.meta_ok hc
    have hle : p ≤ t.cap := by
      obtain ⟨target, f1, f2, _⟩ := findAvailable_spec hm hh (h.hasStep hc (P := (·.isAvailable)) rfl (hashHi hh))
      rw [f1] at hp; cases hp; exact f2
    unfold Table.prepare
    rw [if_neg (by omega), hp]
    simp only [bind_ok]
    rw [readCtl_ok hm hle]
    simp only [bind_ok]
    rw [if_neg (fun g => g.2 hd)]

theorem prepare_mustGrow {isa : Isa} {hash : K → Nat} {t : Table K V} (h : Inv isa hash t) {hh : Nat} (hg : MustGrow isa t hh) :
    ∃ t' target, t.prepare isa hh = .ok (t', target) ∧ t.cap < t'.cap := by
  obtain ⟨t', target, h1, h2, h3, h4, h5, h6, h7, h8, h9, h10, h11⟩ := prepare_spec h hh
  refine ⟨t', target, h1, ?_⟩
  rcases h10 with e | ⟨e1, e2⟩ | ⟨e1, e2, e3, e4⟩
  · exfalso
    obtain ⟨hno, hbig⟩ := hg
    rcases Nat.eq_zero_or_pos t.cap with hc | hc
    · omega
    · have hm := h.meta_ok hc
      have hn0 : t.numEmpty = 0 := by
        rcases Nat.eq_zero_or_pos t.numEmpty with g | g
        · exact g
        · exact absurd ⟨hc, Or.inl g⟩ hno
      obtain ⟨p, f1, f2, _⟩ := findAvailable_spec hm hh (h.hasStep hc (P := (·.isAvailable)) rfl (hashHi hh))
      have hnd : t.ctl p ≠ .deleted := fun g => hno ⟨hc, Or.inr ⟨p, f1, g⟩⟩
      unfold Table.prepare at h1
      rw [if_neg (by omega), f1] at h1
      simp only [bind_ok] at h1
      rw [readCtl_ok hm f2] at h1
      simp only [bind_ok] at h1
      rw [if_pos ⟨hn0, hnd⟩, if_neg (by omega)] at h1
      have hsz := h.size_le
      have hgt : t.size ≤ maxSize isa ((t.cap + 1) * 2 - 1) := by
        have := isa.W_pos
        revert hsz
        unfold maxSize
        split <;> split <;> omega
      obtain ⟨m, hmp⟩ := hm.pow
      obtain ⟨t2, g1, g2, g3, _⟩ := doRehash_spec h (n := (t.cap + 1) * 2 - 1) (m := m + 1)
        (by rw [Nat.pow_succ, ← hmp]; omega) hgt
      rw [g1] at h1
      simp only [bind_ok] at h1
      cases hfa : t2.findAvailable isa hh with
      | error e => rw [hfa] at h1; cases h1
      | ok q =>
        rw [hfa] at h1
        cases h1
        omega
  · omega
  · omega

/-- With room, a new element constructed from a reference is the one constructed from the value. -/
theorem emplaceNodeRef_room {isa : Isa} {hash : K → Nat} {t : Table K V} (h : Inv isa hash t) {k : K} {hh j : Nat}
    {n : Node K V} (hj : t.readNode j = .ok n) (hr : HasRoom isa t hh) :
    t.emplaceNodeRef isa k hh j = t.emplaceNode isa ⟨k, n.val, hh⟩ := by
  obtain ⟨target, e⟩ := prepare_hasRoom h hr
  unfold Table.emplaceNodeRef Table.emplaceNode Table.readArg
  rw [e]
  simp only [bind_ok, ne_eq, not_true_eq_false, if_false, hj]

theorem emplaceNodeRef_grow {isa : Isa} {hash : K → Nat} {t : Table K V} (h : Inv isa hash t) {k : K} {hh j : Nat}
    (hg : MustGrow isa t hh) : t.emplaceNodeRef isa k hh j = .error .dangling := by
  obtain ⟨t', target, e, hlt⟩ := prepare_mustGrow h hg
  unfold Table.emplaceNodeRef Table.readArg
  rw [e]
  simp only [bind_ok]
  rw [if_pos (by omega)]
  rfl

theorem find?_of_uniq {α : Type} {l : List α} {p : α → Bool} {x : α} (hx : x ∈ l) (hp : p x = true)
    (hu : ∀ y ∈ l, p y = true → y = x) : l.find? p = some x := by
  cases hf : l.find? p with
  | none =>
    rw [List.find?_eq_none] at hf
    exact absurd hp (hf x hx)
  | some y =>
    rw [hu y (List.mem_of_find?_eq_some hf) (List.find?_some hf)]

theorem eq_of_nodup_map {α β : Type} {f : α → β} {l : List α} (h : (l.map f).Nodup) {x y : α} (hx : x ∈ l) (hy : y ∈ l)
    (e : f x = f y) : x = y := by
  induction l with
  | nil => cases hx
  | cons a l ih =>
    rw [List.map_cons, List.nodup_cons] at h
    rcases List.mem_cons.mp hx with ex | hx1
    · rcases List.mem_cons.mp hy with ey | hy1
      · rw [ex, ey]
      · exact absurd (List.mem_map.mpr ⟨y, hy1, by rw [← e, ex]⟩) h.1
    · rcases List.mem_cons.mp hy with ey | hy1
      · exact absurd (List.mem_map.mpr ⟨x, hx1, by rw [e, ey]⟩) h.1
      · exact ih h.2 hx1 hy1

/-- Reading an element through its address does not depend on the slots. -/
theorem readAddr_of_mem {t : Table K (Nat × W)} (hd : (t.contents.map fun x => x.2.1).Nodup) {k : K} {a : Nat} {w : W}
    (hm : (k, a, w) ∈ t.contents) : t.readAddr a = .ok w := by
  unfold Table.readAddr
  rw [find?_of_uniq hm (by simp) (fun y hy hp => eq_of_nodup_map hd hy hm (by simpa using hp))]

/-- The argument of `try_emplace` of a stable container is the value it referred to. -/
theorem tryEmplaceAddr_eq {isa : Isa} {hash : K → Nat} {t : Table K (Nat × W)} (h : Inv isa hash t)
    (hd : (t.contents.map fun x => x.2.1).Nodup) {k' : K} {a : Nat} {w : W}
    (ha : t.lookup isa hash k' = .ok (some (a, w))) (k : K) (a' : Nat) :
    t.tryEmplaceAddr isa hash k a' a = t.insert isa hash k (a', w) := by
  have hmem : (k', a, w) ∈ t.contents := by
    rw [lookup_spec h] at ha
    exact (Spec.lookup_some h.contents_uniq).mp (Except.ok.inj ha)
  unfold Table.tryEmplaceAddr Table.insert Table.emplaceNode
  rcases find_cases h k with ⟨i, m, hi, hm, hk, hf, hl⟩ | ⟨hno, hf, hl⟩
  · simp only [hf, bind_ok, show ¬ i = t.cap by omega, if_false]
  · simp only [hf, bind_ok, if_true]
    obtain ⟨t1, target, p1, p2, p3, _⟩ := prepare_spec h (hash k)
    have hp := contents_perm p3
    rw [p1]
    simp only [bind_ok]
    rw [readAddr_of_mem ((hp.map _).nodup_iff.mpr hd) (hp.mem_iff.mpr hmem)]
    rfl

/-- The same for `insert_or_assign`, if it is not the value being replaced. -/
theorem insertOrAssignAddr_eq {isa : Isa} {hash : K → Nat} {t : Table K (Nat × W)} (h : Inv isa hash t)
    (hd : (t.contents.map fun x => x.2.1).Nodup) {k' : K} {a : Nat} {w : W}
    (ha : t.lookup isa hash k' = .ok (some (a, w))) {k : K} (hne : k' ≠ k) (a' : Nat) :
    t.insertOrAssignAddr isa hash k a' a = t.insertOrAssignWith isa hash k (a', w) (fun old => (old.1, w)) := by
  have hmem : (k', a, w) ∈ t.contents := by
    rw [lookup_spec h] at ha
    exact (Spec.lookup_some h.contents_uniq).mp (Except.ok.inj ha)
  unfold Table.insertOrAssignAddr Table.insertOrAssignWith Table.emplaceNode
  rcases find_cases h k with ⟨i, m, hi, hm, hk, hf, hl⟩ | ⟨hno, hf, hl⟩
  · simp only [hf, bind_ok, show ¬ i = t.cap by omega, if_false]
    rw [readNode_some hi hm]
    simp only [bind_ok]
    have hmm : (m.key, m.val) ∈ t.contents := mem_contents.mpr ⟨i, m, hi, hm, rfl, rfl⟩
    have hna : m.val.1 ≠ a := by
      intro e
      have := eq_of_nodup_map hd hmm hmem e
      have hk2 : m.key = k' := congrArg Prod.fst this
      exact hne (hk2.symm.trans hk)
    rw [if_neg hna, readAddr_of_mem hd hmem]
    rfl
  · simp only [hf, bind_ok, if_true]
    obtain ⟨t1, target, p1, p2, p3, _⟩ := prepare_spec h (hash k)
    have hp := contents_perm p3
    rw [p1]
    simp only [bind_ok]
    rw [readAddr_of_mem ((hp.map _).nodup_iff.mpr hd) (hp.mem_iff.mpr hmem)]
    rfl

end Tpp.Swiss
