import Verif.Swiss.Weak

/-!
# Elements whose copy or move constructor throws

`copy_data`, `move_data`, `do_rehash` and `rehash_deleted` contain no handler.  If the constructor called for one element
throws, what the loop has done so far stays.  The functions below run such a loop up to slot `q`; they return `none` if no
constructor is called there.  The theorems describe a table of which only a part can be seen (`Frag`).
-/

set_option linter.unusedSectionVars false

namespace Tpp.Swiss

variable {K V : Type} [DecidableEq K]

theorem cnt_le_cnt {p : Nat → Bool} {a b : Nat} (h : a ≤ b) : cnt p a ≤ cnt p b := by
  obtain ⟨d, rfl⟩ : ∃ d, b = a + d := ⟨b - a, by omega⟩
  clear h
  induction d with
  | zero => exact Nat.le_refl _
  | succ d ih => rw [← Nat.add_assoc, cnt]; omega

theorem cnt_two_le {p q r : Nat → Bool} {n : Nat} (h : ∀ i, i < n → (p i = true → r i = true ∧ q i = false) ∧ (q i = true → r i = true)) :
    cnt p n + cnt q n ≤ cnt r n := by
  induction n with
  | zero => exact Nat.le_refl _
  | succ n ih =>
    have h1 := ih fun i hi => h i (by omega)
    obtain ⟨h2, h3⟩ := h n (by omega)
    simp only [cnt]
    revert h2 h3
    cases p n <;> cases q n <;> cases r n <;> simp <;> omega

namespace Table

/-- `copy_data` (swiss_table.hpp 1448-1485) if the copy of the element in slot `q` throws (1471): the buffer is allocated and
filled, the elements before `q` are copied and marked, `m_size` and `m_num_empty` (1474-1475) are not yet set. -/
def copyDataThrow (isa : Isa) (t other : Table K V) (q : Nat) : M (Option (Table K V)) := do
  if t.size ≠ 0 then .error .assertFail
  else if other.size = 0 then .ok none
  else
    let t ← t.reallocate isa other.cap
    let t ← t.fill isa
    let c ← other.readCtl q
    if q < other.cap ∧ c.isOccupied = true then
      let t ← (List.range q).foldlM (copyOne isa other) t
      .ok (some t)
    else .ok none

/-- Copy construction (swiss_table.hpp 848) if the copy of the element in slot `q` throws.  The result is the abandoned object:
its constructor has not finished, so its destructor is not called, and the buffer (454-742) has none. -/
def copyCtorThrow (isa : Isa) (other : Table K V) (q : Nat) : M (Option (Table K V)) := copyDataThrow isa init other q

/-- Copy assignment (swiss_table.hpp 856-869) if the copy of the element in slot `q` throws. -/
def copyAssignThrow (isa : Isa) (al : AllocP) (t other : Table K V) (q : Nat) : M (Option (Table K V)) := do
  let t ← t.eraseNodes
  let t ← t.bufAssign al.copyProp
  t.copyDataThrow isa other q

/-- `move_data` (swiss_table.hpp 1486-1521) if the relocation of the element in slot `q` throws (1509): the elements before
`q` are in the target, both sizes are as before. -/
def moveDataThrow (isa : Isa) (t other : Table K V) (q : Nat) : M (Option (Table K V × Table K V)) := do
  if t.size ≠ 0 then .error .assertFail
  else if other.size = 0 then .ok none
  else
    let t ← t.reallocate isa other.cap
    let t ← t.fill isa
    let c ← other.readCtl q
    if q < other.cap ∧ c.isOccupied = true then
      let p ← (List.range q).foldlM (moveOne isa) (t, other)
      .ok (some p)
    else .ok none

/-- Move assignment (swiss_table.hpp 870-883, 1537-1543) between unequal allocators that do not propagate, if the relocation
of the element in slot `q` throws. -/
def moveAssignThrow (isa : Isa) (t other : Table K V) (q : Nat) : M (Option (Table K V × Table K V)) := do
  let t ← t.eraseNodes
  t.moveDataThrow isa other q

/-- `do_rehash` (swiss_table.hpp 1376-1393) with `resize` (523-550, 681-693) if the relocation of the element in slot `q` of
the old buffer throws (1388): the new buffer is in place, the old one (first component) is referred to by local variables
only; `m_num_empty` (1392) is as before. -/
def doRehashThrow (isa : Isa) (t : Table K V) (n q : Nat) : M (Option (Table K V × Table K V)) := do
  if q < t.cap then
    let c ← t.readCtl q
    if c.isOccupied then
      let p ← (List.range q).foldlM (relocOne isa) (t, t.grown isa n)
      .ok (some p)
    else .ok none
  else .ok none

/-- The body of the second loop of `rehash_deleted` (swiss_table.hpp 1415-1441) if the constructor called after `r` exchanges
throws (1431, 1438): the state at that point. -/
def processThrow (isa : Isa) : (r : Nat) → (t : Table K V) → (i : Nat) → M (Option (Table K V))
  | r, t, i => do
    let n ← t.readNode i
    let target ← t.findAvailable isa n.hash
    if blockIdx isa t.cap (hashHi n.hash) target = blockIdx isa t.cap (hashHi n.hash) i then .ok none
    else match r with
      | 0 => .ok (some t)
      | r + 1 => do
        let c ← t.readCtl target
        if c = .empty then .ok none
        else
          let m ← t.readNode target
          let t := { t with node := upd (upd t.node i (some m)) target (some n), log := .swp i target :: t.log }
          let t ← t.setMetadata isa target (.full (hashLo n.hash))
          processThrow isa r t i

/-- `rehash_deleted` (swiss_table.hpp 1394-1446) if the constructor called for slot `q` after `r` exchanges throws. -/
def rehashDeletedThrow (isa : Isa) (t : Table K V) (q r : Nat) : M (Option (Table K V)) := do
  let t ← (List.range ((t.cap + isa.W - 1) / isa.W)).foldlM (fun t b => t.resetBlock isa (b * isa.W)) t
  let t ← t.cloneTail isa
  if q < t.cap then
    let t ← (List.range q).foldlM (processSlot isa) t
    let c ← t.readCtl q
    if c = .deleted then t.processThrow isa r q else .ok none
  else .ok none

/-- `do_insert` (swiss_table.hpp 1330-1347, 1264-1291) if the insertion has to make room and the constructor called for the
element in slot `q` (while reclaiming: after `r` exchanges) throws: the container left behind. -/
def insertMoveThrow (isa : Isa) (hash : K → Nat) (t : Table K V) (k : K) (q r : Nat) : M (Option (Table K V)) := do
  let pos ← t.findNode isa k (hash k)
  if pos ≠ t.cap ∨ t.cap = 0 then .ok none
  else
    let target ← t.findAvailable isa (hash k)
    let c ← t.readCtl target
    if t.numEmpty = 0 ∧ c ≠ .deleted then
      if t.cap > isa.W ∧ t.size * 32 ≤ t.cap * 25 then t.rehashDeletedThrow isa q r
      else do
        let p ← t.doRehashThrow isa ((t.cap + 1) * 2 - 1) q
        .ok (p.map Prod.snd)
    else .ok none

/-- The part of a table that its control bytes show, with the size and budget that would fit it. -/
def shown (isa : Isa) (t : Table K V) : Table K V :=
  { t with
    node := fun i => if (t.ctl i).isOccupied then t.node i else none
    size := cnt (fun i => (t.ctl i).isOccupied) t.cap
    numEmpty := maxSize isa t.cap - cnt (fun i => (t.ctl i).isOccupied) t.cap - cnt (fun i => (t.ctl i).isDeleted) t.cap }

end Table

/-- A table whose control bytes describe elements correctly; there may be more elements than they show, and the size may be
anything. -/
structure Frag (isa : Isa) (hash : K → Nat) (t : Table K V) : Prop where
  md : MetaOk isa t.cap t.len t.ctl
  live : ∀ i, i < t.cap → (t.ctl i).isOccupied = true → (t.node i).isSome = true
  tag : ∀ i, i < t.cap → (t.ctl i).isOccupied = true → ∀ n, t.node i = some n → t.ctl i = .full (hashLo n.hash)
  hash_ok : ∀ i, i < t.cap → ∀ n, t.node i = some n → n.hash = hash n.key
  uniq : ∀ i, i < t.cap → ∀ j, j < t.cap → ∀ a b, t.node i = some a → t.node j = some b → a.key = b.key → i = j
  reach : ∀ i, i < t.cap → (t.ctl i).isOccupied = true → ∀ n, t.node i = some n →
    Reach isa t.cap t.ctl (·.isEmpty) (hashHi n.hash) i
  room : cnt (fun i => (t.ctl i).isOccupied) t.cap + cnt (fun i => (t.ctl i).isDeleted) t.cap ≤ maxSize isa t.cap

theorem shown_some {isa : Isa} {t : Table K V} {i : Nat} {n : Node K V} (h : (t.shown isa).node i = some n) :
    (t.ctl i).isOccupied = true ∧ t.node i = some n := by
  simp only [Table.shown] at h
  split at h
  · rename_i q; exact ⟨q, h⟩
  · cases h

theorem Frag.inv {isa : Isa} {hash : K → Nat} {t : Table K V} (h : Frag isa hash t) : Inv isa hash (t.shown isa) := by
  refine ⟨Or.inr h.md, ?_, ?_, ?_, ?_, ?_, rfl, ?_⟩
  · intro i hi
    simp only [Table.shown]
    by_cases ho : (t.ctl i).isOccupied = true
    · rw [if_pos ho, h.live i hi ho, ho]
    · rw [if_neg ho]
      cases hx : (t.ctl i).isOccupied
      · rfl
      · exact absurd hx ho
  · intro i hi n hn
    obtain ⟨a, b⟩ := shown_some hn
    exact h.tag i hi a n b
  · intro i hi n hn
    exact h.hash_ok i hi n (shown_some hn).2
  · intro i hi j hj a b ha hb hk
    exact h.uniq i hi j hj a b (shown_some ha).2 (shown_some hb).2 hk
  · intro i hi n hn
    obtain ⟨a, b⟩ := shown_some hn
    exact h.reach i hi a n b
  · intro _
    have := h.room
    simp only [Table.shown]
    omega

/-- The probe loop reads nodes of occupied slots only. -/
theorem findLoop_shown {isa : Isa} {t : Table K V} (hm : MetaOk isa t.cap t.len t.ctl) (k : K) (tag : Nat) :
    ∀ (fuel pos idx : Nat), pos ≤ t.cap → t.findLoop isa k tag fuel pos idx = (t.shown isa).findLoop isa k tag fuel pos idx := by
  intro fuel
  induction fuel with
  | zero => intro pos idx _; rfl
  | succ fuel ih =>
    intro pos idx hp
    have hscan : ∀ l : List Nat, (∀ i ∈ l, i ∈ t.matchEq isa pos tag) → t.scan k pos l = (t.shown isa).scan k pos l := by
      intro l
      induction l with
      | nil => intro _; rfl
      | cons i l ihl =>
        intro hl
        obtain ⟨hi1, g, he⟩ := matchEq_full (hl i (by simp))
        have hr := hm.real hp hi1 (by rw [he]; simp) (Or.inl (by rw [he]; simp))
        have hocc : (t.ctl ((pos + i) &&& t.cap)).isOccupied = true := by
          rw [land_cap hm, hr.2.1, he]; rfl
        unfold Table.scan
        have : t.readNode ((pos + i) &&& t.cap) = (t.shown isa).readNode ((pos + i) &&& t.cap) := by
          simp only [Table.readNode, Table.shown, hocc, if_true]
        rw [ihl (fun j hj => hl j (List.mem_cons_of_mem _ hj))]
        simp only [Table.shown] at this ⊢
        rw [this]
    unfold Table.findLoop
    rw [hscan _ (fun _ q => q)]
    have hload : t.loadBlock isa pos = (t.shown isa).loadBlock isa pos := rfl
    have hmat : t.matchEq isa pos tag = (t.shown isa).matchEq isa pos tag := by cases isa <;> rfl
    have hme : t.matches_ isa pos (·.isEmpty) = (t.shown isa).matches_ isa pos (·.isEmpty) := rfl
    rw [hload, hmat, hme]
    have hih := ih ((pos + (idx + isa.W)) &&& t.cap) (idx + isa.W) Nat.and_le_right
    rw [hih]
    rfl

/-- Lookups in a table with non-zero size answer as the shown elements say. -/
theorem Frag.find {isa : Isa} {hash : K → Nat} {t : Table K V} (h : Frag isa hash t) (hc : 0 < t.cap) (hz : t.size ≠ 0) (k : K) :
    t.contains isa hash k = .ok (Spec.lookup (t.shown isa).contents k).isSome ∧
    t.lookup isa hash k = .ok (Spec.lookup (t.shown isa).contents k) := by
  have hi := h.inv
  have hw := hi.weak
  obtain ⟨s0, hs0, hem⟩ := hw.hasStep hc (P := (·.isEmpty)) rfl (hashHi (hash k))
  have hf := weak_findLoop hw hc k hs0 hem s0 0 (by omega) (by intro s' hs'; omega) (by intro s' hs'; omega)
    ((t.shown isa).cap + 1) (step_lt_fuel hs0)
  have hfind : t.findNode isa k (hash k) =
      (t.shown isa).findLoop isa k (hashLo (hash k)) (t.cap + 1) (hashHi (hash k) &&& t.cap) 0 := by
    unfold Table.findNode
    rw [if_pos hz]
    exact findLoop_shown h.md k _ _ _ _ Nat.and_le_right
  have hpos : hashHi (hash k) &&& t.cap = wpos isa t.cap (hashHi (hash k)) 0 := by
    rw [land_cap h.md]
    simp [wpos, probePos]
  rw [hpos] at hfind
  have hcap : (t.shown isa).cap = t.cap := rfl
  rw [hcap, Nat.zero_mul] at hf
  rcases hf with ⟨i, n, hi', hn, hk, _, hf⟩ | ⟨hno, hf⟩
  · have hl : Spec.lookup (t.shown isa).contents k = some n.val := by
      rw [Spec.lookup_some hw.contents_uniq, mem_contents]
      exact ⟨i, n, hi', hn, hk, rfl⟩
    rw [hf] at hfind
    have hi' : i < t.cap := hi'
    rw [hl]
    refine ⟨?_, ?_⟩
    · simp [Table.contains, hfind, show i ≠ t.cap by omega]
    · simp [Table.lookup, hfind, show i ≠ t.cap by omega, readNode_some hi' (shown_some hn).2]
  · rw [hf] at hfind
    have hl : Spec.lookup (t.shown isa).contents k = none := by
      cases hx : Spec.lookup (t.shown isa).contents k with
      | none => rfl
      | some v =>
        rw [Spec.lookup_some hw.contents_uniq, mem_contents] at hx
        obtain ⟨i, n, hi', hn, hk, _⟩ := hx
        refine absurd ?_ (hno i hi' n hn hk)
        have := hi.reach i hi' n hn
        rw [hi.hash_ok i hi' n hn, hk] at this
        exact this
    rw [hl]
    exact ⟨by simp [Table.contains, hfind], by simp [Table.lookup, hfind]⟩

/-- Iteration shows the elements in occupied slots. -/
theorem shown_iterate {isa : Isa} {t : Table K V} (hm : MetaOk isa t.cap t.len t.ctl)
    (hlive : ∀ i, i < t.cap → (t.ctl i).isOccupied = true → (t.node i).isSome = true) :
    Ends isa (t.iterate isa) (· = (t.shown isa).contents) := by
  have hlive' : ∀ i, i < (t.shown isa).cap → ((t.shown isa).node i).isSome = ((t.shown isa).ctl i).isOccupied := by
    intro i hi
    simp only [Table.shown]
    by_cases ho : (t.ctl i).isOccupied = true
    · rw [if_pos ho, hlive i hi ho, ho]
    · rw [if_neg ho]
      cases hx : (t.ctl i).isOccupied
      · rfl
      · exact absurd hx ho
  have hwalk : ∀ (fuel pos : Nat), pos ≤ t.cap → (pos < t.cap → (t.ctl pos).isOccupied = true) → t.cap - pos < fuel →
      Ends isa (t.walk isa fuel pos t.cap) (· = (t.shown isa).elemsFrom pos) := by
    intro fuel
    induction fuel with
    | zero => intro pos _ _ hf; omega
    | succ fuel ih =>
      intro pos hp ho hf
      unfold Table.walk
      by_cases hl : pos = t.cap
      · rw [if_pos hl]
        exact Ends.of_ok rfl (elemsFrom_end (t.shown isa) (by show t.cap ≤ pos; omega)).symm
      · rw [if_neg hl]
        have hlt : pos < t.cap := by omega
        obtain ⟨n, hn⟩ := Option.isSome_iff_exists.mp (hlive pos hlt (ho hlt))
        rw [readNode_some hlt hn]
        simp only [bind_ok]
        refine (nextOccupied_spec hm (t.cap + 1) (pos + 1) (by omega) (by omega)).bind ?_
        intro r hr
        refine (ih r hr.2.1 hr.2.2.2 (by have := hr.1; omega)).bind ?_
        intro rest hrest
        refine Ends.of_ok rfl ?_
        rw [elemsFrom_step (t.shown isa) hlt, elemsFrom_next hlive' (show IsNext (t.shown isa) (pos + 1) r from hr), hrest]
        have : (t.shown isa).node pos = some n := by
          simp only [Table.shown, ho hlt, if_true, hn]
        rw [this]
        rfl
  unfold Table.iterate Table.begin_
  refine (lax_toIter (Or.inr hm) (Nat.zero_le _)).bind ?_
  intro r hr
  unfold Table.iterateFrom
  rw [lax_end (Or.inr hm)]
  simp only [bind_ok]
  refine (hwalk _ _ hr.2.1 hr.2.2.2 (by omega)).mono ?_
  intro l hl
  rw [hl, ← elemsFrom_next hlive' (show IsNext (t.shown isa) 0 r from hr), elemsFrom_zero]

/-- `erase_nodes` destroys the elements in occupied slots and no others. -/
theorem shown_eraseNodes {isa : Isa} {t : Table K V} (hm : MetaOk isa t.cap t.len t.ctl)
    (hlive : ∀ i, i < t.cap → (t.ctl i).isOccupied = true → (t.node i).isSome = true) :
    ∃ f, t.eraseNodes = .ok { t with node := f, size := 0 } ∧
      ∀ i, i < t.cap → f i = if (t.ctl i).isOccupied then none else t.node i := by
  unfold Table.eraseNodes
  obtain ⟨s, h1, f, h2, h3, h4⟩ := foldlM_range
    (f := fun (t : Table K V) i => do
      let c ← t.readCtl i
      if c.isOccupied then t.destroy i else .ok t)
    (fun i (s : Table K V) => ∃ f, s = { t with node := f } ∧
      (∀ j, j < i → f j = if (t.ctl j).isOccupied then none else t.node j) ∧ ∀ j, i ≤ j → f j = t.node j)
    t.cap (s := t) ⟨t.node, rfl, fun j hj => by omega, fun _ _ => rfl⟩ (by
      rintro i hi s ⟨f, rfl, hf1, hf2⟩
      rw [readCtl_ok (isa := isa) (t := { t with node := f }) hm (by simp only; omega)]
      simp only [bind_ok]
      by_cases ho : (t.ctl i).isOccupied = true
      · obtain ⟨x, hn⟩ := Option.isSome_iff_exists.mp (hlive i hi ho)
        simp only [ho, if_true, Table.destroy, hi, hf2 i (Nat.le_refl _), hn]
        refine ⟨_, rfl, upd f i none, rfl, ?_, ?_⟩
        · intro j hj
          rw [upd_apply]
          split
          · rename_i e; subst e; rw [if_pos ho]
          · exact hf1 j (by omega)
        · intro j hj
          rw [upd_ne _ _ (by omega)]
          exact hf2 j (by omega)
      · simp only [ho, Bool.false_eq_true, if_false]
        refine ⟨_, rfl, f, rfl, ?_, fun j hj => hf2 j (by omega)⟩
        intro j hj
        by_cases e : j = i
        · subst e; rw [hf2 j (Nat.le_refl _), if_neg ho]
        · exact hf1 j (by omega))
  rw [h1, h2]
  exact ⟨f, rfl, h3⟩

theorem dropBuffer_leak {t : Table K V} {i : Nat} (hi : i < t.cap) (hn : (t.node i).isSome = true) :
    t.dropBuffer = .error .leak := by
  unfold Table.dropBuffer
  rw [if_neg]
  intro hall
  have := List.all_eq_true.mp hall i (List.mem_range.mpr hi)
  rw [Option.isNone_iff_eq_none] at this
  rw [this] at hn
  cases hn

/-- The destructor of a table with non-zero size, if all elements are shown. -/
theorem shown_dtor {isa : Isa} {t : Table K V} (hm : MetaOk isa t.cap t.len t.ctl)
    (hlive : ∀ i, i < t.cap → (t.node i).isSome = (t.ctl i).isOccupied) (hz : t.size ≠ 0) : ∃ t', t.dtor = .ok t' := by
  obtain ⟨f, h1, h2⟩ := eraseNodes_spec (isa := isa) (Or.inr hm) hlive
  unfold Table.dtor
  rw [if_pos hz, h1]
  simp only [bind_ok]
  exact ⟨_, dropBuffer_spec (t := { t with node := f, size := 0 }) (fun i hi => h2 i hi)⟩

/-- The destructor of a table with non-zero size, if an element is not shown. -/
theorem hidden_dtor {isa : Isa} {t : Table K V} (hm : MetaOk isa t.cap t.len t.ctl)
    (hlive : ∀ i, i < t.cap → (t.ctl i).isOccupied = true → (t.node i).isSome = true) (hz : t.size ≠ 0) {i : Nat} (hi : i < t.cap)
    (ho : (t.ctl i).isOccupied = false) (hn : (t.node i).isSome = true) : t.dtor = .error .leak := by
  obtain ⟨f, h1, h2⟩ := shown_eraseNodes (isa := isa) hm hlive
  unfold Table.dtor
  rw [if_pos hz, h1]
  simp only [bind_ok]
  refine dropBuffer_leak (i := i) hi ?_
  show (f i).isSome = true
  rw [h2 i hi, ho]
  exact hn

/-! ### Growth -/

theorem Core.frag {isa : Isa} {hash : K → Nat} {t : Table K V} (h : Core isa hash t)
    (hr : cnt (fun i => (t.ctl i).isOccupied) t.cap + cnt (fun i => (t.ctl i).isDeleted) t.cap ≤ maxSize isa t.cap) :
    Frag isa hash t :=
  ⟨h.md, fun i hi ho => by rw [h.live i hi, ho], fun i hi _ => h.tag i hi, h.hash_ok, h.uniq, fun i hi _ => h.reach i hi, hr⟩

theorem Core.shown_contents {isa : Isa} {hash : K → Nat} {t : Table K V} (h : Core isa hash t) :
    (t.shown isa).contents = t.contents := by
  unfold Table.contents Table.nodes
  congr 1
  refine collect_congr fun i hi => ?_
  have hi : i < t.cap := hi
  have := h.live i hi
  simp only [Table.shown]
  split
  · rfl
  · rename_i ho
    cases hn : t.node i with
    | none => rfl
    | some n => rw [hn] at this; exact absurd this.symm ho

/-- The state after an exception in the relocation loop of `do_rehash`. -/
theorem doRehashThrow_spec {isa : Isa} {hash : K → Nat} {t : Table K V} (h : Inv isa hash t) {n m : Nat} (hn : n + 1 = 2 ^ m)
    (hsz : t.size ≤ maxSize isa n) {q : Nat} (hq : q < t.cap) (ho : (t.ctl q).isOccupied = true) :
    ∃ old new, t.doRehashThrow isa n q = .ok (some (old, new)) ∧
      old = { t with node := fun j => if j < q then none else t.node j } ∧ new.cap = n ∧ new.size = t.size ∧
      Core isa hash new ∧ Frag isa hash new ∧ new.contents.Perm ((collect t.node q).map fun x => (x.key, x.val)) := by
  obtain ⟨p, h1, h2, h3⟩ := relocOne_prefix h hn hsz (Nat.le_of_lt hq)
  have hm := h.meta_ok (by omega)
  refine ⟨p.1, p.2, ?_, h2, h3.cap_eq, h3.size_eq, h3.core, h3.core.frag ?_, ?_⟩
  · unfold Table.doRehashThrow
    rw [if_pos hq, readCtl_ok hm (by omega)]
    simp only [bind_ok, ho, if_true, h1]
  · have hc := h3.count
    rw [h3.cap_eq, cnt_eq_zero h3.clean, hc]
    have := cnt_le_cnt (p := fun j => (t.ctl j).isOccupied) (Nat.le_of_lt hq)
    have := h.size_eq
    omega
  · have := h3.nodes
    unfold Table.contents Table.nodes
    rw [h3.cap_eq]
    exact this.map _

/-! ### Reclaiming erased slots in place -/

theorem processThrow_spec {isa : Isa} {hash : K → Nat} {src : Table K V} {i : Nat} :
    ∀ (r : Nat) {t s : Table K V}, Reclaim isa hash src i t → i < t.cap → t.ctl i = .deleted →
      t.processThrow isa r i = .ok (some s) → Reclaim isa hash src i s ∧ s.ctl i = .deleted := by
  intro r
  induction r with
  | zero =>
    intro t s h hi hd he
    unfold Table.processThrow at he
    obtain ⟨n, h1, he⟩ := Dense.bind_eq_ok he
    obtain ⟨target, h2, he⟩ := Dense.bind_eq_ok he
    split at he
    · cases he
    · cases he; exact ⟨h, hd⟩
  | succ r ih =>
    intro t s h hi hd he
    have hsome := h.live i hi
    rw [hd] at hsome
    obtain ⟨n, hn⟩ := Option.isSome_iff_exists.mp (by rw [hsome]; rfl)
    obtain ⟨target, hf1, htl, hta, htr⟩ := findAvailable_place h.md n.hash ⟨i, hi, deleted_available _ hd⟩
    unfold Table.processThrow at he
    rw [readNode_some hi hn] at he
    simp only [bind_ok] at he
    rw [hf1] at he
    simp only [bind_ok] at he
    split at he
    · cases he
    · rename_i hsame
      have hne : target ≠ i := by intro e; rw [e] at hsame; exact hsame rfl
      rw [readCtl_ok h.md (by omega)] at he
      simp only [bind_ok] at he
      split at he
      · cases he
      · rename_i hempty
        have htd : t.ctl target = .deleted := by
          revert hta hempty; cases t.ctl target <;> simp [Ctl.isAvailable]
        have hts := h.live target htl
        rw [htd] at hts
        obtain ⟨x', hx'⟩ := Option.isSome_iff_exists.mp (by rw [hts]; rfl)
        rw [readNode_some htl hx'] at he
        simp only [bind_ok] at he
        obtain ⟨d, hd1, hR, hdi, _⟩ := h.swap hi hd hn htl htd htr hne hx'
        rw [hd1] at he
        simp only [bind_ok] at he
        exact ih hR hi hdi he

/-- The state after an exception in `rehash_deleted`. -/
theorem rehashDeletedThrow_spec {isa : Isa} {hash : K → Nat} {t s : Table K V} (h : Inv isa hash t) (hW : isa.W ≤ t.cap + 1)
    {q r : Nat} (he : t.rehashDeletedThrow isa q r = .ok (some s)) :
    q < t.cap ∧ Reclaim isa hash t q s ∧ s.ctl q = .deleted := by
  obtain ⟨m, hm⟩ := h.pow
  obtain ⟨m', hN⟩ : ∃ m', t.cap + 1 = 2 ^ m' * isa.W := by
    rcases pow_cases isa hm with h1 | ⟨c, h1, h2⟩
    · exact h1
    · have : (t.cap + 1) * 2 ≤ (t.cap + 1) * c := Nat.mul_le_mul_left _ h2
      omega
  obtain ⟨t0, hr0, hR0⟩ := reset_spec h hN
  unfold Table.rehashDeletedThrow at he
  cases hb : (List.range ((t.cap + isa.W - 1) / isa.W)).foldlM (fun t b => Table.resetBlock isa t (b * isa.W)) t with
  | error e => rw [hb] at hr0; simp at hr0
  | ok ta =>
    rw [hb] at hr0 he
    simp only [bind_ok] at hr0 he
    rw [hr0] at he
    simp only [bind_ok] at he
    have hc0 : t0.cap = t.cap := hR0.cap_eq
    split at he
    · rename_i hq
      obtain ⟨t1, hr1, hR1⟩ := processSlot_prefix hN hR0 (Nat.le_of_lt hq)
      rw [hr1] at he
      simp only [bind_ok] at he
      have hc1 := hR1.cap_eq
      rw [readCtl_ok hR1.md (by omega)] at he
      simp only [bind_ok] at he
      split at he
      · rename_i hd
        exact ⟨by omega, processThrow_spec r hR1 (by omega) hd he⟩
      · cases he
    · cases he

theorem Reclaim.frag {isa : Isa} {hash : K → Nat} {src s : Table K V} {q : Nat} (h : Reclaim isa hash src q s)
    (hs : src.nodes.length ≤ maxSize isa s.cap) : Frag isa hash s := by
  refine ⟨h.md, ?_, ?_, h.hash_ok, h.uniq, ?_, ?_⟩
  · intro i hi ho
    rw [h.live i hi]
    revert ho
    cases s.ctl i <;> simp [Ctl.isOccupied, Ctl.isEmpty]
  · intro i hi ho n hn
    cases hc : s.ctl i with
    | full g => rw [h.tag i hi n hn g hc]
    | _ => rw [hc] at ho; cases ho
  · intro i hi ho n hn
    obtain ⟨k, h1, h2⟩ := h.reach i hi ho n hn
    refine ⟨k, h1, fun k' hk j hj => ?_⟩
    have := h2 k' hk j hj
    revert this
    cases s.ctl (wpos isa s.cap (hashHi n.hash) k' + j) <;> simp [Ctl.isEmpty, Ctl.isAvailable]
  · refine Nat.le_trans ?_ hs
    rw [← h.nodes.length_eq, collect_length]
    refine cnt_two_le fun i hi => ?_
    rw [h.live i hi]
    cases s.ctl i <;> simp [Ctl.isOccupied, Ctl.isEmpty, Ctl.isDeleted]

/-! ### Copies -/

/-- The state after an exception in the loop of `copy_data`. -/
theorem copyDataThrow_spec {isa : Isa} {hash : K → Nat} {t u : Table K V} (h : Inv isa hash u) (ht : t.size = 0) (hraw : Raw t)
    (hshape : t.cap = 0 ∨ ((∃ m, t.cap + 1 = 2 ^ m) ∧ t.len = t.cap + isa.W)) {q : Nat} (hq : q < u.cap)
    (ho : (u.ctl q).isOccupied = true) :
    ∃ x t1, t.copyDataThrow isa u q = .ok (some x) ∧ x.cap = max t.cap u.cap ∧ x.size = 0 ∧ MetaOk isa x.cap x.len x.ctl ∧
      (∀ i, i < x.cap → (x.node i).isSome = (x.ctl i).isOccupied) ∧
      x.contents = (collect u.node q).map (fun n => (n.key, n.val)) ∧
      (do let t ← t.reallocate isa u.cap; t.fill isa) = .ok t1 ∧
      (List.range q).foldlM (Table.copyOne isa u) t1 = .ok x := by
  have hc : 0 < u.cap := by omega
  have hz : u.size ≠ 0 := by
    have h1 := h.size_eq
    have := cnt_pos_of (p := fun i => (u.ctl i).isOccupied) hq ho
    omega
  obtain ⟨t1, e1, c1, l1, r1, ctl1, p1, s1, _⟩ := copyStart (isa := isa) h.pow ht hraw hshape hc
  obtain ⟨x, f1, ⟨f2, f2', _⟩, f3, f4, f5⟩ := copyOne_prefix h hc (t1 := t1) (by omega) l1 r1 ctl1 p1 (Nat.le_of_lt hq)
  have hlive : ∀ i, i < x.cap → (x.node i).isSome = (x.ctl i).isOccupied := by
    intro i hi
    rw [f4 i (by omega), f5 i (by omega)]
    by_cases hiq : i < q
    · rw [if_pos hiq, h.live i (by omega)]
      cases hx : (u.ctl i).isOccupied
      · rw [if_neg (by simp)]; rfl
      · rw [if_pos ⟨hiq, rfl⟩, hx]
    · rw [if_neg hiq, if_neg (by intro hh; exact hiq hh.1)]; rfl
  refine ⟨x, t1, ?_, by omega, by omega, f3, hlive, ?_, e1, f1⟩
  · unfold Table.copyDataThrow
    rw [if_neg (by simp [ht]), if_neg hz]
    have e1' : (t.reallocate isa u.cap >>= fun t => t.fill isa) = .ok t1 := e1
    obtain ⟨ta, ea, eb⟩ := Dense.bind_eq_ok e1'
    simp only [ea, bind_ok, eb, readCtl_ok (h.meta_ok hc) (Nat.le_of_lt hq), hq, ho, and_self, if_true, f1]
  · unfold Table.contents Table.nodes
    congr 1
    have hcap : u.cap ≤ x.cap := by omega
    obtain ⟨d, hd⟩ : ∃ d, x.cap = q + d := ⟨x.cap - q, by omega⟩
    rw [hd]
    have : ∀ d, q + d ≤ x.cap → collect x.node (q + d) = collect u.node q := by
      intro d
      induction d with
      | zero =>
        intro _
        refine collect_congr fun i hi => ?_
        have hi : i < q := hi
        rw [f5 i (by omega), if_pos hi]
      | succ d ih =>
        intro hx
        rw [← Nat.add_assoc, collect_succ, ih (by omega), f5 (q + d) (by omega), if_neg (by omega)]
        simp
    exact this d (by omega)

theorem moveDataThrow_spec {isa : Isa} {hash : K → Nat} {t u x t1 : Table K V} (h : Inv isa hash u) (ht : t.size = 0)
    {q : Nat} (hq : q < u.cap) (ho : (u.ctl q).isOccupied = true)
    (e1 : (do let t ← t.reallocate isa u.cap; t.fill isa) = .ok t1)
    (f1 : (List.range q).foldlM (Table.copyOne isa u) t1 = .ok x) :
    t.moveDataThrow isa u q = .ok (some (x, u.without (List.range q))) := by
  have hz : u.size ≠ 0 := by
    have h1 := h.size_eq
    have := cnt_pos_of (p := fun i => (u.ctl i).isOccupied) hq ho
    omega
  unfold Table.moveDataThrow
  rw [if_neg (by simp [ht]), if_neg hz]
  have e1' : (t.reallocate isa u.cap >>= fun t => t.fill isa) = .ok t1 := e1
  obtain ⟨ta, ea, eb⟩ := Dense.bind_eq_ok e1'
  have hf := moveOne_fold (o := u) List.nodup_range rfl rfl rfl (fun _ _ => rfl) f1
  simp only [ea, bind_ok, eb, readCtl_ok (h.meta_ok (show 0 < u.cap by omega)) (Nat.le_of_lt hq), hq, ho, and_self, if_true, hf]

/-- Control bytes that mark elements where the first one is destroyed: iteration reads it. -/
theorem ghost_first {isa : Isa} {t : Table K V} (hm : MetaOk isa t.cap t.len t.ctl) {p : Nat} (hp : p < t.cap)
    (ho : (t.ctl p).isOccupied = true) (hdead : ∀ i, i ≤ p → t.node i = none) :
    t.iterate isa = .error .deadRead ∨ (isa.W = 8 ∧ t.iterate isa = .error .ctzZero) := by
  unfold Table.iterate Table.begin_
  rcases lax_toIter (Or.inr hm) (Nat.zero_le t.cap) with ⟨r, h1, h2⟩ | ⟨h1, h2⟩
  · left
    have hr : r ≤ p := by
      rcases Nat.lt_or_ge p r with q | q
      · have := h2.2.2.1 p (Nat.zero_le _) q
        rw [ho] at this
        cases this
      · exact q
    rw [h1, bind_ok]
    unfold Table.iterateFrom
    rw [lax_end (Or.inr hm), bind_ok]
    unfold Table.walk
    rw [if_neg (by omega)]
    have : t.readNode r = .error .deadRead := by
      unfold Table.readNode
      rw [if_pos (by omega), hdead r hr]
    rw [this]
    rfl
  · right
    rw [h2]
    exact ⟨h1, rfl⟩

end Tpp.Swiss
