import Verif.Swiss.Weak
import Verif.Props.SwissB

/-!
# C16, C17 exactly; C68: moves with allocators that are not propagated

`C16_copy_false` and `C17_copy_assign_false_*` show that copies may lose elements for lookups.  Here: a copy always has
the right size and iterates over the right elements, never yields a wrong value, can be destroyed, and behaves as the
source in every later history if and only if it finds every element at the time of the copy; for copy construction
this is so exactly if no element of the source lies behind a block with an unused or erased slot.
-/

set_option linter.unusedSectionVars false

namespace Tpp.Swiss

variable {K V : Type} [DecidableEq K]

/-- Everything that holds of a copy `c` of the map `m` without conditions on the source. -/
structure Shows (isa : Isa) (hash : K → Nat) (c : Table K V) (m : List (K × V)) : Prop where
  size : c.size = m.length
  iterate : Ends isa (c.iterate isa) (fun l => l.Perm m)
  lookup : ∀ k, (c.contains isa hash k = .ok true ∧ c.lookup isa hash k = .ok (Spec.lookup m k) ∧ (Spec.lookup m k).isSome = true) ∨
    (c.contains isa hash k = .ok false ∧ c.lookup isa hash k = .ok none)
  dtor : ∃ c', c.dtor = .ok c'
  whole : Behaves isa hash c m ↔ ∀ k ∈ m.map Prod.fst, c.contains isa hash k = .ok true

theorem Weak.dtor_ok {isa : Isa} {hash : K → Nat} {t : Table K V} (h : Weak isa hash t) : ∃ t', t.dtor = .ok t' := by
  have hsh : t.cap = 0 ∨ MetaOk isa t.cap t.len t.ctl := by
    rcases h.shape with h | h
    · exact Or.inl h.2
    · exact Or.inr h
  obtain ⟨f, h1, h2⟩ := eraseNodes_spec (isa := isa) hsh h.live
  unfold Table.dtor
  by_cases hz : t.size = 0
  · rw [if_neg (by simp [hz])]
    simp only [bind_ok]
    refine ⟨_, dropBuffer_spec ?_⟩
    intro i hi
    have hn : (t.node i).isSome = false := by
      cases hq : (t.node i).isSome with
      | false => rfl
      | true =>
        rw [h.live i hi] at hq
        have := cnt_pos_of (p := fun i => (t.ctl i).isOccupied) hi hq
        have := h.size_eq
        omega
    cases hq : t.node i with
    | none => rfl
    | some x => rw [hq] at hn; cases hn
  · rw [if_pos hz, h1]
    simp only [bind_ok]
    exact ⟨_, dropBuffer_spec (t := { t with node := f, size := 0 }) h2⟩

/-- If a table without the guarantee that lookups reach the elements finds all of them, it is an ordinary one. -/
theorem Weak.shows {isa : Isa} {hash : K → Nat} {c : Table K V} (h : Weak isa hash c) {m : List (K × V)} (hu : Spec.Uniq m)
    (hm : c.contents.Perm m) : Shows isa hash c m where
  size := by rw [← hm.length_eq, h.contents_length]
  iterate := (weak_iterate h).mono (by rintro l rfl; exact hm)
  lookup k := by rw [← Spec.lookup_perm hm h.contents_uniq]; exact weak_lookup h k
  dtor := h.dtor_ok
  whole := by
    constructor
    · intro hb k hk
      obtain ⟨⟨k', v⟩, hv, rfl⟩ := List.mem_map.mp hk
      rw [hb.contains, (Spec.lookup_some hu).mpr hv]
      rfl
    · intro hk
      have hr := (weak_reach_iff h).mpr fun k hkc => hk k ((hm.map _).mem_iff.mp hkc)
      exact (h.inv hr).behaves hm

/-- No element of the table lies behind a block of its probe sequence that has an unused or erased slot. -/
def Table.Connected (isa : Isa) (t : Table K V) : Prop :=
  ∀ i, i < t.cap → ∀ n, t.node i = some n → Reach isa t.cap t.ctl (·.isAvailable) (hashHi n.hash) i

theorem Reach.two {isa : Isa} {cap len len' : Nat} {ctl c : Nat → Ctl} (h : MetaOk isa cap len ctl)
    (h' : MetaOk isa cap len' c) {P Q : Ctl → Bool} (hP : ∀ i, i < cap → Q (c i) = true → P (ctl i) = true)
    (hs : Q .sentinel = true → P .sentinel = true) (he : Q .empty = true → P .empty = true)
    {p i : Nat} (hr : Reach isa cap ctl P p i) : Reach isa cap c Q p i := by
  obtain ⟨s, h1, h2⟩ := hr
  refine ⟨s, h1, fun s' hs' j hj => ?_⟩
  have hn := h2 s' hs' j hj
  have hw := wpos_le isa cap p s'
  have hq : wpos isa cap p s' + j < cap + isa.W := by omega
  generalize wpos isa cap p s' + j = q at *
  have key : Q (c q) = true → P (ctl q) = true := by
    rcases Nat.lt_trichotomy q cap with hlt | heq | hgt
    · exact hP q hlt
    · rw [heq, h.sent, h'.sent]; exact hs
    · have e1 := h.tail q hgt hq
      have e2 := h'.tail q hgt hq
      by_cases hl : q - (cap + 1) < cap
      · rw [if_pos hl] at e1 e2
        rw [e1, e2]
        exact hP _ hl
      · rw [if_neg hl] at e1 e2
        rw [e1, e2]
        exact he
  cases hq : Q (c q) with
  | false => rfl
  | true => rw [key hq] at hn; cases hn

theorem noTomb_connected {isa : Isa} {hash : K → Nat} {t : Table K V} (h : Inv isa hash t) (hn : NoTomb t) : t.Connected isa := by
  intro i hi n hni
  have hm := h.meta_ok (by omega)
  refine (h.reach i hi n hni).two hm hm ?_ (by simp [Ctl.isAvailable]) (by simp [Ctl.isEmpty])
  intro j hj
  have := hn j hj
  revert this
  cases t.ctl j <;> simp [Ctl.isAvailable, Ctl.isEmpty]

/-- What `copy_data` shows; if the buffer is no larger than the source's, when it behaves as the source. -/
theorem copyData_shows {isa : Isa} {hash : K → Nat} {x t : Table K V} (hi : Inv isa hash t) (hz : t.size ≠ 0) {m : List (K × V)}
    (hp : t.contents.Perm m) (hx : x.size = 0) (hraw : Raw x)
    (hshape : x.cap = 0 ∨ ((∃ m, x.cap + 1 = 2 ^ m) ∧ x.len = x.cap + isa.W)) :
    ∃ c, x.copyData isa t = .ok c ∧ Shows isa hash c m ∧ (x.cap ≤ t.cap → (Behaves isa hash c m ↔ t.Connected isa)) := by
  have hu : Spec.Uniq m := hi.contents_uniq.perm hp
  obtain ⟨c, h1, h2, h3, h4, h5⟩ := copyData_weak hi hz hx hraw hshape
  have hsh := h2.shows hu (h4 ▸ hp)
  refine ⟨c, h1, hsh, ?_⟩
  intro hle
  have h3 : c.cap = t.cap := by rw [h3]; exact Nat.max_eq_right hle
  have hc : 0 < t.cap := hi.cap_pos hz
  have hmt := hi.meta_ok hc
  have hmc : MetaOk isa t.cap c.len c.ctl := by have := h2.meta_ok (by omega); rw [h3] at this; exact this
  have hnode : ∀ i, i < t.cap → c.node i = t.node i := by
    intro i hi'
    obtain ⟨y, e1, e3⟩ := copyData_copied hi hx hraw hshape
    rw [h1] at e1
    cases e1
    rw [e3.node i (by omega), if_pos ⟨hz, hi'⟩]
  have hav : ∀ i, i < t.cap → ((c.ctl i).isEmpty = true ↔ (t.ctl i).isAvailable = true) := by
    intro i hi'
    rw [h5 i (by omega)]
    have := hmt.slot i hi'
    revert this
    cases t.ctl i <;> simp [Ctl.isAvailable, Ctl.isEmpty, Ctl.isOccupied, hi']
  constructor
  · intro hbc
    have hr : c.AllReach isa := (weak_reach_iff h2).mpr fun k hk => by
      rw [h4] at hk
      exact hsh.whole.mp hbc k ((hp.map _).mem_iff.mp hk)
    intro i hi' n hn
    have := hr i (by omega) n (by rw [hnode i hi']; exact hn)
    rw [h3] at this
    exact this.two hmc hmt (fun j hj hq => (hav j hj).mpr hq) (by simp [Ctl.isAvailable]) (by simp [Ctl.isEmpty])
  · intro hcon
    have hr : c.AllReach isa := by
      intro i hi' n hn
      rw [h3] at hi' ⊢
      rw [hnode i hi'] at hn
      exact (hcon i hi' n hn).two hmt hmc (fun j hj hq => (hav j hj).mp hq) (by simp [Ctl.isEmpty]) (by simp [Ctl.isAvailable])
    exact (h2.inv hr).behaves (h4 ▸ hp)

theorem connected_of_empty {isa : Isa} {hash : K → Nat} {t : Table K V} (hi : Inv isa hash t) (hz : t.size = 0) : t.Connected isa := by
  intro i hi' n hn
  rw [hi.raw_of_size hz i hi'] at hn
  cases hn

/-- C16, exactly: what the copy of any container shows, and when it behaves as the source. -/
theorem C16_copy_iff {isa : Isa} {hash : K → Nat} {t : Table K V} (h : Reachable isa hash t) {m : List (K × V)}
    (hb : Behaves isa hash t m) :
    ∃ c, Table.copyCtor isa t = .ok c ∧ Shows isa hash c m ∧ (Behaves isa hash c m ↔ t.Connected isa) := by
  have hi := h.inv
  have hp := hb.contents_perm hi
  by_cases hz : t.size = 0
  · obtain ⟨c, h1, h2, h3⟩ := copyCtor_spec hi (Or.inl hz)
    exact ⟨c, h1, h2.weak.shows (hi.contents_uniq.perm hp) (h3 ▸ hp), iff_of_true (h2.behaves (h3 ▸ hp)) (connected_of_empty hi hz)⟩
  · obtain ⟨c, h1, h2, h3⟩ := copyData_shows (x := Table.init) hi hz hp rfl (fun i hi => absurd hi (Nat.not_lt_zero _)) (Or.inl rfl)
    exact ⟨c, h1, h2, h3 (Nat.zero_le _)⟩

/-- C17, what copy assignment of a source with elements (or with a propagated allocator) shows, for all targets, and when the
target behaves as the source. -/
theorem C17_copy_assign_iff {isa : Isa} {hash hash' : K → Nat} {al : AllocP} {t a : Table K V}
    (ht : Reachable isa hash t) (ha : Reachable isa hash' a) {m : List (K × V)} (hb : Behaves isa hash' a m)
    (hz : a.size ≠ 0 ∨ al.copyProp = true) :
    ∃ c, Table.copyAssign isa al t a = .ok c ∧ Shows isa hash' c m ∧
      (al.copyProp = true ∨ t.cap ≤ a.cap → (Behaves isa hash' c m ↔ a.Connected isa)) := by
  have hi := ha.inv
  have hp := hb.contents_perm hi
  by_cases hz' : a.size = 0
  · obtain ⟨c, h1, h2, h3⟩ := copyAssign_spec (al := al) ht.inv hi (Or.inl hz') (Or.inl (hz.resolve_left (by simp [hz'])))
    exact ⟨c, h1, h2.weak.shows (hi.contents_uniq.perm hp) (h3 ▸ hp),
      fun _ => iff_of_true (h2.behaves (h3 ▸ hp)) (connected_of_empty hi hz')⟩
  · obtain ⟨f, h1, h2⟩ := ht.inv.erased
    unfold Table.copyAssign
    rw [h1, bind_ok]
    unfold Table.bufAssign
    cases al.copyProp with
    | true =>
      simp only [if_true]
      rw [dropBuffer_spec (t := { t with node := f, size := 0 }) h2, bind_ok]
      obtain ⟨c, e1, e2, e3⟩ := copyData_shows
        (x := { t with node := fun _ => none, size := 0, cap := 0, len := 0, ctl := fun _ => .empty }) hi hz' hp rfl
        (fun i hi => absurd hi (Nat.not_lt_zero _)) (Or.inl rfl)
      exact ⟨c, e1, e2, fun _ => e3 (Nat.zero_le _)⟩
    | false =>
      simp only [Bool.false_eq_true, if_false, bind_ok]
      obtain ⟨c, e1, e2, e3⟩ := copyData_shows (x := { t with node := f, size := 0 }) hi hz' hp rfl h2 ht.inv.copyShape
      exact ⟨c, e1, e2, fun q => e3 (q.resolve_left (by simp))⟩

/-- C17 is false for every empty source and every target with elements (allocator not propagated): iterating over the
target then reads a destroyed element. -/
theorem C17_copy_assign_empty_false {isa : Isa} {hash hash' : K → Nat} {al : AllocP} {t a : Table K V}
    (ht : Reachable isa hash t) (ha : Reachable isa hash' a) (hp : al.copyProp = false) (hz : a.size = 0) (hnz : t.size ≠ 0) :
    ∃ c, Table.copyAssign isa al t a = .ok c ∧
      (c.iterate isa = .error .deadRead ∨ (isa.W = 8 ∧ c.iterate isa = .error .ctzZero)) ∧
      (isa.W ≠ 8 → ¬ Behaves isa hash' c []) := by
  obtain ⟨f, h1, h2⟩ := ht.inv.erased
  have hm := ht.inv.meta_ok (ht.inv.cap_pos hnz)
  have hg := ghost_iterate (t := { t with node := f, size := 0, numEmpty := if t.cap ≠ 0 then maxSize isa t.cap else 0 }) hm h2 (by
    have := ht.inv.size_eq
    exact cnt_pos (p := fun i => (t.ctl i).isOccupied) (n := t.cap) (by omega))
  refine ⟨{ t with node := f, size := 0, numEmpty := if t.cap ≠ 0 then maxSize isa t.cap else 0 }, ?_, hg, ?_⟩
  · unfold Table.copyAssign
    rw [h1, bind_ok]
    simp only [Table.bufAssign, hp, Bool.false_eq_true, if_false, bind_ok]
    unfold Table.copyData
    rw [if_neg (by simp), if_pos hz]
  · intro hw hb
    rcases hb.iterate with ⟨l, h3, _⟩ | ⟨h3, _⟩
    · rcases hg with hg | ⟨_, hg⟩ <;> rw [hg] at h3 <;> cases h3
    · exact hw h3

/-- An empty container with 15 slots of which 14 are marked erased. -/
def scarred : Table Nat Nat :=
  after .sse2 (fun n => n * 128) (((List.range 14).map fun i => Op.insert (i + 1) i) ++ (List.range 14).map fun i => Op.erase (i + 1))

set_option maxRecDepth 100000 in
/-- C17 is false (4): assigning an empty container to an empty one in which slots are marked erased resets the budget of
unused slots but not the marks; after one insertion no unused slot is left and a lookup does not end. -/
theorem C17_copy_assign_false_scarred : ∃ t a : Table Nat Nat, Reachable .sse2 (fun n => n * 128) t ∧
    Reachable .sse2 (fun n => n * 128) a ∧ t.size = 0 ∧ a.size = 0 ∧
    (Table.copyAssign .sse2 .std t a >>= fun c => c.insert .sse2 (fun n => n * 128) 0 0 >>=
      fun r => r.1.contains .sse2 (fun n => n * 128) 3) = .error .assertFail :=
  ⟨scarred, Table.init, after_reachable _ _ _, Reachable.init _, by decide +kernel, rfl, by decide +kernel⟩

set_option maxRecDepth 100000 in
/-- The copy of `holed`: it shows all 19 elements, but has lost one for lookups; inserting that key again makes it
appear twice. -/
example : Reachable .sse2 (fun n => n % 4) holed ∧
    (Table.copyCtor .sse2 holed >>= fun c => c.iterate .sse2).map List.length = .ok 19 ∧
    (Table.copyCtor .sse2 holed >>= fun c => c.contains .sse2 (fun n => n % 4) 18) = .ok false ∧
    (Table.copyCtor .sse2 holed >>= fun c => c.contains .sse2 (fun n => n % 4) 5) = .ok true ∧
    (Table.copyCtor .sse2 holed >>= fun c => c.insert .sse2 (fun n => n % 4) 18 0 >>= fun r => r.1.iterate .sse2).map
      (fun l => l.countP (fun x => x.1 == 18)) = .ok 2 :=
  ⟨after_reachable _ _ _, by decide +kernel, by decide +kernel, by decide +kernel, by decide +kernel⟩

set_option maxRecDepth 100000 in
/-- A container with an erased slot whose copy is nevertheless faithful. -/
example : ∃ t : Table Nat Nat, Reachable .sse2 h64 t ∧ t.size = 4 ∧ ¬ NoTomb t ∧ t.Connected .sse2 := by
  refine ⟨demo, demo_reachable, by decide, ?_, ?_⟩
  · intro h
    exact h 1 (by decide) (by decide)
  · obtain ⟨c, h1, h2, h3⟩ := C16_copy_iff demo_reachable demo_behaves
    refine h3.mp (h2.whole.mpr ?_)
    have hd : ∀ k ∈ demoMap.map Prod.fst, (Table.copyCtor .sse2 demo >>= fun c => c.contains .sse2 h64 k) = .ok true := by decide
    intro k hk
    have := hd k hk
    rw [h1] at this
    exact this

/-! ## C68 -/

/-- C68, construction with an unequal allocator: what the new container shows, and when it behaves as the source did. The
source always is an empty map afterwards. -/
theorem C68_move_construct_partial {isa : Isa} {hash : K → Nat} {al : AllocP} (hal : al.equal = false) {a : Table K V}
    (ha : Reachable isa hash a) {m : List (K × V)} (hb : Behaves isa hash a m) :
    ∃ c a', Table.moveCtor isa al a = .ok (c, a') ∧ Shows isa hash c m ∧ (Behaves isa hash c m ↔ a.Connected isa) ∧
      Behaves isa hash a' [] := by
  obtain ⟨c, a', h1, h2, _, h3, h4⟩ := moveCtor_unequal ha.inv hal
  obtain ⟨c', g1, g2, g3⟩ := C16_copy_iff ha hb
  rw [h2] at g1
  cases g1
  refine ⟨c, a', h1, g2, g3, h4.behaves ?_⟩
  rw [Table.contents, h4.empty_of_size h3.size]
  exact List.Perm.refl _

/-- C68 is false for construction with an unequal allocator: as for the copy, elements may be lost for lookups. -/
theorem C68_move_construct_false : ∃ (a : Table Nat Nat) (k : Nat), Reachable .sse2 (fun n => n % 4) a ∧
    a.contains .sse2 (fun n => n % 4) k = .ok true ∧
    (Table.moveCtor .sse2 ⟨false, false, false⟩ a >>= fun c => c.1.contains .sse2 (fun n => n % 4) k) = .ok false := by
  obtain ⟨t, k, h1, h2, h3⟩ := C16_copy_false
  refine ⟨t, k, h1, h2, ?_⟩
  obtain ⟨x, y, e1, e2, _⟩ := moveCtor_unequal (al := ⟨false, false, false⟩) h1.inv rfl
  rw [e1]
  rw [e2] at h3
  exact h3

/-- C68, assignment between unequal allocators that are not propagated, the source having elements. -/
theorem C68_move_assign_unequal_partial {isa : Isa} {hash hash' : K → Nat} {al : AllocP} (he : al.equal = false)
    (hp : al.moveProp = false) {t a : Table K V} (ht : Reachable isa hash t) (ha : Reachable isa hash' a) {m : List (K × V)}
    (hb : Behaves isa hash' a m) (hz : a.size ≠ 0) :
    ∃ t' a', t.moveAssign isa al a = .ok (t', a') ∧ Shows isa hash' t' m ∧ Behaves isa hash' a' [] ∧
      (t.cap ≤ a.cap → (Behaves isa hash' t' m ↔ a.Connected isa)) := by
  obtain ⟨t', a', h1, h2, _, h3, h4⟩ := moveAssign_unequal ht.inv ha.inv he hp
  obtain ⟨c, g1, g2, g3⟩ := C17_copy_assign_iff (al := { al with copyProp := false }) ht ha hb (Or.inl hz)
  rw [h2] at g1
  cases g1
  refine ⟨t', a', h1, g2, h4.behaves ?_, fun q => g3 (Or.inr q)⟩
  rw [Table.contents, h4.empty_of_size h3.size]
  exact List.Perm.refl _

/-- C68 is false for every empty source and every target with elements, unequal allocators that are not propagated:
iterating over the target then reads a destroyed element. -/
theorem C68_move_assign_unequal_false {isa : Isa} {hash hash' : K → Nat} {al : AllocP} (he : al.equal = false)
    (hp : al.moveProp = false) {t a : Table K V} (ht : Reachable isa hash t) (ha : Reachable isa hash' a) (hz : a.size = 0)
    (hnz : t.size ≠ 0) :
    ∃ t' a', t.moveAssign isa al a = .ok (t', a') ∧
      (t'.iterate isa = .error .deadRead ∨ (isa.W = 8 ∧ t'.iterate isa = .error .ctzZero)) := by
  obtain ⟨t', a', h1, h2, _⟩ := moveAssign_unequal ht.inv ha.inv he hp
  obtain ⟨c, g1, g2, _⟩ := C17_copy_assign_empty_false (al := { al with copyProp := false }) ht ha rfl hz hnz
  rw [h2] at g1
  cases g1
  exact ⟨t', a', h1, g2⟩

/-- C68, assignment between equal allocators that are not propagated: the target behaves as the source did, the source as
an empty map if the target had no elements. -/
theorem C68_move_assign_equal_partial {isa : Isa} {hash hash' : K → Nat} {al : AllocP} (he : al.equal = true) {t a : Table K V}
    (ht : Reachable isa hash t) (ha : Reachable isa hash' a) {m : List (K × V)} (hb : Behaves isa hash' a m) :
    ∃ t' a', t.moveAssign isa al a = .ok (t', a') ∧ Behaves isa hash' t' m ∧
      (al.moveProp = true ∨ t.size = 0 → Behaves isa hash' a' []) := by
  obtain ⟨a', h1, h2, h3⟩ := moveAssign_equal (al := al) ht.inv ha.inv (by rw [he]; rfl)
  refine ⟨a, a', h1, hb, fun q => (h3 q hash').behaves ?_⟩
  rw [Table.contents, (h3 q hash').empty_of_size h2.size]
  exact List.Perm.refl _

/-- C68 is false for every target with elements, equal allocators that are not propagated: the moved-from container is left
with the control bytes of the target's destroyed elements, and iterating over it reads one of them. -/
theorem C68_move_assign_equal_false {isa : Isa} {hash : K → Nat} {al : AllocP} (he : al.equal = true) (hp : al.moveProp = false)
    {t : Table K V} (ht : Reachable isa hash t) (hnz : t.size ≠ 0) (a : Table K V) :
    ∃ t' a', t.moveAssign isa al a = .ok (t', a') ∧ a'.size = 0 ∧
      (a'.iterate isa = .error .deadRead ∨ (isa.W = 8 ∧ a'.iterate isa = .error .ctzZero)) := by
  obtain ⟨f, h1, h2⟩ := ht.inv.erased
  refine ⟨a, { t with node := f, size := 0 }, ?_, rfl, ?_⟩
  · unfold Table.moveAssign
    rw [h1, bind_ok, hp]
    simp only [Table.bufAssign, Bool.false_eq_true, if_false, bind_ok, Table.moveFrom, he, Bool.or_false, if_true, swapBuffers_eq]
  · have hc := ht.inv.size_eq
    exact ghost_iterate (t := { t with node := f, size := 0 }) (ht.inv.meta_ok (ht.inv.cap_pos hnz)) h2
      (cnt_pos (p := fun i => (t.ctl i).isOccupied) (n := t.cap) (by omega))

/-- The states of the theorems: moves of `demo` into and out of other containers. -/
example : Behaves .sse2 h64 demo demoMap ∧ demo.size = 4 ∧
    (Table.moveCtor .sse2 ⟨false, false, false⟩ demo >>= fun r => r.1.iterate .sse2) = .ok [(1, 10), (3, 33), (4, 40), (5, 50)] ∧
    (Table.moveCtor .sse2 ⟨false, false, false⟩ demo >>= fun r => r.2.iterate .sse2) = .ok [] ∧
    (Table.moveAssign .sse2 ⟨false, false, false⟩ (after .sse2 h64 [.insert 5 5]) demo >>= fun r => r.1.iterate .sse2)
      = .ok [(1, 10), (3, 33), (4, 40), (5, 50)] ∧
    (Table.moveAssign .sse2 ⟨false, false, false⟩ demo Table.init >>= fun r => r.1.iterate .sse2) = .error .deadRead ∧
    (Table.moveAssign .sse2 ⟨false, false, true⟩ demo (after .sse2 h64 [.insert 5 5]) >>= fun r => r.1.iterate .sse2) = .ok [(5, 5)] ∧
    (Table.moveAssign .sse2 ⟨false, false, true⟩ demo (after .sse2 h64 [.insert 5 5]) >>= fun r => r.2.iterate .sse2)
      = .error .deadRead :=
  ⟨demo_behaves, by decide, by decide, by decide, by decide, by decide, by decide, by decide⟩

end Tpp.Swiss
