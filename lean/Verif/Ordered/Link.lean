import Mathlib.Data.List.Nodup
import Verif.Basic

/-!
# Insertion order links (/repo/tpp/detail/table_common.hpp 102-181 `ordered_link`)

Addresses are integers.  The memory knows which addresses hold a link at present; access to any other address is the fault
`dangling`.  A link holds two byte offsets relative to its own address.  The contents of fresh storage are arbitrary (whatever
`link` says there).

Where the allocator puts a buffer is decided by a function `A` of the number of earlier allocations, the addresses in use and
the number of nodes; `Alloc.Sound` only asks that the new nodes do not overlap anything in use.
-/

set_option linter.unusedSectionVars false

namespace Tpp.Ordered

/-- The data members of `ordered_link` (table_common.hpp 178-180). -/
structure Link where
  next : Int
  prev : Int
  deriving DecidableEq, Repr

/-- The memory, as far as it holds links. -/
structure Mem where
  clock : Nat
  live : List Int
  link : Int → Link

/-- The choice of addresses by the allocator. -/
abbrev Alloc := Nat → List Int → Nat → Int

/-- Addresses of the `n` nodes of size `sz` of the array at `a`. -/
def slots (sz a : Int) (n : Nat) : List Int := (List.range n).map fun i : Nat => a + sz * (i : Int)

/-- New storage does not overlap storage in use. -/
def Alloc.Sound (sz : Int) (A : Alloc) : Prop := ∀ c live n, ∀ x ∈ slots sz (A c live n) n, x ∉ live

namespace Mem

/-- Reading the link at an address. -/
def read (m : Mem) (a : Int) : M Link := if a ∈ m.live then .ok (m.link a) else .error .dangling

/-- Writing the link at an address. -/
def write (m : Mem) (a : Int) (l : Link) : M Mem :=
  if a ∈ m.live then .ok { m with link := fun x => if x = a then l else m.link x } else .error .dangling

/-- `p->next = v`. -/
def setNext (m : Mem) (a v : Int) : M Mem := do
  let l ← m.read a
  m.write a { l with next := v }

/-- `p->prev = v`. -/
def setPrev (m : Mem) (a v : Int) : M Mem := do
  let l ← m.read a
  m.write a { l with prev := v }

/-- `p->off(p->next)` (table_common.hpp 160-161). -/
def nextOf (m : Mem) (a : Int) : M Int := do
  let l ← m.read a
  .ok (a + l.next)

/-- `p->off(p->prev)`. -/
def prevOf (m : Mem) (a : Int) : M Int := do
  let l ← m.read a
  .ok (a + l.prev)

/-- `link(next_ptr, prev_ptr)` (table_common.hpp 131-137). -/
def link2 (m : Mem) (self next prev : Int) : M Mem := do
  let m ← m.setNext self (next - self)
  let m ← m.setPrev self (prev - self)
  let l ← m.read self
  let m ← m.setPrev next (-l.next)
  let l ← m.read self
  m.setNext prev (-l.prev)

/-- `link(prev_ptr)` (table_common.hpp 130): insert behind `prev`. -/
def linkAfter (m : Mem) (self prev : Int) : M Mem := do
  let n ← m.nextOf prev
  m.link2 self n prev

/-- The first half of `relink_from` (table_common.hpp 142-146). -/
def relinkNext (m : Mem) (self other : Int) : M Mem := do
  let l ← m.read other
  if l.next ≠ 0 then
    let m ← m.setNext other 0
    let np := other + l.next
    let m ← m.setNext self (np - self)
    m.setPrev np (-(np - self))
  else .ok m

/-- The second half of `relink_from` (table_common.hpp 147-151). -/
def relinkPrev (m : Mem) (self other : Int) : M Mem := do
  let l ← m.read other
  if l.prev ≠ 0 then
    let m ← m.setPrev other 0
    let pp := other + l.prev
    let m ← m.setPrev self (pp - self)
    m.setNext pp (-(pp - self))
  else .ok m

/-- `relink_from` (table_common.hpp 139-152), which is also move construction and move assignment (122-127). -/
def relinkFrom (m : Mem) (self other : Int) : M Mem := do
  let m ← m.write self ⟨0, 0⟩
  let m ← m.relinkNext self other
  m.relinkPrev self other

/-- `unlink` (table_common.hpp 153-159): the link's own offsets stay. -/
def unlink (m : Mem) (self : Int) : M Mem := do
  let l ← m.read self
  let np := self + l.next
  let pp := self + l.prev
  let m ← m.setPrev np (pp - np)
  m.setNext pp (np - pp)

/-- `swap` member (table_common.hpp 163-167), used by the swap of two nodes (292-298, 491-497). -/
def rawSwap (m : Mem) (a b : Int) : M Mem := do
  let la ← m.read a
  let lb ← m.read b
  let m ← m.write a lb
  m.write b la

/-- `friend swap` (table_common.hpp 168-174), used by the swap of two containers (43-47, 72-76). -/
def swapHeaders (m : Mem) (a b : Int) : M Mem := do
  let an ← m.nextOf a
  let bn ← m.nextOf b
  let ap ← m.prevOf a
  let bp ← m.prevOf b
  let m ← m.link2 a bn bp
  m.link2 b an ap

/-- Copy assignment (table_common.hpp 120): the offsets are copied. -/
def copyFrom (m : Mem) (self other : Int) : M Mem := do
  let l ← m.read other
  m.write self l

/-- `*link = {}` (swiss_table.hpp 922, dense_table.hpp 352): move assignment from a default constructed link. -/
def reset (m : Mem) (self : Int) : M Mem := m.write self ⟨0, 0⟩

/-- Allocation of `n` nodes. -/
def alloc (sz : Int) (A : Alloc) (m : Mem) (n : Nat) : Mem × Int :=
  ({ m with clock := m.clock + 1, live := slots sz (A m.clock m.live n) n ++ m.live }, A m.clock m.live n)

/-- Deallocation of the `n` nodes at `a`. -/
def free (sz : Int) (m : Mem) (a : Int) (n : Nat) : M Mem :=
  if ∀ x ∈ slots sz a n, x ∈ m.live then .ok { m with live := m.live.filter fun x => x ∉ slots sz a n }
  else .error .badFree

/-- Where a link points to. -/
def nxt (m : Mem) (a : Int) : Int := a + (m.link a).next

/-- Where a link points back to. -/
def prv (m : Mem) (a : Int) : Int := a + (m.link a).prev

end Mem

/-! ## Paths -/

/-- Following `f` from `x` gives the elements of `l` and then `y`. -/
def Path (f : Int → Int) : Int → List Int → Int → Prop
  | x, [], y => f x = y
  | x, a :: l, y => f x = a ∧ Path f a l y

/-- `f` with another value at `p`. -/
def set (f : Int → Int) (p v : Int) : Int → Int := fun x => if x = p then v else f x

theorem set_same (f : Int → Int) (p v : Int) : set f p v p = v := by simp [set]

theorem set_ne (f : Int → Int) {p x : Int} (v : Int) (h : x ≠ p) : set f p v x = f x := by simp [set, h]

theorem Path.congr {f g : Int → Int} : ∀ {l : List Int} {x y : Int}, Path f x l y → (∀ z ∈ x :: l, g z = f z) → Path g x l y
  | [], x, y, h, e => by
    unfold Path at h ⊢
    rw [e x (by simp), h]
  | a :: l, x, y, h, e => by
    unfold Path at h ⊢
    refine ⟨by rw [e x (by simp), h.1], Path.congr h.2 ?_⟩
    intro z hz
    exact e z (List.mem_cons_of_mem _ hz)

theorem Path.append {f : Int → Int} : ∀ {l r : List Int} {x a y : Int}, Path f x (l ++ a :: r) y ↔ Path f x l a ∧ Path f a r y
  | [], r, x, a, y => by simp [Path]
  | b :: l, r, x, a, y => by
    rw [List.cons_append]
    simp only [Path]
    rw [Path.append (l := l)]
    constructor
    · rintro ⟨h1, h2, h3⟩; exact ⟨⟨h1, h2⟩, h3⟩
    · rintro ⟨⟨h1, h2⟩, h3⟩; exact ⟨h1, h2, h3⟩

theorem Path.last {f : Int → Int} : ∀ {l : List Int} {x y : Int}, Path f x l y → f (l.getLastD x) = y
  | [], x, y, h => h
  | a :: l, x, y, h => by
    rw [List.getLastD_cons]
    exact Path.last h.2

theorem Path.first {f : Int → Int} : ∀ {l : List Int} {x y : Int}, Path f x l y → f x = l.headD y
  | [], _, _, h => h
  | _ :: _, _, _, h => h.1

theorem getLastD_mem (l : List Int) (x : Int) : l.getLastD x ∈ x :: l := by
  rcases List.eq_nil_or_concat l with rfl | ⟨l', b, rfl⟩
  · simp
  · simp

/-- Remove `a` from the path. -/
theorem Path.remove {f : Int → Int} : ∀ {l r : List Int} {x a y : Int}, Path f x (l ++ a :: r) y → (x :: (l ++ a :: r)).Nodup →
    Path (set f (l.getLastD x) (f a)) x (l ++ r) y
  | [], [], x, a, y, h, hn => by
    simp only [List.nil_append, Path] at h
    simp [Path, set, h.2]
  | [], b :: r, x, a, y, h, hn => by
    simp only [List.nil_append, Path] at h
    simp only [List.nil_append, List.getLastD_nil, Path]
    refine ⟨by rw [set_same, h.2.1], h.2.2.congr ?_⟩
    intro z hz
    refine set_ne _ _ ?_
    rintro rfl
    simp only [List.nil_append, List.nodup_cons] at hn
    exact hn.1 (List.mem_cons_of_mem _ hz)
  | b :: l, r, x, a, y, h, hn => by
    rw [List.cons_append] at h ⊢
    simp only [Path] at h ⊢
    rw [List.cons_append, List.nodup_cons] at hn
    rw [List.getLastD_cons]
    refine ⟨?_, Path.remove h.2 hn.2⟩
    rw [set_ne, h.1]
    rintro rfl
    exact hn.1 (List.cons_subset_cons b (List.subset_append_left l _) (getLastD_mem l b))

/-- Insert `a` behind `l`. -/
theorem Path.insert {f : Int → Int} : ∀ {l r : List Int} {x a y : Int}, Path f x (l ++ r) y → (x :: (l ++ r)).Nodup →
    a ∉ x :: (l ++ r) → Path (set (set f a (f (l.getLastD x))) (l.getLastD x) a) x (l ++ a :: r) y
  | [], r, x, a, y, h, hn, ha => by
    simp only [List.nil_append, Path, List.getLastD_nil, set_same, true_and]
    simp only [List.nil_append] at h hn ha
    rw [List.mem_cons] at ha
    have hx : a ≠ x := fun e => ha (Or.inl e)
    cases r with
    | nil =>
      simp only [Path] at h ⊢
      rw [set_ne _ _ hx, set_same, h]
    | cons b r =>
      simp only [Path] at h ⊢
      rw [set_ne _ _ hx, set_same]
      refine ⟨h.1, h.2.congr ?_⟩
      intro z hz
      rw [List.nodup_cons] at hn
      rw [set_ne _ _ (by rintro rfl; exact hn.1 hz), set_ne _ _ (by rintro rfl; exact ha (Or.inr hz))]
  | b :: l, r, x, a, y, h, hn, ha => by
    rw [List.cons_append] at h ⊢
    simp only [Path] at h ⊢
    rw [List.cons_append, List.nodup_cons] at hn
    rw [List.getLastD_cons]
    rw [List.cons_append, List.mem_cons] at ha
    refine ⟨?_, Path.insert h.2 hn.2 (fun e => ha (Or.inr e))⟩
    rw [set_ne, set_ne, h.1]
    · rintro rfl; exact ha (Or.inl rfl)
    · rintro rfl
      exact hn.1 (List.cons_subset_cons b (List.subset_append_left l _) (getLastD_mem l b))

/-- Put `b` in place of `a`. -/
theorem Path.replace {f : Int → Int} {l r : List Int} {x a b y : Int} (h : Path f x (l ++ a :: r) y)
    (hn : (x :: (l ++ a :: r)).Nodup) (hb : b ∉ x :: (l ++ a :: r)) :
    Path (set (set f b (f a)) (l.getLastD x) b) x (l ++ b :: r) y := by
  have h1 := h.remove hn
  have hn1 : (x :: (l ++ r)).Nodup := by
    refine List.Nodup.sublist ?_ hn
    simp
  have hb1 : b ∉ x :: (l ++ r) := by
    simp only [List.mem_cons, List.mem_append, not_or] at hb ⊢
    exact ⟨hb.1, hb.2.1, hb.2.2.2⟩
  refine (h1.insert hn1 hb1).congr ?_
  intro z _
  generalize l.getLastD x = p
  unfold set
  by_cases e1 : z = p
  · simp [e1]
  · by_cases e2 : z = b
    · simp [e2]
    · simp [e1, e2]

/-- Another start and end of a closed path. -/
theorem Path.rebase {f : Int → Int} {l : List Int} {x x' : Int} (h : Path f x l x) (hl : l ≠ []) (hn : (x :: l).Nodup)
    (hx : x' ∉ x :: l) : Path (set (set f x' (f x)) (l.getLastD x) x') x' l x' := by
  obtain ⟨l', b, rfl⟩ := (List.eq_nil_or_concat l).resolve_left hl
  simp only [List.concat_eq_append] at h hn hx ⊢
  have e : (l' ++ [b]).getLastD x = b := by simp
  rw [e]
  rw [Path.append] at h ⊢
  obtain ⟨h1, h2⟩ := h
  have hbx : b ≠ x' := by rintro rfl; exact hx (by simp)
  refine ⟨?_, by simp [Path, set]⟩
  have hcong : ∀ z ∈ l', set (set f x' (f x)) b x' z = f z := by
    intro z hz
    rw [set_ne, set_ne]
    · rintro rfl; exact hx (by simp [hz])
    · rintro rfl
      rw [List.nodup_cons, List.nodup_append] at hn
      exact hn.2.2.2 z hz z (by simp) rfl
  cases l' with
  | nil =>
    simp only [Path] at h1 ⊢
    rw [set_ne _ _ (Ne.symm hbx), set_same, h1]
  | cons c l' =>
    simp only [Path] at h1 ⊢
    refine ⟨by rw [set_ne _ _ (Ne.symm hbx), set_same, h1.1], h1.2.congr hcong⟩

/-! ## Rings -/

/-- The links form a ring: from the header through `as` and back, in both directions, all of it in live storage. -/
structure Ring (m : Mem) (hd : Int) (as : List Int) : Prop where
  nodup : (hd :: as).Nodup
  live : ∀ a ∈ hd :: as, a ∈ m.live
  fwd : Path m.nxt hd as hd
  bwd : Path m.prv hd as.reverse hd

theorem Ring.frame {m m' : Mem} {hd : Int} {as : List Int} (h : Ring m hd as) (hl : ∀ a ∈ hd :: as, a ∈ m'.live)
    (hk : ∀ a ∈ hd :: as, m'.link a = m.link a) : Ring m' hd as where
  nodup := h.nodup
  live := hl
  fwd := h.fwd.congr fun z hz => by unfold Mem.nxt; rw [hk z hz]
  bwd := h.bwd.congr fun z hz => by
    unfold Mem.prv
    rw [hk z (by simpa using hz)]

namespace Mem

theorem read_ok {m : Mem} {a : Int} (h : a ∈ m.live) : m.read a = .ok (m.link a) := by
  unfold read; rw [if_pos h]

theorem write_ok {m : Mem} {a : Int} (h : a ∈ m.live) (l : Link) :
    m.write a l = .ok { m with link := fun x => if x = a then l else m.link x } := by
  unfold write; rw [if_pos h]

theorem setNext_ok {m : Mem} {a : Int} (h : a ∈ m.live) (v : Int) :
    m.setNext a v = .ok { m with link := fun x => if x = a then { m.link a with next := v } else m.link x } := by
  unfold setNext; rw [read_ok h, bind_ok, write_ok h]

theorem setPrev_ok {m : Mem} {a : Int} (h : a ∈ m.live) (v : Int) :
    m.setPrev a v = .ok { m with link := fun x => if x = a then { m.link a with prev := v } else m.link x } := by
  unfold setPrev; rw [read_ok h, bind_ok, write_ok h]

/-- What a link operation leaves alone. -/
structure Same (m m' : Mem) (P : Int → Prop) : Prop where
  clock : m'.clock = m.clock
  live : m'.live = m.live
  link : ∀ x, P x → m'.link x = m.link x

theorem Same.trans {m m' m'' : Mem} {P : Int → Prop} (h : Same m m' P) (h' : Same m' m'' P) : Same m m'' P :=
  ⟨h'.clock.trans h.clock, h'.live.trans h.live, fun x hx => (h'.link x hx).trans (h.link x hx)⟩

theorem Same.mono {m m' : Mem} {P Q : Int → Prop} (h : Same m m' P) (hq : ∀ x, Q x → P x) : Same m m' Q :=
  ⟨h.clock, h.live, fun x hx => h.link x (hq x hx)⟩

theorem Same.refl (m : Mem) (P : Int → Prop) : Same m m P := ⟨rfl, rfl, fun _ _ => rfl⟩

end Mem

theorem Ring.same {m m' : Mem} {hd : Int} {as : List Int} {P : Int → Prop} (h : Ring m hd as) (hs : Mem.Same m m' P)
    (hp : ∀ a ∈ hd :: as, P a) : Ring m' hd as :=
  h.frame (fun a ha => by rw [hs.live]; exact h.live a ha) (fun a ha => hs.link a (hp a ha))

theorem Mem.link2_ok {m : Mem} {self next prev : Int} (hs : self ∈ m.live) (hn : next ∈ m.live) (hp : prev ∈ m.live)
    (h1 : next ≠ self) (h2 : prev ≠ self) :
    ∃ m', m.link2 self next prev = .ok m' ∧ m'.nxt = set (set m.nxt self next) prev self ∧
      m'.prv = set (set m.prv self prev) next self ∧ Same m m' (fun x => x ≠ self ∧ x ≠ next ∧ x ≠ prev) := by
  unfold Mem.link2
  have h1' := Ne.symm h1
  have h2' := Ne.symm h2
  simp only [setNext_ok, setPrev_ok, read_ok, hs, hn, hp, bind_ok]
  refine ⟨_, rfl, ?_, ?_, ⟨rfl, rfl, ?_⟩⟩
  · funext x
    unfold Mem.nxt set
    by_cases e1 : x = prev <;> by_cases e2 : x = self <;> by_cases e3 : x = next <;>
      by_cases e4 : next = prev <;> simp_all <;> omega
  · funext x
    unfold Mem.prv set
    by_cases e1 : x = prev <;> by_cases e2 : x = self <;> by_cases e3 : x = next <;>
      by_cases e4 : next = prev <;> simp_all <;> omega
  · intro x ⟨a1, a2, a3⟩
    simp [a1, a2, a3]

theorem Path.at {f : Int → Int} : ∀ {l r : List Int} {x y : Int}, Path f x (l ++ r) y → f (l.getLastD x) = r.headD y
  | [], _, _, _, h => Path.first h
  | a :: l, r, x, y, h => by
    rw [List.getLastD_cons]
    exact Path.at (l := l) h.2

theorem headD_reverse (l : List Int) (x : Int) : l.reverse.headD x = l.getLastD x := by
  rcases List.eq_nil_or_concat l with rfl | ⟨l', b, rfl⟩ <;> simp

theorem getLastD_reverse (l : List Int) (x : Int) : l.reverse.getLastD x = l.headD x := by
  cases l <;> simp

theorem headD_mem (l : List Int) (x : Int) : l.headD x ∈ x :: l := by
  cases l <;> simp

/-- Both neighbours of a place in the ring. -/
theorem Ring.place {m : Mem} {hd : Int} {l r : List Int} (h : Ring m hd (l ++ r)) :
    m.nxt (l.getLastD hd) = r.headD hd ∧ m.prv (r.headD hd) = l.getLastD hd := by
  refine ⟨h.fwd.at, ?_⟩
  have := h.bwd
  rw [List.reverse_append] at this
  have := this.at
  rwa [getLastD_reverse, headD_reverse] at this

theorem Ring.left_mem {hd : Int} (l r : List Int) : l.getLastD hd ∈ hd :: (l ++ r) :=
  List.cons_subset_cons hd (List.subset_append_left l _) (getLastD_mem l hd)

theorem Ring.right_mem {hd : Int} (l r : List Int) : r.headD hd ∈ hd :: (l ++ r) :=
  List.cons_subset_cons hd (List.subset_append_right l _) (headD_mem r hd)

theorem Mem.nextOf_ok {m : Mem} {a : Int} (h : a ∈ m.live) : m.nextOf a = .ok (m.nxt a) := by
  unfold Mem.nextOf; rw [read_ok h]; rfl

theorem Mem.prevOf_ok {m : Mem} {a : Int} (h : a ∈ m.live) : m.prevOf a = .ok (m.prv a) := by
  unfold Mem.prevOf; rw [read_ok h]; rfl

/-- Linking a new element behind any place of the ring. -/
theorem Ring.insert {m : Mem} {hd : Int} {l r : List Int} (h : Ring m hd (l ++ r)) {a : Int} (ha : a ∈ m.live)
    (hf : a ∉ hd :: (l ++ r)) :
    ∃ m', m.linkAfter a (l.getLastD hd) = .ok m' ∧ Ring m' hd (l ++ a :: r) ∧
      Mem.Same m m' (fun x => x ≠ a ∧ x ∉ hd :: (l ++ r)) := by
  obtain ⟨p1, p2⟩ := h.place
  have hl := Ring.left_mem (hd := hd) l r
  have hr := Ring.right_mem (hd := hd) l r
  unfold Mem.linkAfter
  rw [Mem.nextOf_ok (h.live _ hl), bind_ok, p1]
  obtain ⟨m', e, hn, hp, hs⟩ := Mem.link2_ok ha (h.live _ hr) (h.live _ hl) (by rintro e; exact hf (e ▸ hr))
    (by rintro e; exact hf (e ▸ hl))
  refine ⟨m', e, ⟨?_, ?_, ?_, ?_⟩, hs.mono ?_⟩
  · have : (hd :: (l ++ a :: r)).Perm (a :: hd :: (l ++ r)) :=
      (List.perm_middle.cons hd).trans (List.Perm.swap _ _ _)
    rw [this.nodup_iff, List.nodup_cons]
    exact ⟨hf, h.nodup⟩
  · intro x hx
    rw [hs.live]
    simp only [List.mem_cons, List.mem_append] at hx
    by_cases e : x = a
    · rw [e]; exact ha
    · refine h.live x ?_
      simp only [List.mem_cons, List.mem_append]
      rcases hx with q | q | q | q
      · exact Or.inl q
      · exact Or.inr (Or.inl q)
      · exact absurd q e
      · exact Or.inr (Or.inr q)
  · rw [hn, ← p1]
    exact h.fwd.insert h.nodup hf
  · rw [hp]
    have hb := h.bwd
    rw [List.reverse_append] at hb
    have hnd : (hd :: (r.reverse ++ l.reverse)).Nodup := by
      rw [← List.reverse_append]
      exact ((List.reverse_perm _).cons hd).nodup_iff.mpr h.nodup
    have hb' := hb.insert hnd (a := a) (by
      rw [← List.reverse_append]
      exact fun e => hf (((List.reverse_perm _).cons hd).mem_iff.mp e))
    rw [getLastD_reverse, p2] at hb'
    rw [List.reverse_append, List.reverse_cons, List.append_assoc]
    exact hb'
  · intro x ⟨hx, hx'⟩
    exact ⟨hx, fun e => hx' (e ▸ hr), fun e => hx' (e ▸ hl)⟩

/-- Where an element of the ring points to. -/
theorem Ring.around {m : Mem} {hd : Int} {l r : List Int} {a : Int} (h : Ring m hd (l ++ a :: r)) :
    m.nxt a = r.headD hd ∧ m.prv a = l.getLastD hd := by
  constructor
  · exact (Path.append.mp h.fwd).2.first
  · have := h.bwd
    rw [List.reverse_append, List.reverse_cons, List.append_assoc, List.singleton_append] at this
    have := (Path.append.mp this).2.first
    rwa [headD_reverse] at this

theorem Ring.mem_around {hd : Int} (l r : List Int) (a : Int) :
    r.headD hd ∈ hd :: (l ++ a :: r) ∧ l.getLastD hd ∈ hd :: (l ++ a :: r) := by
  refine ⟨?_, Ring.left_mem l _⟩
  have := headD_mem r hd
  simp only [List.mem_cons, List.mem_append] at this ⊢
  rcases this with e | e
  · exact Or.inl e
  · exact Or.inr (Or.inr (Or.inr e))

theorem Ring.ne_around {hd : Int} {l r : List Int} {a : Int} (h : (hd :: (l ++ a :: r)).Nodup) :
    r.headD hd ≠ a ∧ l.getLastD hd ≠ a := by
  simp only [List.nodup_cons, List.mem_append, List.mem_cons, not_or, List.nodup_append] at h
  obtain ⟨⟨h1, h2, h3⟩, h4, ⟨h5, h6⟩, h7⟩ := h
  constructor
  · have := headD_mem r hd
    rw [List.mem_cons] at this
    rcases this with e | e
    · rw [e]; exact h2
    · rintro rfl; exact h5 e
  · have := getLastD_mem l hd
    rw [List.mem_cons] at this
    rcases this with e | e
    · rw [e]; exact h2
    · exact h7 _ e a (Or.inl rfl)

/-- Unlinking an element. Its own link is left alone. -/
theorem Ring.unlink {m : Mem} {hd : Int} {l r : List Int} {a : Int} (h : Ring m hd (l ++ a :: r)) :
    ∃ m', m.unlink a = .ok m' ∧ Ring m' hd (l ++ r) ∧ Mem.Same m m' (fun x => x = a ∨ x ∉ hd :: (l ++ r)) := by
  obtain ⟨p1, p2⟩ := h.around
  obtain ⟨q1, q2⟩ := Ring.mem_around (hd := hd) l r a
  obtain ⟨n1, n2⟩ := Ring.ne_around h.nodup
  have ha : a ∈ m.live := h.live a (by simp)
  unfold Mem.unlink
  rw [Mem.read_ok ha, bind_ok]
  change ∃ m', (do
    let m1 ← m.setPrev (m.nxt a) (m.prv a - m.nxt a)
    m1.setNext (m.prv a) (m.nxt a - m.prv a)) = (.ok m' : M Mem) ∧ _
  have hq2 := h.live _ q2
  simp only [p1, p2, Mem.setPrev_ok (h.live _ q1), bind_ok, Mem.setNext_ok, hq2]
  refine ⟨_, rfl, ⟨?_, ?_, ?_, ?_⟩, rfl, rfl, ?_⟩
  · refine List.Nodup.sublist ?_ h.nodup
    simp
  · intro x hx
    refine h.live x ?_
    simp only [List.mem_cons, List.mem_append] at hx ⊢
    rcases hx with q | q | q
    · exact Or.inl q
    · exact Or.inr (Or.inl q)
    · exact Or.inr (Or.inr (Or.inr q))
  · have := h.fwd.remove h.nodup
    rw [p1] at this
    refine this.congr ?_
    intro z _
    generalize l.getLastD hd = p
    generalize r.headD hd = n
    unfold Mem.nxt set
    by_cases e1 : z = p <;> by_cases e2 : z = n <;> by_cases e3 : p = n <;> simp_all <;> omega
  · have hb := h.bwd
    rw [List.reverse_append, List.reverse_cons, List.append_assoc, List.singleton_append] at hb
    have hnd : (hd :: (r.reverse ++ a :: l.reverse)).Nodup := by
      have : (r.reverse ++ a :: l.reverse) = (l ++ a :: r).reverse := by simp
      rw [this]
      exact ((List.reverse_perm _).cons hd).nodup_iff.mpr h.nodup
    have := hb.remove hnd
    rw [p2, getLastD_reverse, ← List.reverse_append] at this
    refine this.congr ?_
    intro z _
    generalize l.getLastD hd = p
    generalize r.headD hd = n
    unfold Mem.prv set
    by_cases e1 : z = p <;> by_cases e2 : z = n <;> by_cases e3 : p = n <;> simp_all <;> omega
  · intro x hx
    have hl := Ring.left_mem (hd := hd) l r
    have hr := Ring.right_mem (hd := hd) l r
    rcases hx with e | e
    · subst e; simp only [if_neg (Ne.symm n1), if_neg (Ne.symm n2)]
    · have e1 : x ≠ r.headD hd := fun q => e (q ▸ hr)
      have e2 : x ≠ l.getLastD hd := fun q => e (q ▸ hl)
      simp only [if_neg e1, if_neg e2]

/-- `relink_from` a link that is part of a ring with another link. -/
theorem Mem.relinkFrom_ok {m : Mem} {self other : Int} (hs : self ∈ m.live) (ho : other ∈ m.live) (hn : m.nxt other ∈ m.live)
    (hp : m.prv other ∈ m.live) (h0 : self ≠ other) (h1 : m.nxt other ≠ other) (h2 : m.prv other ≠ other)
    (h3 : m.nxt other ≠ self) (h4 : m.prv other ≠ self) :
    ∃ m', m.relinkFrom self other = .ok m' ∧
      m'.nxt = set (set (set m.nxt other other) self (m.nxt other)) (m.prv other) self ∧
      m'.prv = set (set (set m.prv other other) self (m.prv other)) (m.nxt other) self ∧
      Same m m' (fun x => x ≠ self ∧ x ≠ other ∧ x ≠ m.nxt other ∧ x ≠ m.prv other) := by
  have z1 : (m.link other).next ≠ 0 := by
    intro e; apply h1; unfold Mem.nxt; rw [e]; omega
  have z2 : (m.link other).prev ≠ 0 := by
    intro e; apply h2; unfold Mem.prv; rw [e]; omega
  have h0' := Ne.symm h0
  have h1' := Ne.symm h1
  have h2' := Ne.symm h2
  have h3' := Ne.symm h3
  have h4' := Ne.symm h4
  have en : other + (m.link other).next = m.nxt other := rfl
  have ep : other + (m.link other).prev = m.prv other := rfl
  unfold Mem.relinkFrom Mem.relinkNext Mem.relinkPrev
  simp only [write_ok, setNext_ok, setPrev_ok, read_ok, hs, ho, hn, bind_ok, if_neg h0', z1, ne_eq, not_false_eq_true, if_true,
    en, ep, if_neg h1', hp, z2]
  generalize hn' : m.nxt other = n at *
  generalize hp' : m.prv other = p at *
  refine ⟨_, rfl, ?_, ?_, ⟨rfl, rfl, ?_⟩⟩
  · funext x
    unfold Mem.nxt set
    by_cases e1 : x = p <;> by_cases e2 : x = self <;> by_cases e3 : x = n <;> by_cases e5 : x = other <;>
      by_cases e4 : n = p <;> simp_all <;> omega
  · funext x
    unfold Mem.prv set
    by_cases e1 : x = p <;> by_cases e2 : x = self <;> by_cases e3 : x = n <;> by_cases e5 : x = other <;>
      by_cases e4 : n = p <;> simp_all <;> omega
  · intro x ⟨a1, a2, a3, a4⟩
    simp [a1, a2, a3, a4]

/-- Moving an element of the ring to another address. -/
theorem Ring.relink {m : Mem} {hd : Int} {l r : List Int} {a b : Int} (h : Ring m hd (l ++ a :: r)) (hb : b ∈ m.live)
    (hf : b ∉ hd :: (l ++ a :: r)) :
    ∃ m', m.relinkFrom b a = .ok m' ∧ Ring m' hd (l ++ b :: r) ∧
      Mem.Same m m' (fun x => x ≠ b ∧ x ∉ hd :: (l ++ a :: r)) := by
  obtain ⟨p1, p2⟩ := h.around
  obtain ⟨q1, q2⟩ := Ring.mem_around (hd := hd) l r a
  obtain ⟨n1, n2⟩ := Ring.ne_around h.nodup
  have hma : a ∈ hd :: (l ++ a :: r) := by simp
  have hba : b ≠ a := fun e => hf (e ▸ hma)
  obtain ⟨m', e, hn, hp, hs⟩ := Mem.relinkFrom_ok hb (h.live a hma) (by rw [p1]; exact h.live _ q1)
    (by rw [p2]; exact h.live _ q2) hba (by rw [p1]; exact n1) (by rw [p2]; exact n2)
    (by rw [p1]; exact fun e => hf (e ▸ q1)) (by rw [p2]; exact fun e => hf (e ▸ q2))
  have hperm : (hd :: (l ++ b :: r)).Perm (b :: hd :: (l ++ r)) := (List.perm_middle.cons hd).trans (List.Perm.swap _ _ _)
  have hsub : List.Sublist (hd :: (l ++ r)) (hd :: (l ++ a :: r)) := by simp
  refine ⟨m', e, ⟨?_, ?_, ?_, ?_⟩, hs.mono ?_⟩
  · rw [hperm.nodup_iff, List.nodup_cons]
    exact ⟨fun e => hf (hsub.subset e), h.nodup.sublist hsub⟩
  · intro x hx
    rw [hs.live]
    rcases List.mem_cons.mp (hperm.mem_iff.mp hx) with e | e
    · rw [e]; exact hb
    · exact h.live x (hsub.subset e)
  · rw [hn, p2]
    refine (h.fwd.replace h.nodup hf).congr ?_
    intro z hz
    have : z ≠ a := by
      rintro rfl
      rcases List.mem_cons.mp (hperm.mem_iff.mp hz) with e | e
      · exact hba e.symm
      · have := (List.perm_middle.cons hd).trans (List.Perm.swap z hd (l ++ r)) |>.nodup_iff.mp h.nodup
        exact (List.nodup_cons.mp this).1 e
    unfold set
    by_cases e1 : z = l.getLastD hd
    · simp only [e1, if_true]
    · by_cases e2 : z = b
      · simp only [e2, if_true]
      · simp only [if_neg e1, if_neg e2, if_neg this]
  · rw [hp, p1]
    have hb' := h.bwd
    rw [List.reverse_append, List.reverse_cons, List.append_assoc, List.singleton_append] at hb'
    have erev : (r.reverse ++ a :: l.reverse) = (l ++ a :: r).reverse := by simp
    have hnd : (hd :: (r.reverse ++ a :: l.reverse)).Nodup := by
      rw [erev]
      exact ((List.reverse_perm _).cons hd).nodup_iff.mpr h.nodup
    have := hb'.replace hnd (b := b) (by
      rw [erev]
      exact fun e => hf (((List.reverse_perm _).cons hd).mem_iff.mp e))
    rw [getLastD_reverse] at this
    rw [List.reverse_append, List.reverse_cons, List.append_assoc, List.singleton_append]
    refine this.congr ?_
    intro z hz
    have hz' : z ∈ hd :: (l ++ b :: r) := by
      simp only [List.mem_cons, List.mem_append, List.mem_reverse] at hz ⊢
      rcases hz with q | q | q | q
      · exact Or.inl q
      · exact Or.inr (Or.inr (Or.inr q))
      · exact Or.inr (Or.inr (Or.inl q))
      · exact Or.inr (Or.inl q)
    have : z ≠ a := by
      rintro rfl
      rcases List.mem_cons.mp (hperm.mem_iff.mp hz') with e | e
      · exact hba e.symm
      · have := (List.perm_middle.cons hd).trans (List.Perm.swap z hd (l ++ r)) |>.nodup_iff.mp h.nodup
        exact (List.nodup_cons.mp this).1 e
    unfold set
    by_cases e1 : z = r.headD hd
    · simp only [e1, if_true]
    · by_cases e2 : z = b
      · simp only [e2, if_true]
      · simp only [if_neg e1, if_neg e2, if_neg this]
  · intro x ⟨hx, hx'⟩
    exact ⟨hx, fun e => hx' (e ▸ hma), fun e => hx' (e ▸ p1 ▸ q1), fun e => hx' (e ▸ p2 ▸ q2)⟩

/-- The ring of an empty container. -/
theorem Ring.nil_iff {m : Mem} {hd : Int} : Ring m hd [] ↔ hd ∈ m.live ∧ m.link hd = ⟨0, 0⟩ := by
  constructor
  · intro h
    refine ⟨h.live hd (by simp), ?_⟩
    have h1 : hd + (m.link hd).next = hd := h.fwd
    have h2 : hd + (m.link hd).prev = hd := h.bwd
    have e : m.link hd = ⟨(m.link hd).next, (m.link hd).prev⟩ := rfl
    rw [e]
    congr <;> omega
  · rintro ⟨h1, h2⟩
    refine ⟨by simp, by simpa using h1, ?_, ?_⟩
    · change hd + (m.link hd).next = hd
      rw [h2]; exact Int.add_zero _
    · change hd + (m.link hd).prev = hd
      rw [h2]; exact Int.add_zero _

/-- Moving the header: the old one is left with an empty ring. -/
theorem Ring.rebase {m : Mem} {hd hd' : Int} {as : List Int} (h : Ring m hd as) (hb : hd' ∈ m.live) (hf : hd' ∉ hd :: as) :
    ∃ m', m.relinkFrom hd' hd = .ok m' ∧ Ring m' hd' as ∧ Ring m' hd [] ∧
      Mem.Same m m' (fun x => x ≠ hd' ∧ x ∉ hd :: as) := by
  have hhd : hd ∈ m.live := h.live hd (by simp)
  have hne : hd' ≠ hd := fun e => hf (by simp [e])
  by_cases has : as = []
  · subst has
    obtain ⟨_, h2⟩ := Ring.nil_iff.mp h
    unfold Mem.relinkFrom Mem.relinkNext Mem.relinkPrev
    simp only [Mem.write_ok hb, bind_ok, Mem.read_ok, hhd, if_neg (Ne.symm hne), h2, ne_eq,
      not_true_eq_false, if_false]
    refine ⟨_, rfl, ?_, ?_, rfl, rfl, ?_⟩
    · rw [Ring.nil_iff]; exact ⟨hb, by simp⟩
    · rw [Ring.nil_iff]; exact ⟨hhd, by simp [Ne.symm hne, h2]⟩
    · intro x ⟨hx, _⟩; simp [hx]
  · have h1 : m.nxt hd = as.headD hd := h.fwd.first
    have h2 : m.prv hd = as.getLastD hd := by rw [← headD_reverse]; exact h.bwd.first
    have q1 : as.headD hd ∈ hd :: as := headD_mem as hd
    have q2 : as.getLastD hd ∈ hd :: as := getLastD_mem as hd
    have hnd := List.nodup_cons.mp h.nodup
    have hdmem : as.headD hd ∈ as := by
      cases as with
      | nil => exact absurd rfl has
      | cons a as => simp
    have glmem : as.getLastD hd ∈ as := by
      obtain ⟨l', b, rfl⟩ := (List.eq_nil_or_concat as).resolve_left has
      simp
    have n1 : as.headD hd ≠ hd := fun e => hnd.1 (e ▸ hdmem)
    have n2 : as.getLastD hd ≠ hd := fun e => hnd.1 (e ▸ glmem)
    obtain ⟨m', e, hn, hp, hs⟩ := Mem.relinkFrom_ok hb hhd (by rw [h1]; exact h.live _ q1) (by rw [h2]; exact h.live _ q2) hne
      (by rw [h1]; exact n1) (by rw [h2]; exact n2) (by rw [h1]; exact fun e => hf (e ▸ q1))
      (by rw [h2]; exact fun e => hf (e ▸ q2))
    have hnd' : (hd' :: as).Nodup := List.nodup_cons.mpr ⟨fun e => hf (List.mem_cons_of_mem _ e), hnd.2⟩
    have key : ∀ (f : Int → Int) (p n : Int), p ∈ as → ∀ z ∈ hd' :: as,
        set (set (set f hd hd) hd' n) p hd' z = set (set f hd' n) p hd' z := by
      intro f p n hp z hz
      have : z ≠ hd := by
        rintro rfl
        rcases List.mem_cons.mp hz with e | e
        · exact hne e.symm
        · exact hnd.1 e
      unfold set
      simp only [if_neg this]
    refine ⟨m', e, ⟨hnd', ?_, ?_, ?_⟩, ?_, hs.mono ?_⟩
    · intro x hx
      rw [hs.live]
      rcases List.mem_cons.mp hx with e | e
      · rw [e]; exact hb
      · exact h.live x (List.mem_cons_of_mem _ e)
    · rw [hn, h2]
      exact (h.fwd.rebase has h.nodup hf).congr (key m.nxt _ _ glmem)
    · rw [hp, h1]
      have hr := h.bwd.rebase (by simpa using has) (((List.reverse_perm _).cons hd).nodup_iff.mpr h.nodup) (by simpa using hf)
      rw [getLastD_reverse] at hr
      refine hr.congr ?_
      intro z hz
      exact key m.prv _ _ hdmem z (by simpa using hz)
    · refine ⟨by simp, ?_, ?_, ?_⟩
      · intro x hx
        rw [hs.live, List.mem_singleton.mp hx]
        exact hhd
      · change m'.nxt hd = hd
        rw [hn, h2, set_ne _ _ (Ne.symm n2), set_ne _ _ (Ne.symm hne), set_same]
      · change m'.prv hd = hd
        rw [hp, h1, set_ne _ _ (Ne.symm n1), set_ne _ _ (Ne.symm hne), set_same]
    · intro x ⟨hx, hx'⟩
      exact ⟨hx, fun e => hx' (by simp [e]), fun e => hx' (e ▸ h1 ▸ q1), fun e => hx' (e ▸ h2 ▸ q2)⟩

end Tpp.Ordered
