import Verif.Ordered.Ring

/-!
# Attaching a chain of nodes to a header: copies and swaps of ordered containers
-/

set_option linter.unusedSectionVars false

namespace Tpp.Ordered

/-- The nodes `as` are linked in both directions; where the ends point to does not matter. -/
structure Chain (m : Mem) (as : List Int) : Prop where
  nodup : as.Nodup
  live : ∀ a ∈ as, a ∈ m.live
  fwd : ∀ a r, as = a :: r → ∃ y, Path m.nxt a r y
  bwd : ∀ a r, as.reverse = a :: r → ∃ y, Path m.prv a r y

theorem Ring.chain {m : Mem} {hd : Int} {as : List Int} (h : Ring m hd as) : Chain m as where
  nodup := (List.nodup_cons.mp h.nodup).2
  live := fun a ha => h.live a (List.mem_cons_of_mem _ ha)
  fwd := by
    rintro a r rfl
    exact ⟨hd, h.fwd.2⟩
  bwd := by
    intro a r e
    have := h.bwd
    rw [e] at this
    exact ⟨hd, this.2⟩

theorem Chain.frame {m m' : Mem} {as : List Int} (h : Chain m as) (hl : ∀ a ∈ as, a ∈ m'.live) (hk : ∀ a ∈ as, m'.link a = m.link a) :
    Chain m' as where
  nodup := h.nodup
  live := hl
  fwd := by
    intro a r e
    obtain ⟨y, hy⟩ := h.fwd a r e
    refine ⟨y, hy.congr ?_⟩
    intro z hz
    unfold Mem.nxt
    rw [hk z (by rw [e]; exact hz)]
  bwd := by
    intro a r e
    obtain ⟨y, hy⟩ := h.bwd a r e
    refine ⟨y, hy.congr ?_⟩
    intro z hz
    unfold Mem.prv
    rw [hk z (by rw [← List.mem_reverse, e]; exact hz)]

theorem getLastD_cons' (b : Int) (r : List Int) (a : Int) : (b :: r).getLastD a = r.getLastD b := by
  cases r <;> simp [List.getLastD]

/-- Letting the end of a path point elsewhere. -/
theorem Path.retarget {f : Int → Int} (z : Int) : ∀ {r : List Int} {a y : Int}, Path f a r y → (a :: r).Nodup →
    Path (set f (r.getLastD a) z) a r z
  | [], a, y, _, _ => set_same _ _ _
  | b :: r, a, y, h, hn => by
    have hn' := List.nodup_cons.mp hn
    have ih := Path.retarget z h.2 hn'.2
    have e : (b :: r).getLastD a = r.getLastD b := getLastD_cons' b r a
    rw [e]
    refine ⟨?_, ih⟩
    rw [set_ne, h.1]
    intro q
    exact hn'.1 (q ▸ getLastD_mem r b)

/-- `link(first, last)` on a header makes a ring of a chain (table_common.hpp 131-137). -/
theorem Chain.adopt {m : Mem} {as : List Int} (h : Chain m as) (has : as ≠ []) {hd : Int} (hl : hd ∈ m.live) (hn : hd ∉ as) :
    ∃ m', m.link2 hd (as.headD hd) (as.getLastD hd) = .ok m' ∧ Ring m' hd as ∧ Mem.Same m m' (fun x => x ∉ hd :: as) := by
  have hdmem : as.headD hd ∈ as := by
    cases as with
    | nil => exact absurd rfl has
    | cons a as => simp
  have glmem : as.getLastD hd ∈ as := by
    obtain ⟨l', b, rfl⟩ := (List.eq_nil_or_concat as).resolve_left has
    simp
  have hnd : (hd :: as).Nodup := List.nodup_cons.mpr ⟨hn, h.nodup⟩
  obtain ⟨m', e, h1, h2, h3⟩ := Mem.link2_ok hl (h.live _ hdmem) (h.live _ glmem) (fun q => hn (q ▸ hdmem)) (fun q => hn (q ▸ glmem))
  refine ⟨m', e, ⟨hnd, ?_, ?_, ?_⟩, h3.mono ?_⟩
  · intro a ha
    rw [h3.live]
    rcases List.mem_cons.mp ha with q | q
    · rw [q]; exact hl
    · exact h.live a q
  · rw [h1]
    obtain ⟨a, r, e⟩ := List.exists_cons_of_ne_nil has
    obtain ⟨y, hy⟩ := h.fwd a r e
    subst e
    have hr := hy.retarget hd h.nodup
    refine ⟨?_, hr.congr ?_⟩
    · rw [set_ne, set_same]
      · rfl
      · intro q; exact hn (q ▸ glmem)
    · intro z hz
      have hz' : z ≠ hd := fun q => hn (q ▸ hz)
      have e : (a :: r).getLastD hd = r.getLastD a := getLastD_cons' a r hd
      rw [e]
      unfold set
      simp only [if_neg hz']
  · rw [h2]
    obtain ⟨a, r, e⟩ := List.exists_cons_of_ne_nil (l := as.reverse) (by simpa using has)
    obtain ⟨y, hy⟩ := h.bwd a r e
    have hr := hy.retarget hd (by rw [← e]; exact List.nodup_reverse.mpr h.nodup)
    have e1 : as.getLastD hd = a := by rw [← headD_reverse, e]; rfl
    have e2 : as.headD hd = r.getLastD a := by
      rw [← getLastD_reverse, e, getLastD_cons']
    rw [e, e1, e2]
    refine ⟨?_, hr.congr ?_⟩
    · rw [set_ne, set_same]
      rw [← e2]
      intro q; exact hn (q ▸ hdmem)
    · intro z hz
      have hz' : z ≠ hd := fun q => hn (by rw [← List.mem_reverse, e, ← q]; exact hz)
      unfold set
      simp only [if_neg hz']
  · intro x hx
    rw [List.mem_cons, not_or] at hx
    exact ⟨hx.1, fun q => hx.2 (q ▸ hdmem), fun q => hx.2 (q ▸ glmem)⟩

theorem Mem.setNext_same {m : Mem} {a v : Int} (ha : a ∈ m.live) (h : (m.link a).next = v) : m.setNext a v = .ok m := by
  subst h
  unfold Mem.setNext
  rw [Mem.read_ok ha, bind_ok, Mem.write_ok ha]
  congr 1
  cases m
  simp only [Mem.mk.injEq, true_and]
  funext x
  split
  · rename_i q; rw [q]
  · rfl

theorem Mem.setPrev_same {m : Mem} {a v : Int} (ha : a ∈ m.live) (h : (m.link a).prev = v) : m.setPrev a v = .ok m := by
  subst h
  unfold Mem.setPrev
  rw [Mem.read_ok ha, bind_ok, Mem.write_ok ha]
  congr 1
  cases m
  simp only [Mem.mk.injEq, true_and]
  funext x
  split
  · rename_i q; rw [q]
  · rfl

/-- Swapping the header of a ring with itself writes what is there already, whether the ring is empty or not. -/
theorem swapHeaders_self {m : Mem} {a : Int} {as : List Int} (h : Ring m a as) : m.swapHeaders a a = .ok m := by
  have la : a ∈ m.live := h.live a (by simp)
  obtain ⟨p1, p2⟩ := Ring.place (l := []) (r := as) (by simpa using h)
  obtain ⟨q1, q2⟩ := Ring.place (l := as) (r := []) (by simpa using h)
  have hn := h.live _ (headD_mem as a)
  have hp := h.live _ (getLastD_mem as a)
  simp only [List.getLastD_nil, List.headD_nil] at p1 p2 q1 q2
  have link : m.link2 a (as.headD a) (as.getLastD a) = .ok m := by
    unfold Mem.link2
    unfold Mem.nxt at p1 q1
    unfold Mem.prv at p2 q2
    rw [Mem.setNext_same la (by omega), bind_ok, Mem.setPrev_same la (by omega), bind_ok, Mem.read_ok la, bind_ok,
      Mem.setPrev_same hn (by omega), bind_ok, Mem.read_ok la, bind_ok, Mem.setNext_same hp (by omega)]
  unfold Mem.swapHeaders
  rw [Mem.nextOf_ok la, bind_ok, bind_ok, Mem.prevOf_ok la, bind_ok, bind_ok, p1, q2, link, bind_ok, link]

/-- Swapping the headers of two rings that are not empty. -/
theorem swapHeaders_ok {m : Mem} {a b : Int} {as bs : List Int} (ha : Ring m a as) (hb : Ring m b bs) (has : as ≠ []) (hbs : bs ≠ [])
    (hd : ∀ x ∈ a :: as, x ∉ b :: bs) :
    ∃ m', m.swapHeaders a b = .ok m' ∧ Ring m' a bs ∧ Ring m' b as ∧ Mem.Same m m' (fun x => x ∉ a :: as ∧ x ∉ b :: bs) := by
  have la : a ∈ m.live := ha.live a (by simp)
  have lb : b ∈ m.live := hb.live b (by simp)
  have hab : a ∉ bs := fun q => hd a (by simp) (List.mem_cons_of_mem _ q)
  have hba : b ∉ as := fun q => hd b (List.mem_cons_of_mem _ q) (by simp)
  have hne : a ≠ b := fun q => hd a (by simp) (by simp [q])
  have n1 : m.nxt a = as.headD b := by
    rw [ha.fwd.first]
    obtain ⟨x, r, rfl⟩ := List.exists_cons_of_ne_nil has
    rfl
  have n2 : m.nxt b = bs.headD a := by
    rw [hb.fwd.first]
    obtain ⟨x, r, rfl⟩ := List.exists_cons_of_ne_nil hbs
    rfl
  have p1 : m.prv a = as.getLastD b := by
    rw [ha.bwd.first, headD_reverse]
    obtain ⟨x, r, rfl⟩ := List.exists_cons_of_ne_nil has
    rfl
  have p2 : m.prv b = bs.getLastD a := by
    rw [hb.bwd.first, headD_reverse]
    obtain ⟨x, r, rfl⟩ := List.exists_cons_of_ne_nil hbs
    rfl
  obtain ⟨m1, e1, r1, s1⟩ := hb.chain.adopt hbs la hab
  have hdis : ∀ x ∈ as, x ∉ a :: bs := by
    intro x hx q
    rcases List.mem_cons.mp q with q | q
    · exact (List.nodup_cons.mp ha.nodup).1 (q ▸ hx)
    · exact hd x (List.mem_cons_of_mem _ hx) (List.mem_cons_of_mem _ q)
  have c2 : Chain m1 as := ha.chain.frame (fun x hx => by rw [s1.live]; exact ha.chain.live x hx) (fun x hx => s1.link x (hdis x hx))
  obtain ⟨m2, e2, r2, s2⟩ := c2.adopt has (by rw [s1.live]; exact lb) hba
  refine ⟨m2, ?_, r1.same s2 ?_, r2, ⟨by rw [s2.clock, s1.clock], by rw [s2.live, s1.live], ?_⟩⟩
  · unfold Mem.swapHeaders
    rw [Mem.nextOf_ok la, bind_ok, Mem.nextOf_ok lb, bind_ok, Mem.prevOf_ok la, bind_ok, Mem.prevOf_ok lb, bind_ok, n1, n2, p1, p2, e1,
      bind_ok, e2]
  · intro x hx q
    rcases List.mem_cons.mp hx with h | h
    · rcases List.mem_cons.mp q with g | g
      · exact hne (h.symm.trans g)
      · exact (List.nodup_cons.mp ha.nodup).1 (h ▸ g)
    · rcases List.mem_cons.mp q with g | g
      · exact (List.nodup_cons.mp hb.nodup).1 (g ▸ h)
      · exact hd x (List.mem_cons_of_mem _ g) (List.mem_cons_of_mem _ h)
  · intro x ⟨h1, h2⟩
    rw [List.mem_cons, not_or] at h1 h2
    rw [s2.link x, s1.link x]
    · rw [List.mem_cons, not_or]; exact ⟨h1.1, h2.2⟩
    · rw [List.mem_cons, not_or]; exact ⟨h2.1, h1.2⟩

/-- Copying the offsets of the listed nodes. -/
theorem copyAll_ok {f g : Nat → Int} : ∀ {js : List Nat} {m : Mem}, js.Nodup → (∀ i ∈ js, f i ∈ m.live) → (∀ i ∈ js, g i ∈ m.live) →
    (∀ i ∈ js, ∀ j ∈ js, g i = g j → i = j) → (∀ i ∈ js, ∀ j ∈ js, g i ≠ f j) →
    ∃ m', js.foldlM (fun (m : Mem) (i : Nat) => m.copyFrom (g i) (f i)) m = .ok m' ∧ (∀ i ∈ js, m'.link (g i) = m.link (f i)) ∧
      Mem.Same m m' (fun x => ∀ i ∈ js, x ≠ g i)
  | [], m, _, _, _, _, _ => ⟨m, rfl, fun _ h => (by cases h), Mem.Same.refl _ _⟩
  | i :: js, m, hn, hf, hg, hinj, hne => by
    have hn' := List.nodup_cons.mp hn
    have e0 : m.copyFrom (g i) (f i) = .ok { m with link := fun x => if x = g i then m.link (f i) else m.link x } := by
      unfold Mem.copyFrom
      rw [Mem.read_ok (hf i (by simp)), bind_ok, Mem.write_ok (hg i (by simp))]
    obtain ⟨m', e, h1, h2⟩ := copyAll_ok (f := f) (g := g) (js := js)
      (m := { m with link := fun x => if x = g i then m.link (f i) else m.link x }) hn'.2
      (fun j hj => hf j (List.mem_cons_of_mem _ hj)) (fun j hj => hg j (List.mem_cons_of_mem _ hj))
      (fun a ha b hb => hinj a (List.mem_cons_of_mem _ ha) b (List.mem_cons_of_mem _ hb))
      (fun a ha b hb => hne a (List.mem_cons_of_mem _ ha) b (List.mem_cons_of_mem _ hb))
    refine ⟨m', ?_, ?_, ⟨h2.clock, h2.live, ?_⟩⟩
    · rw [List.foldlM_cons, e0, bind_ok, e]
    · intro j hj
      rcases List.mem_cons.mp hj with q | q
      · subst q
        rw [h2.link (g j) (fun a ha q => hn'.1 (hinj j (by simp) a (List.mem_cons_of_mem _ ha) q ▸ ha))]
        simp
      · rw [h1 j q]
        simp only
        rw [if_neg (fun z => hne i (by simp) j hj z.symm)]
    · intro x hx
      rw [h2.link x (fun a ha => hx a (List.mem_cons_of_mem _ ha))]
      simp only
      rw [if_neg (hx i (by simp))]

theorem Path.shift {f f' : Int → Int} {d : Int} : ∀ {r : List Int} {a y : Int}, Path f a r y → (∀ x ∈ a :: r, f' (x + d) = f x + d) →
    Path f' (a + d) (r.map (· + d)) (y + d)
  | [], a, y, h, hf => by
    change f' (a + d) = y + d
    rw [hf a (by simp), show f a = y from h]
  | b :: r, a, y, h, hf => by
    refine ⟨?_, Path.shift h.2 (fun x hx => hf x (List.mem_cons_of_mem _ hx))⟩
    rw [hf a (by simp), h.1]

/-- Nodes whose offsets were copied form a chain as well, since the offsets are relative. -/
theorem Chain.shift {m m' : Mem} {as : List Int} {d : Int} (h : Chain m as) (hl : ∀ a ∈ as, a + d ∈ m'.live)
    (hk : ∀ a ∈ as, m'.link (a + d) = m.link a) : Chain m' (as.map (· + d)) where
  nodup := h.nodup.map (fun a b e => by simp at e; exact e)
  live := by
    intro a ha
    rw [List.mem_map] at ha
    obtain ⟨x, hx, rfl⟩ := ha
    exact hl x hx
  fwd := by
    intro a r e
    cases as with
    | nil => cases e
    | cons a' r' =>
      rw [List.map_cons] at e
      cases e
      obtain ⟨y, hy⟩ := h.fwd a' r' rfl
      refine ⟨y + d, hy.shift ?_⟩
      intro x hx
      unfold Mem.nxt
      rw [hk x hx]
      omega
  bwd := by
    intro a r e
    rw [← List.map_reverse] at e
    cases hr : as.reverse with
    | nil => rw [hr] at e; cases e
    | cons a' r' =>
      rw [hr, List.map_cons] at e
      cases e
      obtain ⟨y, hy⟩ := h.bwd a' r' hr
      refine ⟨y + d, hy.shift ?_⟩
      intro x hx
      unfold Mem.prv
      rw [hk x (by rw [← List.mem_reverse, hr]; exact hx)]
      omega

end Tpp.Ordered
