import Verif.Swiss.Blocks

/-!
# Each block is owned by exactly one container or node handle
-/

set_option linter.unusedSectionVars false

namespace Tpp.Swiss

variable {K W : Type} [DecidableEq K]

/-- The blocks the elements of a table are in, with the allocator they are to be returned to. -/
def own (al : Nat) (t : Table K (Nat × W)) : List (Nat × Nat) := t.contents.map fun x => (x.2.1, al)

/-- The blocks a container or handle has to free. -/
def Res.own : Res K W → List (Nat × Nat)
  | .cont c => Swiss.own c.al c.t
  | .node h => h.cell.toList.map fun x => (x.2.1, h.al)

/-- The tables are usable. -/
def Res.Ok (isa : Isa) (hash : K → Nat) : Res K W → Prop
  | .cont c => Inv isa hash c.t
  | .node _ => True

/-- The blocks of all of them. -/
def ownAll (rs : List (Res K W)) : List (Nat × Nat) := rs.flatMap Res.own

/-- The live blocks are those owned by `rs`, each by one owner, and those in `R`; no address occurs twice. -/
structure Sound (isa : Isa) (hash : K → Nat) (b : Blocks) (rs : List (Res K W)) (R : List (Nat × Nat)) : Prop where
  ok : ∀ r ∈ rs, r.Ok isa hash
  held : b.live.Perm (ownAll rs ++ R)
  nodup : (b.live.map Prod.fst).Nodup

theorem free_of_perm {b : Blocks} {al a : Nat} {L : List (Nat × Nat)} (h : b.live.Perm ((a, al) :: L))
    (hn : (b.live.map Prod.fst).Nodup) :
    ∃ b', b.free al a = .ok b' ∧ b'.live.Perm L ∧ (b'.live.map Prod.fst).Nodup := by
  have hm : (a, al) ∈ b.live := h.mem_iff.mpr List.mem_cons_self
  refine ⟨{ b with live := b.live.erase (a, al) }, by unfold Blocks.free; rw [if_pos hm], ?_, ?_⟩
  · have := h.erase (a, al)
    rwa [List.erase_cons_head] at this
  · exact hn.sublist (List.Sublist.map _ List.erase_sublist)

theorem freeAll_of_perm {al : Nat} (l : List Nat) : ∀ {b : Blocks} {L : List (Nat × Nat)},
    b.live.Perm (l.map (fun a => (a, al)) ++ L) → (b.live.map Prod.fst).Nodup →
    ∃ b', b.freeAll al l = .ok b' ∧ b'.live.Perm L ∧ (b'.live.map Prod.fst).Nodup := by
  induction l with
  | nil => intro b L h hn; exact ⟨b, rfl, h, hn⟩
  | cons a l ih =>
    intro b L h hn
    obtain ⟨b1, h1, h2, h3⟩ := free_of_perm (L := l.map (fun a => (a, al)) ++ L) h hn
    obtain ⟨b2, h4, h5, h6⟩ := ih h2 h3
    refine ⟨b2, ?_, h5, h6⟩
    unfold Blocks.freeAll
    rw [h1]
    exact h4

theorem alloc_nodup {pick : Pick} (hp : pick.Fresh) {b : Blocks} (al : Nat) (hn : (b.live.map Prod.fst).Nodup) :
    ((b.alloc pick al).1.live.map Prod.fst).Nodup := by
  unfold Blocks.alloc
  simp only [List.map_cons, List.nodup_cons]
  exact ⟨hp _ _, hn⟩

theorem alloc_live (pick : Pick) (b : Blocks) (al : Nat) :
    (b.alloc pick al).1.live = ((b.alloc pick al).2, al) :: b.live := rfl

theorem own_eq_addrs (al : Nat) (t : Table K (Nat × W)) : own al t = t.addrs.map (fun a => (a, al)) := by
  unfold own Table.addrs
  rw [List.map_map]; rfl

theorem own_perm {al : Nat} {t u : Table K (Nat × W)} (h : t.contents.Perm u.contents) : (own al t).Perm (own al u) := h.map _

theorem own_perm_cons {al : Nat} {t u : Table K (Nat × W)} {x : K × Nat × W} (h : t.contents.Perm (x :: u.contents)) :
    (own al t).Perm ((x.2.1, al) :: own al u) := h.map _

theorem own_eq_nil {al : Nat} {t : Table K (Nat × W)} (h : t.contents = []) : own al t = [] := by
  unfold own; rw [h]; rfl

theorem ownAll_cons (r : Res K W) (rs : List (Res K W)) : ownAll (r :: rs) = r.own ++ ownAll rs := rfl

theorem ownAll_one (r : Res K W) : ownAll [r] = r.own := by simp [ownAll]

theorem ownAll_append (rs ss : List (Res K W)) : ownAll (rs ++ ss) = ownAll rs ++ ownAll ss := by simp [ownAll]

theorem ownAll_perm {rs ss : List (Res K W)} (h : rs.Perm ss) : (ownAll rs).Perm (ownAll ss) := h.flatMap_right _

/-- One container. -/
theorem Sound.one {isa : Isa} {hash : K → Nat} {b : Blocks} {c : SC K W} {R : List (Nat × Nat)} :
    Sound isa hash b [.cont c] R ↔ Inv isa hash c.t ∧ b.live.Perm (own c.al c.t ++ R) ∧ (b.live.map Prod.fst).Nodup := by
  constructor
  · intro h
    refine ⟨h.ok _ (List.mem_singleton.mpr rfl), ?_, h.nodup⟩
    have := h.held; rwa [ownAll_one] at this
  · rintro ⟨h1, h2, h3⟩
    refine ⟨?_, by rw [ownAll_one]; exact h2, h3⟩
    intro r hr
    rw [List.mem_singleton] at hr
    subst hr; exact h1

/-- Two. -/
theorem Sound.two {isa : Isa} {hash : K → Nat} {b : Blocks} {r s : Res K W} {R : List (Nat × Nat)} :
    Sound isa hash b [r, s] R ↔ r.Ok isa hash ∧ s.Ok isa hash ∧ b.live.Perm (r.own ++ (s.own ++ R)) ∧ (b.live.map Prod.fst).Nodup := by
  have e : ownAll [r, s] ++ R = r.own ++ (s.own ++ R) := by simp [ownAll]
  constructor
  · intro h
    exact ⟨h.ok _ (by simp), h.ok _ (by simp), by rw [← e]; exact h.held, h.nodup⟩
  · rintro ⟨h1, h2, h3, h4⟩
    refine ⟨?_, by rw [e]; exact h3, h4⟩
    intro x hx
    simp only [List.mem_cons, List.not_mem_nil, or_false] at hx
    rcases hx with rfl | rfl
    · exact h1
    · exact h2

theorem spec_cons_erase {V : Type} {m : List (K × V)} (hu : Spec.Uniq m) {k : K} {v : V} (h : Spec.lookup m k = some v) :
    m.Perm ((k, v) :: Spec.erase m k) := by
  have hm := (Spec.lookup_some hu).mp h
  obtain ⟨s, t, rfl⟩ := List.append_of_mem hm
  have hp : (s ++ (k, v) :: t).Perm ((k, v) :: (s ++ t)) := List.perm_middle
  have hu' : Spec.Uniq ((k, v) :: (s ++ t)) := (hp.map Prod.fst).nodup_iff.mp hu
  refine hp.trans (List.Perm.cons _ ?_)
  have := Spec.erase_perm hp k
  rw [Spec.erase_cons_self hu'] at this
  exact this.symm

theorem emplace_block {isa : Isa} {hash : K → Nat} {al : Nat} {t : Table K (Nat × W)} {L R : List (Nat × Nat)} (h : Inv isa hash t)
    {k : K} (hno : ∀ i, i < t.cap → ∀ n, t.node i = some n → n.key ≠ k) (a : Nat) (w : W)
    (hl : L.Perm ((a, al) :: (own al t ++ R))) :
    ∃ t' p, t.emplaceNode isa ⟨k, (a, w), hash k⟩ = .ok (t', p) ∧ Inv isa hash t' ∧ L.Perm (own al t' ++ R) := by
  obtain ⟨t', p, he, hi', hp, hnp, hperm, _⟩ := emplaceNode_spec h (n := ⟨k, (a, w), hash k⟩) rfl hno
  refine ⟨t', p, he, hi', hl.trans ?_⟩
  have : t'.contents.Perm ((k, a, w) :: t.contents) := by
    have := hperm.map (fun n : Node K (Nat × W) => (n.key, n.val))
    exact this
  exact ((own_perm_cons this).symm.append_right R)

section ops

variable {isa : Isa} {hash : K → Nat} {pick : Pick} {b : Blocks} {c d : SC K W} {R : List (Nat × Nat)}

theorem SC.insert_sound (hp : pick.Fresh) (h : Sound isa hash b [.cont c] R) (k : K) (w : W) :
    Ends isa (c.insert isa hash pick b k w) (fun r => Sound isa hash r.1 [.cont r.2] R) := by
  obtain ⟨h1, h2, h3⟩ := Sound.one.mp h
  unfold SC.insert
  rcases find_cases h1 k with ⟨i, n, hi, hn, hk, hf, hl⟩ | ⟨hno, hf, hl⟩
  · simp only [hf, bind_ok, show ¬ i = c.t.cap by omega, if_false]
    exact Ends.of_ok rfl h
  · simp only [hf, bind_ok, if_true]
    obtain ⟨t', p, e1, e2, e3⟩ := emplace_block (al := c.al) h1 hno (b.alloc pick c.al).2 w
      (L := (b.alloc pick c.al).1.live) (h2.cons _)
    rw [e1]
    exact Ends.of_ok rfl (Sound.one.mpr ⟨e2, e3, alloc_nodup hp _ h3⟩)

theorem SC.emplace_sound (hp : pick.Fresh) (h : Sound isa hash b [.cont c] R) (k : K) (w : W) :
    Ends isa (c.emplace isa hash pick b k w) (fun r => Sound isa hash r.1 [.cont r.2] R) := by
  obtain ⟨h1, h2, h3⟩ := Sound.one.mp h
  unfold SC.emplace
  rcases find_cases h1 k with ⟨i, n, hi, hn, hk, hf, hl⟩ | ⟨hno, hf, hl⟩
  · simp only [hf, bind_ok, show ¬ i = c.t.cap by omega, if_false]
    obtain ⟨b', f1, f2, f3⟩ := free_of_perm (b := (b.alloc pick c.al).1) (a := (b.alloc pick c.al).2) (h2.cons _) (alloc_nodup hp _ h3)
    rw [f1]
    exact Ends.of_ok rfl (Sound.one.mpr ⟨h1, f2, f3⟩)
  · simp only [hf, bind_ok, if_true]
    obtain ⟨t', p, e1, e2, e3⟩ := emplace_block (al := c.al) h1 hno (b.alloc pick c.al).2 w
      (L := (b.alloc pick c.al).1.live) (h2.cons _)
    rw [e1]
    exact Ends.of_ok rfl (Sound.one.mpr ⟨e2, e3, alloc_nodup hp _ h3⟩)

/-- Replacing the payload of a slot. -/
theorem own_setVal (al : Nat) {t : Table K (Nat × W)} {i : Nat} (hi : i < t.cap) {n : Node K (Nat × W)}
    (hn : t.node i = some n) (v : Nat × W) :
    ∃ L, (own al t).Perm ((n.val.1, al) :: L) ∧
      (own al ({ t with node := upd t.node i (some { n with val := v }) } : Table K (Nat × W))).Perm ((v.1, al) :: L) := by
  obtain ⟨rest, h1, h2⟩ := collect_change (g := upd t.node i (some { n with val := v })) hi hn (upd_same _ _ _)
    (fun j _ hne => by rw [upd_ne _ _ hne])
  refine ⟨(rest.map (fun n => (n.key, n.val))).map fun x => (x.2.1, al), ?_, ?_⟩
  · exact (h1.map (fun n : Node K (Nat × W) => (n.key, n.val))).map (fun x => (x.2.1, al))
  · exact (h2.map (fun n : Node K (Nat × W) => (n.key, n.val))).map (fun x => (x.2.1, al))

theorem SC.assign_sound (hp : pick.Fresh) (h : Sound isa hash b [.cont c] R) (k : K) (w : W) :
    Ends isa (c.assign isa hash pick b k w) (fun r => Sound isa hash r.1 [.cont r.2] R) := by
  obtain ⟨h1, h2, h3⟩ := Sound.one.mp h
  unfold SC.assign
  rcases find_cases h1 k with ⟨i, n, hi, hn, hk, hf, hl⟩ | ⟨hno, hf, hl⟩
  · simp only [hf, bind_ok, show ¬ i = c.t.cap by omega, if_false, readNode_some hi hn]
    obtain ⟨L, o1, o2⟩ := own_setVal c.al hi hn (n.val.1, w)
    exact Ends.of_ok rfl (Sound.one.mpr ⟨setVal_inv h1 hi hn _, h2.trans ((o1.trans o2.symm).append_right R), h3⟩)
  · simp only [hf, bind_ok, if_true]
    obtain ⟨t', p, e1, e2, e3⟩ := emplace_block (al := c.al) h1 hno (b.alloc pick c.al).2 w
      (L := (b.alloc pick c.al).1.live) (h2.cons _)
    rw [e1]
    exact Ends.of_ok rfl (Sound.one.mpr ⟨e2, e3, alloc_nodup hp _ h3⟩)

theorem SC.erase_sound (h : Sound isa hash b [.cont c] R) (k : K) :
    Ends isa (c.erase isa hash b k) (fun r => Sound isa hash r.1 [.cont r.2] R) := by
  obtain ⟨h1, h2, h3⟩ := Sound.one.mp h
  unfold SC.erase
  rcases find_cases h1 k with ⟨i, n, hi, hn, hk, hf, hl⟩ | ⟨hno, hf, hl⟩
  · simp only [hf, bind_ok, show ¬ i = c.t.cap by omega, if_false, readNode_some hi hn]
    refine (doErase_spec h1 hi hn).bind ?_
    rintro ⟨t', it⟩ ⟨e1, _, _, _, e2, _⟩
    have hc : c.t.contents.Perm ((n.key, n.val) :: t'.contents) := e2.map (fun n : Node K (Nat × W) => (n.key, n.val))
    obtain ⟨b', f1, f2, f3⟩ := free_of_perm (h2.trans ((own_perm_cons hc).append_right R)) h3
    simp only [f1, bind_ok]
    exact Ends.of_ok rfl (Sound.one.mpr ⟨e1, f2, f3⟩)
  · simp only [hf, bind_ok, if_true]
    exact Ends.of_ok rfl h

theorem SC.eraseIf_sound (h : Sound isa hash b [.cont c] R) (p : K × Nat × W → Bool) :
    Ends isa (c.eraseIf isa b p) (fun r => Sound isa hash r.1 [.cont r.2] R) := by
  obtain ⟨h1, h2, h3⟩ := Sound.one.mp h
  unfold SC.eraseIf
  refine (eraseIf_spec p h1).bind ?_
  rintro ⟨t', m, calls⟩ ⟨e1, e2, _, e3, _⟩
  have e3 : calls = c.t.contents := e3
  subst e3
  have hc : (own c.al c.t).Perm (((c.t.contents.filter p).map fun x => x.2.1).map (fun a => (a, c.al)) ++ own c.al t') := by
    have e4 : (own c.al t').Perm ((c.t.contents.filter fun x => !p x).map fun x => (x.2.1, c.al)) := e2.map _
    refine List.Perm.trans ?_ (e4.symm.append_left _)
    rw [List.map_map]
    show ((c.t.contents.map fun x => (x.2.1, c.al))).Perm
      ((c.t.contents.filter p).map (fun x => (x.2.1, c.al)) ++ (c.t.contents.filter fun x => !p x).map fun x => (x.2.1, c.al))
    rw [← List.map_append]
    exact (List.filter_append_perm p c.t.contents).symm.map _
  obtain ⟨b', f1, f2, f3⟩ := freeAll_of_perm (al := c.al) _ (L := own c.al t' ++ R) (b := b)
    (by rw [← List.append_assoc]; exact h2.trans (hc.append_right R)) h3
  simp only [f1, bind_ok]
  exact Ends.of_ok rfl (Sound.one.mpr ⟨e1, f2, f3⟩)

theorem freeAll_own {t : Table K (Nat × W)} {al : Nat} (h2 : b.live.Perm (own al t ++ R)) (h3 : (b.live.map Prod.fst).Nodup) :
    ∃ b', b.freeAll al t.addrs = .ok b' ∧ b'.live.Perm R ∧ (b'.live.map Prod.fst).Nodup :=
  freeAll_of_perm t.addrs (by rw [← own_eq_addrs]; exact h2) h3

theorem SC.clear_sound (h : Sound isa hash b [.cont c] R) :
    Ends isa (c.clear isa b) (fun r => Sound isa hash r.1 [.cont r.2] R) := by
  obtain ⟨h1, h2, h3⟩ := Sound.one.mp h
  unfold SC.clear
  obtain ⟨b', f1, f2, f3⟩ := freeAll_own h2 h3
  obtain ⟨t', e1, e2, _, _, e3, _⟩ := clear_spec h1
  simp only [f1, e1, bind_ok]
  exact Ends.of_ok rfl (Sound.one.mpr ⟨e2, by rw [own_eq_nil e3]; exact f2, f3⟩)

theorem SC.reserve_sound (h : Sound isa hash b [.cont c] R) (n : Nat) :
    Ends isa (c.reserve isa n) (fun r => Sound isa hash b [.cont r] R) := by
  obtain ⟨h1, h2, h3⟩ := Sound.one.mp h
  unfold SC.reserve
  obtain ⟨t', e1, e2, _, e3, _⟩ := reserve_spec h1 n
  rw [e1]
  exact Ends.of_ok rfl (Sound.one.mpr ⟨e2, h2.trans ((own_perm (contents_perm e3.symm)).append_right R), h3⟩)

theorem SC.rehash_sound (h : Sound isa hash b [.cont c] R) (n : Nat) :
    Ends isa (c.rehash isa n) (fun r => Sound isa hash b [.cont r] R) := by
  obtain ⟨h1, h2, h3⟩ := Sound.one.mp h
  unfold SC.rehash
  obtain ⟨t', e1, e2, _, e3, _⟩ := rehash_spec h1 (n := n + 1) (by omega)
  rw [e1]
  exact Ends.of_ok rfl (Sound.one.mpr ⟨e2, h2.trans ((own_perm (contents_perm e3.symm)).append_right R), h3⟩)

theorem SC.extract_sound (h : Sound isa hash b [.cont c] R) (k : K) :
    Ends isa (c.extract isa hash k) (fun r => Sound isa hash b [.cont r.1, .node r.2] R) := by
  obtain ⟨h1, h2, h3⟩ := Sound.one.mp h
  unfold SC.extract
  refine (extract_spec h1 k).bind ?_
  rintro ⟨t', x⟩ ⟨e1, e2, e3, e4, _⟩
  have e3 : x = _ := e3
  refine Ends.of_ok rfl (Sound.two.mpr ⟨e1, trivial, h2.trans ?_, h3⟩)
  rw [← List.append_assoc]
  refine List.Perm.append_right R ?_
  cases hl : Spec.lookup c.t.contents k with
  | none =>
    rw [hl] at e3
    subst e3
    have e4 : t' = c.t := e4 hl
    rw [e4]
    simp [Res.own, Handle.init]
  | some v =>
    rw [hl] at e3
    subst e3
    have hm : c.t.contents.Perm ((k, v) :: t'.contents) :=
      (spec_cons_erase h1.contents_uniq hl).trans (e2.symm.cons _)
    refine (own_perm_cons hm).trans ?_
    show ((v.1, c.al) :: own c.al t').Perm (own c.al t' ++ [(v.1, c.al)])
    exact (List.perm_append_singleton _ _).symm

theorem SC.dtor_sound (h : Sound isa hash b [.cont c] R) :
    Ends isa (c.dtor b) (fun r => r.live.Perm R ∧ (r.live.map Prod.fst).Nodup) := by
  obtain ⟨h1, h2, h3⟩ := Sound.one.mp h
  unfold SC.dtor
  obtain ⟨b', f1, f2, f3⟩ := freeAll_own h2 h3
  obtain ⟨t', e1⟩ := dtor_spec h1
  simp only [f1, e1, bind_ok]
  exact Ends.of_ok rfl ⟨f2, f3⟩

theorem SC.insertNode_sound {h : Handle K W} (hs : Sound isa hash b [.cont c, .node h] R) (hc : h.cell.isSome = true)
    (ha : c.al = h.al) :
    Ends isa (c.insertNode isa hash pick b h) (fun r => Sound isa hash r.1 [.cont r.2.1, .node r.2.2] R) := by
  obtain ⟨h1, _, h2, h3⟩ := Sound.two.mp hs
  obtain ⟨al, cell⟩ := h
  obtain ⟨al', t⟩ := c
  have h1 : Inv isa hash t := h1
  have ha : al' = al := ha
  cases ha
  cases cell with
  | none => cases hc
  | some x =>
    unfold SC.insertNode
    simp only
    have h1 : Inv isa hash t := h1
    rcases find_cases h1 x.1 with ⟨i, n, hi, hn, hk, hf, hl⟩ | ⟨hno, hf, hl⟩
    · simp only [hf, bind_ok, show ¬ i = t.cap by omega, if_false]
      exact Ends.of_ok rfl hs
    · simp only [hf, bind_ok, if_true, Handle.take]
      have hh : b.live.Perm ((x.2.1, al) :: (own al t ++ R)) := by
        have : b.live.Perm (own al t ++ ([(x.2.1, al)] ++ R)) := h2
        exact this.trans List.perm_middle
      obtain ⟨t', p, e1, e2, e3⟩ := emplace_block h1 hno x.2.1 x.2.2 hh
      rw [e1]
      refine Ends.of_ok rfl (Sound.two.mpr ⟨e2, trivial, ?_, h3⟩)
      exact e3

theorem SC.assignNode_sound {h : Handle K W} (hs : Sound isa hash b [.cont c, .node h] R) (hc : h.cell.isSome = true)
    (ha : c.al = h.al) :
    Ends isa (c.assignNode isa hash pick b h) (fun r => Sound isa hash r.1 [.cont r.2.1, .node r.2.2] R) := by
  obtain ⟨h1, _, h2, h3⟩ := Sound.two.mp hs
  obtain ⟨al, cell⟩ := h
  obtain ⟨al', t⟩ := c
  have h1 : Inv isa hash t := h1
  have ha : al' = al := ha
  cases ha
  cases cell with
  | none => cases hc
  | some x =>
    have hh : b.live.Perm ((x.2.1, al) :: (own al t ++ R)) := by
      have : b.live.Perm (own al t ++ ([(x.2.1, al)] ++ R)) := h2
      exact this.trans List.perm_middle
    unfold SC.assignNode
    simp only
    have h1 : Inv isa hash t := h1
    rcases find_cases h1 x.1 with ⟨i, n, hi, hn, hk, hf, hl⟩ | ⟨hno, hf, hl⟩
    · obtain ⟨L, o1, o2⟩ := own_setVal al hi hn (x.2.1, x.2.2)
      obtain ⟨b', f1, f2, f3⟩ := free_of_perm (b := b) (al := al) (a := n.val.1) (L := (x.2.1, al) :: (L ++ R))
        (hh.trans (((o1.append_right R).cons _).trans (List.Perm.swap _ _ _))) h3
      simp only [hf, bind_ok, show ¬ i = t.cap by omega, if_false, readNode_some hi hn, Handle.take, f1, if_true]
      have hx : ({ n with key := x.1, val := (x.2.1, x.2.2) } : Node K (Nat × W)) = { n with val := (x.2.1, x.2.2) } := by
        rw [← hk]
      rw [hx]
      refine Ends.of_ok rfl (Sound.two.mpr ⟨setVal_inv h1 hi hn _, trivial, ?_, f3⟩)
      exact f2.trans (o2.symm.append_right R)
    · simp only [hf, bind_ok, if_true, Handle.take]
      obtain ⟨t', p, e1, e2, e3⟩ := emplace_block h1 hno x.2.1 x.2.2 hh
      rw [e1]
      refine Ends.of_ok rfl (Sound.two.mpr ⟨e2, trivial, ?_, h3⟩)
      exact e3

/-! ### Copies -/

theorem readdress_upto (hp : pick.Fresh) {t : Table K (Nat × W)} (h : Inv isa hash t) (hn : (b.live.map Prod.fst).Nodup) (al : Nat) :
    ∀ i, i ≤ t.cap → ∃ b' f, (List.range i).foldl (readdressOne pick al) (b, t) = (b', { t with node := f }) ∧
      Inv isa hash { t with node := f } ∧ (∀ j, i ≤ j → f j = t.node j) ∧
      (∀ j, (f j).map (fun n => (n.key, n.val.2)) = (t.node j).map (fun n => (n.key, n.val.2))) ∧
      b'.live.Perm ((collect f i).map (fun n => (n.val.1, al)) ++ b.live) ∧ (b'.live.map Prod.fst).Nodup := by
  intro i
  induction i with
  | zero => intro _; exact ⟨b, t.node, rfl, h, fun _ _ => rfl, fun _ => rfl, List.Perm.refl _, hn⟩
  | succ i ih =>
    intro hi
    obtain ⟨b', f, e1, e2, e3, e4, e5, e6⟩ := ih (by omega)
    rw [List.range_succ, List.foldl_append, e1]
    simp only [List.foldl_cons, List.foldl_nil, readdressOne]
    cases hx : f i with
    | none =>
      refine ⟨b', f, rfl, e2, fun j hj => e3 j (by omega), e4, ?_, e6⟩
      rw [collect_succ, hx]
      simpa using e5
    | some n =>
      refine ⟨(b'.alloc pick al).1, upd f i (some { n with val := ((b'.alloc pick al).2, n.val.2) }), rfl,
        setVal_inv (t := { t with node := f }) e2 (by show i < t.cap; omega) hx _, ?_, ?_, ?_, alloc_nodup hp _ e6⟩
      · intro j hj
        rw [upd_ne _ _ (by omega)]
        exact e3 j (by omega)
      · intro j
        by_cases hj : j = i
        · cases hj
          rw [upd_same, ← e4, hx]; rfl
        · rw [upd_ne _ _ hj]; exact e4 j
      · rw [collect_succ, upd_same, alloc_live,
          collect_congr (g := f) (fun j hj => by rw [upd_ne _ _ (by omega)])]
        simp only [Option.toList, List.map_append, List.map_cons, List.map_nil, List.append_assoc, List.cons_append,
          List.nil_append]
        exact (e5.cons _).trans List.perm_middle.symm

theorem contents_eq_of_node {t : Table K (Nat × W)} {f : Nat → Option (Node K (Nat × W))}
    (h : ∀ j, (f j).map (fun n => (n.key, n.val.2)) = (t.node j).map (fun n => (n.key, n.val.2))) :
    ({ t with node := f } : Table K (Nat × W)).contents.map (fun x => (x.1, x.2.2)) = t.contents.map (fun x => (x.1, x.2.2)) := by
  have key : ∀ n, ((collect f n).map fun n => (n.key, n.val)).map (fun x : K × Nat × W => (x.1, x.2.2)) =
      ((collect t.node n).map fun n => (n.key, n.val)).map (fun x : K × Nat × W => (x.1, x.2.2)) := by
    intro n
    induction n with
    | zero => rfl
    | succ n ih =>
      rw [collect_succ, collect_succ, List.map_append, List.map_append, List.map_append, List.map_append, ih]
      congr 1
      have := h n
      cases h1 : f n <;> cases h2 : t.node n <;> rw [h1, h2] at this <;> simp_all
  exact key t.cap

theorem readdress_spec (hp : pick.Fresh) {t : Table K (Nat × W)} (h : Inv isa hash t) (hn : (b.live.map Prod.fst).Nodup) (al : Nat) :
    Inv isa hash (readdress pick al b t).2 ∧
      (readdress pick al b t).2.contents.map (fun x => (x.1, x.2.2)) = t.contents.map (fun x => (x.1, x.2.2)) ∧
      (readdress pick al b t).1.live.Perm (own al (readdress pick al b t).2 ++ b.live) ∧
      ((readdress pick al b t).1.live.map Prod.fst).Nodup := by
  obtain ⟨b', f, e1, e2, _, e4, e5, e6⟩ := readdress_upto hp h hn al t.cap (Nat.le_refl _)
  unfold readdress
  rw [e1]
  refine ⟨e2, contents_eq_of_node e4, ?_, e6⟩
  unfold own Table.contents Table.nodes
  rw [List.map_map]
  exact e5

theorem SC.copyCtor_sound (hp : pick.Fresh) (h : Sound isa hash b [.cont c] R) (hc : Copyable c.t) (al : Nat) :
    Ends isa (c.copyCtor isa pick b al) (fun r => Sound isa hash r.1 [.cont c, .cont r.2] R) := by
  obtain ⟨h1, h2, h3⟩ := Sound.one.mp h
  unfold SC.copyCtor
  obtain ⟨t', e1, e2, _⟩ := copyCtor_spec h1 hc
  obtain ⟨f1, _, f2, f3⟩ := readdress_spec hp e2 h3 al
  simp only [e1, bind_ok]
  refine Ends.of_ok rfl (Sound.two.mpr ⟨h1, f1, ?_, f3⟩)
  refine f2.trans ((h2.append_left _).trans ?_)
  show (own al _ ++ (own c.al c.t ++ R)).Perm (own c.al c.t ++ (own al _ ++ R))
  rw [← List.append_assoc, ← List.append_assoc]
  exact List.perm_append_comm.append_right R

theorem SC.copyAssign_sound (hp : pick.Fresh) (h : Sound isa hash b [.cont c, .cont d] R) (prop : Bool) (hc : Copyable d.t)
    (hf : CopyFits ⟨prop, prop, decide (c.al = d.al)⟩ c.t d.t) :
    Ends isa (c.copyAssign isa pick prop b d) (fun r => Sound isa hash r.1 [.cont r.2, .cont d] R) := by
  obtain ⟨h1, h1', h2, h3⟩ := Sound.two.mp h
  have h1 : Inv isa hash c.t := h1
  have h1' : Inv isa hash d.t := h1'
  unfold SC.copyAssign
  obtain ⟨b', f1, f2, f3⟩ := freeAll_own (t := c.t) (al := c.al) h2 h3
  obtain ⟨t', e1, e2, _⟩ := copyAssign_spec h1 h1' hc hf
  obtain ⟨g1, _, g2, g3⟩ := readdress_spec hp e2 f3 (if prop then d.al else c.al)
  simp only [f1, e1, bind_ok]
  exact Ends.of_ok rfl (Sound.two.mpr ⟨g1, h1', g2.trans (f2.append_left _), g3⟩)

/-! ### Moves, swaps, merging -/

theorem SC.moveCtor_sound (h : Sound isa hash b [.cont c] R) {al : Nat} (ha : al = c.al) :
    Ends isa (c.moveCtor isa al) (fun r => Sound isa hash b [.cont r.2, .cont r.1] R) := by
  obtain ⟨h1, h2, h3⟩ := Sound.one.mp h
  unfold SC.moveCtor
  rw [moveCtor_spec _ (by simpa using ha)]
  cases ha
  refine Ends.of_ok rfl (Sound.two.mpr ⟨Inv.init isa hash, h1, ?_, h3⟩)
  show b.live.Perm (own c.al Table.init ++ (own c.al c.t ++ R))
  rw [own_eq_nil init_contents]
  exact h2

theorem SC.moveAssign_sound (h : Sound isa hash b [.cont c, .cont d] R) {prop : Bool}
    (ha : prop = true ∨ (c.al = d.al ∧ c.t.size = 0)) :
    Ends isa (c.moveAssign isa prop b d) (fun r => Sound isa hash r.1 [.cont r.2.1, .cont r.2.2] R) := by
  obtain ⟨h1, h1', h2, h3⟩ := Sound.two.mp h
  have h1 : Inv isa hash c.t := h1
  have h1' : Inv isa hash d.t := h1'
  unfold SC.moveAssign
  obtain ⟨b', f1, f2, f3⟩ := freeAll_own (t := c.t) (al := c.al) h2 h3
  have he : (decide (c.al = d.al) || prop) = true := by
    rcases ha with h | h
    · simp [h]
    · simp [h.1]
  obtain ⟨y, e1, e2, e3⟩ := moveAssign_equal (al := ⟨false, prop, decide (c.al = d.al)⟩) h1 h1' he
  have hy := e3 (ha.imp id (fun h => h.2)) hash
  simp only [f1, e1, bind_ok]
  refine Ends.of_ok rfl (Sound.two.mpr ⟨h1', hy, ?_, f3⟩)
  have hal : (if prop then d.al else c.al) = d.al := by
    rcases ha with h | h
    · simp [h]
    · simp [h.1]
  show b'.live.Perm (own (if prop then d.al else c.al) d.t ++ (own d.al y ++ R))
  have hyc : y.contents = [] := by
    have := hy.nodes_length
    rw [e2.size] at this
    rw [Table.contents, List.length_eq_zero_iff.mp this]; rfl
  rw [hal, own_eq_nil hyc]
  exact f2

theorem SC.swap_sound (h : Sound isa hash b [.cont c, .cont d] R) (ha : c.al = d.al) :
    Sound isa hash b [.cont (c.swap d).1, .cont (c.swap d).2] R := by
  obtain ⟨h1, h1', h2, h3⟩ := Sound.two.mp h
  refine Sound.two.mpr ⟨h1', h1, ?_, h3⟩
  show b.live.Perm (own c.al d.t ++ (own d.al c.t ++ R))
  have h2 : b.live.Perm (own c.al c.t ++ (own d.al d.t ++ R)) := h2
  rw [← ha] at h2 ⊢
  refine h2.trans ?_
  rw [← List.append_assoc, ← List.append_assoc]
  exact List.perm_append_comm.append_right R

theorem SC.mergeLoop_equal (fuel : Nat) : ∀ (c d : SC K W) (pos last : Nat), c.al = d.al →
    SC.mergeLoop isa hash pick fuel b c d pos last = (do
      let (t, u) ← Table.mergeLoop isa hash fuel c.t d.t pos last
      .ok (b, { c with t := t }, { d with t := u })) := by
  induction fuel with
  | zero => intro c d pos last _; rfl
  | succ fuel ih =>
    rintro ⟨al, t⟩ ⟨al', u⟩ pos last ha
    have ha : al = al' := ha
    cases ha
    unfold SC.mergeLoop Table.mergeLoop
    simp only
    by_cases hl : pos = last
    · rw [if_pos hl, if_pos hl]; rfl
    · rw [if_neg hl, if_neg hl]
      cases hr : u.readNode pos with
      | error e => rfl
      | ok n =>
        simp only [bind_ok]
        cases hf : t.findNode isa n.key (hash n.key) with
        | error e => rfl
        | ok p =>
          simp only [bind_ok]
          by_cases hp : p = t.cap
          · simp only [hp, if_true]
            cases hx : u.extractAt isa pos with
            | error e => rfl
            | ok r =>
              simp only [bind_ok, Handle.take, if_true]
              cases hm : t.emplaceNode isa ⟨r.2.key, r.2.val, hash n.key⟩ with
              | error e => rfl
              | ok q =>
                simp only [bind_ok, Handle.drop]
                cases hq : r.1.nextOccupied isa (r.1.cap + 1) (pos + 1) with
                | error e => rfl
                | ok pos' =>
                  simp only [bind_ok]
                  exact ih ⟨al, q.1⟩ ⟨al, r.1⟩ pos' last rfl
          · simp only [hp, if_false, bind_ok]
            cases hq : u.nextOccupied isa (u.cap + 1) (pos + 1) with
            | error e => rfl
            | ok pos' =>
              simp only [bind_ok]
              exact ih ⟨al, t⟩ ⟨al, u⟩ pos' last rfl

theorem SC.merge_equal (ha : c.al = d.al) : c.merge isa hash pick b d = (do
    let (t, u) ← Table.merge isa hash c.t d.t
    .ok (b, { c with t := t }, { d with t := u })) := by
  unfold SC.merge Table.merge
  cases h1 : c.t.reserve isa (c.t.size + d.t.size) with
  | error e => rfl
  | ok t =>
    simp only [bind_ok]
    cases h2 : d.t.begin_ isa with
    | error e => rfl
    | ok pos =>
      simp only [bind_ok]
      cases h3 : d.t.end_ isa with
      | error e => rfl
      | ok last =>
        simp only [bind_ok]
        rw [SC.mergeLoop_equal (d.t.cap + 1) { c with t := t } d pos last ha]

theorem SC.merge_sound (h : Sound isa hash b [.cont c, .cont d] R) (ha : c.al = d.al) :
    Ends isa (c.merge isa hash pick b d) (fun r => Sound isa hash r.1 [.cont r.2.1, .cont r.2.2] R) := by
  obtain ⟨h1, h1', h2, h3⟩ := Sound.two.mp h
  have h1 : Inv isa hash c.t := h1
  have h1' : Inv isa hash d.t := h1'
  rw [SC.merge_equal ha]
  refine (merge_spec h1 h1').bind ?_
  rintro ⟨t, u⟩ ⟨e1, e2, e3, e4⟩
  refine Ends.of_ok rfl (Sound.two.mpr ⟨e1, e2, h2.trans ?_, h3⟩)
  show (own c.al c.t ++ (own d.al d.t ++ R)).Perm (own c.al t ++ (own d.al u ++ R))
  rw [← ha, ← List.append_assoc, ← List.append_assoc]
  refine List.Perm.append_right R ?_
  have g3 := e3.map (fun x : K × Nat × W => (x.2.1, c.al))
  have g4 := e4.map (fun x : K × Nat × W => (x.2.1, c.al))
  rw [List.map_append] at g3 g4
  refine (g4.append_left _).trans ?_
  refine List.Perm.trans ?_ (g3.symm.append_right _)
  rw [← List.append_assoc]
  exact List.perm_append_comm.append_right _

/-! ### Handles -/

theorem Handle.drop_sound {h : Handle K W} (hs : Sound isa hash b [.node h] R) :
    ∃ b', h.drop b = .ok b' ∧ b'.live.Perm R ∧ (b'.live.map Prod.fst).Nodup := by
  obtain ⟨al, cell⟩ := h
  have h2 := hs.held
  rw [ownAll_one] at h2
  cases cell with
  | none => exact ⟨b, rfl, h2, hs.nodup⟩
  | some x => exact free_of_perm (a := x.2.1) (al := al) h2 hs.nodup

theorem Handle.assign_sound {h g : Handle K W} (hs : Sound isa hash b [.node h, .node g] R) {prop : Bool}
    (ha : prop = true ∨ h.al = g.al) :
    Ends isa (h.assign prop b g) (fun r => Sound isa hash r.1 [.node r.2.1, .node r.2.2] R) := by
  obtain ⟨_, _, h2, h3⟩ := Sound.two.mp hs
  obtain ⟨b', e1, e2, e3⟩ := Handle.drop_sound (isa := isa) (hash := hash) (b := b) (R := Res.own (.node g) ++ R) (h := h)
    ⟨fun r hr => (by rw [List.mem_singleton] at hr; subst hr; trivial), by rw [ownAll_one]; exact h2, h3⟩
  have hal : (if prop then g.al else h.al) = g.al := by
    rcases ha with h | h
    · simp [h]
    · simp [h]
  unfold Handle.assign
  simp only [e1, bind_ok, hal, if_true]
  exact Ends.of_ok rfl (Sound.two.mpr ⟨trivial, trivial, e2, e3⟩)

theorem Handle.swap_sound {h g : Handle K W} (hs : Sound isa hash b [.node h, .node g] R) {prop : Bool}
    (ha : h.al = g.al) : Ends isa (h.swap prop g) (fun r => Sound isa hash b [.node r.1, .node r.2] R) := by
  obtain ⟨_, _, h2, h3⟩ := Sound.two.mp hs
  obtain ⟨al, x⟩ := h
  obtain ⟨al', y⟩ := g
  cases ha
  unfold Handle.swap
  simp only [ite_self, if_true]
  refine Ends.of_ok rfl (Sound.two.mpr ⟨trivial, trivial, ?_, h3⟩)
  refine h2.trans ?_
  rw [← List.append_assoc, ← List.append_assoc]
  exact List.perm_append_comm.append_right R

end ops

/-! ### Programs -/

/-- What a program must respect: no copies of a container with erased slots (C16), moves only with an equal allocator. -/
def Op1.Allowed : Op1 K W → Res K W → Prop
  | .copyCtor _, .cont c => Copyable c.t
  | .moveCtor al, .cont c => al = c.al
  | _, _ => True

/-- What a program must respect: the allocators are equal, handles are not empty; copies and moves as in C17 and C18. -/
def Op2.Allowed : Op2 → Res K W → Res K W → Prop
  | .insertNode, .cont c, .node h => h.cell.isSome = true ∧ c.al = h.al
  | .assignNode, .cont c, .node h => h.cell.isSome = true ∧ c.al = h.al
  | .copyAssign prop, .cont c, .cont d => Copyable d.t ∧ CopyFits ⟨prop, prop, decide (c.al = d.al)⟩ c.t d.t
  | .moveAssign prop, .cont c, .cont d => prop = true ∨ (c.al = d.al ∧ c.t.size = 0)
  | .swap _, .cont c, .cont d => c.al = d.al
  | .merge, .cont c, .cont d => c.al = d.al
  | .moveAssign prop, .node h, .node g => prop = true ∨ h.al = g.al
  | .swap _, .node h, .node g => h.al = g.al
  | _, _, _ => True

/-- The operation is allowed in this state. -/
def World.Allows (w : World K W) : WOp K W → Prop
  | .create _ => True
  | .handle => True
  | .one op i => ∀ r, w.rs[i]? = some r → op.Allowed r
  | .two op i j => ∀ r s, w.rs[i]? = some r → (w.rs.eraseIdx i)[j]? = some s → op.Allowed r s

/-- All operations of the program are allowed where they are executed. -/
def World.AllowsAll (isa : Isa) (hash : K → Nat) (pick : Pick) : World K W → List (WOp K W) → Prop
  | _, [] => True
  | w, op :: ops => w.Allows op ∧ ∀ w', w.step isa hash pick op = .ok w' → World.AllowsAll isa hash pick w' ops

section programs

variable {isa : Isa} {hash : K → Nat} {pick : Pick} {b : Blocks} {R : List (Nat × Nat)}

theorem Sound.nil (h1 : b.live.Perm R) (h2 : (b.live.map Prod.fst).Nodup) : Sound isa hash b ([] : List (Res K W)) R :=
  ⟨fun _ h => (by cases h), h1, h2⟩

theorem Res.step1_sound (hp : pick.Fresh) {r : Res K W} (hs : Sound isa hash b [r] R) {op : Op1 K W} (ha : op.Allowed r) :
    Ends isa (r.step1 isa hash pick b op) (fun x => Sound isa hash x.1 x.2 R) := by
  cases r with
  | cont c =>
    cases op with
    | insert k w => exact (SC.insert_sound hp hs k w).bind fun _ h => Ends.of_ok rfl h
    | emplace k w => exact (SC.emplace_sound hp hs k w).bind fun _ h => Ends.of_ok rfl h
    | assign k w => exact (SC.assign_sound hp hs k w).bind fun _ h => Ends.of_ok rfl h
    | erase k => exact (SC.erase_sound hs k).bind fun _ h => Ends.of_ok rfl h
    | eraseIf p => exact (SC.eraseIf_sound hs p).bind fun _ h => Ends.of_ok rfl h
    | clear => exact (SC.clear_sound hs).bind fun _ h => Ends.of_ok rfl h
    | reserve n => exact (SC.reserve_sound hs n).bind fun _ h => Ends.of_ok rfl h
    | rehash n => exact (SC.rehash_sound hs n).bind fun _ h => Ends.of_ok rfl h
    | extract k => exact (SC.extract_sound hs k).bind fun _ h => Ends.of_ok rfl h
    | copyCtor al => exact (SC.copyCtor_sound hp hs ha al).bind fun _ h => Ends.of_ok rfl h
    | moveCtor al => exact (SC.moveCtor_sound hs ha).bind fun _ h => Ends.of_ok rfl h
    | destroy => exact (SC.dtor_sound hs).bind fun _ h => Ends.of_ok rfl (Sound.nil h.1 h.2)
  | node h =>
    cases op with
    | moveCtor al =>
      refine Ends.of_ok rfl (Sound.two.mpr ⟨trivial, trivial, ?_, hs.nodup⟩)
      have := hs.held
      rw [ownAll_one] at this
      exact this
    | destroy =>
      obtain ⟨b', e1, e2, e3⟩ := Handle.drop_sound hs
      simp only [Res.step1, e1, bind_ok]
      exact Ends.of_ok rfl (Sound.nil e2 e3)
    | _ => exact Ends.of_ok rfl hs

theorem Res.step2_sound (hp : pick.Fresh) {r s : Res K W} (hs : Sound isa hash b [r, s] R) {op : Op2} (ha : op.Allowed r s) :
    Ends isa (r.step2 isa hash pick b op s) (fun x => Sound isa hash x.1 x.2 R) := by
  cases r with
  | cont c =>
    cases s with
    | cont d =>
      cases op with
      | insertNode => exact Ends.of_ok rfl hs
      | assignNode => exact Ends.of_ok rfl hs
      | copyAssign prop => exact (SC.copyAssign_sound hp hs prop ha.1 ha.2).bind fun _ h => Ends.of_ok rfl h
      | moveAssign prop => exact (SC.moveAssign_sound hs ha).bind fun _ h => Ends.of_ok rfl h
      | swap prop => exact Ends.of_ok rfl (SC.swap_sound hs ha)
      | merge => exact (SC.merge_sound hs ha).bind fun _ h => Ends.of_ok rfl h
    | node h =>
      cases op with
      | insertNode => exact (SC.insertNode_sound hs ha.1 ha.2).bind fun _ h => Ends.of_ok rfl h
      | assignNode => exact (SC.assignNode_sound hs ha.1 ha.2).bind fun _ h => Ends.of_ok rfl h
      | _ => exact Ends.of_ok rfl hs
  | node h =>
    cases s with
    | cont d => cases op <;> exact Ends.of_ok rfl hs
    | node g =>
      cases op with
      | moveAssign prop => exact (Handle.assign_sound hs ha).bind fun _ h => Ends.of_ok rfl h
      | swap prop => exact (Handle.swap_sound hs ha).bind fun _ h => Ends.of_ok rfl h
      | _ => exact Ends.of_ok rfl hs

/-- Some of the owners can be set aside. -/
theorem Sound.split {rs ss us : List (Res K W)} (hp : rs.Perm (ss ++ us)) (h : Sound isa hash b rs R) :
    Sound isa hash b ss (ownAll us ++ R) ∧ ∀ r ∈ us, r.Ok isa hash := by
  refine ⟨⟨fun r hr => h.ok r (hp.mem_iff.mpr (List.mem_append_left _ hr)), ?_, h.nodup⟩,
    fun r hr => h.ok r (hp.mem_iff.mpr (List.mem_append_right _ hr))⟩
  refine h.held.trans ?_
  rw [← List.append_assoc, ← ownAll_append]
  exact (ownAll_perm hp).append_right R

theorem Sound.join {ss us : List (Res K W)} (h : Sound isa hash b ss (ownAll us ++ R)) (hu : ∀ r ∈ us, r.Ok isa hash) :
    Sound isa hash b (ss ++ us) R := by
  refine ⟨?_, ?_, h.nodup⟩
  · intro r hr
    rcases List.mem_append.mp hr with hr | hr
    · exact h.ok r hr
    · exact hu r hr
  · rw [ownAll_append, List.append_assoc]; exact h.held

theorem perm_eraseIdx {α : Type} {l : List α} {i : Nat} {a : α} (h : l[i]? = some a) : l.Perm (a :: l.eraseIdx i) := by
  induction l generalizing i with
  | nil => cases h
  | cons x l ih =>
    cases i with
    | zero => simp only [List.getElem?_cons_zero, Option.some.injEq] at h; subst h; exact List.Perm.refl _
    | succ i => exact ((ih h).cons x).trans (List.Perm.swap _ _ _)

theorem World.step_sound (hp : pick.Fresh) {w : World K W} (hs : Sound isa hash w.b w.rs R) {op : WOp K W} (ha : w.Allows op) :
    Ends isa (w.step isa hash pick op) (fun w' => Sound isa hash w'.b w'.rs R) := by
  cases op with
  | create al =>
    refine Ends.of_ok rfl ⟨?_, ?_, hs.nodup⟩
    · intro r hr
      rcases List.mem_cons.mp hr with rfl | hr
      · exact Inv.init isa hash
      · exact hs.ok r hr
    · exact hs.held
  | handle =>
    refine Ends.of_ok rfl ⟨?_, ?_, hs.nodup⟩
    · intro r hr
      rcases List.mem_cons.mp hr with rfl | hr
      · trivial
      · exact hs.ok r hr
    · exact hs.held
  | one op i =>
    cases hr : w.rs[i]? with
    | none => simp only [World.step, hr]; exact Ends.of_ok rfl hs
    | some r =>
      simp only [World.step, hr]
      obtain ⟨h1, h2⟩ := Sound.split (ss := [r]) (perm_eraseIdx hr) hs
      exact (Res.step1_sound hp h1 (ha r hr)).bind fun x hx => Ends.of_ok rfl (Sound.join hx h2)
  | two op i j =>
    cases hr : w.rs[i]? with
    | none => simp only [World.step, hr]; exact Ends.of_ok rfl hs
    | some r =>
      cases hq : (w.rs.eraseIdx i)[j]? with
      | none => simp only [World.step, hr, hq]; exact Ends.of_ok rfl hs
      | some s =>
        simp only [World.step, hr, hq]
        obtain ⟨h1, h2⟩ := Sound.split (ss := [r, s]) ((perm_eraseIdx hr).trans ((perm_eraseIdx hq).cons r)) hs
        exact (Res.step2_sound hp h1 (ha r s hr hq)).bind fun x hx => Ends.of_ok rfl (Sound.join hx h2)

theorem World.run_sound (hp : pick.Fresh) (ops : List (WOp K W)) : ∀ {w : World K W}, Sound isa hash w.b w.rs R →
    w.AllowsAll isa hash pick ops → Ends isa (w.run isa hash pick ops) (fun w' => Sound isa hash w'.b w'.rs R) := by
  induction ops with
  | nil => intro w hs _; exact Ends.of_ok rfl hs
  | cons op ops ih =>
    intro w hs ha
    unfold World.run
    rcases World.step_sound hp hs ha.1 with ⟨w', e1, e2⟩ | ⟨e1, e2⟩
    · rw [e1]
      exact ih e2 (ha.2 w' e1)
    · rw [e2]; exact Or.inr ⟨e1, rfl⟩

theorem World.finish_sound (hp : pick.Fresh) (rs : List (Res K W)) : ∀ {b : Blocks}, Sound isa hash b rs R →
    Ends isa (World.finish isa hash pick b rs) (fun b' => b'.live.Perm R) := by
  induction rs with
  | nil => intro b hs; exact Ends.of_ok rfl hs.held
  | cons r rs ih =>
    intro b hs
    unfold World.finish
    obtain ⟨h1, h2⟩ := Sound.split (ss := [r]) (us := rs) (List.Perm.refl _) hs
    have hd : ∀ x : Blocks × List (Res K W), r.step1 isa hash pick b .destroy = .ok x → x.2 = [] := by
      intro x hx
      cases r with
      | cont c =>
        simp only [Res.step1] at hx
        cases hb : c.dtor b with
        | error e => rw [hb] at hx; cases hx
        | ok b' => rw [hb] at hx; cases hx; rfl
      | node h =>
        simp only [Res.step1] at hx
        cases hb : h.drop b with
        | error e => rw [hb] at hx; cases hx
        | ok b' => rw [hb] at hx; cases hx; rfl
    rcases Res.step1_sound hp h1 (op := .destroy) (by cases r <;> trivial) with ⟨x, e1, e2⟩ | ⟨e1, e2⟩
    · rw [e1]
      have hx := hd x e1
      rw [hx] at e2
      exact ih (Sound.join e2 h2)
    · rw [e2]; exact Or.inr ⟨e1, rfl⟩

end programs

end Tpp.Swiss
