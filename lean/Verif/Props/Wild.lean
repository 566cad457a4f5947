import Verif.Swiss.Wild

/-!
# C123: hash functions and comparisons that answer arbitrarily

Whatever the hash function and the comparison answer, also if they contradict themselves from one call to the next, the containers stay well-formed:
nothing outside of the arrays and no destroyed element is accessed, every search ends, and the elements are those whose insertions reported success,
without those that were erased.
-/

set_option linter.unusedSectionVars false

namespace Tpp.Swiss

variable {K V : Type}

/-- What an operation with arbitrary answers may do to a container with the elements `l`, in any order: `l'` are the elements afterwards. -/
def Does (l l' : List (K × V)) (out : Out K V) : WildOp K V → Prop
  | .insert _ p k v => (l'.Perm ((k, v) :: l) ∧ out = .ins (k, v) true) ∨ (l'.Perm l ∧ ∃ e ∈ l, p.accepts e.1 ∧ out = .ins e false)
  | .assign _ p k v => (l'.Perm ((k, v) :: l) ∧ out = .ins (k, v) true) ∨
      ∃ e r, p.accepts e.1 ∧ l.Perm (e :: r) ∧ l'.Perm ((e.1, v) :: r) ∧ out = .ins (e.1, v) false
  | .erase _ p => out = .unit ∧ (l'.Perm l ∨ ∃ e, p.accepts e.1 ∧ l.Perm (e :: l'))
  | .find _ p => l'.Perm l ∧ (out = .node none ∨ ∃ e ∈ l, p.accepts e.1 ∧ out = .node (some e))
  | .contains _ p => l'.Perm l ∧ (out = .bool false ∨ ∃ e ∈ l, p.accepts e.1 ∧ out = .bool true)
  | .extract _ p => (l'.Perm l ∧ out = .node none) ∨ ∃ e, p.accepts e.1 ∧ l.Perm (e :: l') ∧ out = .node (some e)
  | .eraseIf q => l'.Perm (l.filter fun x => !q x) ∧ ∃ c, out = .count (l.filter q).length c ∧ c.Perm l
  | .clear => l' = [] ∧ out = .unit
  | .reserve _ | .rehash _ => l'.Perm l ∧ out = .unit
  | .size => l'.Perm l ∧ out = .nat l.length
  | .iterate => l'.Perm l ∧ ∃ c, out = .list c ∧ c.Perm l

/-- A history each operation of which does what it may. -/
inductive Did : List (K × V) → List (WildOp K V) → List (Out K V) → List (K × V) → Prop
  | nil {l l'} : l'.Perm l → Did l [] [] l'
  | cons {l l' l'' op ops o os} : Does l l' o op → Did l' ops os l'' → Did l (op :: ops) (o :: os) l''

theorem split_uniq {K V : Type} [DecidableEq K] {m : List (K × V)} (hu : Spec.Uniq m) {x : K × V} (hx : x ∈ m) :
    m.Perm (x :: Spec.erase m x.1) := by
  refine Spec.perm_of_lookup hu ?_ ?_
  · unfold Spec.Uniq Spec.erase
    rw [List.map_cons, List.nodup_cons]
    refine ⟨?_, ?_⟩
    · intro hm
      obtain ⟨y, hy, e⟩ := List.mem_map.mp hm
      have := (List.mem_filter.mp hy).2
      simp only [ne_eq, decide_not, Bool.not_eq_eq_eq_not, Bool.not_true, decide_eq_false_iff_not] at this
      exact this e
    · exact hu.sublist ((List.filter_sublist).map _)
  · intro k
    rw [Spec.lookup_cons, Spec.lookup_erase]
    by_cases hk : x.1 = k
    · subst hk
      rw [(Spec.lookup_some hu).mpr hx]
      simp
    · rw [if_neg hk, if_neg (fun e => hk e.symm)]

theorem does_turns {g : Nat} {m m' : List ((Nat × Nat) × (K × V))} (hu : Spec.Uniq m) (hg : ∀ x ∈ m, x.1.1 < g) {op : WildOp K V}
    {q : Op (Nat × Nat) (K × V)} (hq : Turns g m op q) {o : Out (Nat × Nat) (K × V)} (hm : m'.Perm (Spec.step m q).1) (ho : o.Agree (Spec.step m q).2) :
    Does (m.map Prod.snd) (m'.map Prod.snd) o.strip op ∧ ∀ x ∈ m', x.1.1 < g + 1 := by
  have hnew : ∀ h, Spec.lookup m (g, h) = none := by
    intro h
    rw [Spec.lookup_none]
    intro v hv
    exact Nat.lt_irrefl _ (hg _ hv)
  have hin : ∀ {x}, x ∈ m → Spec.lookup m x.1 = some x.2 := fun hx => (Spec.lookup_some hu).mpr hx
  have same : m'.Perm m → ∀ x ∈ m', x.1.1 < g + 1 := fun hp x hx => Nat.lt_succ_of_lt (hg x (hp.mem_iff.mp hx))
  have fewer : ∀ {f : (Nat × Nat) × (K × V) → Bool}, m'.Perm (m.filter f) → ∀ x ∈ m', x.1.1 < g + 1 := fun hp x hx =>
    Nat.lt_succ_of_lt (hg x (List.mem_filter.mp (hp.mem_iff.mp hx)).1)
  have one : ∀ {h : Nat} {y : K × V}, m'.Perm (((g, h), y) :: m) → ∀ x ∈ m', x.1.1 < g + 1 := by
    intro h y hp x hx
    rcases List.mem_cons.mp (hp.mem_iff.mp hx) with e | e
    · rw [e]
      exact Nat.lt_succ_self g
    · exact Nat.lt_succ_of_lt (hg x e)
  cases hq with
  | @insert h p k v =>
    simp only [Spec.step, Spec.insert, hnew, Option.getD_none, Option.isNone_none] at hm ho
    cases o <;> simp only [Out.Agree] at ho
    obtain ⟨rfl, rfl⟩ := ho
    exact ⟨Or.inl ⟨by simpa using hm.map Prod.snd, rfl⟩, one hm⟩
  | @inserted h p k v x hx hp =>
    simp only [Spec.step, Spec.insert, hin hx, Option.getD_some, Option.isNone_some] at hm ho
    cases o <;> simp only [Out.Agree] at ho
    obtain ⟨rfl, rfl⟩ := ho
    exact ⟨Or.inr ⟨hm.map Prod.snd, x.2, List.mem_map_of_mem hx, hp, rfl⟩, same hm⟩
  | @assign h p k v =>
    simp only [Spec.step, Spec.assign, hnew, Option.isNone_none, Spec.erase_of_absent (hnew h)] at hm ho
    cases o <;> simp only [Out.Agree] at ho
    obtain ⟨rfl, rfl⟩ := ho
    exact ⟨Or.inl ⟨by simpa using hm.map Prod.snd, rfl⟩, one hm⟩
  | @assigned h p k v x hx hp =>
    simp only [Spec.step, Spec.assign, hin hx, Option.isNone_some] at hm ho
    cases o <;> simp only [Out.Agree] at ho
    obtain ⟨rfl, rfl⟩ := ho
    refine ⟨Or.inr ⟨x.2, (Spec.erase m x.1).map Prod.snd, hp, by simpa using (split_uniq hu hx).map Prod.snd, by simpa using hm.map Prod.snd, rfl⟩, ?_⟩
    intro y hy
    rcases List.mem_cons.mp (hm.mem_iff.mp hy) with e | e
    · rw [e]
      exact Nat.lt_succ_of_lt (hg x hx)
    · exact Nat.lt_succ_of_lt (hg y (List.mem_filter.mp e).1)
  | @erase h p =>
    simp only [Spec.step, Spec.erase_of_absent (hnew h)] at hm ho
    cases o <;> simp only [Out.Agree] at ho
    exact ⟨⟨rfl, Or.inl (hm.map Prod.snd)⟩, same hm⟩
  | @erased h p x hx hp =>
    simp only [Spec.step] at hm ho
    cases o <;> simp only [Out.Agree] at ho
    have := (split_uniq hu hx).trans (hm.symm.cons x)
    exact ⟨⟨rfl, Or.inr ⟨x.2, hp, by simpa using this.map Prod.snd⟩⟩, fewer hm⟩
  | @find h p =>
    simp only [Spec.step, hnew] at hm ho
    cases o <;> simp only [Out.Agree] at ho
    subst ho
    exact ⟨⟨hm.map Prod.snd, Or.inl rfl⟩, same hm⟩
  | @found h p x hx hp =>
    simp only [Spec.step, hin hx] at hm ho
    cases o <;> simp only [Out.Agree] at ho
    subst ho
    exact ⟨⟨hm.map Prod.snd, Or.inr ⟨x.2, List.mem_map_of_mem hx, hp, rfl⟩⟩, same hm⟩
  | @contains h p =>
    simp only [Spec.step, hnew, Option.isSome_none] at hm ho
    cases o <;> simp only [Out.Agree] at ho
    subst ho
    exact ⟨⟨hm.map Prod.snd, Or.inl rfl⟩, same hm⟩
  | @contained h p x hx hp =>
    simp only [Spec.step, hin hx, Option.isSome_some] at hm ho
    cases o <;> simp only [Out.Agree] at ho
    subst ho
    exact ⟨⟨hm.map Prod.snd, Or.inr ⟨x.2, List.mem_map_of_mem hx, hp, rfl⟩⟩, same hm⟩
  | @extract h p =>
    simp only [Spec.step, hnew, Option.map_none, Spec.erase_of_absent (hnew h)] at hm ho
    cases o <;> simp only [Out.Agree] at ho
    subst ho
    exact ⟨Or.inl ⟨hm.map Prod.snd, rfl⟩, same hm⟩
  | @extracted h p x hx hp =>
    simp only [Spec.step, hin hx, Option.map_some] at hm ho
    cases o <;> simp only [Out.Agree] at ho
    subst ho
    have := (split_uniq hu hx).trans (hm.symm.cons x)
    exact ⟨Or.inr ⟨x.2, hp, by simpa using this.map Prod.snd, rfl⟩, fewer hm⟩
  | @eraseIf q =>
    simp only [Spec.step] at hm ho
    cases o <;> simp only [Out.Agree] at ho
    obtain ⟨rfl, ho⟩ := ho
    refine ⟨⟨?_, _, ?_, ho.map Prod.snd⟩, fewer hm⟩
    · have := hm.map Prod.snd
      rw [List.filter_map]
      exact this
    · rw [List.filter_map, List.length_map]
      rfl
  | clear =>
    simp only [Spec.step] at hm ho
    cases o <;> simp only [Out.Agree] at ho
    rw [List.Perm.eq_nil hm]
    exact ⟨⟨rfl, rfl⟩, fun x hx => by cases hx⟩
  | reserve =>
    simp only [Spec.step] at hm ho
    cases o <;> simp only [Out.Agree] at ho
    exact ⟨⟨hm.map Prod.snd, rfl⟩, same hm⟩
  | rehash =>
    simp only [Spec.step] at hm ho
    cases o <;> simp only [Out.Agree] at ho
    exact ⟨⟨hm.map Prod.snd, rfl⟩, same hm⟩
  | size =>
    simp only [Spec.step] at hm ho
    cases o <;> simp only [Out.Agree] at ho
    subst ho
    exact ⟨⟨hm.map Prod.snd, by simp [Out.strip]⟩, same hm⟩
  | iterate =>
    simp only [Spec.step] at hm ho
    cases o <;> simp only [Out.Agree] at ho
    exact ⟨⟨hm.map Prod.snd, _, rfl, ho.map Prod.snd⟩, same hm⟩

theorem runWild_spec {isa : Isa} : ∀ (ops : List (WildOp K V)) {g : Nat} {t : Table (Nat × Nat) (K × V)}, Reachable isa Prod.snd t → Below g t →
    Ends isa (t.runWild isa g ops) (fun r => Reachable isa Prod.snd r.1 ∧ Did (t.contents.map Prod.snd) ops r.2 (r.1.contents.map Prod.snd) ∧
      Below (g + ops.length) r.1)
  | [], g, t, h, hg => Ends.of_ok rfl ⟨h, .nil (List.Perm.refl _), hg⟩
  | op :: ops, g, t, h, hg => by
    obtain ⟨q, h1, h2⟩ := stepWild_plain h.inv hg op
    unfold Table.runWild
    rcases step_spec h.inv (List.Perm.refl _) q with ⟨⟨t', o⟩, e, -, p1, p2⟩ | ⟨hw, e⟩
    · rw [h2, e]
      simp only [Except.map, bind_ok]
      obtain ⟨d1, d2⟩ := does_turns h.inv.contents_uniq hg h1 p1 p2
      have ih := runWild_spec ops (g := g + 1) (h.step e) d2
      refine ih.bind fun r hr => Ends.of_ok rfl ⟨hr.1, .cons d1 hr.2.1, ?_⟩
      rw [List.length_cons, show g + (ops.length + 1) = g + 1 + ops.length by omega]
      exact hr.2.2
    · refine Or.inr ⟨hw, ?_⟩
      rw [h2, e]
      rfl

/-- C123: whatever the hash function and the comparison answer, every history of operations of a sparse or stable container ends without undefined
behaviour (apart from C32 with 8-byte blocks), every operation does to the elements what it may do, and reports what it did.  The container is one
that also comes about with distinct keys and a proper hash function (`Prod.snd`, on pairs of a serial number and a hash), so that everything proved of
reachable containers holds of it. -/
theorem C123_sparse_history (isa : Isa) (ops : List (WildOp K V)) :
    Ends isa ((Table.init : Table (Nat × Nat) (K × V)).runWild isa 0 ops) (fun r => Reachable isa Prod.snd r.1 ∧
      Did [] ops r.2 (r.1.contents.map Prod.snd)) := by
  have h0 : Below 0 (Table.init : Table (Nat × Nat) (K × V)) := by
    intro x hx
    obtain ⟨i, n, hi, -⟩ := mem_contents.mp hx
    exact absurd hi (Nat.not_lt_zero _)
  refine (runWild_spec ops (.init _) h0).mono fun r hr => ⟨hr.1, ?_⟩
  have : (Table.init : Table (Nat × Nat) (K × V)).contents.map Prod.snd = [] := by
    cases hc : (Table.init : Table (Nat × Nat) (K × V)).contents with
    | nil => rfl
    | cons x l =>
      have := h0 x (by rw [hc]; exact List.mem_cons_self ..)
      exact absurd this (Nat.not_lt_zero _)
  rw [← this]
  exact hr.2.1

/-- C123: size and iteration after such a history: `size()` is the number of elements and iteration visits each of them once. -/
theorem C123_sparse_iterate {isa : Isa} {ops : List (WildOp K V)} {r : Table (Nat × Nat) (K × V) × List (Out K V)}
    (e : (Table.init : Table (Nat × Nat) (K × V)).runWild isa 0 ops = .ok r) : ∃ l, Did [] ops r.2 l ∧ r.1.size = l.length ∧
      Ends isa (r.1.stepWild isa ops.length .iterate) (fun s => s.1 = r.1 ∧ ∃ c, s.2 = .list c ∧ c.Perm l) := by
  rcases C123_sparse_history isa ops with ⟨r', e', h1, h2⟩ | ⟨-, e'⟩
  · rw [e] at e'
    cases e'
    refine ⟨_, h2, by rw [List.length_map, h1.inv.contents_length], ?_⟩
    rcases step_spec h1.inv (List.Perm.refl _) .iterate with ⟨⟨t', o⟩, es, -, -, p2⟩ | ⟨hw, es⟩
    · simp only [Table.step] at es
      obtain ⟨c, ec, es⟩ := Dense.bind_eq_ok es
      cases es
      refine Or.inl ⟨(r.1, .list (c.map Prod.snd)), ?_, rfl, _, rfl, ?_⟩
      · simp only [Table.stepWild, ec, bind_ok]
      · exact List.Perm.map Prod.snd p2
    · refine Or.inr ⟨hw, ?_⟩
      simp only [Table.step] at es
      simp only [Table.stepWild]
      cases hc : r.1.iterate isa with
      | error f =>
        rw [hc] at es
        rw [show f = .ctzZero from Except.error.inj es]
        rfl
      | ok c =>
        rw [hc] at es
        cases es
  · rw [e] at e'
    cases e'

/-- C123: an element is found again, or another one in its place, if the hash is what it was when the element was inserted and the comparison always
accepts the element; what other elements there are, and what their hashes were, does not matter. -/
theorem C123_sparse_found {isa : Isa} {ops : List (WildOp K V)} {r : Table (Nat × Nat) (K × V) × List (Out K V)}
    (e : (Table.init : Table (Nat × Nat) (K × V)).runWild isa 0 ops = .ok r) {x : (Nat × Nat) × (K × V)} (hx : x ∈ r.1.contents) {p : Answers K}
    (hp : ∀ a b, p a b x.2.1 = true) (g : Nat) : r.1.stepWild isa g (.contains x.1.2 p) = .ok (r.1, .bool true) := by
  rcases C123_sparse_history isa ops with ⟨r', e', h1, -⟩ | ⟨-, e'⟩
  · rw [e] at e'
    cases e'
    obtain ⟨i, n, h2, h3⟩ := findNodeWild_some h1.inv hx hp
    have hi := (readNode_eq h3).1
    have hne : (i != r.1.cap) = true := by
      simp only [bne_iff_ne]
      omega
    simp only [Table.stepWild, h2, bind_ok, hne]
  · rw [e] at e'
    cases e'

/-- A hash function and a comparison that contradict themselves: five times the same key, with hashes 7, 7, 9, 9 and 9. -/
def moody : List (WildOp Nat Nat) :=
  [.insert 7 (fun _ _ _ => false) 1 10, .insert 7 (fun _ _ _ => false) 1 11, .insert 9 (fun _ _ k => k == 1) 1 12, .insert 9 (fun _ _ k => k == 1) 1 13,
    .size, .contains 8 (fun _ _ _ => true), .contains 7 (fun _ _ _ => true), .erase 9 (fun _ _ _ => false), .erase 9 (fun _ _ _ => true), .iterate]

example : ((Table.init : Table (Nat × Nat) (Nat × Nat)).runWild .sse2 0 moody).map Prod.snd = .ok
    [.ins (1, 10) true, .ins (1, 11) true, .ins (1, 12) true, .ins (1, 12) false, .nat 3, .bool false, .bool true, .unit, .unit,
      .list [(1, 10), (1, 11)]] := by
  decide +kernel

/-- Twenty insertions of the same key with the same hash, which the comparison rejects each time, and one search: the array grows several times. -/
example : ((Table.init : Table (Nat × Nat) (Nat × Nat)).runWild .sse2 0 ((List.range 20).map (fun v => .insert 5 (fun _ _ _ => false) 1 v) ++
    [.size, .contains 5 (fun _ _ k => k == 1), .contains 5 (fun _ _ _ => false)])).map (fun r => (r.1.cap, r.2.drop 20)) =
    .ok (31, [.nat 20, .bool true, .bool false]) := by
  decide +kernel

end Tpp.Swiss
