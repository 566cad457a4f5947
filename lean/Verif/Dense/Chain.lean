import Verif.Dense.Model

/-!
# Chains of one key component

`c : Ref → Option Nat` is the contents of every chain cell of one component; `Path c r l` says that following the
chain from the cell `r` visits exactly the nodes `l`.
-/

set_option linter.unusedSectionVars false

namespace Tpp.Dense

/-- Update of one cell. -/
def setc (c : Ref → Option Nat) (r : Ref) (v : Option Nat) : Ref → Option Nat := fun r' => if r' = r then v else c r'

@[simp] theorem setc_same (c : Ref → Option Nat) (r : Ref) (v : Option Nat) : setc c r v r = v := by simp [setc]

theorem setc_ne (c : Ref → Option Nat) {r r' : Ref} (v : Option Nat) (h : r' ≠ r) : setc c r v r' = c r' := by
  simp [setc, h]

def Path (c : Ref → Option Nat) : Ref → List Nat → Prop
  | r, [] => c r = none
  | r, i :: l => c r = some i ∧ Path c (.next i) l

/-- The cell reached after visiting `l`. -/
def endRef : Ref → List Nat → Ref
  | r, [] => r
  | _, i :: l => endRef (.next i) l

theorem endRef_append (r : Ref) (a : List Nat) (i : Nat) : endRef r (a ++ [i]) = .next i := by
  induction a generalizing r with
  | nil => rfl
  | cons x a ih => exact ih _

theorem endRef_cases (r : Ref) (l : List Nat) : (l = [] ∧ endRef r l = r) ∨ ∃ i ∈ l, endRef r l = .next i := by
  rcases List.eq_nil_or_concat l with h | ⟨a, i, h⟩
  · subst h; exact Or.inl ⟨rfl, rfl⟩
  · right
    refine ⟨i, by simp [h], ?_⟩
    rw [h, List.concat_eq_append, endRef_append]

theorem Path.congr {c c' : Ref → Option Nat} : ∀ {r : Ref} {l : List Nat}, Path c r l → c' r = c r →
    (∀ i ∈ l, c' (.next i) = c (.next i)) → Path c' r l := by
  intro r l
  induction l generalizing r with
  | nil => intro h h1 _; exact h1.trans h
  | cons i l ih =>
    intro h h1 h2
    exact ⟨h1.trans h.1, ih h.2 (h2 i List.mem_cons_self) (fun i' hi => h2 i' (List.mem_cons_of_mem _ hi))⟩

theorem Path.unique {c : Ref → Option Nat} : ∀ {r : Ref} {l l' : List Nat}, Path c r l → Path c r l' → l = l' := by
  intro r l
  induction l generalizing r with
  | nil =>
    intro l' h h'
    cases l' with
    | nil => rfl
    | cons i l' => exact absurd (h'.1.symm.trans (show c r = none from h)) (by simp)
  | cons i l ih =>
    intro l' h h'
    cases l' with
    | nil => exact absurd (h.1.symm.trans (show c r = none from h')) (by simp)
    | cons i' l' =>
      have e : i = i' := Option.some.inj (h.1.symm.trans h'.1)
      subst e
      rw [ih h.2 h'.2]

theorem Path.append {c : Ref → Option Nat} : ∀ {r : Ref} {a b : List Nat}, Path c r (a ++ b) →
    Path c (endRef r a) b := by
  intro r a
  induction a generalizing r with
  | nil => intro b h; exact h
  | cons i a ih => intro b h; exact ih h.2

theorem Path.end_none {c : Ref → Option Nat} {r : Ref} {l : List Nat} (h : Path c r l) : c (endRef r l) = none := by
  have := Path.append (a := l) (b := []) (by simpa using h)
  exact this

theorem Path.point {c : Ref → Option Nat} {r : Ref} {a b : List Nat} {i : Nat} (h : Path c r (a ++ i :: b)) :
    c (endRef r a) = some i := h.append.1

/-- Redirecting the cell after `a`. -/
theorem Path.redirect {c : Ref → Option Nat} {v : Option Nat} : ∀ {r : Ref} {a b b' : List Nat},
    Path c r (a ++ b) → a.Nodup → (∀ i ∈ a, r ≠ .next i) →
    Path (setc c (endRef r a) v) (endRef r a) b' → Path (setc c (endRef r a) v) r (a ++ b') := by
  intro r a
  induction a generalizing r with
  | nil => intro b b' _ _ _ h; exact h
  | cons i a ih =>
    intro b b' h hn hr h'
    rw [List.nodup_cons] at hn
    refine ⟨?_, ih h.2 hn.2 ?_ h'⟩
    · have : r ≠ endRef r (i :: a) := by
        rcases endRef_cases r (i :: a) with ⟨e, _⟩ | ⟨x, hx, e⟩
        · cases e
        · rw [e]; exact hr x hx
      rw [setc_ne _ _ this]
      exact h.1
    · intro x hx e
      injection e with e
      exact hn.1 (e ▸ hx)

/-- Writing a cell that is not on the path. -/
theorem Path.frame {c : Ref → Option Nat} {v : Option Nat} {r r' : Ref} {l : List Nat} (h : Path c r l) (hr : r' ≠ r)
    (hl : ∀ i ∈ l, r' ≠ .next i) : Path (setc c r' v) r l :=
  h.congr (setc_ne _ _ (Ne.symm hr)) (fun i hi => setc_ne _ _ (Ne.symm (hl i hi)))

/-- Appending at the end. -/
theorem Path.snoc {c : Ref → Option Nat} {b : Nat} {l : List Nat} (h : Path c (.head b) l) (hn : l.Nodup) {p : Nat}
    (hp : c (.next p) = none) (hpl : p ∉ l) : Path (setc c (endRef (.head b) l) (some p)) (.head b) (l ++ [p]) := by
  refine Path.redirect (b := []) (by simpa using h) hn (by intro i _ e; cases e) ?_
  refine ⟨setc_same .., ?_⟩
  show setc c _ _ (.next p) = none
  rw [setc_ne]
  · exact hp
  · intro e
    rcases endRef_cases (.head b) l with ⟨_, e'⟩ | ⟨x, hx, e'⟩
    · rw [e'] at e; cases e
    · rw [e'] at e
      injection e with e
      exact hpl (e ▸ hx)

/-- Unlinking a node. -/
theorem Path.unlink {c : Ref → Option Nat} {b p : Nat} {x y : List Nat} (h : Path c (.head b) (x ++ p :: y))
    (hn : (x ++ p :: y).Nodup) : Path (setc c (endRef (.head b) x) (c (.next p))) (.head b) (x ++ y) := by
  have hn' := List.nodup_append.mp hn
  refine Path.redirect h hn'.1 (by intro i _ e; cases e) ?_
  have hy := h.append.2
  have hcell : ∀ i, i ∉ x → setc c (endRef (.head b) x) (c (.next p)) (.next i) = c (.next i) := by
    intro i hi
    apply setc_ne
    intro e
    rcases endRef_cases (.head b) x with ⟨_, e'⟩ | ⟨z, hz, e'⟩
    · rw [e'] at e; cases e
    · rw [e'] at e
      injection e with e
      exact hi (e ▸ hz)
  have hxy : ∀ i ∈ y, i ∉ x := fun i hi hx => hn'.2.2 i hx i (List.mem_cons_of_mem _ hi) rfl
  cases y with
  | nil =>
    show setc c _ _ _ = none
    rw [setc_same]
    exact hy
  | cons q y =>
    refine ⟨?_, ?_⟩
    · rw [setc_same]; exact hy.1
    · refine hy.2.congr (hcell q (hxy q List.mem_cons_self)) ?_
      intro i hi
      exact hcell i (hxy i (List.mem_cons_of_mem _ hi))

/-- Renaming a node: the cell that points to `p` is redirected to `q`, whose cell is that of `p`. -/
theorem Path.rename {c c' : Ref → Option Nat} {b p q : Nat} {x y : List Nat} (h : Path c (.head b) (x ++ p :: y))
    (hn : (x ++ p :: y).Nodup) (hq : q ∉ x ++ p :: y)
    (hc : ∀ r, r ≠ .next p → r ≠ .next q → c' r = setc c (endRef (.head b) x) (some q) r)
    (hcq : c' (.next q) = c (.next p)) : Path c' (.head b) (x ++ q :: y) := by
  have hn' := List.nodup_append.mp hn
  have hpx : p ∉ x := fun hx => hn'.2.2 p hx p List.mem_cons_self rfl
  have hpy : p ∉ y := (List.nodup_cons.mp hn'.2.1).1
  have hqx : q ∉ x := fun hx => hq (List.mem_append_left _ hx)
  have hqy : q ∉ y := fun hy => hq (List.mem_append_right _ (List.mem_cons_of_mem _ hy))
  have hne : ∀ i, i ∉ x → Ref.next i ≠ endRef (.head b) x := by
    intro i hi e
    rcases endRef_cases (.head b) x with ⟨_, e'⟩ | ⟨z, hz, e'⟩
    · rw [e'] at e; cases e
    · rw [e'] at e
      injection e with e
      exact hi (e ▸ hz)
  have hmem : ∀ i ∈ x ++ y, Ref.next i ≠ .next p ∧ Ref.next i ≠ .next q := by
    intro i hi
    rcases List.mem_append.mp hi with hi | hi
    · exact ⟨fun e => by injection e with e; exact hpx (e ▸ hi), fun e => by injection e with e; exact hqx (e ▸ hi)⟩
    · exact ⟨fun e => by injection e with e; exact hpy (e ▸ hi), fun e => by injection e with e; exact hqy (e ▸ hi)⟩
  -- first in `c2`: like `setc c …` but with the cell of `q`
  have key : Path (fun r => if r = .next q then c (.next p) else setc c (endRef (.head b) x) (some q) r) (.head b)
      (x ++ q :: y) := by
    have h2 : Path (setc (fun r => if r = .next q then c (.next p) else c r) (endRef (.head b) x) (some q)) (.head b)
        (x ++ q :: y) := by
      refine Path.redirect (b := p :: y) ?_ hn'.1 (by intro i _ e; cases e) ⟨setc_same .., ?_⟩
      · refine h.congr (if_neg (by intro e; cases e)) ?_
        intro i hi
        refine if_neg fun e => ?_
        injection e with e
        exact hq (e ▸ hi)
      · have hy := h.append.2
        cases y with
        | nil =>
          show setc _ _ _ _ = none
          rw [setc_ne _ _ (hne q hqx), if_pos rfl]
          exact hy
        | cons z y =>
          refine ⟨?_, ?_⟩
          · rw [setc_ne _ _ (hne q hqx), if_pos rfl]
            exact hy.1
          · have hg : ∀ i ∈ z :: y, setc (fun r => if r = Ref.next q then c (Ref.next p) else c r)
                (endRef (Ref.head b) x) (some q) (.next i) = c (.next i) := by
              intro i hi
              have hix : i ∉ x := fun hx => hn'.2.2 i hx i (List.mem_cons_of_mem _ hi) rfl
              rw [setc_ne _ _ (hne i hix)]
              exact if_neg (hmem i (List.mem_append_right _ hi)).2
            exact hy.2.congr (hg z List.mem_cons_self) (fun i hi => hg i (List.mem_cons_of_mem _ hi))
    refine h2.congr ?_ ?_
    · rw [if_neg (by intro e; cases e)]
      unfold setc
      simp
    · intro i hi
      unfold setc
      by_cases e : Ref.next i = .next q
      · rw [if_pos e, if_neg]
        · exact (if_pos e).symm
        · rw [e]
          exact hne q hqx
      · rw [if_neg e]
        simp only [if_neg e]
  refine key.congr ?_ ?_
  · rw [hc _ (by intro e; cases e) (by intro e; cases e), if_neg (by intro e; cases e)]
  · intro i hi
    rcases List.mem_append.mp hi with hi' | hi'
    · have := hmem i (List.mem_append_left _ hi')
      rw [hc _ this.1 this.2, if_neg this.2]
    · rcases List.mem_cons.mp hi' with hi' | hi'
      · subst hi'
        rw [hcq, if_pos rfl]
      · have := hmem i (List.mem_append_right _ hi')
        rw [hc _ this.1 this.2, if_neg this.2]

/-! ## Cells of a table -/

variable {k : Nat} {K V : Type} [DecidableEq K]

/-- The cells of component `j`. -/
def Table.cell (t : Table k K V) (j : Fin k) : Ref → Option Nat
  | .head b => t.head b j
  | .next i => (t.node i).bind (·.next j)

/-- A reference that may be dereferenced. -/
def Table.Valid (t : Table k K V) : Ref → Prop
  | .head b => b < t.bc
  | .next i => i < t.cap ∧ t.node i ≠ none

theorem readNode_ok {t : Table k K V} {i : Nat} {n : Node k K V} (hi : i < t.cap) (hn : t.node i = some n) :
    t.readNode i = .ok n := by
  unfold Table.readNode
  rw [if_pos hi, hn]

theorem readRef_ok {t : Table k K V} {r : Ref} (j : Fin k) (hr : t.Valid r) : t.readRef j r = .ok (t.cell j r) := by
  cases r with
  | head b => exact if_pos hr
  | next i =>
    obtain ⟨n, hn⟩ := Option.ne_none_iff_exists'.mp hr.2
    unfold Table.readRef
    simp only
    rw [readNode_ok hr.1 hn, bind_ok]
    unfold Table.cell
    simp only [hn]
    rfl

/-- Everything but the chain cells of the other components. -/
structure Table.SameBut (t t' : Table k K V) : Prop where
  size : t'.size = t.size
  cap : t'.cap = t.cap
  bc : t'.bc = t.bc
  lf : t'.lf = t.lf
  node : ∀ i, (t'.node i).map (fun n => (n.key, n.val, n.hash)) = (t.node i).map (fun n => (n.key, n.val, n.hash))

theorem Table.SameBut.refl (t : Table k K V) : t.SameBut t := ⟨rfl, rfl, rfl, rfl, fun _ => rfl⟩

theorem Table.SameBut.trans {t t' t'' : Table k K V} (h : t.SameBut t') (h' : t'.SameBut t'') : t.SameBut t'' :=
  ⟨h'.size.trans h.size, h'.cap.trans h.cap, h'.bc.trans h.bc, h'.lf.trans h.lf,
    fun i => (h'.node i).trans (h.node i)⟩

theorem Table.SameBut.valid {t t' : Table k K V} (h : t.SameBut t') {r : Ref} (hr : t.Valid r) : t'.Valid r := by
  cases r with
  | head b => exact Nat.lt_of_lt_of_eq hr h.bc.symm
  | next i =>
    refine ⟨Nat.lt_of_lt_of_eq hr.1 h.cap.symm, ?_⟩
    intro e
    have := h.node i
    rw [e] at this
    simp only [Option.map_none] at this
    exact hr.2 (Option.map_eq_none_iff.mp this.symm)

/-- A write changes one cell of one component. -/
theorem writeRef_ok {t : Table k K V} {r : Ref} (j : Fin k) (v : Option Nat) (hr : t.Valid r) :
    ∃ t', t.writeRef j r v = .ok t' ∧ t.SameBut t' ∧ t'.cell j = setc (t.cell j) r v ∧
      ∀ j', j' ≠ j → t'.cell j' = t.cell j' := by
  cases r with
  | head b =>
    unfold Table.writeRef
    simp only
    rw [if_pos (show b < t.bc from hr)]
    refine ⟨_, rfl, ⟨rfl, rfl, rfl, rfl, fun _ => rfl⟩, ?_, ?_⟩
    · funext r
      cases r with
      | head b' =>
        unfold Table.cell setc
        simp only [upd_apply]
        by_cases e : b' = b
        · subst e; simp
        · rw [if_neg e, if_neg (by simpa using e)]
      | next i => rw [setc_ne _ _ (by simp)]; rfl
    · intro j' hj
      funext r
      cases r with
      | head b' =>
        unfold Table.cell
        simp only [upd_apply]
        by_cases e : b' = b
        · subst e; simp [hj]
        · rw [if_neg e]
      | next i => rfl
  | next i =>
    obtain ⟨n, hn⟩ := Option.ne_none_iff_exists'.mp hr.2
    unfold Table.writeRef
    simp only
    rw [readNode_ok hr.1 hn, bind_ok]
    refine ⟨_, rfl, ⟨rfl, rfl, rfl, rfl, ?_⟩, ?_, ?_⟩
    · intro i'
      simp only [upd_apply]
      by_cases e : i' = i
      · subst e; rw [if_pos rfl, hn]; rfl
      · rw [if_neg e]
    · funext r
      cases r with
      | head b => rw [setc_ne _ _ (by simp)]; rfl
      | next i' =>
        unfold Table.cell setc
        simp only [upd_apply]
        by_cases e : i' = i
        · subst e; simp
        · rw [if_neg e, if_neg (by simpa using e)]
    · intro j' hj
      funext r
      cases r with
      | head b => rfl
      | next i' =>
        unfold Table.cell
        simp only [upd_apply]
        by_cases e : i' = i
        · subst e
          rw [if_pos rfl, hn]
          simp [hj]
        · rw [if_neg e]

/-- `find_chain_ptr` on a chain that contains `pos`. -/
theorem findChainPtr_ok {t : Table k K V} {j : Fin k} {pos : Nat} : ∀ {fuel : Nat} {r : Ref} {x y : List Nat},
    Path (t.cell j) r (x ++ pos :: y) → pos ∉ x → t.Valid r → (∀ i ∈ x, t.Valid (.next i)) → x.length < fuel →
    t.findChainPtr j pos fuel r = .ok (endRef r x) := by
  intro fuel
  induction fuel with
  | zero => intro r x y _ _ _ _ h; omega
  | succ fuel ih =>
    intro r x y hp hx hr hv hl
    unfold Table.findChainPtr
    rw [readRef_ok j hr, bind_ok]
    cases x with
    | nil =>
      rw [show t.cell j r = some pos from hp.1]
      simp only [if_true]
      rfl
    | cons i x =>
      rw [show t.cell j r = some i from hp.1]
      simp only
      rw [if_neg (fun e : i = pos => hx (e ▸ List.mem_cons_self))]
      exact ih hp.2 (fun h => hx (List.mem_cons_of_mem _ h)) (hv i List.mem_cons_self)
        (fun i' hi => hv i' (List.mem_cons_of_mem _ hi)) (by simp only [List.length_cons] at hl; omega)

/-- The node `i` matches key `x` with hash `h` in component `j`. -/
def Table.Match (t : Table k K V) (j : Fin k) (x : K) (h : Nat) (i : Nat) : Prop :=
  ∃ n, t.node i = some n ∧ n.hash j = h ∧ n.key j = x

/-- The search loop of `find_node`. -/
theorem findLoop_ok {t : Table k K V} {j : Fin k} {x : K} {h : Nat} : ∀ {fuel : Nat} {r : Ref} {l : List Nat},
    Path (t.cell j) r l → t.Valid r → (∀ i ∈ l, t.Valid (.next i)) → l.length < fuel →
    (∃ a i b, l = a ++ i :: b ∧ (∀ i' ∈ a, ¬ t.Match j x h i') ∧ t.Match j x h i ∧
      t.findLoop j x h fuel r = .ok (some i, endRef r a)) ∨
    ((∀ i ∈ l, ¬ t.Match j x h i) ∧ t.findLoop j x h fuel r = .ok (none, endRef r l)) := by
  intro fuel
  induction fuel with
  | zero => intro r l _ _ _ h; omega
  | succ fuel ih =>
    intro r l hp hr hv hl
    unfold Table.findLoop
    rw [readRef_ok j hr, bind_ok]
    cases l with
    | nil =>
      right
      rw [show t.cell j r = none from hp]
      exact ⟨by simp, rfl⟩
    | cons i l =>
      have hvi := hv i List.mem_cons_self
      obtain ⟨n, hn⟩ := Option.ne_none_iff_exists'.mp hvi.2
      rw [show t.cell j r = some i from hp.1]
      simp only
      rw [readNode_ok hvi.1 hn, bind_ok]
      by_cases hm : n.hash j = h ∧ x = n.key j
      · left
        rw [if_pos hm]
        exact ⟨[], i, l, rfl, by simp, ⟨n, hn, hm.1, hm.2.symm⟩, rfl⟩
      · rw [if_neg hm]
        have hnm : ¬ t.Match j x h i := by
          rintro ⟨n', hn', h1, h2⟩
          rw [hn] at hn'
          cases hn'
          exact hm ⟨h1, h2.symm⟩
        rcases ih hp.2 hvi (fun i' hi => hv i' (List.mem_cons_of_mem _ hi))
          (by simp only [List.length_cons] at hl; omega) with ⟨a, i', b, e, h1, h2, h3⟩ | ⟨h1, h2⟩
        · left
          refine ⟨i :: a, i', b, by rw [e]; rfl, ?_, h2, h3⟩
          intro x hx
          rcases List.mem_cons.mp hx with hx | hx
          · rw [hx]; exact hnm
          · exact h1 x hx
        · right
          refine ⟨?_, h2⟩
          intro x hx
          rcases List.mem_cons.mp hx with hx | hx
          · rw [hx]; exact hnm
          · exact h1 x hx

end Tpp.Dense
