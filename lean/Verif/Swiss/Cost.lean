import Verif.Swiss.Average
import Verif.Swiss.Cycle
import Verif.Swiss.Iters

/-!
# How many blocks searches read while elements come and go
-/

set_option linter.unusedSectionVars false

namespace Tpp.Swiss

variable {K V : Type} [DecidableEq K]

/-! ### Elements that stay -/

theorem scanT_none {t : Table K V} {k : K} {pos : Nat} : ∀ {l tr : List Nat}, t.scanT k pos l = .ok (none, tr) →
    ∀ i ∈ l, ∀ n, t.node ((pos + i) &&& t.cap) = some n → n.key ≠ k := by
  intro l
  induction l with
  | nil => intro _ _ i hi; cases hi
  | cons a l ih =>
    intro tr e i hi n hn
    unfold Table.scanT at e
    obtain ⟨m, h1, e⟩ := ok_of_bind e
    have hm : t.node ((pos + a) &&& t.cap) = some m := by
      unfold Table.readNode at h1
      split at h1
      · split at h1
        · cases h1; assumption
        · cases h1
      · cases h1
    by_cases hk : m.key = k
    · rw [if_pos hk] at e
      cases e
    · rw [if_neg hk] at e
      obtain ⟨⟨r, l'⟩, h2, e⟩ := ok_of_bind e
      simp only [Except.ok.injEq, Prod.mk.injEq] at e
      obtain ⟨rfl, _⟩ := e
      rcases List.mem_cons.mp hi with e' | hi
      · subst e'
        rw [hm] at hn
        cases hn
        exact hk
      · exact ih h2 i hi n hn

/-- A search that succeeds ends with the first window that contains the slot. -/
theorem findLoopT_window {isa : Isa} {hash : K → Nat} {t : Table K V} (h : Inv isa hash t) (hc : 0 < t.cap) {k : K} {i : Nat}
    (hk : Holds t i k) : ∀ {fuel s b : Nat} {tr : List Nat},
      t.findLoopT isa k (hashLo (hash k)) fuel (wpos isa t.cap (hashHi (hash k)) s) (s * isa.W) = .ok (i, tr, b) →
      1 ≤ b ∧ InWin isa t.cap (wpos isa t.cap (hashHi (hash k)) (s + b - 1)) i ∧
        ∀ s', s ≤ s' → s' + 1 < s + b → ¬ InWin isa t.cap (wpos isa t.cap (hashHi (hash k)) s') i := by
  have hm := h.meta_ok hc
  obtain ⟨hi, n, hn, hnk⟩ := hk
  intro fuel
  induction fuel with
  | zero => intro s b tr e; cases e
  | succ fuel ih =>
    intro s b tr e
    have hle := wpos_le isa t.cap (hashHi (hash k)) s
    unfold Table.findLoopT at e
    obtain ⟨u, _, e⟩ := ok_of_bind e
    obtain ⟨⟨r, l⟩, hl, e⟩ := ok_of_bind e
    obtain ⟨hpre, hlast, _⟩ := scanT_spec hl
    simp only at e
    cases r with
    | some off =>
      cases e
      have hmem := List.mem_of_getLast? (hlast _ rfl)
      exact ⟨Nat.le_refl _, (matched h hc hle (hpre.subset hmem)).2.1, by intro s' h1 h2; omega⟩
    | none =>
      simp only at e
      have hnot : ¬ InWin isa t.cap (wpos isa t.cap (hashHi (hash k)) s) i := by
        intro hin
        obtain ⟨c, hb1, hb2, hb3, _⟩ := hm.seen hle hi hin
        have htag := h.tag i hi n hn
        rw [h.hash_ok i hi n hn, hnk] at htag
        have hmem : c ∈ t.matchEq isa (wpos isa t.cap (hashHi (hash k)) s) (hashLo (hash k)) :=
          matchEq_hit hb1 (by rw [hb3, htag])
        exact scanT_none hl c hmem n (by rw [land_cap hm, hb2]; exact hn) hnk
      by_cases hne : t.matches_ isa (wpos isa t.cap (hashHi (hash k)) s) (·.isEmpty) ≠ []
      · rw [if_pos hne] at e
        simp only [Except.ok.injEq, Prod.mk.injEq] at e
        omega
      · rw [if_neg hne] at e
        by_cases hidx : s * isa.W < t.cap
        · rw [if_pos hidx, wpos_succ hm.pow, ← Nat.succ_mul] at e
          obtain ⟨⟨i', l', b'⟩, h', e⟩ := ok_of_bind e
          simp only [Except.ok.injEq, Prod.mk.injEq] at e
          obtain ⟨rfl, _, rfl⟩ := e
          obtain ⟨g1, g2, g3⟩ := ih h'
          refine ⟨by omega, ?_, ?_⟩
          · rw [show s + (b' + 1) - 1 = s.succ + b' - 1 by omega]
            exact g2
          · intro s' h1 h2
            rcases Nat.eq_or_lt_of_le h1 with e | h1
            · rw [← e]; exact hnot
            · exact g3 s' (by omega) (by omega)
        · rw [if_neg hidx] at e
          cases e

/-- The number of blocks read depends on the bucket count, the hash and the slot only. -/
theorem hit_blocks {isa : Isa} {hash : K → Nat} {t t' : Table K V} (h : Inv isa hash t) (h' : Inv isa hash t') (hcap : t'.cap = t.cap)
    {k : K} {i : Nat} (hk : Holds t i k) (hk' : Holds t' i k) :
    ∃ tr tr' b, t.findNodeT isa k (hash k) = .ok (i, tr, b) ∧ t'.findNodeT isa k (hash k) = .ok (i, tr', b) := by
  have one : ∀ {t : Table K V}, Inv isa hash t → Holds t i k → ∃ tr b, t.findNodeT isa k (hash k) = .ok (i, tr, b) ∧ 1 ≤ b ∧
      InWin isa t.cap (wpos isa t.cap (hashHi (hash k)) (b - 1)) i ∧
        ∀ s', s' + 1 < b → ¬ InWin isa t.cap (wpos isa t.cap (hashHi (hash k)) s') i := by
    intro t h hk
    have hc : 0 < t.cap := by have := hk.1; omega
    have hm := h.meta_ok hc
    obtain ⟨j, tr, b, e, e1, _⟩ := findNodeT_spec h k
    have hj : j = i := by
      rcases findNode_spec h k with ⟨a, n, ha, hn, hnk, e2⟩ | ⟨hno, _⟩
      · rw [e1] at e2
        cases e2
        obtain ⟨hi, n', hn', hk''⟩ := hk
        exact h.uniq _ ha _ hi _ _ hn hn' (hnk.trans hk''.symm)
      · obtain ⟨hi, n', hn', hk''⟩ := hk
        exact absurd hk'' (hno i hi n' hn')
    subst hj
    refine ⟨tr, b, e, ?_⟩
    unfold Table.findNodeT at e
    by_cases hz : t.size ≠ 0
    · rw [if_pos hz, land_cap hm] at e
      have := findLoopT_window h hc hk (fuel := t.cap + 1) (s := 0) (b := b) (tr := tr) (by simpa [wpos, probePos] using e)
      obtain ⟨g1, g2, g3⟩ := this
      exact ⟨g1, by simpa using g2, fun s' hs' => g3 s' (Nat.zero_le _) (by omega)⟩
    · rw [if_neg hz] at e
      simp only [Except.ok.injEq, Prod.mk.injEq] at e
      have := hk.1
      omega
  obtain ⟨tr, b, e, b1, b2, b3⟩ := one h hk
  obtain ⟨tr', b', e', c1, c2, c3⟩ := one h' hk'
  rw [hcap] at c2 c3
  refine ⟨tr, tr', b, e, ?_⟩
  have : b' = b := by
    rcases Nat.lt_trichotomy b b' with hlt | heq | hgt
    · exact absurd b2 (c3 (b - 1) (by omega))
    · exact heq.symm
    · exact absurd c2 (b3 (b' - 1) (by omega))
  rw [← this]
  exact e'

/-! ### Slots that have never been used -/

/-- The buffer is the same, and its unused slots were unused before. -/
def Fade (t t' : Table K V) : Prop := t'.cap = t.cap ∧ ∀ i, t'.ctl i = .empty → t.ctl i = .empty

theorem Fade.refl (t : Table K V) : Fade t t := ⟨rfl, fun _ h => h⟩

theorem Fade.trans {a b c : Table K V} (h : Fade a b) (h' : Fade b c) : Fade a c :=
  ⟨h'.1.trans h.1, fun i hi => h.2 i (h'.2 i hi)⟩

theorem emplaceNode_fade {isa : Isa} {t t' : Table K V} {n : Node K V} {p : Nat} (hc : 0 < t.cap) (hb : 0 < t.numEmpty)
    (he : t.emplaceNode isa n = .ok (t', p)) : Fade t t' ∧ t.numEmpty ≤ t'.numEmpty + 1 := by
  obtain ⟨⟨u, q⟩, e1, e2⟩ := ok_of_bind he
  rw [prepare_room e1 hb (by omega)] at e2
  obtain ⟨_, _, _, _, _, rfl⟩ := commit_eq e2
  refine ⟨⟨rfl, ?_⟩, ?_⟩
  · intro i hi
    simp only [upd_apply] at hi
    split at hi
    · cases hi
    · split at hi
      · cases hi
      · exact hi
  · simp only
    split <;> omega

theorem doErase_fade {isa : Isa} {t t' : Table K V} {p it : Nat} (he : t.doErase isa p = .ok (t', it)) :
    Fade t t' ∧ t'.numEmpty = t.numEmpty := by
  obtain ⟨_, _, _, _, _, _, rfl, _⟩ := doErase_eq he
  refine ⟨⟨rfl, ?_⟩, rfl⟩
  intro i hi
  simp only [upd_apply] at hi
  split at hi
  · cases hi
  · split at hi
    · cases hi
    · exact hi

theorem insert_fade {isa : Isa} {hash : K → Nat} {t t' : Table K V} (h : Inv isa hash t) (hc : 0 < t.cap) {x : K} {v : V} {p : Nat} {f : Bool}
    (hb : Spec.lookup t.contents x = none → 0 < t.numEmpty) (he : t.insert isa hash x v = .ok (t', p, f)) :
    Fade t t' ∧ t.numEmpty ≤ t'.numEmpty + (if (Spec.lookup t.contents x).isNone then 1 else 0) := by
  rcases find_cases h x with ⟨j, n, hj, hn, hx, hf, hl⟩ | ⟨hno, hf, hl⟩
  · simp [Table.insert, hf, show j ≠ t.cap by omega] at he
    obtain ⟨rfl, _, _⟩ := he
    exact ⟨.refl _, by omega⟩
  · simp only [Table.insert, hf, bind_ok, if_true] at he
    obtain ⟨⟨y, q⟩, e1, e2⟩ := ok_of_bind he
    cases e2
    rw [hl]
    exact emplaceNode_fade hc (hb hl) e1

theorem assign_fade {isa : Isa} {hash : K → Nat} {t t' : Table K V} (h : Inv isa hash t) (hc : 0 < t.cap) {x : K} {v : V} {g : V → V} {p : Nat}
    {f : Bool} (hb : Spec.lookup t.contents x = none → 0 < t.numEmpty)
    (he : t.insertOrAssignWith isa hash x v g = .ok (t', p, f)) :
    Fade t t' ∧ t.numEmpty ≤ t'.numEmpty + (if (Spec.lookup t.contents x).isNone then 1 else 0) := by
  rcases find_cases h x with ⟨j, n, hj, hn, hx, hf, hl⟩ | ⟨hno, hf, hl⟩
  · simp [Table.insertOrAssignWith, hf, show j ≠ t.cap by omega, readNode_some hj hn] at he
    obtain ⟨rfl, _, _⟩ := he
    exact ⟨.refl _, by simp only; omega⟩
  · simp only [Table.insertOrAssignWith, hf, bind_ok, if_true] at he
    obtain ⟨⟨y, q⟩, e1, e2⟩ := ok_of_bind he
    cases e2
    rw [hl]
    exact emplaceNode_fade hc (hb hl) e1

theorem insertNode_fade {isa : Isa} {hash : K → Nat} {t t' : Table K V} (h : Inv isa hash t) (hc : 0 < t.cap) {x : K × V} {p : Nat} {f : Bool}
    {l : Option (K × V)} (hb : Spec.lookup t.contents x.1 = none → 0 < t.numEmpty)
    (he : t.insertNode isa hash x = .ok (t', p, f, l)) :
    Fade t t' ∧ t.numEmpty ≤ t'.numEmpty + (if (Spec.lookup t.contents x.1).isNone then 1 else 0) := by
  rcases find_cases h x.1 with ⟨j, n, hj, hn, hx, hf, hl⟩ | ⟨hno, hf, hl⟩
  · simp [Table.insertNode, hf, show j ≠ t.cap by omega] at he
    obtain ⟨rfl, _, _⟩ := he
    exact ⟨.refl _, by omega⟩
  · simp only [Table.insertNode, hf, bind_ok, if_true] at he
    obtain ⟨⟨y, q⟩, e1, e2⟩ := ok_of_bind he
    cases e2
    rw [hl]
    exact emplaceNode_fade hc (hb hl) e1

theorem eraseIfLoop_fade {isa : Isa} {pred : K × V → Bool} :
    ∀ (fuel : Nat) (t t' : Table K V) (pos last count c : Nat) (calls l : List (K × V)),
      Table.eraseIfLoop isa pred fuel t pos last count calls = .ok (t', c, l) → Fade t t' ∧ t'.numEmpty = t.numEmpty := by
  intro fuel
  induction fuel with
  | zero => intro _ _ _ _ _ _ _ _ h; cases h
  | succ fuel ih =>
    intro t t' pos last count c calls l he
    unfold Table.eraseIfLoop at he
    by_cases hp : pos = last
    · rw [if_pos hp] at he
      cases he
      exact ⟨.refl _, rfl⟩
    · rw [if_neg hp] at he
      obtain ⟨n, e1, he⟩ := ok_of_bind he
      by_cases hb : pred (n.key, n.val) = true
      · rw [if_pos hb] at he
        obtain ⟨⟨u, q⟩, e2, he⟩ := ok_of_bind he
        simp only at he
        have hd : Fade t u ∧ u.numEmpty = t.numEmpty := by
          unfold Table.eraseIter at e2
          obtain ⟨e, _, e2⟩ := ok_of_bind e2
          split at e2
          · exact doErase_fade e2
          · cases e2; exact ⟨.refl _, rfl⟩
        obtain ⟨f1, f2⟩ := ih u t' q last _ c _ l he
        exact ⟨hd.1.trans f1, f2.trans hd.2⟩
      · rw [if_neg hb] at he
        obtain ⟨q, _, he⟩ := ok_of_bind he
        exact ih t t' q last _ c _ l he

theorem insertList_fade {isa : Isa} {hash : K → Nat} (xs : List (K × V)) :
    ∀ (t t' : Table K V), Inv isa hash t → 0 < t.cap → xs.length ≤ t.numEmpty →
      xs.foldlM (fun (t : Table K V) x => do
        let (t, _, _) ← t.insert isa hash x.1 x.2
        .ok t) t = .ok t' → Fade t t' ∧ t.numEmpty ≤ t'.numEmpty + xs.length := by
  induction xs with
  | nil =>
    intro t t' h _ _ he
    cases he
    exact ⟨.refl _, by simp⟩
  | cons x xs ih =>
    intro t t' h hc hb he
    simp only [List.length_cons] at hb ⊢
    obtain ⟨u, p, f, h1, h2, _⟩ := insert_spec h x.1 x.2
    simp only [List.foldlM_cons, h1, bind_ok] at he
    obtain ⟨a1, a2⟩ := insert_fade h hc (fun _ => by omega) h1
    have : t.numEmpty ≤ u.numEmpty + 1 := by split at a2 <;> omega
    obtain ⟨b1, b2⟩ := ih u t' h2 (by rw [a1.1]; exact hc) (by omega) he
    exact ⟨a1.trans b1, by omega⟩

/-- Operations other than `clear`. -/
def _root_.Tpp.Op.noClear {K V : Type} : Op K V → Prop
  | .clear => False
  | _ => True

/-- One operation: while there is room, the buffer is not replaced and slots do not become unused. -/
theorem step_fade {isa : Isa} {hash : K → Nat} {t t' : Table K V} (h : Inv isa hash t) (hc : 0 < t.cap) {m : List (K × V)}
    (hm : t.contents.Perm m) {op : Op K V} {o : Out K V} {b : Nat} (hb : b ≤ t.numEmpty) (hfit : op.hasRoom b m) (hkeep : op.noClear)
    (hs : t.step isa hash op = .ok (t', o)) : Fade t t' ∧ b - op.takes m ≤ t'.numEmpty := by
  have hl := fun x => Spec.lookup_perm hm h.contents_uniq x
  have hsz : t.size = m.length := by rw [← h.contents_length, hm.length_eq]
  have one : ∀ {x : K}, (if (Spec.lookup m x).isNone then 1 else 0) ≤ b → Spec.lookup t.contents x = none → 0 < t.numEmpty := by
    intro x h1 h2
    rw [hl] at h2
    rw [h2] at h1
    simp at h1
    omega
  have same : ∀ {x : Table K V}, x = t → Fade t x ∧ b - 0 ≤ x.numEmpty := by
    rintro _ rfl; exact ⟨.refl _, by omega⟩
  cases op with
  | insert x v =>
    simp only [Table.step] at hs
    obtain ⟨⟨u, p, f⟩, e1, hs⟩ := ok_of_bind hs
    obtain ⟨_, _, hs⟩ := ok_of_bind hs
    obtain ⟨_, _, hs⟩ := ok_of_bind hs
    cases hs
    obtain ⟨a1, a2⟩ := insert_fade h hc (one hfit) e1
    rw [hl] at a2
    exact ⟨a1, by simp only [Op.takes] at a2 ⊢; omega⟩
  | assign x v =>
    simp only [Table.step] at hs
    obtain ⟨⟨u, p, f⟩, e1, hs⟩ := ok_of_bind hs
    obtain ⟨_, _, hs⟩ := ok_of_bind hs
    obtain ⟨_, _, hs⟩ := ok_of_bind hs
    cases hs
    obtain ⟨a1, a2⟩ := assign_fade h hc (one hfit) e1
    rw [hl] at a2
    exact ⟨a1, by simp only [Op.takes] at a2 ⊢; omega⟩
  | erase x =>
    simp only [Table.step] at hs
    obtain ⟨⟨u, p⟩, e1, hs⟩ := ok_of_bind hs
    cases hs
    rcases find_cases h x with ⟨j, n, hj, hn, hx, hf, _⟩ | ⟨_, hf, _⟩
    · simp only [Table.erase, hf, bind_ok, ne_eq, show j ≠ t.cap by omega, not_false_eq_true, if_true] at e1
      obtain ⟨d2, d3⟩ := doErase_fade e1
      exact ⟨d2, by simp only; omega⟩
    · simp [Table.erase, hf, end_spec h] at e1
      exact same e1.1.symm
  | clear => cases hkeep
  | reserve n =>
    have hn : n ≤ m.length + b := hfit
    simp only [Table.step, Table.reserve, show ¬ n > t.size + t.numEmpty by omega, if_false, bind_ok] at hs
    cases hs
    exact same rfl
  | rehash n => cases hfit
  | find x =>
    simp only [Table.step, lookup_spec h, bind_ok] at hs
    cases hs; exact same rfl
  | contains x =>
    simp only [Table.step, contains_spec h, bind_ok] at hs
    cases hs; exact same rfl
  | size => cases hs; exact same rfl
  | iterate =>
    simp only [Table.step] at hs
    obtain ⟨_, _, hs⟩ := ok_of_bind hs
    cases hs; exact same rfl
  | index x d =>
    simp only [Table.step, Table.index] at hs
    obtain ⟨⟨u, v⟩, e0, hs⟩ := ok_of_bind hs
    cases hs
    obtain ⟨⟨u, p, f⟩, e1, hs⟩ := ok_of_bind e0
    obtain ⟨_, _, hs⟩ := ok_of_bind hs
    obtain ⟨_, _, hs⟩ := ok_of_bind hs
    cases hs
    obtain ⟨a1, a2⟩ := insert_fade h hc (one hfit) e1
    rw [hl] at a2
    exact ⟨a1, by simp only [Op.takes] at a2 ⊢; omega⟩
  | extract x =>
    simp only [Table.step] at hs
    obtain ⟨⟨u, y⟩, e1, hs⟩ := ok_of_bind hs
    cases hs
    rcases find_cases h x with ⟨j, n, hj, hn, hx, hf, _⟩ | ⟨_, hf, _⟩
    · simp only [Table.extract, hf, bind_ok, ne_eq, show j ≠ t.cap by omega, not_false_eq_true, if_true] at e1
      obtain ⟨⟨u, n'⟩, e2, e3⟩ := ok_of_bind e1
      cases e3
      obtain ⟨it, e4⟩ := extractAt_doErase e2
      obtain ⟨d2, d3⟩ := doErase_fade e4
      exact ⟨d2, by simp only; omega⟩
    · simp [Table.extract, hf] at e1
      exact same e1.1.symm
  | insertNode x =>
    simp only [Table.step] at hs
    obtain ⟨⟨u, p, f, l⟩, e1, hs⟩ := ok_of_bind hs
    obtain ⟨_, _, hs⟩ := ok_of_bind hs
    obtain ⟨_, _, hs⟩ := ok_of_bind hs
    cases hs
    obtain ⟨a1, a2⟩ := insertNode_fade h hc (one hfit) e1
    rw [hl] at a2
    exact ⟨a1, by simp only [Op.takes] at a2 ⊢; omega⟩
  | eraseIf p =>
    simp only [Table.step] at hs
    obtain ⟨⟨u, c, l⟩, e1, hs⟩ := ok_of_bind hs
    cases hs
    simp only [Table.eraseIf] at e1
    obtain ⟨first, _, e1⟩ := ok_of_bind e1
    rw [end_spec h, bind_ok] at e1
    obtain ⟨f1, f2⟩ := eraseIfLoop_fade _ t u first t.cap 0 c [] l e1
    exact ⟨f1, by simp only; omega⟩
  | insertThrow x =>
    simp only [Table.step] at hs
    obtain ⟨⟨u, f⟩, e1, hs⟩ := ok_of_bind hs
    cases hs
    rcases find_cases h x with ⟨j, n, hj, hn, hx, hf, hlx⟩ | ⟨_, hf, hlx⟩
    · simp [Table.insertThrow, hf, show j ≠ t.cap by omega] at e1
      exact same e1.1.symm
    · have hpos : 0 < b := hfit (by rw [← hl]; exact hlx)
      simp only [Table.insertThrow, hf, bind_ok, if_true] at e1
      obtain ⟨⟨u, q⟩, e2, e3⟩ := ok_of_bind e1
      cases e3
      obtain ⟨y, r, p1, p2⟩ := prepare_spec h (hash x)
      rw [e2] at p1
      cases p1
      exact same (p2.2.2.2.2.2.2.2.1 (by omega) (by omega))
  | insertRange ra xs =>
    have hn : xs.length ≤ b := hfit
    simp only [Table.step, Table.insertRange] at hs
    obtain ⟨u, e1, hs⟩ := ok_of_bind hs
    cases hs
    simp only [Table.reserve, show ¬ t.size + xs.length > t.size + t.numEmpty by omega, if_false, bind_ok, ite_self] at e1
    obtain ⟨b1, b2⟩ := insertList_fade xs t _ h hc (by omega) e1
    exact ⟨b1, by simp only [Op.takes]; omega⟩

/-- A history. -/
theorem run_fade {isa : Isa} {hash : K → Nat} :
    ∀ (ops : List (Op K V)) {t t' : Table K V} {m : List (K × V)} {os : List (Out K V)} {b : Nat}, Inv isa hash t → 0 < t.cap →
      t.contents.Perm m → b ≤ t.numEmpty → Spec.Fits b m ops → (∀ op ∈ ops, op.noClear) →
      t.run isa hash ops = .ok (t', os) → Fade t t' ∧ Inv isa hash t' := by
  intro ops
  induction ops with
  | nil =>
    intro t t' m os b h _ _ _ _ _ hr
    cases hr
    exact ⟨.refl _, h⟩
  | cons op ops ih =>
    intro t t' m os b h hc hm hb hf hkeep hr
    simp only [Table.run] at hr
    obtain ⟨⟨u, o⟩, e1, hr⟩ := ok_of_bind hr
    obtain ⟨⟨w, os'⟩, e2, hr⟩ := ok_of_bind hr
    cases hr
    obtain ⟨a1, a2⟩ := step_fade h hc hm hb hf.1 (hkeep op (by simp)) e1
    rcases step_spec h hm op with ⟨r, r1, r2, r3, _⟩ | ⟨_, r1⟩
    · rw [e1] at r1
      cases r1
      obtain ⟨b1, b2⟩ := ih r2 (by rw [a1.1]; exact hc) r3 a2 hf.2 (fun op hop => hkeep op (by simp [hop])) e2
      exact ⟨a1.trans b1, b2⟩
    · rw [e1] at r1
      cases r1

/-- The trail does not become shorter. -/
theorem Fade.trail_le {isa : Isa} {t t' : Table K V} (h : Fade t t') : ∀ fuel pos idx,
    (t.trail isa fuel pos idx).length ≤ (t'.trail isa fuel pos idx).length := by
  intro fuel
  induction fuel with
  | zero => intro _ _; exact Nat.le_refl _
  | succ fuel ih =>
    intro pos idx
    unfold Table.trail
    simp only [List.length_cons, h.1]
    refine Nat.succ_le_succ ?_
    by_cases h1 : t.matches_ isa pos (·.isEmpty) ≠ []
    · rw [if_pos h1]; exact Nat.zero_le _
    · have h2 : ¬ t'.matches_ isa pos (·.isEmpty) ≠ [] := by
        intro h2
        apply h1
        obtain ⟨i, hi⟩ := List.exists_mem_of_ne_nil _ h2
        rw [mem_matches] at hi
        intro e
        have : i ∈ t.matches_ isa pos (·.isEmpty) := by
          rw [mem_matches]
          refine ⟨hi.1, ?_⟩
          have : t'.ctl (pos + i) = .empty := by
            cases hq : t'.ctl (pos + i) <;> rw [hq] at hi <;> simp [Ctl.isEmpty] at hi
          rw [h.2 _ this]
          rfl
        rw [e] at this
        cases this
      rw [if_neg h1, if_neg h2]
      split
      · exact ih _ _
      · exact Nat.le_refl _

/-- Erasing leaves the unused slots unused. -/
theorem doErase_unused {isa : Isa} {hash : K → Nat} {t t' : Table K V} (h : Inv isa hash t) {p it : Nat}
    (he : t.doErase isa p = .ok (t', it)) : Fade t' t := by
  obtain ⟨hp, ho, _, _, hmi, _, rfl, _⟩ := doErase_eq he
  have hm := h.meta_ok (by omega)
  obtain ⟨m, hpow⟩ := hm.pow
  refine ⟨rfl, ?_⟩
  intro i hi
  simp only [upd_apply]
  split
  · rename_i e
    rw [e] at hi
    rw [hi] at ho
    cases ho
  · split
    · rename_i hne e
      have hmir := mirror_eq isa hpow hp
      unfold mirrorIdx at e hmi
      rw [hmir] at e hmi
      split at e
      · rename_i hc
        rw [if_pos hc] at hmi
        have := hm.tail i (by omega) (by have := hm.len_eq; omega)
        rw [this, if_pos (by omega), show i - (t.cap + 1) = p by omega] at hi
        rw [hi] at ho
        cases ho
      · omega
    · exact hi

/-- The number of blocks that a failing search reads is the length of its trail. -/
theorem miss_blocks {isa : Isa} {hash : K → Nat} {t : Table K V} (h : Inv isa hash t) (hs : t.size ≠ 0) {k : K}
    (hno : t.findNode isa k (hash k) = .ok t.cap) :
    ∃ tr, t.findNodeT isa k (hash k) = .ok (t.cap, tr, (t.trail isa (t.cap + 1) (hashHi (hash k) % (t.cap + 1)) 0).length) := by
  have hc : 0 < t.cap := by
    by_contra hc
    have h0 : t.cap = 0 := by omega
    have := h.size_eq
    rw [h0] at this
    exact hs this
  have hm := h.meta_ok hc
  obtain ⟨i, tr, b, e, e1, _⟩ := findNodeT_spec h k
  rw [hno] at e1
  cases e1
  have e' := e
  unfold Table.findNodeT at e
  rw [if_pos hs, land_cap hm] at e
  have hle : hashHi (hash k) % (t.cap + 1) ≤ t.cap := by
    have := Nat.mod_lt (hashHi (hash k)) (show 0 < t.cap + 1 by omega)
    omega
  obtain ⟨_, g2, _⟩ := findLoopT_miss h hc hle e
  exact ⟨tr, by rw [e', g2]⟩

end Tpp.Swiss
