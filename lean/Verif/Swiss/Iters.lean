import Verif.Swiss.Stable
import Verif.Swiss.Log

/-!
# How long iterators and references into sparse containers stay valid

An iterator is a slot of the buffer (swiss_table.hpp 379-440).  It stays valid as long as the buffer is not replaced and the element stays
in its slot.
-/

set_option linter.unusedSectionVars false

namespace Tpp

variable {K V : Type} [DecidableEq K]

/-- The free slots an operation takes at most, given the map it is applied to: one per element that it adds. -/
def Op.takes (m : List (K × V)) : Op K V → Nat
  | .insert k _ | .assign k _ | .index k _ => if (Spec.lookup m k).isNone then 1 else 0
  | .insertNode x => if (Spec.lookup m x.1).isNone then 1 else 0
  | .insertRange _ xs => xs.length
  | _ => 0

/-- The operation finds room for what it adds if `b` slots are free: `insertThrow` fails after it has found a slot, `reserve` asks for
slots that are there; `rehash` is left out. -/
def Op.hasRoom (b : Nat) (m : List (K × V)) : Op K V → Prop
  | .insertThrow k => Spec.lookup m k = none → 0 < b
  | .reserve n => n ≤ m.length + b
  | .rehash _ => False
  | op => op.takes m ≤ b

/-- All operations of the history find room, with `b` free slots at first; erasing does not give slots back. -/
def Spec.Fits : Nat → List (K × V) → List (Op K V) → Prop
  | _, _, [] => True
  | b, m, op :: ops => op.hasRoom b m ∧ Spec.Fits (b - op.takes m) (Spec.step m op).1 ops

namespace Swiss

theorem ok_of_bind {α β : Type} {x : M α} {f : α → M β} {b : β} (h : x >>= f = .ok b) : ∃ a, x = .ok a ∧ f a = .ok b := by
  cases x with
  | error e => cases h
  | ok a => exact ⟨a, rfl, h⟩

/-- No buffer has been replaced and no element relocated between the two states. -/
def Quiet (t t' : Table K V) : Prop := t'.cap = t.cap ∧ t'.log = t.log

/-- Slot `i` holds the element with key `k`. -/
def Holds (t : Table K V) (i : Nat) (k : K) : Prop := i < t.cap ∧ ∃ n, t.node i = some n ∧ n.key = k

theorem Holds.key_in {isa : Isa} {hash : K → Nat} {t : Table K V} (h : Inv isa hash t) {i : Nat} {k : K} (hh : Holds t i k) :
    Spec.lookup t.contents k ≠ none := by
  obtain ⟨hi, n, hn, hk⟩ := hh
  rcases find_cases h k with ⟨j, q, j1, j2, j3, j4, j5⟩ | ⟨hno, _, _⟩
  · rw [j5]; simp
  · exact absurd hk (hno i hi n hn)

/-- A new element goes into a free slot. -/
theorem emplaceNode_holds {isa : Isa} {hash : K → Nat} {t t' : Table K V} (h : Inv isa hash t) {n : Node K V} {p : Nat}
    (hh : n.hash = hash n.key) (hfresh : ∀ i, i < t.cap → ∀ m, t.node i = some m → m.key ≠ n.key) (hb : 0 < t.numEmpty)
    (he : t.emplaceNode isa n = .ok (t', p)) {i : Nat} {k : K} (hk : Holds t i k) :
    Quiet t t' ∧ t.numEmpty ≤ t'.numEmpty + 1 ∧ Holds t' i k := by
  obtain ⟨x, q, e, hi', hp, hnp, hperm, hsz, hg, hfix⟩ := emplaceNode_spec h hh hfresh
  rw [he] at e
  cases e
  obtain ⟨hi, m, hm, hmk⟩ := hk
  obtain ⟨f1, f2, f3⟩ := hfix (by omega) hb
  have hlog : t'.log = t.log := by
    obtain ⟨⟨u, q⟩, e1, e2⟩ := ok_of_bind he
    rw [prepare_room e1 hb (by omega)] at e2
    exact (commit_log e2).2.2.2.2.2
  refine ⟨⟨f1, hlog⟩, f2, by omega, ?_⟩
  by_cases e : i = p
  · subst e
    exfalso
    have hl := h.contents_length
    have hl' := hi'.contents_length
    have c1 := contents_split' t (pos := i) (by omega)
    have c2 := contents_split' t' (pos := i) (by omega)
    rw [elemsFrom_step t (by omega)] at c1
    rw [elemsFrom_step t' (by omega)] at c2
    have eb : t'.elemsBefore i = t.elemsBefore i := by
      unfold Table.elemsBefore; rw [collect_congr (fun j hj => f3 j (by omega))]
    have ef : t'.elemsFrom (i + 1) = t.elemsFrom (i + 1) := elemsFrom_congr f1 (fun j hj _ => f3 j (by omega))
    rw [c1, hm] at hl
    rw [c2, eb, ef, hnp] at hl'
    simp at hl hl'
    omega
  · exact ⟨m, by rw [f3 i e]; exact hm, hmk⟩

/-- `insert`. -/
theorem insert_holds {isa : Isa} {hash : K → Nat} {t t' : Table K V} (h : Inv isa hash t) {x : K} {v : V} {p : Nat} {f : Bool}
    (hb : Spec.lookup t.contents x = none → 0 < t.numEmpty) (he : t.insert isa hash x v = .ok (t', p, f)) {i : Nat} {k : K}
    (hk : Holds t i k) :
    Quiet t t' ∧ t.numEmpty ≤ t'.numEmpty + (if (Spec.lookup t.contents x).isNone then 1 else 0) ∧ Holds t' i k := by
  rcases find_cases h x with ⟨j, n, hj, hn, hx, hf, hl⟩ | ⟨hno, hf, hl⟩
  · simp [Table.insert, hf, show j ≠ t.cap by omega] at he
    obtain ⟨rfl, _, _⟩ := he
    exact ⟨⟨rfl, rfl⟩, by omega, hk⟩
  · simp only [Table.insert, hf, bind_ok, if_true] at he
    obtain ⟨⟨y, q⟩, e1, e2⟩ := ok_of_bind he
    cases e2
    rw [hl]
    exact emplaceNode_holds h (n := ⟨x, v, hash x⟩) rfl hno (hb hl) e1 hk

/-- `insert_or_assign`: the mapped value of a present key is overwritten in its slot. -/
theorem assign_holds {isa : Isa} {hash : K → Nat} {t t' : Table K V} (h : Inv isa hash t) {x : K} {v : V} {g : V → V} {p : Nat}
    {f : Bool} (hb : Spec.lookup t.contents x = none → 0 < t.numEmpty)
    (he : t.insertOrAssignWith isa hash x v g = .ok (t', p, f)) {i : Nat} {k : K} (hk : Holds t i k) :
    Quiet t t' ∧ t.numEmpty ≤ t'.numEmpty + (if (Spec.lookup t.contents x).isNone then 1 else 0) ∧ Holds t' i k := by
  rcases find_cases h x with ⟨j, n, hj, hn, hx, hf, hl⟩ | ⟨hno, hf, hl⟩
  · simp [Table.insertOrAssignWith, hf, show j ≠ t.cap by omega, readNode_some hj hn] at he
    obtain ⟨rfl, _, _⟩ := he
    refine ⟨⟨rfl, rfl⟩, by simp only; omega, hk.1, ?_⟩
    obtain ⟨_, m, hm, hmk⟩ := hk
    by_cases e : i = j
    · subst e
      rw [hn] at hm
      cases hm
      exact ⟨_, upd_same _ _ _, hmk⟩
    · exact ⟨m, (upd_ne t.node _ e).trans hm, hmk⟩
  · simp only [Table.insertOrAssignWith, hf, bind_ok, if_true] at he
    obtain ⟨⟨y, q⟩, e1, e2⟩ := ok_of_bind he
    cases e2
    rw [hl]
    exact emplaceNode_holds h (n := ⟨x, v, hash x⟩) rfl hno (hb hl) e1 hk

/-- `insert(node_type&&)`. -/
theorem insertNode_holds {isa : Isa} {hash : K → Nat} {t t' : Table K V} (h : Inv isa hash t) {x : K × V} {p : Nat} {f : Bool}
    {l : Option (K × V)} (hb : Spec.lookup t.contents x.1 = none → 0 < t.numEmpty)
    (he : t.insertNode isa hash x = .ok (t', p, f, l)) {i : Nat} {k : K} (hk : Holds t i k) :
    Quiet t t' ∧ t.numEmpty ≤ t'.numEmpty + (if (Spec.lookup t.contents x.1).isNone then 1 else 0) ∧ Holds t' i k := by
  rcases find_cases h x.1 with ⟨j, n, hj, hn, hx, hf, hl⟩ | ⟨hno, hf, hl⟩
  · simp [Table.insertNode, hf, show j ≠ t.cap by omega] at he
    obtain ⟨rfl, _, _⟩ := he
    exact ⟨⟨rfl, rfl⟩, by omega, hk⟩
  · simp only [Table.insertNode, hf, bind_ok, if_true] at he
    obtain ⟨⟨y, q⟩, e1, e2⟩ := ok_of_bind he
    cases e2
    rw [hl]
    exact emplaceNode_holds h (n := ⟨x.1, x.2, hash x.1⟩) rfl hno (hb hl) e1 hk

/-- Erasing the element of another slot. -/
theorem doErase_holds {isa : Isa} {hash : K → Nat} {t t' : Table K V} (h : Inv isa hash t) {pos it : Nat} {n : Node K V}
    (hp : pos < t.cap) (hn : t.node pos = some n) (he : t.doErase isa pos = .ok (t', it)) {i : Nat} {k : K} (hk : Holds t i k)
    (hne : n.key ≠ k) : Inv isa hash t' ∧ Quiet t t' ∧ t'.numEmpty = t.numEmpty ∧ Holds t' i k := by
  rcases doErase_contents h hp hn with ⟨r, h1, h2, h3, _, _, h4, h5, _⟩ | ⟨_, h1⟩
  · rw [he] at h1
    cases h1
    obtain ⟨hi, m, hm, hmk⟩ := hk
    simp only at h2 h3 h4 h5
    have hlog : t'.log = t.log := by
      obtain ⟨a, e1, he⟩ := ok_of_bind he
      obtain ⟨b, _, he⟩ := ok_of_bind he
      obtain ⟨c, e3, he⟩ := ok_of_bind he
      cases he
      obtain ⟨_, _, d⟩ := destroy_eq e3
      rw [d]
      unfold Table.eraseNode at e1
      rw [if_pos hp] at e1
      obtain ⟨x, _, e1⟩ := ok_of_bind e1
      by_cases ho : x.isOccupied = true
      · rw [if_pos ho] at e1
        obtain ⟨y, f1, e1⟩ := ok_of_bind e1
        by_cases hz : 1 ≤ y.size
        · rw [if_pos hz] at e1
          cases e1
          exact (setMetadata_node f1).2.2
        · rw [if_neg hz] at e1; cases e1
      · rw [if_neg ho] at e1; cases e1
    refine ⟨h2, ⟨h3, hlog⟩, h4, by omega, m, ?_, hmk⟩
    rw [h5 i ?_]
    · exact hm
    · rintro rfl
      rw [hn] at hm
      cases hm
      exact hne hmk
  · rw [he] at h1; cases h1

/-- `extract` releases the slot as `erase` does. -/
theorem extractAt_doErase {isa : Isa} {t t' : Table K V} {pos : Nat} {n : Node K V} (he : t.extractAt isa pos = .ok (t', n)) :
    ∃ it, t.doErase isa pos = .ok (t', it) := by
  obtain ⟨a, e1, he⟩ := ok_of_bind he
  obtain ⟨it, e2, he⟩ := ok_of_bind he
  obtain ⟨m, e3, he⟩ := ok_of_bind he
  obtain ⟨b, e4, he⟩ := ok_of_bind he
  cases he
  exact ⟨it, by simp only [Table.doErase, e1, bind_ok, e2, e4]⟩

theorem eraseIfLoop_holds {isa : Isa} {hash : K → Nat} {pred : K × V → Bool} {i : Nat} {k : K} (hpred : ∀ v, pred (k, v) = false) :
    ∀ (fuel : Nat) (t t' : Table K V) (pos last count c : Nat) (calls l : List (K × V)), Inv isa hash t → last = t.cap →
      Table.eraseIfLoop isa pred fuel t pos last count calls = .ok (t', c, l) → Holds t i k →
      Quiet t t' ∧ t'.numEmpty = t.numEmpty ∧ Holds t' i k := by
  intro fuel
  induction fuel with
  | zero => intro _ _ _ _ _ _ _ _ _ _ h; cases h
  | succ fuel ih =>
    intro t t' pos last count c calls l h hlast he hk
    unfold Table.eraseIfLoop at he
    by_cases hp : pos = last
    · rw [if_pos hp] at he
      cases he
      exact ⟨⟨rfl, rfl⟩, rfl, hk⟩
    · rw [if_neg hp] at he
      obtain ⟨n, e1, he⟩ := ok_of_bind he
      have hn : pos < t.cap ∧ t.node pos = some n := by
        unfold Table.readNode at e1
        split at e1
        · split at e1
          · cases e1; exact ⟨by assumption, by assumption⟩
          · cases e1
        · cases e1
      by_cases hb : pred (n.key, n.val) = true
      · rw [if_pos hb] at he
        obtain ⟨⟨u, q⟩, e2, he⟩ := ok_of_bind he
        simp only at he
        have hd : t.doErase isa pos = .ok (u, q) := by
          simpa [Table.eraseIter, end_spec h, show pos ≠ t.cap by omega] using e2
        obtain ⟨d1, d2, d3, d4⟩ := doErase_holds h hn.1 hn.2 hd hk (by
          rintro rfl
          rw [hpred] at hb
          cases hb)
        obtain ⟨f1, f2, f3⟩ := ih u t' q last _ c _ l d1 (by rw [d2.1]; exact hlast) he d4
        exact ⟨⟨f1.1.trans d2.1, f1.2.trans d2.2⟩, by omega, f3⟩
      · rw [if_neg hb] at he
        obtain ⟨q, _, he⟩ := ok_of_bind he
        exact ih t t' q last _ c _ l h hlast he hk

/-- The loop of range insertion. -/
theorem insertList_holds {isa : Isa} {hash : K → Nat} {i : Nat} {k : K} (xs : List (K × V)) :
    ∀ (t t' : Table K V), Inv isa hash t → xs.length ≤ t.numEmpty →
      xs.foldlM (fun (t : Table K V) x => do
        let (t, _, _) ← t.insert isa hash x.1 x.2
        .ok t) t = .ok t' → Holds t i k →
      Quiet t t' ∧ t.numEmpty ≤ t'.numEmpty + xs.length ∧ Holds t' i k := by
  induction xs with
  | nil =>
    intro t t' h _ he hk
    cases he
    exact ⟨⟨rfl, rfl⟩, by simp, hk⟩
  | cons x xs ih =>
    intro t t' h hb he hk
    simp only [List.length_cons] at hb ⊢
    obtain ⟨u, p, f, h1, h2, _⟩ := insert_spec h x.1 x.2
    simp only [List.foldlM_cons, h1, bind_ok] at he
    obtain ⟨a1, a2, a3⟩ := insert_holds h (fun _ => by omega) h1 hk
    have : t.numEmpty ≤ u.numEmpty + 1 := by split at a2 <;> omega
    obtain ⟨b1, b2, b3⟩ := ih u t' h2 (by omega) he a3
    exact ⟨⟨b1.1.trans a1.1, b1.2.trans a1.2⟩, by omega, b3⟩

/-- One operation: while there is room, an element that is not erased stays in its slot and the buffer is not replaced. -/
theorem step_holds {isa : Isa} {hash : K → Nat} {t t' : Table K V} (h : Inv isa hash t) {m : List (K × V)} (hm : t.contents.Perm m)
    {op : Op K V} {o : Out K V} {b : Nat} (hb : b ≤ t.numEmpty) (hfit : op.hasRoom b m) {i : Nat} {k : K} (hkeep : op.keeps k)
    (hs : t.step isa hash op = .ok (t', o)) (hk : Holds t i k) :
    Quiet t t' ∧ b - op.takes m ≤ t'.numEmpty ∧ Holds t' i k := by
  have hl := fun x => Spec.lookup_perm hm h.contents_uniq x
  have hsz : t.size = m.length := by rw [← h.contents_length, hm.length_eq]
  have one : ∀ {x : K}, (if (Spec.lookup m x).isNone then 1 else 0) ≤ b → Spec.lookup t.contents x = none → 0 < t.numEmpty := by
    intro x h1 h2
    rw [hl] at h2
    rw [h2] at h1
    simp at h1
    omega
  have same : ∀ {x : Table K V}, x = t → Quiet t x ∧ b - 0 ≤ x.numEmpty ∧ Holds x i k := by
    rintro _ rfl; exact ⟨⟨rfl, rfl⟩, by omega, hk⟩
  cases op with
  | insert x v =>
    simp only [Table.step] at hs
    obtain ⟨⟨u, p, f⟩, e1, hs⟩ := ok_of_bind hs
    obtain ⟨_, _, hs⟩ := ok_of_bind hs
    obtain ⟨_, _, hs⟩ := ok_of_bind hs
    cases hs
    obtain ⟨a1, a2, a3⟩ := insert_holds h (one hfit) e1 hk
    rw [hl] at a2
    exact ⟨a1, by simp only [Op.takes] at a2 ⊢; omega, a3⟩
  | assign x v =>
    simp only [Table.step] at hs
    obtain ⟨⟨u, p, f⟩, e1, hs⟩ := ok_of_bind hs
    obtain ⟨_, _, hs⟩ := ok_of_bind hs
    obtain ⟨_, _, hs⟩ := ok_of_bind hs
    cases hs
    obtain ⟨a1, a2, a3⟩ := assign_holds h (one hfit) e1 hk
    rw [hl] at a2
    exact ⟨a1, by simp only [Op.takes] at a2 ⊢; omega, a3⟩
  | erase x =>
    simp only [Table.step] at hs
    obtain ⟨⟨u, p⟩, e1, hs⟩ := ok_of_bind hs
    cases hs
    rcases find_cases h x with ⟨j, n, hj, hn, hx, hf, _⟩ | ⟨_, hf, _⟩
    · simp only [Table.erase, hf, bind_ok, ne_eq, show j ≠ t.cap by omega, not_false_eq_true, if_true] at e1
      obtain ⟨_, d2, d3, d4⟩ := doErase_holds h hj hn e1 hk (by rw [hx]; exact hkeep)
      exact ⟨d2, by simp only; omega, d4⟩
    · simp [Table.erase, hf, end_spec h] at e1
      exact same e1.1.symm
  | clear => cases hkeep
  | reserve n =>
    have hn : n ≤ m.length + b := hfit
    simp only [Table.step, Table.reserve, show ¬ n > t.size + t.numEmpty by omega, if_false, bind_ok] at hs
    cases hs
    exact same rfl
  | rehash n => cases hfit
  | find x =>
    simp only [Table.step, lookup_spec h, bind_ok] at hs
    cases hs; exact same rfl
  | contains x =>
    simp only [Table.step, contains_spec h, bind_ok] at hs
    cases hs; exact same rfl
  | size => cases hs; exact same rfl
  | iterate =>
    simp only [Table.step] at hs
    obtain ⟨_, _, hs⟩ := ok_of_bind hs
    cases hs; exact same rfl
  | index x d =>
    simp only [Table.step, Table.index] at hs
    obtain ⟨⟨u, v⟩, e0, hs⟩ := ok_of_bind hs
    cases hs
    obtain ⟨⟨u, p, f⟩, e1, hs⟩ := ok_of_bind e0
    obtain ⟨_, _, hs⟩ := ok_of_bind hs
    obtain ⟨_, _, hs⟩ := ok_of_bind hs
    cases hs
    obtain ⟨a1, a2, a3⟩ := insert_holds h (one hfit) e1 hk
    rw [hl] at a2
    exact ⟨a1, by simp only [Op.takes] at a2 ⊢; omega, a3⟩
  | extract x =>
    simp only [Table.step] at hs
    obtain ⟨⟨u, y⟩, e1, hs⟩ := ok_of_bind hs
    cases hs
    rcases find_cases h x with ⟨j, n, hj, hn, hx, hf, _⟩ | ⟨_, hf, _⟩
    · simp only [Table.extract, hf, bind_ok, ne_eq, show j ≠ t.cap by omega, not_false_eq_true, if_true] at e1
      obtain ⟨⟨u, n'⟩, e2, e3⟩ := ok_of_bind e1
      cases e3
      obtain ⟨it, e4⟩ := extractAt_doErase e2
      obtain ⟨_, d2, d3, d4⟩ := doErase_holds h hj hn e4 hk (by rw [hx]; exact hkeep)
      exact ⟨d2, by simp only; omega, d4⟩
    · simp [Table.extract, hf] at e1
      exact same e1.1.symm
  | insertNode x =>
    simp only [Table.step] at hs
    obtain ⟨⟨u, p, f, l⟩, e1, hs⟩ := ok_of_bind hs
    obtain ⟨_, _, hs⟩ := ok_of_bind hs
    obtain ⟨_, _, hs⟩ := ok_of_bind hs
    cases hs
    obtain ⟨a1, a2, a3⟩ := insertNode_holds h (one hfit) e1 hk
    rw [hl] at a2
    exact ⟨a1, by simp only [Op.takes] at a2 ⊢; omega, a3⟩
  | eraseIf p =>
    simp only [Table.step] at hs
    obtain ⟨⟨u, c, l⟩, e1, hs⟩ := ok_of_bind hs
    cases hs
    simp only [Table.eraseIf] at e1
    obtain ⟨first, _, e1⟩ := ok_of_bind e1
    rw [end_spec h, bind_ok] at e1
    obtain ⟨f1, f2, f3⟩ := eraseIfLoop_holds hkeep _ t u first t.cap 0 c [] l h rfl e1 hk
    exact ⟨f1, by simp only; omega, f3⟩
  | insertThrow x =>
    simp only [Table.step] at hs
    obtain ⟨⟨u, f⟩, e1, hs⟩ := ok_of_bind hs
    cases hs
    rcases find_cases h x with ⟨j, n, hj, hn, hx, hf, hlx⟩ | ⟨_, hf, hlx⟩
    · simp [Table.insertThrow, hf, show j ≠ t.cap by omega] at e1
      exact same e1.1.symm
    · have hpos : 0 < b := hfit (by rw [← hl]; exact hlx)
      simp only [Table.insertThrow, hf, bind_ok, if_true] at e1
      obtain ⟨⟨u, q⟩, e2, e3⟩ := ok_of_bind e1
      cases e3
      obtain ⟨y, r, p1, p2⟩ := prepare_spec h (hash x)
      rw [e2] at p1
      cases p1
      have := hk.1
      exact same (p2.2.2.2.2.2.2.2.1 (by omega) (by omega))
  | insertRange ra xs =>
    have hn : xs.length ≤ b := hfit
    simp only [Table.step, Table.insertRange] at hs
    obtain ⟨u, e1, hs⟩ := ok_of_bind hs
    cases hs
    simp only [Table.reserve, show ¬ t.size + xs.length > t.size + t.numEmpty by omega, if_false, bind_ok, ite_self] at e1
    obtain ⟨b1, b2, b3⟩ := insertList_holds xs t _ h (by omega) e1 hk
    exact ⟨b1, by simp only [Op.takes]; omega, b3⟩

/-- A history. -/
theorem run_holds {isa : Isa} {hash : K → Nat} {i : Nat} {k : K} :
    ∀ (ops : List (Op K V)) {t t' : Table K V} {m : List (K × V)} {os : List (Out K V)} {b : Nat}, Inv isa hash t →
      t.contents.Perm m → b ≤ t.numEmpty → Spec.Fits b m ops → (∀ op ∈ ops, op.keeps k) →
      t.run isa hash ops = .ok (t', os) → Holds t i k → Quiet t t' ∧ Holds t' i k := by
  intro ops
  induction ops with
  | nil =>
    intro t t' m os b _ _ _ _ _ hr hk
    cases hr
    exact ⟨⟨rfl, rfl⟩, hk⟩
  | cons op ops ih =>
    intro t t' m os b h hm hb hf hkeep hr hk
    simp only [Table.run] at hr
    obtain ⟨⟨u, o⟩, e1, hr⟩ := ok_of_bind hr
    obtain ⟨⟨w, os'⟩, e2, hr⟩ := ok_of_bind hr
    cases hr
    obtain ⟨a1, a2, a3⟩ := step_holds h hm hb hf.1 (hkeep op (by simp)) e1 hk
    rcases step_spec h hm op with ⟨r, r1, r2, r3, _⟩ | ⟨_, r1⟩
    · rw [e1] at r1
      cases r1
      obtain ⟨b1, b2⟩ := ih r2 r3 a2 hf.2 (fun op hop => hkeep op (by simp [hop])) e2 a3
      exact ⟨⟨b1.1.trans a1.1, b1.2.trans a1.2⟩, b2⟩
    · rw [e1] at r1; cases r1

end Swiss

end Tpp
