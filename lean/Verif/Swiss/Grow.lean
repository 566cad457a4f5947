import Verif.Swiss.Hist

/-!
# How operations change the bucket count, and elements before an iterator
-/

set_option linter.unusedSectionVars false

namespace Tpp

/-- Operations that do not ask for a bucket count or a capacity. -/
def Op.churn {K V : Type} : Op K V → Bool
  | .reserve _ => false
  | .rehash _ => false
  | .insertRange _ _ => false
  | _ => true

namespace Swiss

variable {K V : Type} [DecidableEq K]

theorem step_grow {isa : Isa} {hash : K → Nat} {t t' : Table K V} (h : Inv isa hash t) {op : Op K V} {o : Out K V}
    (hop : op.churn = true) (hs : t.step isa hash op = .ok (t', o)) : GrowCap isa t t' := by
  have same : ∀ {x : Table K V}, x.cap = t.cap → GrowCap isa t x := fun e => Or.inl e
  cases op with
  | insert k v =>
    obtain ⟨x, p, b, h1, h2, hg, h3⟩ := insert_spec h k v
    have hp : ∃ y, x.At p y := by
      rcases h3 with ⟨_, _, _, h6, _⟩ | ⟨w, _, _, h5, h6⟩
      · exact ⟨_, h6⟩
      · subst h5; exact ⟨_, h6⟩
    obtain ⟨y, hy⟩ := hp
    obtain ⟨n, d1, d2, d3⟩ := deref_spec h2 hy
    simp only [Table.step, h1, bind_ok, d1, d2] at hs
    cases hs; exact hg.1
  | assign k v =>
    obtain ⟨x, p, b, h1, h2, hg, h3⟩ := insertOrAssignWith_spec h k v (fun _ => v)
    have hp : ∃ y, x.At p y := by
      rcases h3 with ⟨_, _, _, h6, _⟩ | ⟨w, _, _, h5, h6, _⟩
      · exact ⟨_, h6⟩
      · exact ⟨_, h6⟩
    obtain ⟨y, hy⟩ := hp
    obtain ⟨n, d1, d2, d3⟩ := deref_spec h2 hy
    simp only [Table.step, Table.insertOrAssign, h1, bind_ok, d1, d2] at hs
    cases hs; exact hg.1
  | erase k =>
    simp only [Table.step] at hs
    rcases erase_spec h k with ⟨r, h1, _, h2, _⟩ | ⟨_, h1⟩
    · rw [h1, bind_ok] at hs; cases hs; exact same h2
    · rw [h1, bind_error] at hs; cases hs
  | clear =>
    obtain ⟨x, h1, _, h2, _⟩ := clear_spec h
    simp only [Table.step, h1, bind_ok] at hs
    cases hs; exact same h2
  | reserve n => cases hop
  | rehash n => cases hop
  | find k =>
    simp only [Table.step, lookup_spec h, bind_ok] at hs
    cases hs; exact same rfl
  | contains k =>
    simp only [Table.step, contains_spec h, bind_ok] at hs
    cases hs; exact same rfl
  | size => cases hs; exact same rfl
  | iterate =>
    simp only [Table.step] at hs
    rcases iterate_spec h with ⟨r, h1, _⟩ | ⟨_, h1⟩
    · rw [h1, bind_ok] at hs; cases hs; exact same rfl
    · rw [h1, bind_error] at hs; cases hs
  | index k d =>
    obtain ⟨x, v, h1, _, _, _, _, hg⟩ := index_spec h d k
    simp only [Table.step, h1, bind_ok] at hs
    cases hs; exact hg.1
  | extract k =>
    simp only [Table.step] at hs
    rcases extract_spec h k with ⟨r, h1, _, _, _, _, h2⟩ | ⟨_, h1⟩
    · rw [h1, bind_ok] at hs; cases hs; exact same h2
    · rw [h1, bind_error] at hs; cases hs
  | insertNode x =>
    obtain ⟨u, p, b, l, h1, h2, hg, h3⟩ := insertNode_spec h x
    have hp : ∃ y, u.At p y := by
      rcases h3 with ⟨_, _, _, _, h6⟩ | ⟨w, _, _, _, h5, h6⟩
      · exact ⟨_, h6⟩
      · subst h5; exact ⟨_, h6⟩
    obtain ⟨y, hy⟩ := hp
    obtain ⟨n, d1, d2, d3⟩ := deref_spec h2 hy
    simp only [Table.step, h1, bind_ok, d1, d2] at hs
    cases hs; exact hg.1
  | eraseIf p =>
    simp only [Table.step] at hs
    rcases eraseIf_spec p h with ⟨r, h1, _, _, _, _, h2⟩ | ⟨_, h1⟩
    · rw [h1, bind_ok] at hs; cases hs; exact same h2
    · rw [h1, bind_error] at hs; cases hs
  | insertThrow k =>
    obtain ⟨x, h1, _, _, _, hg⟩ := insertThrow_spec h k
    simp only [Table.step, h1, bind_ok] at hs
    cases hs; exact hg.1
  | insertRange ra xs => cases hop

/-- Operations that erase nothing individually. -/
def _root_.Tpp.Op.noErase {K V : Type} : Op K V → Bool
  | .erase _ => false
  | .extract _ => false
  | .eraseIf _ => false
  | _ => true

theorem step_noTomb {isa : Isa} {hash : K → Nat} {t t' : Table K V} (h : Inv isa hash t) {op : Op K V} {o : Out K V}
    (hop : op.noErase = true) (hs : t.step isa hash op = .ok (t', o)) (hn : NoTomb t) : NoTomb t' := by
  cases op with
  | insert k v =>
    obtain ⟨x, p, b, h1, h2, hg, h3⟩ := insert_spec h k v
    have hp : ∃ y, x.At p y := by
      rcases h3 with ⟨_, _, _, h6, _⟩ | ⟨w, _, _, h5, h6⟩
      · exact ⟨_, h6⟩
      · subst h5; exact ⟨_, h6⟩
    obtain ⟨y, hy⟩ := hp
    obtain ⟨n, d1, d2, d3⟩ := deref_spec h2 hy
    simp only [Table.step, h1, bind_ok, d1, d2] at hs
    cases hs; exact hg.2 hn
  | assign k v =>
    obtain ⟨x, p, b, h1, h2, hg, h3⟩ := insertOrAssignWith_spec h k v (fun _ => v)
    have hp : ∃ y, x.At p y := by
      rcases h3 with ⟨_, _, _, h6, _⟩ | ⟨w, _, _, h5, h6, _⟩
      · exact ⟨_, h6⟩
      · exact ⟨_, h6⟩
    obtain ⟨y, hy⟩ := hp
    obtain ⟨n, d1, d2, d3⟩ := deref_spec h2 hy
    simp only [Table.step, Table.insertOrAssign, h1, bind_ok, d1, d2] at hs
    cases hs; exact hg.2 hn
  | erase k => cases hop
  | clear =>
    obtain ⟨x, h1, _, _, _, _, h2⟩ := clear_spec h
    simp only [Table.step, h1, bind_ok] at hs
    cases hs; exact h2 hn
  | reserve n =>
    obtain ⟨x, h1, _, _, _, _, _, h2⟩ := reserve_spec h n
    simp only [Table.step, h1, bind_ok] at hs
    cases hs; exact h2 hn
  | rehash n =>
    obtain ⟨x, h1, _, _, _, _, _, h2⟩ := rehash_spec h (n := n + 1) (by omega)
    simp only [Table.step, h1, bind_ok] at hs
    cases hs; exact h2 hn
  | find k =>
    simp only [Table.step, lookup_spec h, bind_ok] at hs
    cases hs; exact hn
  | contains k =>
    simp only [Table.step, contains_spec h, bind_ok] at hs
    cases hs; exact hn
  | size => cases hs; exact hn
  | iterate =>
    simp only [Table.step] at hs
    rcases iterate_spec h with ⟨r, h1, _⟩ | ⟨_, h1⟩
    · rw [h1, bind_ok] at hs; cases hs; exact hn
    · rw [h1, bind_error] at hs; cases hs
  | index k d =>
    obtain ⟨x, v, h1, _, _, _, _, hg⟩ := index_spec h d k
    simp only [Table.step, h1, bind_ok] at hs
    cases hs; exact hg.2 hn
  | extract k => cases hop
  | insertNode x =>
    obtain ⟨u, p, b, l, h1, h2, hg, h3⟩ := insertNode_spec h x
    have hp : ∃ y, u.At p y := by
      rcases h3 with ⟨_, _, _, _, h6⟩ | ⟨w, _, _, _, h5, h6⟩
      · exact ⟨_, h6⟩
      · subst h5; exact ⟨_, h6⟩
    obtain ⟨y, hy⟩ := hp
    obtain ⟨n, d1, d2, d3⟩ := deref_spec h2 hy
    simp only [Table.step, h1, bind_ok, d1, d2] at hs
    cases hs; exact hg.2 hn
  | eraseIf p => cases hop
  | insertThrow k =>
    obtain ⟨x, h1, _, _, _, hg⟩ := insertThrow_spec h k
    simp only [Table.step, h1, bind_ok] at hs
    cases hs; exact hg.2 hn
  | insertRange ra xs =>
    obtain ⟨x, h1, _, _, hg⟩ := insertRange_spec ra h xs
    simp only [Table.step, h1, bind_ok] at hs
    cases hs; exact hg hn

/-- A container that never erased an individual element has no erased slot. -/
theorem run_noTomb {isa : Isa} {hash : K → Nat} (ops : List (Op K V)) : (∀ op ∈ ops, op.noErase = true) →
    ∀ {t t' : Table K V} {o : List (Out K V)}, Inv isa hash t → NoTomb t → t.run isa hash ops = .ok (t', o) →
      NoTomb t' := by
  induction ops with
  | nil => intro _ t t' o _ hn e; cases e; exact hn
  | cons op ops ih =>
    intro hops t t' o h hn e
    unfold Table.run at e
    cases hs : t.step isa hash op with
    | error f => rw [hs] at e; cases e
    | ok r =>
      obtain ⟨b, o1⟩ := r
      rw [hs, bind_ok] at e
      cases hr : b.run isa hash ops with
      | error f => simp only [hr] at e; cases e
      | ok s =>
        obtain ⟨c, os⟩ := s
        simp only [hr, bind_ok] at e
        cases e
        exact ih (fun x hx => hops x (by simp [hx])) (ends_ok (step_spec h (List.Perm.refl _) op) hs).1
          (step_noTomb h (hops op (by simp)) hs hn) hr

/-- The elements before slot `pos`, in iteration order. -/
def Table.elemsBefore (t : Table K V) (pos : Nat) : List (K × V) := (collect t.node pos).map fun n => (n.key, n.val)

theorem contents_split' (t : Table K V) {pos : Nat} (h : pos ≤ t.cap) :
    t.contents = t.elemsBefore pos ++ t.elemsFrom pos := by
  obtain ⟨d, hd⟩ : ∃ d, t.cap = pos + d := ⟨t.cap - pos, by omega⟩
  induction d generalizing pos with
  | zero =>
    rw [elemsFrom_end t (by omega), List.append_nil, Table.elemsBefore, Table.contents, Table.nodes, hd, Nat.add_zero]
  | succ d ih =>
    rw [ih (pos := pos + 1) (by omega) (by omega), elemsFrom_step t (by omega : pos < t.cap)]
    unfold Table.elemsBefore
    rw [collect_succ]
    simp [List.append_assoc]

theorem Reachable.run {isa : Isa} {hash : K → Nat} (ops : List (Op K V)) : ∀ {t t' : Table K V} {o : List (Out K V)},
    Reachable isa hash t → t.run isa hash ops = .ok (t', o) → Reachable isa hash t' := by
  induction ops with
  | nil => intro t t' o h e; cases e; exact h
  | cons op ops ih =>
    intro t t' o h e
    unfold Table.run at e
    cases h1 : t.step isa hash op with
    | error f => rw [h1] at e; cases e
    | ok r =>
      rw [h1, bind_ok] at e
      simp only at e
      cases h2 : r.1.run isa hash ops with
      | error f => rw [h2] at e; cases e
      | ok s =>
        rw [h2, bind_ok] at e
        cases e
        exact ih (Reachable.step h h1) h2

/-- The container after a history of operations on a default constructed one (used to exhibit containers). -/
def after (isa : Isa) (hash : K → Nat) (ops : List (Op K V)) : Table K V :=
  match (Table.init : Table K V).run isa hash ops with
  | .ok r => r.1
  | .error _ => Table.init

theorem after_reachable (isa : Isa) (hash : K → Nat) (ops : List (Op K V)) :
    Reachable isa hash (after isa hash ops) := by
  unfold after
  cases h : (Table.init : Table K V).run isa hash ops with
  | ok r => exact Reachable.run ops (Reachable.init hash) h
  | error f => exact Reachable.init hash

end Swiss
end Tpp
