import Verif.Swiss.WildMany
import Verif.Props.Wild

/-!
# C128: `merge` and `swap` with hash functions and comparisons that answer arbitrarily

Programs with any number of unordered sparse or stable containers whose functions answer arbitrarily: no element is lost or duplicated.
-/

set_option linter.unusedSectionVars false

namespace Tpp.Swiss

variable {K V : Type}

/-- What a merge may do: `d` and `s` are the elements of target and source before, `d'` and `s'` afterwards. -/
def MergeDoes (d s d' s' : List (K × V)) (ans : Nat → Nat × Answers K) : Prop :=
  ∃ moved stay, Divided ans d' 0 s moved stay ∧ d'.Perm (moved ++ d) ∧ s'.Perm stay

/-- What an operation may do to the containers with the elements `c`: `c'` are the elements afterwards. -/
def ManyDoes (c c' : Nat → List (K × V)) (out : Out K V) : ManyWild K V → Prop
  | .op i o => Does (c i) (c' i) out o ∧ ∀ k, k ≠ i → c' k = c k
  | .merge i j ans => out = .unit ∧ (i = j → c' = c) ∧ (i ≠ j → (∀ k, k ≠ i → k ≠ j → c' k = c k) ∧ MergeDoes (c i) (c j) (c' i) (c' j) ans)
  | .swap i j => out = .unit ∧ c' i = c j ∧ c' j = c i ∧ ∀ k, k ≠ i → k ≠ j → c' k = c k
  | .move i j => out = .unit ∧ (i = j → c' = c) ∧ (i ≠ j → c' i = c j ∧ c' j = [] ∧ ∀ k, k ≠ i → k ≠ j → c' k = c k)
  | .copy i j => out = .unit ∧ c' i = c j ∧ ∀ k, k ≠ i → c' k = c k
  | .copyAssign i j => out = .unit ∧ c' i = c j ∧ ∀ k, k ≠ i → c' k = c k
  | .mergeMove i j ans => out = .unit ∧ (i = j → c' = c) ∧ (i ≠ j → (∀ k, k ≠ i → k ≠ j → c' k = c k) ∧
      (c i = [] → c' i = c j ∧ c' j = []) ∧ MergeDoes (c i) (c j) (c' i) (c' j) ans)

/-- A program each operation of which does what it may. -/
inductive ManyDid : (Nat → List (K × V)) → List (ManyWild K V) → List (Out K V) → (Nat → List (K × V)) → Prop
  | nil {c} : ManyDid c [] [] c
  | cons {c c' c'' op ops o os} : ManyDoes c c' o op → ManyDid c' ops os c'' → ManyDid c (op :: ops) (o :: os) c''

/-- The operations that can go wrong with proper functions too: copying a container that has elements and slots marked as erased (C16), and
assignments outside the conditions of C17. -/
def Stuck (w : Nat → Table (Nat × Nat) (K × V)) : ManyWild K V → Prop
  | .copy _ j => ¬ Copyable (w j)
  | .copyAssign i j => i ≠ j ∧ ¬ (Copyable (w j) ∧ CopyFits .std (w i) (w j))
  | _ => False

/-- The elements of all containers. -/
def stored (w : Nat → Table (Nat × Nat) (K × V)) : Nat → List (K × V) := fun i => (w i).contents.map Prod.snd

/-- All containers are well-formed, with serial numbers below `g`. -/
def Sane (isa : Isa) (g : Nat) (w : Nat → Table (Nat × Nat) (K × V)) : Prop := ∀ i, Inv isa Prod.snd (w i) ∧ Below g (w i)

theorem stored_upd (w : Nat → Table (Nat × Nat) (K × V)) (i : Nat) (t : Table (Nat × Nat) (K × V)) (k : Nat) :
    stored (upd w i t) k = if k = i then t.contents.map Prod.snd else stored w k := by
  unfold stored upd
  by_cases h : k = i
  · rw [if_pos h, if_pos h]
  · rw [if_neg h, if_neg h]

theorem Sane.upd {isa : Isa} {g g' : Nat} {w : Nat → Table (Nat × Nat) (K × V)} (h : Sane isa g w) (hg : g ≤ g') {i : Nat}
    {t : Table (Nat × Nat) (K × V)} (ht : Inv isa Prod.snd t) (hb : Below g' t) : Sane isa g' (Tpp.upd w i t) := by
  intro k
  by_cases hk : k = i
  · subst hk
    rw [upd_same]
    exact ⟨ht, hb⟩
  · rw [upd_ne _ _ hk]
    exact ⟨(h k).1, (h k).2.up hg⟩

theorem below_nil {g : Nat} {t : Table (Nat × Nat) (K × V)} (h : t.contents = []) : Below g t := by
  intro x hx
  rw [h] at hx
  cases hx

theorem Divided.all_moved (ans : Nat → Nat × Answers K) (d : List (K × V)) : ∀ (k : Nat) (l : List (K × V)), Divided ans d k l l []
  | _, [] => .nil
  | k, _ :: l => .move (Divided.all_moved ans d (k + 1) l)

theorem moveWild_spec {isa : Isa} {t u : Table (Nat × Nat) (K × V)} (h : Inv isa Prod.snd t) (hu : Inv isa Prod.snd u) :
    ∃ a b, t.moveAssign isa .std u = .ok (a, b) ∧ a = u ∧ b.contents = [] ∧ Inv isa Prod.snd b := by
  obtain ⟨a, b, e1, e2, -, e4, -, -, -, -, e9⟩ := moveAssign_spec .std rfl h hu
  exact ⟨a, b, e1, e2, e4, e9 _⟩

theorem wildStep_spec {isa : Isa} {g : Nat} {w : Nat → Table (Nat × Nat) (K × V)} (h : Sane isa g w) (op : ManyWild K V)
    (hs : ¬ Stuck w op) :
    Ends isa (wildStep isa g w op) (fun r => Sane isa r.2.2 r.1 ∧ ManyDoes (stored w) (stored r.1) r.2.1 op) := by
  cases op with
  | op i o =>
    obtain ⟨hi, hb⟩ := h i
    obtain ⟨q, h1, h2⟩ := stepWild_plain hi hb o
    simp only [wildStep]
    rcases step_spec hi (List.Perm.refl _) q with ⟨⟨t', out⟩, e, i1, p1, p2⟩ | ⟨hw, e⟩
    · obtain ⟨d1, d2⟩ := does_turns hi.contents_uniq hb h1 p1 p2
      rw [h2, e]
      simp only [Except.map, bind_ok]
      refine Ends.of_ok rfl ⟨h.upd (Nat.le_succ g) i1 d2, ?_, fun k hk => ?_⟩
      · rw [stored_upd, if_pos rfl]
        exact d1
      · rw [stored_upd, if_neg hk]
    · refine Or.inr ⟨hw, ?_⟩
      rw [h2, e]
      rfl
  | merge i j ans =>
    simp only [wildStep]
    by_cases hij : i = j
    · simp only [if_pos hij]
      exact Ends.of_ok rfl ⟨h, rfl, fun _ => rfl, fun q => absurd hij q⟩
    · simp only [if_neg hij]
      refine (mergeWild_spec (ans := ans) (h i).1 (h j).1 (h i).2 (h j).2).bind ?_
      rintro r ⟨r1, r2, r3, r4, moved, stay, r5, r6, r7⟩
      refine Ends.of_ok rfl ⟨(h.upd (Nat.le_add_right _ _) r1 r3).upd (Nat.le_refl _) r2 r4, rfl, fun q => absurd q hij, fun _ => ⟨?_, moved, stay, ?_, ?_, ?_⟩⟩
      · intro k h1 h2
        rw [stored_upd, if_neg h2, stored_upd, if_neg h1]
      · rw [stored_upd, if_neg hij, stored_upd, if_pos rfl]
        exact r5
      · rw [stored_upd, if_neg hij, stored_upd, if_pos rfl]
        exact r6
      · rw [stored_upd, if_pos rfl]
        exact r7
  | swap i j =>
    simp only [wildStep]
    have e1 : (w i).swapBuffers (w j) = (w j, w i) := rfl
    rw [e1]
    refine Ends.of_ok rfl ⟨(h.upd (Nat.le_refl _) (h j).1 (h j).2).upd (Nat.le_refl _) (h i).1 (h i).2, rfl, ?_, ?_, ?_⟩
    · rw [stored_upd]
      by_cases hij : i = j
      · rw [if_pos hij, hij]
        rfl
      · rw [if_neg hij, stored_upd, if_pos rfl]
        rfl
    · rw [stored_upd, if_pos rfl]
      rfl
    · intro k h1 h2
      rw [stored_upd, if_neg h2, stored_upd, if_neg h1]
  | move i j =>
    simp only [wildStep]
    by_cases hij : i = j
    · simp only [if_pos hij]
      exact Ends.of_ok rfl ⟨h, rfl, fun _ => rfl, fun q => absurd hij q⟩
    · simp only [if_neg hij]
      obtain ⟨a, b, e1, e2, e3, e4⟩ := moveWild_spec (h i).1 (h j).1
      rw [e1]
      simp only [bind_ok]
      refine Ends.of_ok rfl ⟨(h.upd (Nat.le_refl _) (e2 ▸ (h j).1) (e2 ▸ (h j).2)).upd (Nat.le_refl _) e4 (below_nil e3), rfl, fun q => absurd q hij,
        fun _ => ⟨?_, ?_, ?_⟩⟩
      · rw [stored_upd, if_neg hij, stored_upd, if_pos rfl, e2]
        rfl
      · rw [stored_upd, if_pos rfl, e3]
        rfl
      · intro k h1 h2
        rw [stored_upd, if_neg h2, stored_upd, if_neg h1]
  | copy i j =>
    obtain ⟨t, e1, e2, e3⟩ := copyCtor_spec (h j).1 (Classical.not_not.mp hs)
    simp only [wildStep]
    rw [e1]
    simp only [bind_ok]
    refine Ends.of_ok rfl ⟨h.upd (Nat.le_refl _) e2 (fun x hx => (h j).2 x (e3 ▸ hx)), rfl, ?_, fun k hk => ?_⟩
    · rw [stored_upd, if_pos rfl, e3]
      rfl
    · rw [stored_upd, if_neg hk]
  | copyAssign i j =>
    simp only [wildStep]
    by_cases hij : i = j
    · rw [if_pos hij]
      exact Ends.of_ok rfl ⟨h, rfl, by rw [hij], fun _ _ => rfl⟩
    · rw [if_neg hij]
      obtain ⟨h1, h2⟩ : Copyable (w j) ∧ CopyFits .std (w i) (w j) := Classical.not_not.mp fun q => hs ⟨hij, q⟩
      obtain ⟨t, e1, e2, e3⟩ := copyAssign_spec (h i).1 (h j).1 h1 h2
      rw [e1]
      simp only [bind_ok]
      refine Ends.of_ok rfl ⟨h.upd (Nat.le_refl _) e2 (fun x hx => (h j).2 x (e3 ▸ hx)), rfl, ?_, fun k hk => ?_⟩
      · rw [stored_upd, if_pos rfl, e3]
        rfl
      · rw [stored_upd, if_neg hk]
  | mergeMove i j ans =>
    simp only [wildStep]
    by_cases hij : i = j
    · simp only [if_pos hij]
      exact Ends.of_ok rfl ⟨h, rfl, fun _ => rfl, fun q => absurd hij q⟩
    · simp only [if_neg hij, Table.mergeMoveWild]
      by_cases hz : (w i).size = 0
      · rw [if_pos hz]
        obtain ⟨a, b, e1, e2, e3, e4⟩ := moveWild_spec (h i).1 (h j).1
        have hnil : stored w i = [] := by
          unfold stored
          rw [List.map_eq_nil_iff, ← List.length_eq_zero_iff, (h i).1.contents_length]
          exact hz
        rw [e1]
        simp only [bind_ok]
        have f1 : stored (upd (upd w i a) j b) i = stored w j := by
          rw [stored_upd, if_neg hij, stored_upd, if_pos rfl, e2]
          rfl
        have f2 : stored (upd (upd w i a) j b) j = [] := by
          rw [stored_upd, if_pos rfl, e3]
          rfl
        refine Ends.of_ok rfl ⟨(h.upd (Nat.le_add_right _ _) (e2 ▸ (h j).1) (by rw [e2]; exact (h j).2.up (Nat.le_add_right _ _))).upd (Nat.le_refl _) e4
          (below_nil e3), rfl, fun q => absurd q hij, fun _ => ⟨?_, fun _ => ⟨f1, f2⟩, stored w j, [], Divided.all_moved _ _ _ _, ?_, ?_⟩⟩
        · intro k h1 h2
          rw [stored_upd, if_neg h2, stored_upd, if_neg h1]
        · rw [f1, hnil, List.append_nil]
        · rw [f2]
      · rw [if_neg hz]
        refine (mergeWild_spec (ans := ans) (h i).1 (h j).1 (h i).2 (h j).2).bind ?_
        rintro r ⟨r1, r2, r3, r4, moved, stay, r5, r6, r7⟩
        refine Ends.of_ok rfl ⟨(h.upd (Nat.le_add_right _ _) r1 r3).upd (Nat.le_refl _) r2 r4, rfl, fun q => absurd q hij,
          fun _ => ⟨?_, ?_, moved, stay, ?_, ?_, ?_⟩⟩
        · intro k h1 h2
          rw [stored_upd, if_neg h2, stored_upd, if_neg h1]
        · intro hnil
          unfold stored at hnil
          rw [List.map_eq_nil_iff, ← List.length_eq_zero_iff, (h i).1.contents_length] at hnil
          exact absurd hnil hz
        · rw [stored_upd, if_neg hij, stored_upd, if_pos rfl]
          exact r5
        · rw [stored_upd, if_neg hij, stored_upd, if_pos rfl]
          exact r6
        · rw [stored_upd, if_pos rfl]
          exact r7

theorem wildRun_spec {isa : Isa} : ∀ (ops : List (ManyWild K V)) {g : Nat} {w : Nat → Table (Nat × Nat) (K × V)}, Sane isa g w →
    Ends isa (wildRun isa g w ops) (fun r => (∃ g', Sane isa g' r.1) ∧ ManyDid (stored w) ops r.2 (stored r.1)) ∨
      ∃ pre op post r, ops = pre ++ op :: post ∧ wildRun isa g w pre = .ok r ∧ Stuck r.1 op
  | [], g, w, h => Or.inl (Ends.of_ok rfl ⟨⟨g, h⟩, .nil⟩)
  | op :: ops, g, w, h => by
    by_cases hs : Stuck w op
    · exact Or.inr ⟨[], op, ops, (w, []), rfl, rfl, hs⟩
    · rcases wildStep_spec h op hs with ⟨r, e, r1, r2⟩ | ⟨hw, e⟩
      · rcases wildRun_spec ops r1 with s | ⟨pre, o, post, s, e1, e2, e3⟩
        · refine Or.inl ?_
          simp only [wildRun]
          rw [e]
          simp only [bind_ok]
          refine s.bind ?_
          rintro s ⟨s1, s2⟩
          exact Ends.of_ok rfl ⟨s1, .cons r2 s2⟩
        · refine Or.inr ⟨op :: pre, o, post, (s.1, r.2.1 :: s.2), by rw [e1]; rfl, ?_, e3⟩
          simp only [wildRun]
          rw [e]
          simp only [bind_ok]
          rw [e2]
          rfl
      · refine Or.inl (Or.inr ⟨hw, ?_⟩)
        simp only [wildRun]
        rw [e]
        rfl

theorem sane_init (isa : Isa) : Sane isa 0 (fun _ => (Table.init : Table (Nat × Nat) (K × V))) := by
  refine fun _ => ⟨Inv.init isa _, fun x hx => ?_⟩
  obtain ⟨i, n, hi, -⟩ := mem_contents.mp hx
  exact absurd hi (Nat.not_lt_zero _)

theorem stored_init : stored (fun _ => (Table.init : Table (Nat × Nat) (K × V))) = fun _ => [] := by
  funext i
  unfold stored
  have h := (sane_init (K := K) (V := V) .sse2 i).2
  cases hc : (Table.init : Table (Nat × Nat) (K × V)).contents with
  | nil => rfl
  | cons x l => exact absurd (h x (by rw [hc]; exact List.mem_cons_self ..)) (Nat.not_lt_zero _)

/-- C128: whatever the hash functions and the comparisons answer, every program with several containers ends without undefined behaviour (apart from
C32 with 8-byte blocks), every operation does to the elements of the containers what it may do, and afterwards `size()` of each container is the number
of its elements and iteration visits each of them once; or the program comes to a copy or an assignment that can go wrong with proper functions too
(C16, C17). -/
theorem C128_history (isa : Isa) (ops : List (ManyWild K V)) :
    Ends isa (wildRun isa 0 (fun _ => (Table.init : Table (Nat × Nat) (K × V))) ops) (fun r => ∃ c, ManyDid (fun _ => []) ops r.2 c ∧
      ∀ i, (r.1 i).size = (c i).length ∧ Ends isa ((r.1 i).iterate isa) (fun l => l.map Prod.snd = c i)) ∨
    ∃ pre op post r, ops = pre ++ op :: post ∧ wildRun isa 0 (fun _ => (Table.init : Table (Nat × Nat) (K × V))) pre = .ok r ∧ Stuck r.1 op := by
  refine (wildRun_spec ops (sane_init isa)).imp_left fun hr => hr.mono ?_
  rintro r ⟨⟨g', h⟩, d⟩
  rw [stored_init] at d
  refine ⟨stored r.1, d, fun i => ⟨?_, ?_⟩⟩
  · unfold stored
    rw [List.length_map, (h i).1.contents_length]
  · exact (iterate_spec (h i).1).mono fun l hl => by rw [hl]; rfl

/-- C128: programs without copies do not come to that. -/
theorem C128_plain (isa : Isa) (ops : List (ManyWild K V)) (h : ∀ op ∈ ops, ∀ i j, op ≠ .copy i j ∧ op ≠ .copyAssign i j) :
    Ends isa (wildRun isa 0 (fun _ => (Table.init : Table (Nat × Nat) (K × V))) ops) (fun r => ∃ c, ManyDid (fun _ => []) ops r.2 c ∧
      ∀ i, (r.1 i).size = (c i).length ∧ Ends isa ((r.1 i).iterate isa) (fun l => l.map Prod.snd = c i)) := by
  rcases C128_history isa ops with hr | ⟨pre, op, post, r, e, -, hs⟩
  · exact hr
  · have h1 := h op (by rw [e]; exact List.mem_append_right _ (List.mem_cons_self ..))
    cases op with
    | copy i j => exact absurd rfl (h1 i j).1
    | copyAssign i j => exact absurd rfl (h1 i j).2
    | _ => exact absurd hs (fun q => q)

/-- C128: after such a program, in particular after merges and in copies, an element is found again, or another one in its place, if the hash is the one
that was computed for it last, at its insertion or when `merge` moved it, and the comparison always accepts the element. -/
theorem C128_found {isa : Isa} {ops : List (ManyWild K V)} {r : (Nat → Table (Nat × Nat) (K × V)) × List (Out K V)}
    (e : wildRun isa 0 (fun _ => (Table.init : Table (Nat × Nat) (K × V))) ops = .ok r)
    (hs : ∀ pre op post r', ops = pre ++ op :: post → wildRun isa 0 (fun _ => (Table.init : Table (Nat × Nat) (K × V))) pre = .ok r' → ¬ Stuck r'.1 op)
    {i pos : Nat} (hp : pos < (r.1 i).cap)
    {n : Node (Nat × Nat) (K × V)} (hn : (r.1 i).node pos = some n) {p : Answers K} (ha : ∀ a b, p a b n.val.1 = true) (g : Nat) :
    (r.1 i).stepWild isa g (.contains n.hash p) = .ok (r.1 i, .bool true) := by
  rcases wildRun_spec ops (sane_init isa) with (⟨r', e', ⟨g', h⟩, -⟩ | ⟨-, e'⟩) | ⟨pre, op, post, r', e1, e2, e3⟩
  · rw [e] at e'
    cases e'
    have hi := (h i).1
    obtain ⟨q, m, h2, h3⟩ := findNodeWild_some hi (x := (n.key, n.val)) (mem_contents.mpr ⟨pos, n, hp, hn, rfl, rfl⟩) ha
    have hh : n.hash = n.key.2 := hi.hash_ok pos hp n hn
    have hq := (readNode_eq h3).1
    have hne : (q != (r.1 i).cap) = true := by
      simp only [bne_iff_ne]
      omega
    simp only [Table.stepWild, hh, h2, bind_ok, hne]
  · rw [e] at e'
    cases e'
  · exact absurd e3 (hs pre op post r' e1 e2)

/-- `size()` and the elements of the containers 0 and 1 after a program. -/
def twoOf (ops : List (ManyWild Nat Nat)) : M (List (Nat × Nat) × List (Nat × Nat)) := do
  let r ← wildRun .sse2 0 (fun _ => Table.init) ops
  .ok (stored r.1 0, stored r.1 1)

/-- Two containers with the same key several times; `merge` is refused two elements of the source and moves the third. -/
def quarrel : List (ManyWild Nat Nat) :=
  [.op 0 (.insert 7 (fun _ _ _ => false) 1 10), .op 0 (.insert 8 (fun _ _ _ => false) 1 11), .op 1 (.insert 7 (fun _ _ _ => false) 1 20),
    .op 1 (.insert 7 (fun _ _ _ => false) 1 21), .op 1 (.insert 7 (fun _ _ _ => false) 2 22),
    .merge 0 1 (fun pos => (8, fun _ _ _ => pos == 0 || pos == 1))]

example : twoOf quarrel = .ok ([(1, 10), (1, 11), (2, 22)], [(1, 20), (1, 21)]) := by
  decide +kernel

example : twoOf (quarrel ++ [.swap 0 1, .merge 1 0 (fun _ => (3, fun _ _ _ => false)), .swap 1 1]) =
    .ok ([], (twoOf (quarrel ++ [.merge 0 1 (fun _ => (3, fun _ _ _ => false)), .swap 0 1])).toOption.getD ([], []) |>.2) := by
  decide +kernel

example : twoOf (quarrel ++ [.mergeMove 1 0 (fun k => (3, fun _ _ _ => k == 2)), .move 0 1, .mergeMove 1 0 (fun _ => (0, fun _ _ _ => true))]) =
    .ok ([], (twoOf (quarrel ++ [.merge 1 0 (fun k => (3, fun _ _ _ => k == 2))])).toOption.getD ([], []) |>.2) := by
  decide +kernel

/-- A copy of the target, which is then changed independently. -/
example : (wildRun .sse2 0 (fun _ => Table.init) (quarrel ++ [.copy 2 1, .copyAssign 2 0, .op 2 (.insert 8 (fun _ _ _ => false) 1 12)])).map
    (fun r => [stored r.1 0, stored r.1 2]) = .ok [[(1, 10), (1, 11), (2, 22)], [(1, 10), (1, 11), (2, 22), (1, 12)]] := by
  decide +kernel

/-- The alternative of `C128_history` occurs: an empty container is assigned to one with elements. -/
example : ∃ r, wildRun .sse2 0 (fun _ => Table.init) quarrel = .ok r ∧ Stuck r.1 (.copyAssign 0 5) := by
  have h : (wildRun .sse2 0 (fun _ => Table.init) quarrel).map (fun r => ((r.1 5).size, (r.1 0).size)) = .ok (0, 3) := by decide +kernel
  cases e : wildRun .sse2 0 (fun _ => Table.init) quarrel with
  | error f =>
    rw [e] at h
    cases h
  | ok r =>
    rw [e] at h
    simp only [Except.map, Except.ok.injEq, Prod.mk.injEq] at h
    refine ⟨r, rfl, (by decide), ?_⟩
    rintro ⟨-, h1 | h1 | h1⟩
    · cases h1
    · exact h1.1 h.1
    · have := h1.2.1
      omega

/-- The element that was moved is found with the hash `merge` computed, and no longer with the one it was inserted with. -/
example : (wildRun .sse2 0 (fun _ => Table.init) (quarrel ++ [.op 0 (.contains 8 (fun _ _ k => k == 2)), .op 0 (.contains 7 (fun _ _ k => k == 2)),
    .op 1 (.contains 7 (fun _ _ k => k == 1))])).toOption.map (fun r => (r.2.drop 6 : List (Out Nat Nat))) = some [.bool true, .bool false, .bool true] := by
  decide +kernel

end Tpp.Swiss
