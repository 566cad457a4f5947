import Verif.Dense.WildMany
import Verif.Props.DenseWild

/-!
# C129: copies, moves and `swap` with hash functions and comparisons that answer arbitrarily (dense containers)

Programs with any number of dense containers whose functions answer arbitrarily: every operation does to the sequences of elements what it may do.
-/

set_option linter.unusedSectionVars false

namespace Tpp.Dense

variable {k : Nat} {K V : Type}

/-- What an operation may do to the containers with the elements `c`: `c'` are the elements afterwards. -/
def ManyDoes (c c' : Nat → List (Elem k K V)) (out : Out k K V) : ManyWild k K V → Prop
  | .op i o => Does (c i) (c' i) out o ∧ ∀ x, x ≠ i → c' x = c x
  | .copy i j => out = .unit ∧ c' i = c j ∧ ∀ x, x ≠ i → c' x = c x
  | .copyAssign i j => out = .unit ∧ c' i = c j ∧ ∀ x, x ≠ i → c' x = c x
  | .move i j => out = .unit ∧ c' i = c j ∧ (i ≠ j → c' j = []) ∧ ∀ x, x ≠ i → x ≠ j → c' x = c x
  | .swap i j => out = .unit ∧ c' i = c j ∧ c' j = c i ∧ ∀ x, x ≠ i → x ≠ j → c' x = c x

/-- A program each operation of which does what it may. -/
inductive ManyDid : (Nat → List (Elem k K V)) → List (ManyWild k K V) → List (Out k K V) → (Nat → List (Elem k K V)) → Prop
  | nil {c} : ManyDid c [] [] c
  | cons {c c' c'' op ops o os} : ManyDoes c c' o op → ManyDid c' ops os c'' → ManyDid c (op :: ops) (o :: os) c''

/-- The two operations that are wrong whatever the functions answer: `erase(key)` without buckets, and assigning an empty container to one with
elements. -/
def Stuck (w : Nat → GTable k K V) : ManyWild k K V → Prop
  | .op i (.erase _ _ _) => (w i).bc = 0
  | .copyAssign i j => i ≠ j ∧ (w j).size = 0 ∧ (w i).size ≠ 0
  | _ => False

/-- All containers are well-formed, with the elements `m` and serial numbers below `g`. -/
def Sane (g : Nat) (w : Nat → GTable k K V) (m : Nat → List (Elem k (Nat × Nat) (Elem k K V))) : Prop :=
  ∀ i, Inv Prod.snd (w i) (m i) ∧ Below g (m i)

/-- The elements without the serial numbers. -/
def plainly (m : Nat → List (Elem k (Nat × Nat) (Elem k K V))) : Nat → List (Elem k K V) := fun i => (m i).map Prod.snd

theorem plainly_upd (m : Nat → List (Elem k (Nat × Nat) (Elem k K V))) (i : Nat) (l : List (Elem k (Nat × Nat) (Elem k K V))) (x : Nat) :
    plainly (upd m i l) x = if x = i then l.map Prod.snd else plainly m x := by
  unfold plainly upd
  by_cases h : x = i
  · rw [if_pos h, if_pos h]
  · rw [if_neg h, if_neg h]

theorem Sane.upd {g : Nat} {w : Nat → GTable k K V} {m : Nat → List (Elem k (Nat × Nat) (Elem k K V))} (h : Sane g w m) {i : Nat} {t : GTable k K V}
    {l : List (Elem k (Nat × Nat) (Elem k K V))} (ht : Inv Prod.snd t l) (hb : Below g l) : Sane g (Tpp.upd w i t) (Tpp.upd m i l) := by
  intro x
  by_cases hx : x = i
  · subst hx
    rw [upd_same, upd_same]
    exact ⟨ht, hb⟩
  · rw [upd_ne _ _ hx, upd_ne _ _ hx]
    exact h x

theorem Sane.next {g : Nat} {w : Nat → GTable k K V} {m : Nat → List (Elem k (Nat × Nat) (Elem k K V))} (h : Sane g w m) : Sane (g + 1) w m :=
  fun i => ⟨(h i).1, (h i).2.mono⟩

theorem wildStep_ok {g : Nat} {w : Nat → GTable k K V} {m : Nat → List (Elem k (Nat × Nat) (Elem k K V))} (h : Sane g w m) (op : ManyWild k K V)
    (hs : ¬ Stuck w op) : ∃ r m', wildStep g w op = .ok r ∧ Sane (g + 1) r.1 m' ∧ ManyDoes (plainly m) (plainly m') r.2 op := by
  cases op with
  | op i o =>
    have hb : o.needs = true → 0 < (w i).bc := by
      intro hn
      cases o with
      | erase j x p =>
        simp only [Stuck] at hs
        omega
      | _ => cases hn
    obtain ⟨r, m1, e, h1, h2, h3, -⟩ := stepWild_ok (h i).1 (h i).2 o hb
    refine ⟨(Tpp.upd w i r.1, r.2), Tpp.upd m i m1, ?_, h.next.upd h1 h2, ?_, fun x hx => ?_⟩
    · simp only [wildStep]
      rw [e, bind_ok]
    · rw [plainly_upd, if_pos rfl]
      exact h3
    · rw [plainly_upd, if_neg hx]
  | copy i j =>
    obtain ⟨t, e, h1, -⟩ := copyCtor_ok (h j).1
    refine ⟨(Tpp.upd w i t, .unit), Tpp.upd m i (m j), ?_, h.next.upd h1 (h j).2.mono, rfl, ?_, fun x hx => ?_⟩
    · simp only [wildStep]
      rw [e, bind_ok]
    · rw [plainly_upd, if_pos rfl]
      rfl
    · rw [plainly_upd, if_neg hx]
  | copyAssign i j =>
    by_cases hij : i = j
    · refine ⟨(w, .unit), m, ?_, h.next, rfl, by rw [hij], fun _ _ => rfl⟩
      simp only [wildStep]
      rw [if_pos hij]
    · have hl : false = true ∨ m j ≠ [] ∨ m i = [] := by
        by_cases hj : m j = []
        · by_cases hi : m i = []
          · exact Or.inr (Or.inr hi)
          · refine absurd ⟨hij, ?_, ?_⟩ hs
            · rw [(h j).1.size, hj]
              rfl
            · rw [(h i).1.size]
              exact fun e => hi (List.length_eq_zero_iff.mp e)
        · exact Or.inr (Or.inl hj)
      obtain ⟨t, e, h1, -⟩ := copyAssign_ok (prop := false) (h i).1 (h j).1 hl
      refine ⟨(Tpp.upd w i t, .unit), Tpp.upd m i (m j), ?_, h.next.upd h1 (h j).2.mono, rfl, ?_, fun x hx => ?_⟩
      · simp only [wildStep]
        rw [if_neg hij, e, bind_ok]
      · rw [plainly_upd, if_pos rfl]
        rfl
      · rw [plainly_upd, if_neg hx]
  | move i j =>
    by_cases hij : i = j
    · refine ⟨(w, .unit), m, ?_, h.next, rfl, by rw [hij], fun q => absurd hij q, fun _ _ _ => rfl⟩
      simp only [wildStep]
      rw [if_pos hij]
    · obtain ⟨t, u, e, h1, -, h2, -⟩ := moveAssign_ok (eq := true) (hash₁ := Prod.snd) (h i).1 (h j).1
      refine ⟨(Tpp.upd (Tpp.upd w i t) j u, .unit), Tpp.upd (Tpp.upd m i (m j)) j [], ?_,
        (h.next.upd h1 (h j).2.mono).upd h2 (fun x hx => by cases hx), rfl, ?_, fun _ => ?_, fun x h1 h2 => ?_⟩
      · simp only [wildStep]
        rw [if_neg hij, e, bind_ok]
      · rw [plainly_upd, if_neg hij, plainly_upd, if_pos rfl]
        rfl
      · rw [plainly_upd, if_pos rfl]
        rfl
      · rw [plainly_upd, if_neg h2, plainly_upd, if_neg h1]
  | swap i j =>
    obtain ⟨h1, h2, -⟩ := swap_ok (h i).1 (h j).1
    refine ⟨(_, .unit), Tpp.upd (Tpp.upd m i (m j)) j (m i), rfl, (h.next.upd h1 (h j).2.mono).upd h2 (h i).2.mono, rfl, ?_, ?_, fun x h1 h2 => ?_⟩
    · rw [plainly_upd]
      by_cases hij : i = j
      · rw [if_pos hij, hij]
        rfl
      · rw [if_neg hij, plainly_upd, if_pos rfl]
        rfl
    · rw [plainly_upd, if_pos rfl]
      rfl
    · rw [plainly_upd, if_neg h2, plainly_upd, if_neg h1]

theorem wildRun_ok : ∀ (ops : List (ManyWild k K V)) {g : Nat} {w : Nat → GTable k K V} {m : Nat → List (Elem k (Nat × Nat) (Elem k K V))}, Sane g w m →
    (∃ r m', wildRun g w ops = .ok r ∧ (∃ g', Sane g' r.1 m') ∧ ManyDid (plainly m) ops r.2 (plainly m')) ∨
      ∃ pre op post r, ops = pre ++ op :: post ∧ wildRun g w pre = .ok r ∧ Stuck r.1 op
  | [], g, w, m, h => Or.inl ⟨(w, []), m, rfl, ⟨g, h⟩, .nil⟩
  | op :: ops, g, w, m, h => by
    by_cases hs : Stuck w op
    · exact Or.inr ⟨[], op, ops, (w, []), rfl, rfl, hs⟩
    · obtain ⟨r, m', e, h1, h2⟩ := wildStep_ok h op hs
      rcases wildRun_ok ops h1 with ⟨s, m'', e', h3, h4⟩ | ⟨pre, o, post, s, e1, e2, e3⟩
      · refine Or.inl ⟨(s.1, r.2 :: s.2), m'', ?_, h3, .cons h2 h4⟩
        simp only [wildRun]
        rw [e, bind_ok, e', bind_ok]
      · refine Or.inr ⟨op :: pre, o, post, (s.1, r.2 :: s.2), by rw [e1]; rfl, ?_, e3⟩
        simp only [wildRun]
        rw [e, bind_ok, e2, bind_ok]

theorem sane_init (lf : LF) : Sane 0 (fun _ => (Table.init lf : GTable k K V)) (fun _ => []) :=
  fun _ => ⟨init_inv Prod.snd lf, fun x hx => by cases hx⟩

/-- C129: whatever the hash functions and the comparisons answer, every program with several dense containers either ends without undefined behaviour,
with every operation doing to the sequences of elements what it may do, and iteration and `size()` of each container agreeing with its sequence; or it
comes to an operation that is wrong with proper functions too: `erase(key)` when there are no buckets, or the assignment of an empty container to one with
elements. -/
theorem C129_history (lf : LF) (ops : List (ManyWild k K V)) :
    (∃ r c, wildRun 0 (fun _ => (Table.init lf : GTable k K V)) ops = .ok r ∧ ManyDid (fun _ => []) ops r.2 c ∧
      ∀ i, (r.1 i).size = (c i).length ∧ ∀ g, (r.1 i).stepWild g .iterate = .ok (r.1 i, .list (c i))) ∨
    ∃ pre op post r, ops = pre ++ op :: post ∧ wildRun 0 (fun _ => (Table.init lf : GTable k K V)) pre = .ok r ∧ Stuck r.1 op := by
  rcases wildRun_ok ops (sane_init lf) with ⟨r, m, e, ⟨g', h⟩, hd⟩ | hs
  · refine Or.inl ⟨r, plainly m, e, hd, fun i => ⟨?_, fun g => ?_⟩⟩
    · unfold plainly
      rw [(h i).1.size, List.length_map]
    · simp only [Table.stepWild]
      rw [iterate_ok (h i).1.toArr, bind_ok]
      rfl
  · exact Or.inr hs

/-- C129: programs that assign no container and do not erase by key come to neither. -/
theorem C129_plain (lf : LF) (ops : List (ManyWild k K V))
    (h : ∀ op ∈ ops, (∀ i j x p, op ≠ .op i (.erase j x p)) ∧ ∀ i j, op ≠ .copyAssign i j) :
    ∃ r c, wildRun 0 (fun _ => (Table.init lf : GTable k K V)) ops = .ok r ∧ ManyDid (fun _ => []) ops r.2 c ∧
      ∀ i, (r.1 i).size = (c i).length ∧ ∀ g, (r.1 i).stepWild g .iterate = .ok (r.1 i, .list (c i)) := by
  rcases C129_history lf ops with hr | ⟨pre, op, post, r, e, -, hs⟩
  · exact hr
  · obtain ⟨h1, h2⟩ := h op (by rw [e]; exact List.mem_append_right _ (List.mem_cons_self ..))
    cases op with
    | op i o =>
      cases o with
      | erase j x p => exact absurd rfl (h1 i j x p)
      | _ => exact absurd hs (fun q => q)
    | copyAssign i j => exact absurd rfl (h2 i j)
    | _ => exact absurd hs (fun q => q)

/-- C129: after such a program, with the stored hash of a component and a comparison that accepts the element, a search succeeds, in particular in copies
and after moves. -/
theorem C129_found {lf : LF} {ops : List (ManyWild k K V)} {r : (Nat → GTable k K V) × List (Out k K V)}
    (e : wildRun 0 (fun _ => (Table.init lf : GTable k K V)) ops = .ok r)
    (hs : ∀ pre op post r', ops = pre ++ op :: post → wildRun 0 (fun _ => (Table.init lf : GTable k K V)) pre = .ok r' → ¬ Stuck r'.1 op)
    {i pos : Nat} {n : Node k (Nat × Nat) (Elem k K V)} (hn : (r.1 i).node pos = some n) (j : Fin k) {p : Nat → K → Bool}
    (hp : p pos (n.val.1 j) = true) (g : Nat) :
    (r.1 i).stepWild g (.contains j (n.hash j) p) = .ok (r.1 i, .bool true) := by
  rcases wildRun_ok ops (sane_init lf) with ⟨r', m, e', ⟨g', h⟩, -⟩ | ⟨pre, op, post, r', e1, e2, e3⟩
  · rw [e] at e'
    cases e'
    obtain ⟨i', q, h1⟩ := findNodeWild_some (h i).1 ((h i).1.toArr.node_elem hn) j hp
    simp only [Table.stepWild]
    rw [(h i).1.hashed pos n hn j, h1, bind_ok]
    rfl
  · exact absurd e3 (hs pre op post r' e1 e2)

/-- Two components; equal keys, a copy, moves, an exchange and an assignment; the copy is changed independently. -/
def shuffle : List (ManyWild 2 Nat Nat) :=
  moody.dropLast.map (.op 0) ++ [.copy 1 0, .op 1 (.erase 1 7 (fun _ _ => true)), .op 1 (.insert (fun _ => 7) (fun _ _ _ => false) (fun _ => 1) 14), .move 2 0,
    .op 2 (.insert (fun _ => 3) (fun _ _ _ => false) (fun _ => 6) 15), .swap 1 2, .copyAssign 0 1, .op 0 .iterate, .op 1 .iterate, .op 2 .iterate]

example : (wildRun 0 (fun _ => (Table.init .initial : GTable 2 Nat Nat)) shuffle).map (fun r => r.2.drop 16 |>.map plainOut) =
    .ok [[6, 1, 1, 13, 1, 1, 11, 6, 6, 15], [6, 1, 1, 13, 1, 1, 11, 6, 6, 15], [6, 1, 1, 13, 1, 1, 14]] := by
  decide +kernel

/-- Assigning an empty container to this program's first one would be wrong. -/
example : (wildRun 0 (fun _ => (Table.init .initial : GTable 2 Nat Nat)) (moody.map (.op 0))).map (fun r => ((r.1 1).size, (r.1 0).size)) = .ok (0, 2) := by
  decide +kernel

/-- Erasing by key from a new container would be wrong. -/
example : Stuck (fun _ => (Table.init .initial : GTable 2 Nat Nat)) (.op 3 (.erase 1 7 (fun _ _ => true))) := rfl

end Tpp.Dense
