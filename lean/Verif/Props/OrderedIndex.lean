import Verif.Ordered.SwissIndex
import Verif.Props.OrderedSwiss

/-!
# C103: the index of ordered sparse and stable containers does not depend on the links
-/

set_option linter.unusedSectionVars false

namespace Tpp.OSwiss

open Tpp.Swiss (Node Ev Table Inv AllocP)
open Tpp.Ordered
open Tpp.ODense (bump bump_sound mem0)

variable {K V : Type} [DecidableEq K] {c : Cfg K}

/-- A history in which every operation does what `Spec.Loose` allows. -/
inductive Spec.Runs : List (K × V) → List (Op K V) → List (Out K V) → List (K × V) → Prop
  | nil (l) : Runs l [] [] l
  | cons {l l' l'' op os o outs} : Spec.Loose l l' o op → Runs l' os outs l'' → Runs l (op :: os) (o :: outs) l''

/-- The operation finds its elements by key, not by following links. -/
def Op.byKey : Op K V → Bool
  | .eraseNth _ | .eraseRange _ _ | .eraseIf _ | .front | .back | .iterate | .reverse => false
  | _ => true

/-- The operation is `erase(key)`. -/
def Op.isErase : Op K V → Bool
  | .erase _ => true
  | _ => false

theorem create_sep (c : Cfg K) (m : Mem) : Sep c (OTable.create (V := V) c m).1 (OTable.create (V := V) c m).2 := by
  constructor
  · show _ ∈ slots c.sz _ 1 ++ m.live
    exact List.mem_append_left _ (mem_slots.mpr ⟨0, by omega, by simp [OTable.create, Mem.alloc]⟩)
  · simp [OTable.create, slots, Table.init]

theorem run_index (hsz : 0 < c.sz) (hA : c.A.Sound c.sz) : ∀ (os : List (Op K V)) {m : Mem} {t : OTable K V}
    {r : Mem × OTable K V × List (Out K V)}, Inv c.isa c.hash t.core → Sep c m t → t.run c m os = .ok r →
    Inv c.isa c.hash r.2.1.core ∧ Sep c r.1 r.2.1 ∧ Spec.Runs t.core.contents os r.2.2 r.2.1.core.contents
  | [], m, t, r, h, hs, e => by
    cases e
    exact ⟨h, hs, .nil _⟩
  | op :: os, m, t, r, h, hs, e => by
    unfold OTable.run at e
    obtain ⟨q, h1, e⟩ := Dense.bind_eq_ok e
    obtain ⟨q', h2, e⟩ := Dense.bind_eq_ok e
    cases e
    obtain ⟨i1, l1⟩ := step_index hsz h hs h1
    obtain ⟨i2, s2, l2⟩ := run_index hsz hA os i1 (step_sep hA h hs h1) h2
    exact ⟨i2, s2, .cons l1 l2⟩

/-- C103: in every history of operations of an ordered container that does not run into undefined behaviour, also if the code exchanges
linked nodes on the way, every operation by key does what it should to the set of elements and answers accordingly; operations that follow
the links erase what they meet and meet elements only. -/
theorem C103_history (hsz : 0 < c.sz) (hA : c.A.Sound c.sz) (m : Mem) (os : List (Op K V)) {r : Mem × OTable K V × List (Out K V)}
    (e : (OTable.create (V := V) c m).2.run c (OTable.create (V := V) c m).1 os = .ok r) : ∃ l, Spec.Runs [] os r.2.2 l ∧ Spec.Uniq l ∧
      (∀ k, (r.2.1.step c r.1 (.contains k)).toOption.map (fun x => x.2.2) = some (.bool (Spec.find l k).isSome)) ∧
      (∀ k, (r.2.1.step c r.1 (.find k)).toOption.map (fun x => x.2.2) = some (.elem (Spec.find l k))) := by
  obtain ⟨h, hs, hr⟩ := run_index hsz hA os (Swiss.Inv.init _ _) (create_sep c m) e
  refine ⟨_, hr, h.contents_uniq, ?_, ?_⟩
  · intro k
    simp only [OTable.step, Swiss.contains_spec h k, bind_ok, Except.toOption, Option.map_some, lookup_find, Option.isSome_map]
  · intro k
    rcases Swiss.find_cases h k with ⟨i, n, hi, hn, hk, hf, hl⟩ | ⟨hno, hf, hl⟩
    · have hd : r.2.1.addr c.sz i ≠ r.2.1.hd := fun q => hs.2 (q ▸ mem_slots.mpr ⟨i, hi, rfl⟩)
      simp only [OTable.step, hf, bind_ok, OTable.iterAt, if_pos hi, OTable.deref, if_neg hd, elemAt_ok hsz hi hn, Except.toOption,
        Option.map_some]
      rw [find_of_lookup hl, hk]
    · simp only [OTable.step, hf, bind_ok, OTable.iterAt, if_neg (Nat.lt_irrefl _), OTable.deref, if_true, Except.toOption,
        Option.map_some]
      rw [find_of_lookup_none hl]

theorem find_perm {l l' : List (K × V)} (hu : Spec.Uniq l) (h : l'.Perm l) (k : K) : Spec.find l' k = Spec.find l k := by
  have hu' : Spec.Uniq l' := (h.map Prod.fst).nodup_iff.mpr hu
  cases hf : Spec.find l k with
  | some e =>
    obtain ⟨hm, rfl⟩ := find_key hf
    exact mem_find hu' (h.mem_iff.mpr hm)
  | none =>
    refine find_none fun e he hk => ?_
    subst hk
    rw [mem_find hu (h.mem_iff.mp he)] at hf
    cases hf

theorem insertAll_perm : ∀ (xs : List (K × V)) {l l' : List (K × V)}, Spec.Uniq l → l'.Perm l →
    (xs.foldl (fun l x => (Spec.insert l x.1 x.2).1) l').Perm (xs.foldl (fun l x => (Spec.insert l x.1 x.2).1) l)
  | [], _, _, _, h => h
  | x :: xs, _, _, hu, h => insertAll_perm xs (insert_uniq hu x.1 x.2) (insert_perm hu h x.1 x.2)

/-- Operations by key do not depend on the order. -/
theorem step_perm {l l' : List (K × V)} (hu : Spec.Uniq l) (h : l'.Perm l) {op : Op K V} (hk : op.byKey = true) :
    (Spec.step l' op).1.Perm (Spec.step l op).1 ∧ (op.isErase = false → (Spec.step l' op).2 = (Spec.step l op).2) := by
  have hf := find_perm hu h
  cases op with
  | insert k v =>
    refine ⟨insert_perm hu h k v, fun _ => ?_⟩
    simp only [Spec.step, Spec.insert, hf]
    cases Spec.find l k <;> rfl
  | assign k v =>
    constructor
    · simp only [Spec.step, Spec.assign, hf]
      split
      · exact h.map _
      · exact h.append_right _
    · intro _
      simp only [Spec.step, Spec.assign, hf]
      split <;> rfl
  | index k d =>
    refine ⟨insert_perm hu h k d, fun _ => ?_⟩
    simp only [Spec.step, Spec.insert, hf]
    cases Spec.find l k <;> rfl
  | erase k => exact ⟨h.filter _, fun q => by cases q⟩
  | extract k => exact ⟨h.filter _, fun _ => by simp only [Spec.step, hf]⟩
  | insertRange ra xs => exact ⟨insertAll_perm xs hu h, fun _ => rfl⟩
  | assignRange ra xs => exact ⟨List.Perm.refl _, fun _ => rfl⟩
  | clear => exact ⟨List.Perm.refl _, fun _ => rfl⟩
  | reserve n => exact ⟨h, fun _ => rfl⟩
  | rehash n => exact ⟨h, fun _ => rfl⟩
  | find k => exact ⟨h, fun _ => by simp only [Spec.step, hf]⟩
  | contains k => exact ⟨h, fun _ => by simp only [Spec.step, hf]⟩
  | size => exact ⟨h, fun _ => by simp only [Spec.step, h.length_eq]⟩
  | eraseNth n => cases hk
  | eraseRange i j => cases hk
  | eraseIf p => cases hk
  | front => cases hk
  | back => cases hk
  | iterate => cases hk
  | reverse => cases hk

/-- An operation by key has one result. -/
theorem Loose.byKey {l l' : List (K × V)} {out : Out K V} {op : Op K V} (h : Spec.Loose l l' out op) (hk : op.byKey = true) :
    l'.Perm (Spec.step l op).1 ∧ (op.isErase = false → out = (Spec.step l op).2) := by
  cases op with
  | erase k => exact ⟨h, fun q => by cases q⟩
  | eraseNth n => cases hk
  | eraseRange i j => cases hk
  | eraseIf p => cases hk
  | front => cases hk
  | back => cases hk
  | iterate => cases hk
  | reverse => cases hk
  | _ => exact ⟨h.1, fun _ => h.2⟩

theorem run_keys (hsz : 0 < c.sz) (hA : c.A.Sound c.sz) : ∀ (os : List (Op K V)) {m : Mem} {t : OTable K V} {l : List (K × V)}
    {r : Mem × OTable K V × List (Out K V)}, Inv c.isa c.hash t.core → Sep c m t → t.core.contents.Perm l → (∀ op ∈ os, op.byKey = true) →
    t.run c m os = .ok r →
    r.2.1.core.contents.Perm (Spec.run l os).1 ∧ ∀ (i : Nat) (op : Op K V), os[i]? = some op → op.isErase = false → r.2.2[i]? = (Spec.run l os).2[i]?
  | [], m, t, l, r, h, hs, hp, hk, e => by
    cases e
    exact ⟨hp, fun i op q => by simp at q⟩
  | op :: os, m, t, l, r, h, hs, hp, hk, e => by
    unfold OTable.run at e
    obtain ⟨q, h1, e⟩ := Dense.bind_eq_ok e
    obtain ⟨q', h2, e⟩ := Dense.bind_eq_ok e
    cases e
    obtain ⟨i1, l1⟩ := step_index hsz h hs h1
    have hu : Spec.Uniq l := (hp.map Prod.fst).nodup_iff.mp h.contents_uniq
    have hb := hk op (by simp)
    obtain ⟨a1, a2⟩ := Loose.byKey l1 hb
    obtain ⟨b1, b2⟩ := step_perm hu hp hb
    obtain ⟨c1, c2⟩ := run_keys hsz hA os i1 (step_sep hA h hs h1) (a1.trans b1) (fun o ho => hk o (by simp [ho])) h2
    refine ⟨c1, ?_⟩
    intro i op' hi he
    cases i with
    | zero =>
      simp only [List.getElem?_cons_zero, Option.some.injEq] at hi ⊢
      subst hi
      simp only [Spec.run, List.getElem?_cons_zero, Option.some.injEq]
      rw [a2 he, b2 he]
    | succ i =>
      simp only [List.getElem?_cons_succ] at hi ⊢
      simp only [Spec.run, List.getElem?_cons_succ]
      exact c2 i op' hi he

/-- C103 for histories by key: all answers are those of the list of elements, up to the iterators returned by `erase(key)`.  No assumption is
made about exchanges of linked nodes. -/
theorem C103_keys (hsz : 0 < c.sz) (hA : c.A.Sound c.sz) (m : Mem) (os : List (Op K V)) (hk : ∀ op ∈ os, op.byKey = true)
    {r : Mem × OTable K V × List (Out K V)} (e : (OTable.create (V := V) c m).2.run c (OTable.create (V := V) c m).1 os = .ok r) :
    ∀ (i : Nat) (op : Op K V), os[i]? = some op → op.isErase = false → r.2.2[i]? = (Spec.run [] os).2[i]? :=
  (run_keys hsz hA os (Swiss.Inv.init _ _) (create_sep c m) (List.Perm.refl _) hk e).2

/-- C103 for `merge`: no element gets lost and the destination keeps its elements, whatever the links of the two containers are. -/
theorem C103_merge (hsz : 0 < c.sz) (hA : c.A.Sound c.sz) {m m' m'' : Mem} {os os' : List (Op K V)}
    {d s : Mem × OTable K V × List (Out K V)} (ed : (OTable.create (V := V) c m).2.run c (OTable.create (V := V) c m).1 os = .ok d)
    (es : (OTable.create (V := V) c m').2.run c (OTable.create (V := V) c m').1 os' = .ok s) {r : Mem × OTable K V × OTable K V}
    (e : OTable.merge c m'' d.2.1 s.2.1 = .ok r) :
    (r.2.1.core.contents ++ r.2.2.core.contents).Perm (d.2.1.core.contents ++ s.2.1.core.contents) ∧
      (∀ x ∈ d.2.1.core.contents, x ∈ r.2.1.core.contents) ∧ Spec.Uniq r.2.1.core.contents ∧ Spec.Uniq r.2.2.core.contents := by
  have h1 := (run_index hsz hA os (Swiss.Inv.init _ _) (create_sep c m) ed).1
  have h2 := (run_index hsz hA os' (Swiss.Inv.init _ _) (create_sep c m') es).1
  obtain ⟨i1, i2, h⟩ := merge_index h1 h2 e
  exact ⟨h.all, h.sub, i1.contents_uniq, i2.contents_uniq⟩

/-! ### Concrete cases -/

/-- A queue of `w` elements. -/
def queue (w n : Nat) : List (Op Nat Nat) :=
  (List.range n).flatMap fun i => .insert i (10 * i) :: (if w ≤ i then [.erase (i - w)] else [])

/-- The last answers of a history of one container. -/
def answers (c : Cfg Nat) (os : List (Op Nat Nat)) (n : Nat) : Option (List (Out Nat Nat)) :=
  match (OTable.create (V := Nat) c mem0).2.run c (OTable.create (V := Nat) c mem0).1 os with
  | .ok r => some (r.2.2.drop (r.2.2.length - n))
  | .error _ => none

set_option maxRecDepth 100000 in
/-- In a queue of 22 elements an exchange of linked nodes goes unnoticed: `find` and `contains` go on to answer rightly afterwards, while
iteration reads a node that is not there. -/
example : answers c8 (queue 22 41 ++ [.find 30, .find 5, .contains 19, .size]) 4 =
      some [.elem (some (30, 300)), .elem none, .bool true, .nat 22] ∧
    answers c8.stop (queue 22 41) 0 = none ∧ answers c8 (queue 22 41 ++ [.iterate]) 0 = none := by
  refine ⟨?_, ?_, ?_⟩ <;> decide +kernel

set_option maxRecDepth 100000 in
/-- A merge of two containers with common keys. -/
example : (match World.run c16 ⟨mem0, fun _ => none⟩ (fill 0 4 ++ [.create 1, .op 1 (.insert 2 7), .op 1 (.insert 9 90), .merge 0 1]) with
    | .ok r => some ((r.1.get 0).core.contents.length, (r.1.get 1).core.contents)
    | .error _ => none) = some (5, [(2, 7)]) := by decide +kernel

/-- What the statement rules out: an answer from a key that is not there. -/
example : ¬ Spec.Runs ([] : List (Nat × Nat)) [.insert 1 10, .find 2] [.ins (1, 10) true, .elem (some (1, 10))] [(1, 10)] := by
  intro h
  cases h with
  | cons h1 h2 =>
    cases h2 with
    | cons h3 h4 =>
      have hp := h1.1
      have hq := h3.2
      simp only [Spec.step, Spec.insert, Spec.find, List.find?_nil, List.nil_append] at hp
      rw [List.perm_singleton.mp hp] at hq
      exact absurd hq (by decide)

end Tpp.OSwiss
