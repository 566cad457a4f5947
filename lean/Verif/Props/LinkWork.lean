import Verif.Props.OrderedSwiss

/-!
# C118: how many links the operations of ordered containers follow and write

`Wrote m m' n`: at most `n` addresses have another link in `m'` than in `m`.  The theorems about one operation hold in every state of
the memory and of the container, whether or not linked nodes have been exchanged before (B16).
-/

set_option linter.unusedSectionVars false

namespace Tpp.Ordered

/-- At most `n` links differ. -/
def Wrote (m m' : Mem) (n : Nat) : Prop := ∃ S : List Int, S.length ≤ n ∧ ∀ x, x ∉ S → m'.link x = m.link x

namespace Wrote

theorem refl (m : Mem) : Wrote m m 0 := ⟨[], Nat.le_refl _, fun _ _ => rfl⟩

theorem of_link {m m' : Mem} (h : m'.link = m.link) (n : Nat) : Wrote m m' n := ⟨[], Nat.zero_le _, fun x _ => by rw [h]⟩

theorem trans {m m' m'' : Mem} {a b : Nat} : Wrote m m' a → Wrote m' m'' b → Wrote m m'' (a + b)
  | ⟨S, h1, h2⟩, ⟨S', h3, h4⟩ => ⟨S ++ S', by rw [List.length_append]; omega, fun x hx => by
      rw [List.mem_append, not_or] at hx
      rw [h4 x hx.2, h2 x hx.1]⟩

theorem mono {m m' : Mem} {a b : Nat} (h : Wrote m m' a) (hab : a ≤ b) : Wrote m m' b := by
  obtain ⟨S, h1, h2⟩ := h
  exact ⟨S, by omega, h2⟩

end Wrote

/-- Only the links at `S` differ. -/
def Only (m m' : Mem) (S : List Int) : Prop := ∀ x, x ∉ S → m'.link x = m.link x

theorem Only.trans {m m' m'' : Mem} {S : List Int} (h : Only m m' S) (h' : Only m' m'' S) : Only m m'' S := fun x hx => by
  rw [h' x hx, h x hx]

theorem Only.refl (m : Mem) (S : List Int) : Only m m S := fun _ _ => rfl

theorem write_only {m m' : Mem} {a : Int} {l : Link} (h : m.write a l = .ok m') {S : List Int} (ha : a ∈ S) : Only m m' S := by
  unfold Mem.write at h
  split at h
  · cases h
    intro x hx
    have : x ≠ a := fun e => hx (e ▸ ha)
    simp [this]
  · cases h

theorem setNext_only {m m' : Mem} {a v : Int} (h : m.setNext a v = .ok m') {S : List Int} (ha : a ∈ S) : Only m m' S := by
  unfold Mem.setNext at h
  obtain ⟨l, _, h⟩ := Dense.bind_eq_ok h
  exact write_only h ha

theorem setPrev_only {m m' : Mem} {a v : Int} (h : m.setPrev a v = .ok m') {S : List Int} (ha : a ∈ S) : Only m m' S := by
  unfold Mem.setPrev at h
  obtain ⟨l, _, h⟩ := Dense.bind_eq_ok h
  exact write_only h ha

theorem link2_only {m m' : Mem} {a n p : Int} (h : m.link2 a n p = .ok m') : Only m m' [a, n, p] := by
  unfold Mem.link2 at h
  obtain ⟨m1, h1, h⟩ := Dense.bind_eq_ok h
  obtain ⟨m2, h2, h⟩ := Dense.bind_eq_ok h
  obtain ⟨l, _, h⟩ := Dense.bind_eq_ok h
  obtain ⟨m3, h3, h⟩ := Dense.bind_eq_ok h
  obtain ⟨l', _, h⟩ := Dense.bind_eq_ok h
  exact (((setNext_only h1 (by simp)).trans (setPrev_only h2 (by simp))).trans (setPrev_only h3 (by simp))).trans
    (setNext_only h (by simp))

theorem linkAfter_wrote {m m' : Mem} {a p : Int} (h : m.linkAfter a p = .ok m') : Wrote m m' 3 := by
  unfold Mem.linkAfter at h
  obtain ⟨n, _, h⟩ := Dense.bind_eq_ok h
  exact ⟨_, by simp, link2_only h⟩

theorem unlink_wrote {m m' : Mem} {a : Int} (h : m.unlink a = .ok m') : Wrote m m' 2 := by
  unfold Mem.unlink at h
  obtain ⟨l, _, h⟩ := Dense.bind_eq_ok h
  simp only at h
  obtain ⟨m1, h1, h⟩ := Dense.bind_eq_ok h
  exact ⟨[a + l.next, a + l.prev], by simp, (setPrev_only h1 (by simp)).trans (setNext_only h (by simp))⟩

theorem relinkNext_only {m m' : Mem} {a b : Int} (h : m.relinkNext a b = .ok m') : ∃ n, Only m m' [a, b, n] := by
  unfold Mem.relinkNext at h
  obtain ⟨l, _, h⟩ := Dense.bind_eq_ok h
  split at h
  · obtain ⟨m1, h1, h⟩ := Dense.bind_eq_ok h
    simp only at h
    obtain ⟨m2, h2, h⟩ := Dense.bind_eq_ok h
    exact ⟨b + l.next, ((setNext_only h1 (by simp)).trans (setNext_only h2 (by simp))).trans (setPrev_only h (by simp))⟩
  · cases h; exact ⟨b, Only.refl _ _⟩

theorem relinkPrev_only {m m' : Mem} {a b : Int} (h : m.relinkPrev a b = .ok m') : ∃ n, Only m m' [a, b, n] := by
  unfold Mem.relinkPrev at h
  obtain ⟨l, _, h⟩ := Dense.bind_eq_ok h
  split at h
  · obtain ⟨m1, h1, h⟩ := Dense.bind_eq_ok h
    simp only at h
    obtain ⟨m2, h2, h⟩ := Dense.bind_eq_ok h
    exact ⟨b + l.prev, ((setPrev_only h1 (by simp)).trans (setPrev_only h2 (by simp))).trans (setNext_only h (by simp))⟩
  · cases h; exact ⟨b, Only.refl _ _⟩

theorem relinkFrom_wrote {m m' : Mem} {a b : Int} (h : m.relinkFrom a b = .ok m') : Wrote m m' 4 := by
  unfold Mem.relinkFrom at h
  obtain ⟨m1, h1, h⟩ := Dense.bind_eq_ok h
  obtain ⟨m2, h2, h⟩ := Dense.bind_eq_ok h
  obtain ⟨n, o1⟩ := relinkNext_only h2
  obtain ⟨p, o2⟩ := relinkPrev_only h
  refine ⟨[a, b, n, p], by simp, fun x hx => ?_⟩
  simp only [List.mem_cons, List.not_mem_nil, or_false, not_or] at hx
  rw [o2 x (by simp [hx]), o1 x (by simp [hx]), write_only h1 (S := [a]) (by simp) x (by simp [hx])]

theorem rawSwap_wrote {m m' : Mem} {a b : Int} (h : m.rawSwap a b = .ok m') : Wrote m m' 4 := by
  unfold Mem.rawSwap at h
  obtain ⟨la, _, h⟩ := Dense.bind_eq_ok h
  obtain ⟨lb, _, h⟩ := Dense.bind_eq_ok h
  obtain ⟨m1, h1, h⟩ := Dense.bind_eq_ok h
  exact ⟨[a, b], by simp, (write_only h1 (by simp)).trans (write_only h (by simp))⟩

theorem free_wrote {sz : Int} {m m' : Mem} {a : Int} {n : Nat} (h : m.free sz a n = .ok m') : Wrote m m' 0 := by
  unfold Mem.free at h
  split at h
  · cases h; exact Wrote.of_link rfl 0
  · cases h

/-- `for (i = begin(); i != end(); ++i)` with the number of links followed (table_common.hpp 545-549, 560-564): `walk`, counting. -/
def walkN {E : Type} (m : Mem) (hd : Int) (rd : Int → M E) : Nat → Int → M (List E × Nat)
  | 0, _ => .error .diverge
  | fuel + 1, a =>
    if a = hd then .ok ([], 0)
    else do
      let e ← rd a
      let n ← m.nextOf a
      let l ← walkN m hd rd fuel n
      .ok (e :: l.1, l.2 + 1)

theorem walkN_eq {E : Type} (m : Mem) (hd : Int) (rd : Int → M E) : ∀ (fuel : Nat) (a : Int),
    walkN m hd rd fuel a = (walk m hd rd fuel a).map fun l => (l, l.length)
  | 0, _ => rfl
  | fuel + 1, a => by
    unfold walkN walk
    split
    · rfl
    · cases rd a with
      | error e => rfl
      | ok e =>
        cases m.nextOf a with
        | error e => rfl
        | ok n =>
          simp only [Tpp.bind_ok]
          rw [walkN_eq m hd rd fuel n]
          cases walk m hd rd fuel n with
          | error e => rfl
          | ok l => rfl

end Tpp.Ordered

namespace Tpp.OSwiss

open Tpp.Swiss (Node Ev Table Inv)
open Tpp.Ordered
open Tpp.ODense (bump bump_sound mem0)

variable {K V : Type} [DecidableEq K] {c : Cfg K}

theorem replayEv_wrote {sz : Int} {st : Bool} {old new : Int} {m m' : Mem} {e : Ev} (h : replayEv sz st old new m e = .ok m') :
    Wrote m m' 4 := by
  cases e with
  | grow n => cases h; exact (Wrote.refl _).mono (by omega)
  | rel i j => exact relinkFrom_wrote h
  | mv i j => exact relinkFrom_wrote h
  | swp i j =>
    simp only [replayEv] at h
    split at h
    · cases h
    · exact rawSwap_wrote h

theorem fold_wrote {sz : Int} {st : Bool} {old new : Int} : ∀ {es : List Ev} {m m' : Mem},
    es.foldlM (replayEv sz st old new) m = .ok m' → Wrote m m' (4 * es.length)
  | [], m, m', h => by cases h; exact Wrote.refl _
  | e :: es, m, m', h => by
    rw [List.foldlM_cons] at h
    obtain ⟨m1, h1, h⟩ := Dense.bind_eq_ok h
    refine ((replayEv_wrote h1).trans (fold_wrote h)).mono ?_
    rw [List.length_cons]; omega

theorem replay_wrote {m : Mem} {t : OTable K V} {es : List Ev} {r : Mem × Int} (h : t.replay c m es = .ok r) :
    Wrote m r.1 (4 * es.length) := by
  unfold OTable.replay at h
  split at h
  · rename_i n es
    obtain ⟨m1, h1, h⟩ := Dense.bind_eq_ok h
    obtain ⟨m2, h2, h⟩ := Dense.bind_eq_ok h
    cases h
    have h0 : Wrote m (m.alloc c.sz c.A n).1 0 := Wrote.of_link rfl 0
    refine ((h0.trans (fold_wrote h1)).trans (free_wrote h2)).mono ?_
    rw [List.length_cons]; omega
  · obtain ⟨m1, h1, h⟩ := Dense.bind_eq_ok h
    cases h
    exact fold_wrote h1

theorem insertLink_wrote {m m' : Mem} {hd a : Int} {hint : Option Int} (h : OTable.insertLink m hd a hint = .ok m') : Wrote m m' 3 := by
  cases hint with
  | some x => exact linkAfter_wrote h
  | none =>
    simp only [OTable.insertLink] at h
    obtain ⟨p, _, h⟩ := Dense.bind_eq_ok h
    exact linkAfter_wrote h

theorem insertWith_wrote {m : Mem} {t : OTable K V} {op : Table K V → M (Table K V × Nat × Bool)} {hint : Option Int}
    {r : Mem × OTable K V × Int × Bool} (h : t.insertWith c m op hint = .ok r) :
    ∃ u, op (fresh t.core) = .ok u ∧ r.2.1.core = u.1 ∧ Wrote m r.1 (4 * u.1.log.length + if r.2.2.2 then 3 else 0) := by
  unfold OTable.insertWith at h
  obtain ⟨u, h1, h⟩ := Dense.bind_eq_ok h
  obtain ⟨g, h2, h⟩ := Dense.bind_eq_ok h
  have hg := replay_wrote h2
  rw [List.length_reverse] at hg
  obtain ⟨m1, h3, h⟩ := Dense.bind_eq_ok h
  cases h
  refine ⟨u, h1, rfl, hg.trans ?_⟩
  simp only at h3 ⊢
  split at h3
  · rename_i hb
    rw [if_pos hb]
    exact insertLink_wrote h3
  · rename_i hb
    cases h3
    rw [if_neg hb]
    exact Wrote.refl _

/-- Nothing moves while the container has a free slot to spare. -/
theorem prepare_room {isa : Isa} {t t' : Table K V} {hh p : Nat} (hn : t.numEmpty ≠ 0) (hc : t.cap ≠ 0) (h : t.prepare isa hh = .ok (t', p)) :
    t' = t := by
  unfold Table.prepare at h
  rw [if_neg hc] at h
  obtain ⟨q, _, h⟩ := Dense.bind_eq_ok h
  obtain ⟨x, _, h⟩ := Dense.bind_eq_ok h
  rw [if_neg (fun e => hn e.1)] at h
  cases h
  rfl

theorem emplaceNode_room {isa : Isa} {t t' : Table K V} {n : Node K V} {p : Nat} (hn : t.numEmpty ≠ 0) (hc : t.cap ≠ 0)
    (h : t.emplaceNode isa n = .ok (t', p)) : t'.log = t.log := by
  unfold Table.emplaceNode at h
  obtain ⟨⟨a, q⟩, h1, h2⟩ := Dense.bind_eq_ok h
  rw [(Swiss.commit_log h2).2.2.2.2.2, prepare_room hn hc h1]

/-- C118 for insertions into sparse and stable containers: three links, and four more for each move of a node while room is made.  A
rejected insertion writes none, and no node moves as long as there is a free slot to spare. -/
theorem C118_sparse_insert {m m' : Mem} {t t' : OTable K V} {k : K} {v : V} {hint : Option Int} {a : Int} {b : Bool}
    (h : t.insert c m k v hint = .ok (m', t', a, b)) :
    Wrote m m' (4 * t'.core.log.length + if b then 3 else 0) ∧ (b = false → m' = m ∧ t'.core.log = []) ∧
      (t.core.cap ≠ 0 → t.core.numEmpty ≠ 0 → t'.core.log = []) := by
  obtain ⟨u, h1, h2, h3⟩ := insertWith_wrote h
  simp only at h2 h3
  have key : (u.2.2 = false → u.1.log = []) ∧ (t.core.cap ≠ 0 → t.core.numEmpty ≠ 0 → u.1.log = []) := by
    unfold Table.insert at h1
    simp only at h1
    obtain ⟨pos, _, h1⟩ := Dense.bind_eq_ok h1
    split at h1
    · obtain ⟨⟨w, p⟩, h4, h5⟩ := Dense.bind_eq_ok h1
      cases h5
      refine ⟨fun e => by simp at e, fun hc hn => ?_⟩
      exact emplaceNode_room (t := fresh t.core) hn hc h4
    · cases h1
      exact ⟨fun _ => rfl, fun _ _ => rfl⟩
  refine ⟨by rw [h2]; exact h3, fun hb => ?_, fun hc hn => by rw [h2]; exact key.2 hc hn⟩
  unfold OTable.insert OTable.insertWith at h
  simp only [h1, bind_ok] at h
  obtain ⟨g, h4, h⟩ := Dense.bind_eq_ok h
  obtain ⟨m1, h5, h⟩ := Dense.bind_eq_ok h
  cases h
  refine ⟨?_, key.1 hb⟩
  rw [hb] at h5
  cases h5
  rw [key.1 hb] at h4
  cases h4
  rfl

/-- C118 for erasures from sparse and stable containers: two links. -/
theorem C118_sparse_erase {m m' : Mem} {t t' : OTable K V} {k : K} {a : Int} (h : t.erase c m k = .ok (m', t', a)) :
    Wrote m m' 2 ∧ m'.live = m.live := by
  unfold OTable.erase at h
  obtain ⟨pos, _, h⟩ := Dense.bind_eq_ok h
  split at h
  · cases h
    exact ⟨(Wrote.refl _).mono (by omega), rfl⟩
  · unfold OTable.doErase at h
    obtain ⟨r, h1, h⟩ := Dense.bind_eq_ok h
    obtain ⟨x, _, h⟩ := Dense.bind_eq_ok h
    cases h
    unfold OTable.eraseLinks at h1
    obtain ⟨n, _, h1⟩ := Dense.bind_eq_ok h1
    obtain ⟨m1, h2, h3⟩ := Dense.bind_eq_ok h1
    cases h3
    refine ⟨unlink_wrote h2, ?_⟩
    unfold Mem.unlink Mem.setPrev Mem.setNext Mem.write at h2
    obtain ⟨l, _, h2⟩ := Dense.bind_eq_ok h2
    simp only at h2
    obtain ⟨m2, h4, h2⟩ := Dense.bind_eq_ok h2
    obtain ⟨_, _, h4⟩ := Dense.bind_eq_ok h4
    obtain ⟨_, _, h2⟩ := Dense.bind_eq_ok h2
    split at h4 <;> cases h4
    split at h2 <;> cases h2
    rfl

/-- C118 for iteration over sparse and stable containers: one link per element and one for `begin()`, whatever the number of buckets
(unlike `C102_iteration`).  Partial as all of C52. -/
theorem C118_sparse_iterate_partial (hsz : 0 < c.sz) (hA : c.A.Sound c.sz) {w : World K V} {s : Seqs K V} (h : Reached c w s) {i : Nat}
    {t : OTable K V} (ht : w.tab i = some t) {q : List (K × V)} (hq : s i = some q) :
    ∃ a, t.first w.mem = .ok a ∧ walkN w.mem t.hd (t.elemAt c.sz) (t.core.size + 1) a = .ok (q, t.core.size) := by
  obtain ⟨o, hr, rfl⟩ := h.holds hsz hA ht hq
  refine ⟨_, hr.shows.first_ok, ?_⟩
  rw [walkN_eq, hr.shows.iterate_ok hsz, Except.map]
  rw [seqOf_length (fun i hi => ((hr.link.occ i).mp hi).2), hr.length]

/-- The addresses whose links differ. -/
def written (m m' : Mem) : Nat := (m'.live.filter fun x => m'.link x ≠ m.link x).length

set_option maxRecDepth 100000 in
/-- Nine elements among 15 buckets: an insertion with a slot to spare writes three links, the erasure of an element in the middle two,
a rejected insertion none. -/
example : ((((after c16 (fill 0 9)).get 0).insert c16 (after c16 (fill 0 9)).mem 77 7).toOption.map fun r =>
      (written (after c16 (fill 0 9)).mem r.1, r.2.1.core.log.length, r.2.2.2)) = some (3, 0, true) ∧
    ((((after c16 (fill 0 9)).get 0).insert c16 (after c16 (fill 0 9)).mem 5 7).toOption.map fun r =>
      (written (after c16 (fill 0 9)).mem r.1, r.2.1.core.log.length, r.2.2.2)) = some (0, 0, false) ∧
    ((((after c16 (fill 0 9)).get 0).erase c16 (after c16 (fill 0 9)).mem 5).toOption.map fun r =>
      written (after c16 (fill 0 9)).mem r.1) = some 2 := by decide +kernel

end Tpp.OSwiss

namespace Tpp.ODense

open Tpp.Dense
open Tpp.Ordered

variable {k : Nat} {K V : Type} [DecidableEq K]

theorem moveLinks_wrote {sz src dst : Int} {n : Nat} {m m' : Mem} (h : moveLinks sz src dst m n = .ok m') : Wrote m m' (4 * n) := by
  have key : ∀ (js : List Nat) {m : Mem},
      js.foldlM (fun (m : Mem) (i : Nat) => m.relinkFrom (dst + sz * (i : Int)) (src + sz * (i : Int))) m = .ok m' →
        Wrote m m' (4 * js.length) := by
    intro js
    induction js with
    | nil => intro m h; cases h; exact Wrote.refl _
    | cons i js ih =>
      intro m h
      rw [List.foldlM_cons] at h
      obtain ⟨m1, h1, h⟩ := Dense.bind_eq_ok h
      refine ((relinkFrom_wrote h1).trans (ih h)).mono ?_
      rw [List.length_cons]; omega
  have := key (List.range n) h
  rwa [List.length_range] at this

theorem linkNew_wrote {m m' : Mem} {hd a : Int} {hint : Option Int} (h : OTable.linkNew m hd a hint = .ok m') : Wrote m m' 3 := by
  cases hint with
  | some x => exact linkAfter_wrote h
  | none =>
    simp only [OTable.linkNew] at h
    obtain ⟨p, _, h⟩ := Dense.bind_eq_ok h
    exact linkAfter_wrote h

theorem maybeGrow_wrote {sz : Int} {A : Alloc} {m : Mem} {t : OTable k K V} {g : Mem × Int} (h : OTable.maybeGrow sz A m t = .ok g) :
    Wrote m g.1 (if t.core.cap = t.core.size then 4 * t.core.size else 0) := by
  unfold OTable.maybeGrow at h
  split at h
  · rename_i hc
    rw [if_pos hc]
    unfold OTable.growLinks at h
    simp only at h
    obtain ⟨m1, h1, h⟩ := Dense.bind_eq_ok h
    obtain ⟨m2, h2, h⟩ := Dense.bind_eq_ok h
    cases h
    have h0 : Wrote m (m.alloc sz A (if t.core.cap = 0 then 1 else t.core.cap * 2)).1 0 := Wrote.of_link rfl 0
    exact ((h0.trans (moveLinks_wrote h1)).trans (free_wrote h2)).mono (by omega)
  · rename_i hc
    rw [if_neg hc]
    cases h
    exact Wrote.refl _

theorem insertWith_wrote {sz : Int} {A : Alloc} {m : Mem} {t : OTable k K V} {op : Table k K V → M (Table k K V × Nat × Bool)}
    {hint : Option Int} {r : Mem × OTable k K V × Int × Bool} (h : t.insertWith sz A m op hint = .ok r) :
    Wrote m r.1 ((if t.core.cap = t.core.size then 4 * t.core.size else 0) + if r.2.2.2 then 3 else 0) := by
  unfold OTable.insertWith at h
  obtain ⟨g, h2, h⟩ := Dense.bind_eq_ok h
  obtain ⟨u, h1, h⟩ := Dense.bind_eq_ok h
  obtain ⟨m1, h3, h⟩ := Dense.bind_eq_ok h
  cases h
  refine (maybeGrow_wrote h2).trans ?_
  simp only at h3 ⊢
  split at h3
  · rename_i hb
    rw [if_pos hb]
    exact linkNew_wrote h3
  · rename_i hb
    cases h3
    rw [if_neg hb]
    exact Wrote.refl _

/-- C118 for insertions into dense containers: three links, and four for each element if the array is full.  A rejected insertion
moves the elements all the same (B68). -/
theorem C118_dense_insert {hash : K → Nat} {sz : Int} {A : Alloc} {m m' : Mem} {t t' : OTable k K V} {key : Fin k → K} {v : V}
    {hint : Option Int} {a : Int} {b : Bool} (h : t.insert hash sz A m key v hint = .ok (m', t', a, b)) :
    Wrote m m' ((if t.core.cap = t.core.size then 4 * t.core.size else 0) + if b then 3 else 0) := insertWith_wrote h

/-- C118 for erasures from dense containers: two links, and four for the last element, which takes the free place. -/
theorem C118_dense_erase {hash : K → Nat} {sz : Int} {m m' : Mem} {t t' : OTable k K V} {j : Fin k} {x : K} {a : Int} {b : Bool}
    (h : t.erase hash sz m j x = .ok (m', t', a, b)) : Wrote m m' (if b then 6 else 0) := by
  unfold OTable.erase at h
  obtain ⟨u, _, h⟩ := Dense.bind_eq_ok h
  split at h
  · obtain ⟨r, h1, h⟩ := Dense.bind_eq_ok h
    cases h
    unfold OTable.eraseLinks at h1
    obtain ⟨n, _, h1⟩ := Dense.bind_eq_ok h1
    obtain ⟨m1, h2, h1⟩ := Dense.bind_eq_ok h1
    obtain ⟨m2, h3, h4⟩ := Dense.bind_eq_ok h1
    cases h4
    rw [if_pos rfl]
    split at h3
    · exact (unlink_wrote h2).trans (relinkFrom_wrote h3)
    · cases h3
      exact (unlink_wrote h2).mono (by omega)
  · cases h
    exact Wrote.refl _

/-- C118 for iteration over dense containers. -/
theorem C118_dense_iterate {hash : K → Nat} {sz : Int} (hsz : 0 < sz) {A : Alloc} (hA : A.Sound sz) {w : World k K V} {s : Seqs k K V}
    (h : Reached hash sz A w s) {i : Nat} {t : OTable k K V} (ht : w.tab i = some t) {q : List (Elem k K V)} (hq : s i = some q) :
    ∃ a, t.first w.mem = .ok a ∧ walkN w.mem t.hd (t.elemAt sz) (t.core.size + 1) a = .ok (q, t.core.size) := by
  obtain ⟨l, o, hr, rfl⟩ := h.holds hsz hA ht hq
  refine ⟨_, first_ok hr, ?_⟩
  rw [walkN_eq, iterate_ok hsz hr, Except.map, seq_length hr.perm, hr.length, hr.core.size]

set_option maxRecDepth 100000 in
/-- Five elements in an array of eight nodes: an insertion writes three links.  Seven elements: erasing the third writes six.
Four elements in an array of four: an insertion that is rejected rewrites the links of all of them and the header. -/
example : ((((after (fill 0 5)).get 0).insert h3 24 bump (after (fill 0 5)).mem (fun _ => 77) 7).toOption.map fun r =>
      (OSwiss.written (after (fill 0 5)).mem r.1, r.2.2.2)) = some (3, true) ∧
    ((((after (fill 0 7)).get 0).erase h3 24 (after (fill 0 7)).mem 0 3).toOption.map fun r =>
      (OSwiss.written (after (fill 0 7)).mem r.1, r.2.2.2)) = some (6, true) ∧
    ((((after (fill 0 4)).get 0).insert h3 24 bump (after (fill 0 4)).mem (fun _ => 3) 7).toOption.map fun r =>
      (OSwiss.written (after (fill 0 4)).mem r.1, r.2.2.2)) = some (5, false) := by decide +kernel

end Tpp.ODense
