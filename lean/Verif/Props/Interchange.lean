import Verif.Interchange
import Verif.Props.Behaves
import Verif.Props.Dense
import Verif.Props.OrderedIndex

/-!
# C111: the kinds of containers can be exchanged for one another
-/

set_option linter.unusedSectionVars false

namespace Tpp

variable {K V : Type} [DecidableEq K]

theorem Out.Agree.symm {a b : Out K V} (h : a.Agree b) : b.Agree a := by
  cases a <;> cases b <;> simp only [Out.Agree] at h ⊢
  case count.count => exact ⟨h.1.symm, h.2.symm⟩
  case ins.ins => exact ⟨h.1.symm, h.2.symm⟩
  all_goals exact h.symm

theorem Out.Agree.trans {a b d : Out K V} (h : a.Agree b) (h' : b.Agree d) : a.Agree d := by
  cases a <;> cases b <;> simp only [Out.Agree] at h <;> cases d <;> simp only [Out.Agree] at h' ⊢
  case count.count.count => exact ⟨h.1.trans h'.1, h.2.trans h'.2⟩
  case ins.ins.ins => exact ⟨h.1.trans h'.1, h.2.trans h'.2⟩
  all_goals exact h.trans h'

theorem agree_both {a b d : List (Out K V)} (h : List.Forall₂ Out.Agree a d) (h' : List.Forall₂ Out.Agree b d) : List.Forall₂ Out.Agree a b := by
  induction h generalizing b with
  | nil => cases h'; exact .nil
  | cons h _ ih => cases h' with | cons h1 h2 => exact .cons (h.trans h1.symm) (ih h2)

theorem sparse_behaves {isa : Isa} {hash : K → Nat} {t : Swiss.Table K V} (h : Swiss.Reachable isa hash t) {l : List (K × V)}
    (hl : t.iterate isa = .ok l) : Swiss.Behaves isa hash t l := by
  refine h.inv.behaves ?_
  rcases Swiss.iterate_spec h.inv with ⟨l', e, rfl⟩ | ⟨_, e⟩
  · rw [hl] at e
    cases e
    exact .refl _
  · rw [hl] at e
    cases e

/-- C111 for two sparse or stable containers, with whatever history, buckets, hash function and block variant: if they have the same elements,
then every program gets the same answers from both, up to the order of elements.  (With 8-byte blocks, "if it gets an answer", see C32.) -/
theorem C111_sparse {isa isa' : Isa} {hash hash' : K → Nat} {t t' : Swiss.Table K V} (h : Swiss.Reachable isa hash t)
    (h' : Swiss.Reachable isa' hash' t') {l l' : List (K × V)} (hl : t.iterate isa = .ok l) (hl' : t'.iterate isa' = .ok l')
    (hp : l.Perm l') (ops : List (Op K V)) :
    Swiss.Ends isa (t.run isa hash ops) fun r => Swiss.Ends isa' (t'.run isa' hash' ops) fun r' => List.Forall₂ Out.Agree r.2 r'.2 := by
  have hb := h'.inv.behaves ((Swiss.Behaves.contents_perm h'.inv (sparse_behaves h' hl')).trans hp.symm)
  exact ((sparse_behaves h hl).run ops).mono fun r hr => (hb.run ops).mono fun r' hr' => agree_both hr hr'

/-- C111 for two dense containers: if they have the same elements in the same order, then every program gets the same answers from both,
including positions and orders of elements; neither the hash function nor the load factor nor the number of buckets is visible. -/
theorem C111_dense {k : Nat} {hash hash' : K → Nat} {t t' : Dense.Table k K V} (h : Dense.Reachable hash t) (h' : Dense.Reachable hash' t')
    {l : List (Dense.Elem k K V)} (hl : t.iterate = .ok l) (hl' : t'.iterate = .ok l) (ops : List (Dense.Op k K V))
    (hg : Dense.Spec.Guarded (decide (0 < t.bc)) ops = true) (hg' : Dense.Spec.Guarded (decide (0 < t'.bc)) ops = true) :
    ∃ r r' outs, t.run hash ops = .ok (r, outs) ∧ t'.run hash' ops = .ok (r', outs) ∧ r.iterate = r'.iterate := by
  obtain ⟨r, e, i⟩ := (h.of_iterate hl).behaves.run ops hg
  obtain ⟨r', e', i'⟩ := (h'.of_iterate hl').behaves.run ops hg'
  exact ⟨r, r', _, e, e', by rw [i, i']⟩

/-- C111 for a sparse or stable map and a dense map with the same elements: every program of common operations that erases by key only once
the dense map has buckets sees the same. -/
theorem C111_sparse_dense {isa : Isa} {hash hash' : K → Nat} {t : Swiss.Table K V} (h : Swiss.Reachable isa hash t) {l : List (K × V)}
    (hl : t.iterate isa = .ok l) {d : Dense.Table 1 K V} (h' : Dense.Reachable hash' d) {l' : List (Dense.Elem 1 K V)}
    (hl' : d.iterate = .ok l') (hp : (l'.map fun e => (e.1 0, e.2)).Perm l) (cs : List (Call K V))
    (hg : Call.guarded (decide (0 < d.bc)) cs = true) :
    ∃ r outs, d.run hash' (cs.map Call.dense) = .ok (r, outs) ∧
      Swiss.Ends isa (t.run isa hash (cs.map Call.sparse)) fun s =>
        List.Forall₂ Seen.Same (List.zipWith Call.seeSparse cs s.2) (List.zipWith Call.seeDense cs outs) := by
  obtain ⟨r, e, _⟩ := (h'.of_iterate hl').behaves.run (cs.map Call.dense) (by rw [guarded_dense]; exact hg)
  have hb := sparse_behaves h hl
  exact ⟨r, _, e, (hb.run _).mono fun s hs => same_trans (see_agree_all cs hs) (same_symm (dense_run cs ⟨hp, hb.uniq⟩))⟩

/-- C111 for two dense maps whose elements are arranged differently. -/
theorem C111_dense_order {hash hash' : K → Nat} {d d' : Dense.Table 1 K V} (h : Dense.Reachable hash d) (h' : Dense.Reachable hash' d')
    {l l' : List (Dense.Elem 1 K V)} (hl : d.iterate = .ok l) (hl' : d'.iterate = .ok l') (hp : l.Perm l') (cs : List (Call K V))
    (hg : Call.guarded (decide (0 < d.bc)) cs = true) (hg' : Call.guarded (decide (0 < d'.bc)) cs = true) :
    ∃ r r' outs outs', d.run hash (cs.map Call.dense) = .ok (r, outs) ∧ d'.run hash' (cs.map Call.dense) = .ok (r', outs') ∧
      List.Forall₂ Seen.Same (List.zipWith Call.seeDense cs outs) (List.zipWith Call.seeDense cs outs') := by
  have hb := (h.of_iterate hl).behaves
  obtain ⟨r, e, _⟩ := hb.run (cs.map Call.dense) (by rw [guarded_dense]; exact hg)
  obtain ⟨r', e', _⟩ := (h'.of_iterate hl').behaves.run (cs.map Call.dense) (by rw [guarded_dense]; exact hg')
  have hu : Spec.Uniq (l.map Call.flat) := by
    have := hb.uniq 0
    unfold Spec.Uniq
    rw [List.map_map]
    exact this
  exact ⟨r, r', _, _, e, e', same_trans (dense_run cs ⟨.refl _, hu⟩) (same_symm (dense_run cs ⟨(hp.map _).symm, hu⟩))⟩

/-- C111 for an ordered dense map and a sparse or stable map, both empty at the beginning. -/
theorem C111_ordered_dense (isa : Isa) (hash hash' : K → Nat) {sz : Int} (hsz : 0 < sz) {A : Ordered.Alloc} (hA : A.Sound sz) (m : Ordered.Mem)
    (lf : Dense.LF) (n : Nat) (cs : List (Call K V)) (hg : Call.guarded (decide (0 < n)) cs = true) :
    ∃ m' t' outs, (ODense.OTable.createN (k := 1) (K := K) (V := V) sz A m lf n).2.run hash' sz A
        (ODense.OTable.createN (k := 1) (K := K) (V := V) sz A m lf n).1 (cs.map Call.odense) = .ok (m', t', outs) ∧
      Swiss.Ends isa ((Swiss.Table.init : Swiss.Table K V).run isa hash (cs.map Call.sparse)) fun s =>
        List.Forall₂ Seen.Same (List.zipWith Call.seeSparse cs s.2) (List.zipWith Call.seeODense cs outs) := by
  obtain ⟨m', t', e, _⟩ := ODense.C51_dense_insertion_order (V := V) hash' hsz hA m lf n (cs.map Call.odense) (by rw [guarded_odense]; exact hg)
  refine ⟨m', t', _, e, (((Swiss.Inv.init isa hash).behaves (.refl _)).run _).mono fun s hs => ?_⟩
  rw [odense_run cs []]
  exact same_trans (see_agree_all cs hs) (same_symm (osparse_run cs ⟨.refl _, List.nodup_nil⟩))

/-- C111 for the ordered variants: a program of common operations without `erase(key)` gets exactly the same answers, including the order of
elements, from an ordered dense map and an ordered sparse or stable map.  (With `erase(key)` the ordered sparse containers may exchange linked
nodes, see C52.) -/
theorem C111_ordered_partial {c : OSwiss.Cfg K} (hc : 0 < c.sz) (hcA : c.A.Sound c.sz) (mc : Ordered.Mem) {nc kc : Nat} (hn : nc + 1 = 2 ^ kc)
    (hash : K → Nat) {sz : Int} (hsz : 0 < sz) {A : Ordered.Alloc} (hA : A.Sound sz) (m : Ordered.Mem) (lf : Dense.LF) (n : Nat)
    (cs : List (Call K V)) (hno : ∀ k, Call.erase k ∉ cs) :
    ∃ m' t' outs, (ODense.OTable.createN (k := 1) (K := K) (V := V) sz A m lf n).2.run hash sz A
        (ODense.OTable.createN (k := 1) (K := K) (V := V) sz A m lf n).1 (cs.map Call.odense) = .ok (m', t', outs) ∧
      ∃ m0 t0 m1 t1 outs', OSwiss.OTable.createN (V := V) c mc nc = .ok (m0, t0) ∧ t0.run c m0 (cs.map Call.osparse) = .ok (m1, t1, outs') ∧
        List.zipWith Call.seeODense cs outs = List.zipWith Call.seeOSparse cs outs' := by
  have hg : ∀ (cs : List (Call K V)) (b : Bool), (∀ k, Call.erase k ∉ cs) → Call.guarded b cs = true := by
    intro cs
    induction cs with
    | nil => intros; rfl
    | cons o cs ih =>
      intro b hb
      have ih' := fun b => ih b (fun k q => hb k (List.mem_cons_of_mem _ q))
      cases o <;> simp only [Call.guarded, ih']
      case erase k => exact absurd List.mem_cons_self (hb k)
  obtain ⟨m', t', e, _⟩ := ODense.C51_dense_insertion_order (V := V) hash hsz hA m lf n (cs.map Call.odense)
    (by rw [guarded_odense]; exact hg cs _ hno)
  obtain ⟨m0, t0, e0, m1, t1, e1, _⟩ := OSwiss.C52_swiss_growing_partial (V := V) hc hcA mc hn (cs.map Call.osparse) (by
    intro o ho
    obtain ⟨d, hd, rfl⟩ := List.mem_map.mp ho
    cases d <;> first | rfl | exact absurd hd (hno _))
  exact ⟨m', t', _, e, m0, t0, m1, t1, _, e0, e1, odense_run cs []⟩

theorem osparse_length {c : OSwiss.Cfg K} : ∀ {os : List (OSwiss.Op K V)} {m : Ordered.Mem} {t : OSwiss.OTable K V}
    {r : Ordered.Mem × OSwiss.OTable K V × List (OSwiss.Out K V)}, t.run c m os = .ok r → r.2.2.length = os.length
  | [], m, t, r, e => by cases e; rfl
  | o :: os, m, t, r, e => by
    simp only [OSwiss.OTable.run] at e
    obtain ⟨s, _, e⟩ := Dense.bind_eq_ok e
    obtain ⟨s', e2, e⟩ := Dense.bind_eq_ok e
    have := osparse_length e2
    cases e
    simp only [List.length_cons, this]

theorem spec_length : ∀ (os : List (OSwiss.Op K V)) (l : List (K × V)), (OSwiss.Spec.run l os).2.length = os.length
  | [], _ => rfl
  | o :: os, l => by
    simp only [OSwiss.Spec.run, List.length_cons, spec_length os]

/-- C111 for an ordered sparse or stable map and an unordered one: every program of common operations that does not loop over the elements sees
the same, if the execution has defined behaviour; also if the ordered map exchanges linked nodes on the way. -/
theorem C111_ordered_keys_partial (isa : Isa) (hash : K → Nat) {c : OSwiss.Cfg K} (hc : 0 < c.sz) (hcA : c.A.Sound c.sz) (m : Ordered.Mem)
    (cs : List (Call K V)) (hno : Call.iterate ∉ cs) {r : Ordered.Mem × OSwiss.OTable K V × List (OSwiss.Out K V)}
    (e : (OSwiss.OTable.create (V := V) c m).2.run c (OSwiss.OTable.create (V := V) c m).1 (cs.map Call.osparse) = .ok r) :
    Swiss.Ends isa ((Swiss.Table.init : Swiss.Table K V).run isa hash (cs.map Call.sparse)) fun s =>
      List.Forall₂ Seen.Same (List.zipWith Call.seeSparse cs s.2) (List.zipWith Call.seeOSparse cs r.2.2) := by
  have h := OSwiss.C103_keys hc hcA m (cs.map Call.osparse) (by
    intro o ho
    obtain ⟨d, hd, rfl⟩ := List.mem_map.mp ho
    cases d <;> first | rfl | exact absurd hd hno) e
  have hlen := osparse_length e
  have hq : List.zipWith Call.seeOSparse cs r.2.2 = List.zipWith Call.seeOSparse cs (OSwiss.Spec.run [] (cs.map Call.osparse)).2 := by
    apply List.ext_getElem?
    intro i
    rw [List.getElem?_zipWith, List.getElem?_zipWith]
    cases hi : cs[i]? with
    | none => rfl
    | some d =>
      by_cases he : d.osparse.isErase = false
      · rw [h i d.osparse (by rw [List.getElem?_map, hi]; rfl) he]
      · obtain ⟨hlt, _⟩ := List.getElem?_eq_some_iff.mp hi
        have h1 : i < r.2.2.length := by rw [hlen, List.length_map]; exact hlt
        have h2 : i < (OSwiss.Spec.run [] (cs.map Call.osparse)).2.length := by rw [spec_length, List.length_map]; exact hlt
        rw [List.getElem?_eq_getElem h1, List.getElem?_eq_getElem h2]
        cases d <;> first | rfl | exact absurd rfl he
  rw [hq]
  exact (((Swiss.Inv.init isa hash).behaves (.refl _)).run _).mono fun s hs =>
    same_trans (see_agree_all cs hs) (same_symm (osparse_run cs ⟨.refl _, List.nodup_nil⟩))

/-! ### Concrete cases -/

/-- A program with an overwritten element, an erased one, and loops. -/
def demoCalls : List (Call Nat Nat) :=
  [.insert 1 10, .insertRange true [(2, 20), (3, 30), (1, 0)], .iterate, .erase 1, .assign 3 33, .insert 5 50, .insert 2 0, .find 3, .contains 1,
    .size, .iterate]

example : Call.guarded false demoCalls = true := rfl

/-- The two kinds of maps order the elements differently; the answers are the same otherwise. -/
example :
    ((Swiss.Table.init : Swiss.Table Nat Nat).run .sse2 (fun n => (20 - n) * 640) (demoCalls.map Call.sparse)).toOption.map
        (fun r => List.zipWith Call.seeSparse demoCalls r.2) =
      some [.bool true, .unit, .list [(1, 10), (2, 20), (3, 30)], .unit, .bool false, .bool true, .bool false, .opt (some 33), .bool false, .nat 3,
        .list [(2, 20), (5, 50), (3, 33)]] ∧
    ((Dense.Table.init Dense.LF.initial : Dense.Table 1 Nat Nat).run (fun n => n % 3) (demoCalls.map Call.dense)).toOption.map
        (fun r => List.zipWith Call.seeDense demoCalls r.2) =
      some [.bool true, .unit, .list [(1, 10), (2, 20), (3, 30)], .unit, .bool false, .bool true, .bool false, .opt (some 33), .bool false, .nat 3,
        .list [(3, 33), (2, 20), (5, 50)]] := by
  constructor <;> decide +kernel

end Tpp
