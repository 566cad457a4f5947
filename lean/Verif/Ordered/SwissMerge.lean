import Verif.Ordered.SwissCopy
import Verif.Ordered.SwissStrict

/-!
# Ordered sparse containers: merging
-/

set_option linter.unusedSectionVars false

namespace Tpp.OSwiss

open Tpp.Swiss (Node Ev Table Inv NoTomb AllocP)
open Tpp.Ordered

variable {K V : Type} [DecidableEq K] {c : Cfg K} {m : Mem} {t dst src : OTable K V} {o od : List Nat}

theorem frame_swap {m m' : Mem} {F G F' G' : List Int} (h : Frame m m' (F ++ G) (F' ++ G')) : Frame m m' (G ++ F) (G' ++ F') := by
  refine h.congr ?_ ?_
  · intro x hx
    rw [List.mem_append] at hx ⊢
    exact hx.symm
  · intro x hx
    left
    rw [List.mem_append] at hx ⊢
    exact hx.symm

/-- An operation on one of two containers. -/
theorem Apart.keep {m m' : Mem} {t' u : OTable K V} (h : Apart c.sz t u) (hu : ∀ x ∈ u.foot c.sz, x ∈ m.live)
    (f : Frame m m' (t.foot c.sz) (t'.foot c.sz)) : Apart c.sz t' u := by
  intro x hx q
  rcases f.fresh x hx with g | g
  · exact h x g q
  · exact g (hu x q)

/-- The elements of `s` whose keys `l` lacks. -/
def Spec.missing (l s : List (K × V)) : List (K × V) := s.filter fun e => (find l e.1).isNone

/-- The elements of `s` whose keys `l` has. -/
def Spec.shared (l s : List (K × V)) : List (K × V) := s.filter fun e => (find l e.1).isSome

/-- Transferring one element. -/
theorem transfer_ok (hsz : 0 < c.sz) (hA : c.A.Sound c.sz) (hst : c.strict = true) {g : K → Nat} (hd : Rep c m dst od) {o1 o2 : List Nat} {i : Nat}
    (hs : Rep (c.with g) m src (o1 ++ i :: o2)) (ha : Apart c.sz dst src) {n : Node K V} (hn : src.core.node i = some n) {k : Nat}
    (hb : NoTomb dst.core ∨ Room dst (k + 1)) :
    ∃ m' dst' src' os', OTable.transfer c m dst src (src.addr c.sz i) = .ok (m', dst', src') ∧
      Holds c m' dst' (seqOf dst.core.node od ++ Spec.missing (seqOf dst.core.node od) [(n.key, n.val)]) ∧
      Rep (c.with g) m' src' (o1 ++ os') ∧ seqOf src'.core.node os' = Spec.shared (seqOf dst.core.node od) [(n.key, n.val)] ++ seqOf src.core.node o2 ∧
      seqOf src'.core.node o1 = seqOf src.core.node o1 ∧ src'.hd = src.hd ∧ src'.base = src.base ∧ dst'.hd = dst.hd ∧
      Apart c.sz dst' src' ∧ Frame m m' (dst.foot c.sz ++ src.foot c.sz) (dst'.foot c.sz ++ src'.foot c.sz) ∧
      m'.link (src.addr c.sz i) = m.link (src.addr c.sz i) ∧ src.addr c.sz i ∈ m'.live ∧
      (NoTomb dst'.core ∨ Room dst' k) := by
  have hin : i ∈ o1 ++ i :: o2 := by simp
  have hszg : 0 < (c.with g).sz := hsz
  unfold OTable.transfer Spec.missing Spec.shared
  rw [hs.elem (c := c.with g) hszg hin hn, bind_ok]
  simp only
  rcases hd.fresh.cases n.key with ⟨p, q, _, hp, _, _, _, hl⟩ | ⟨hno, _, hl⟩
  · rcases hd.cases n.key with ⟨p, q, _, hp, _, _, hf, _⟩ | ⟨_, _, hl'⟩
    · change Spec.find (seqOf dst.core.node od) n.key = _ at hl
      rw [hf, bind_ok, if_neg (Nat.ne_of_lt hp)]
      refine ⟨m, dst, src, i :: o2, rfl, ?_, hs, ?_, rfl, rfl, rfl, rfl, ha, Frame.refl _ _, rfl, hs.addr_live hin, ?_⟩
      · simp only [List.filter, hl, Option.isNone_some, List.append_nil]
        exact ⟨od, hd, rfl⟩
      · simp only [List.filter, hl, Option.isSome_some]
        rw [seqOf_cons hn]
        rfl
      · exact hb.imp_right (fun q => q.mono (by omega))
    · change Spec.find (seqOf dst.core.node od) n.key = _ at hl
      rw [hl] at hl'
      cases hl'
  · change Spec.find (seqOf dst.core.node od) n.key = _ at hl
    rcases hd.cases n.key with ⟨p, q, _, hp, _, _, hf, hl'⟩ | ⟨_, hf, _⟩
    · rw [hl] at hl'
      cases hl'
    rw [hf, bind_ok, if_pos rfl]
    obtain ⟨m1, src', e1, he⟩ := extractAt_ok (c := c.with g) hszg hs hn
    have e1' : src.extractIter c m (src.addr c.sz i) = .ok (m1, src', some (n.key, n.val)) := by
      unfold OTable.extractIter
      rw [if_neg (hs.addr_ne hin), slotOf_ok hsz (hs.link.lt hin)]
      simp only
      rw [show src.extractAt c m i = src.extractAt (c.with g) m i from rfl, e1, bind_ok]
    rw [e1', bind_ok]
    simp only
    have hd1 : Rep c m1 dst od := hd.frame he.frame (fun x hx q => ha x hx q)
    obtain ⟨t', p, e2, hI, hp, hnp, _, _, hg, _⟩ := Swiss.emplaceNode_spec (n := ⟨n.key, n.val, c.hash n.key⟩) (fresh_inv hd1.core) rfl hno
    have hb0 : False ∨ NoTomb dst.core ∨ 0 < dst.core.numEmpty := Or.inr (hb.imp_right (fun q => by have := q.1; omega))
    obtain ⟨⟨m2, dst', a⟩, e3, q1, q2, q3, q4, q5⟩ := (emplace_gen (b := False) (op := fun t => do
        let z ← t.emplaceNode c.isa ⟨n.key, n.val, c.hash n.key⟩
        Except.ok (z.1, z.2, true)) hsz hA hst hd1 hb0 (by rw [e2, bind_ok]) e2 hI).get id
    rw [e3, bind_ok]
    simp only at q1 q5 ⊢
    have hfoot : src'.foot c.sz = src.foot c.sz := by unfold OTable.foot; rw [he.hd, he.base, he.cap]
    have ha1 : Apart c.sz dst src' := by unfold Apart; rw [hfoot]; exact ha
    have ha2 : Apart c.sz dst' src' := ha1.keep he.rep.link.foot_live q5.frame
    have hs2 : Rep (c.with g) m2 src' (o1 ++ o2) := he.rep.frame q5.frame (fun x hx q => ha1 x q hx)
    have hil : src.addr c.sz i ∈ src'.foot c.sz := by
      rw [hfoot]
      exact List.mem_cons_of_mem _ (hs.link.slot hin)
    have hk := q5.frame.keep _ (he.rep.link.foot_live _ hil) (fun q => ha1 _ q hil)
    refine ⟨m2, dst', src', o2, rfl, ?_, hs2, ?_, he.seq hs (fun i hi => List.mem_append_left _ hi), he.hd, he.base, q5.hd, ha2, ?_,
      hk.2.trans he.stale, hk.1, ?_⟩
    · simp only [List.filter, hl, Option.isNone_none]
      exact q5.holds
    · simp only [List.filter, hl, Option.isSome_none, List.nil_append]
      exact he.seq hs (fun i hi => List.mem_append_right _ hi)
    · rw [hfoot]
      exact (he.frame.add (dst.foot c.sz)).trans (frame_swap (q5.frame.add (src.foot c.sz)))
    · rw [q1]
      rcases hb with hb | hb
      · exact Or.inl (hg.2 hb)
      · right
        have hc : 0 < dst.core.cap := hb.2.resolve_left (by omega)
        obtain ⟨h1, h2⟩ := emplace_room e2 hc (show 0 < dst.core.numEmpty by have := hb.1; omega)
        have h3 : dst.core.numEmpty ≤ t'.numEmpty + 1 := h1
        have h4 : t'.cap = dst.core.cap := h2
        exact ⟨by rw [q1]; have := hb.1; omega, Or.inr (by rw [q1, h4]; exact hc)⟩

theorem find_append_ne {l : List (K × V)} {e : K × V} {k : K} (h : k ≠ e.1) : Spec.find (l ++ [e]) k = Spec.find l k := by
  unfold Spec.find
  rw [List.find?_append]
  have : List.find? (fun x : K × V => decide (x.1 = k)) [e] = none := by
    simp [Ne.symm h]
  rw [this, Option.or_none]

/-- Later transfers do not depend on what was transferred before. -/
theorem find_missing {l r : List (K × V)} {e : K × V} {k : K} (h : k ≠ e.1) :
    Spec.find (l ++ Spec.missing l [e]) k = Spec.find l k := by
  unfold Spec.missing
  rw [List.filter_cons]
  split
  · exact find_append_ne h
  · rw [List.filter_nil, List.append_nil]

/-- The loop of the ordered `merge`: it goes backwards and stops in front of the first element. -/
theorem mergeLoop_ok (hsz : 0 < c.sz) (hA : c.A.Sound c.sz) (hst : c.strict = true) {g : K → Nat} : ∀ {fuel : Nat} {pre : List Nat} {m : Mem}
    {dst src : OTable K V} {od kept : List Nat} {i0 : Nat} {pos : Int}, Rep c m dst od → Rep (c.with g) m src (i0 :: pre ++ kept) → Apart c.sz dst src →
    pos ∈ m.live → m.prv pos = src.addr c.sz ((i0 :: pre).getLastD i0) → (NoTomb dst.core ∨ Room dst pre.length) → pre.length < fuel →
    ∃ m' dst' src', OTable.mergeLoop c (src.addr c.sz i0) fuel m dst src pos = .ok (m', dst', src') ∧
      Holds c m' dst' (seqOf dst.core.node od ++ (Spec.missing (seqOf dst.core.node od) (seqOf src.core.node pre)).reverse) ∧
      Holds (c.with g) m' src' (seqOf src.core.node [i0] ++ Spec.shared (seqOf dst.core.node od) (seqOf src.core.node pre) ++ seqOf src.core.node kept) ∧
      dst'.hd = dst.hd ∧ src'.hd = src.hd ∧
      Apart c.sz dst' src' ∧ Frame m m' (dst.foot c.sz ++ src.foot c.sz) (dst'.foot c.sz ++ src'.foot c.sz)
  | 0, _, _, _, _, _, _, _, _, _, _, _, _, _, _, hf => absurd hf (Nat.not_lt_zero _)
  | fuel + 1, pre, m, dst, src, od, kept, i0, pos, hd, hs, ha, hl, hp, hb, hf => by
    unfold OTable.mergeLoop
    rw [Mem.prevOf_ok hl, bind_ok, hp]
    rcases List.eq_nil_or_concat pre with rfl | ⟨pre, i, rfl⟩
    · rw [List.getLastD_cons, List.getLastD_nil, if_pos rfl]
      refine ⟨m, dst, src, rfl, ?_, ?_, rfl, rfl, ha, Frame.refl _ _⟩
      · refine ⟨od, hd, ?_⟩
        simp [Spec.missing, seqOf]
      · refine ⟨_, hs, ?_⟩
        rw [show i0 :: [] ++ kept = [i0] ++ kept from rfl, seqOf_append]
        simp [Spec.shared, seqOf]
    · rw [List.concat_eq_append] at hs hb hf ⊢
      have hlast : (i0 :: (pre ++ [i])).getLastD i0 = i := by
        rw [← List.cons_append, List.getLastD_eq_getLast?, List.getLast?_concat]
        rfl
      rw [hlast]
      have hs' : Rep (c.with g) m src ((i0 :: pre) ++ i :: kept) := by simpa using hs
      have hnd := hs'.link.nodup
      have hne : i ≠ i0 := by
        rintro rfl
        rw [List.cons_append, List.nodup_cons] at hnd
        exact hnd.1 (by simp)
      have hin : i ∈ (i0 :: pre) ++ i :: kept := by simp
      rw [if_neg (fun q => hne (addr_inj hsz q))]
      obtain ⟨n, hn⟩ := hs'.link.get hin
      rw [List.length_append, List.length_singleton] at hb hf
      obtain ⟨m1, dst1, src1, os', e1, hd1, hs1, hq1, hq2, hh1, hb1, hh2, ha1, f1, hst1, hl1, hr1⟩ := transfer_ok hsz hA hst hd hs' ha hn hb
      rw [e1, bind_ok]
      have hprv : m1.prv (src.addr c.sz i) = src1.addr c.sz ((i0 :: pre).getLastD i0) := by
        unfold Mem.prv
        rw [hst1]
        have hr := hs'.ring
        rw [List.map_append, List.map_cons] at hr
        have := hr.around.2
        unfold Mem.prv at this
        rw [this]
        have hx : src1.addr c.sz = src.addr c.sz := by funext j; unfold OTable.addr; rw [hb1]
        rw [hx, getLastD_cons', List.getLastD_cons]
        simp only [List.getLastD_eq_getLast?, List.getLast?_map]
        cases pre.getLast? <;> rfl
      obtain ⟨od1, hd1', hd1s⟩ := hd1
      have hi0 : src.addr c.sz i0 = src1.addr c.sz i0 := by unfold OTable.addr; rw [hb1]
      obtain ⟨m2, dst2, src2, e2, g1, g2, g3, g4, g5, g6⟩ := mergeLoop_ok hsz hA hst hd1' hs1 ha1 hl1 hprv hr1 (fuel := fuel) (by omega)
      rw [hi0, e2]
      have hu := hs'.uniq
      rw [seqOf_append, seqOf_cons hn] at hu
      have hkeys := (split_uniq hu).1
      rw [show i0 :: pre = [i0] ++ pre from rfl, seqOf_append] at hkeys hq2
      rw [seqOf_append] at hq2
      have hlen : (seqOf src1.core.node [i0]).length = (seqOf src.core.node [i0]).length := by
        have a1 := seqOf_length (f := src1.core.node) (o := [i0]) (fun j hj => hs1.link.isSome j (by simp at hj; simp [hj]))
        have a2 := seqOf_length (f := src.core.node) (o := [i0]) (fun j hj => hs'.link.isSome j (by simp at hj; simp [hj]))
        rw [a1, a2]
      obtain ⟨z1, z2⟩ := List.append_inj hq2 hlen
      have hfind : ∀ e ∈ seqOf src.core.node pre, Spec.find (seqOf dst1.core.node od1) e.1 = Spec.find (seqOf dst.core.node od) e.1 := by
        intro e he
        rw [hd1s]
        exact find_missing (r := []) (hkeys e (List.mem_append_right _ he))
      have hm : Spec.missing (seqOf dst1.core.node od1) (seqOf src1.core.node pre) =
          Spec.missing (seqOf dst.core.node od) (seqOf src.core.node pre) := by
        rw [z2]
        exact List.filter_congr (fun e he => by rw [hfind e he])
      have hsh : Spec.shared (seqOf dst1.core.node od1) (seqOf src1.core.node pre) =
          Spec.shared (seqOf dst.core.node od) (seqOf src.core.node pre) := by
        rw [z2]
        exact List.filter_congr (fun e he => by rw [hfind e he])
      refine ⟨m2, dst2, src2, rfl, ?_, ?_, g3.trans hh2, g4.trans hh1, g5, f1.trans g6⟩
      · rw [hm, hd1s, List.append_assoc] at g1
        rw [seqOf_append, seqOf_cons hn]
        have : Spec.missing (seqOf dst.core.node od) (seqOf src.core.node pre ++ [(n.key, n.val)]) =
            Spec.missing (seqOf dst.core.node od) (seqOf src.core.node pre) ++ Spec.missing (seqOf dst.core.node od) [(n.key, n.val)] :=
          List.filter_append _ _
        have hrev : (Spec.missing (seqOf dst.core.node od) [(n.key, n.val)]).reverse =
            Spec.missing (seqOf dst.core.node od) [(n.key, n.val)] := by
          unfold Spec.missing
          rw [List.filter_cons]
          split <;> rfl
        change Holds c m2 dst2 (_ ++ (Spec.missing (seqOf dst.core.node od) (seqOf src.core.node pre ++ [(n.key, n.val)])).reverse)
        rw [this, List.reverse_append, hrev]
        exact g1
      · rw [hsh, hq1, z1] at g2
        rw [seqOf_append, seqOf_cons hn]
        have : Spec.shared (seqOf dst.core.node od) (seqOf src.core.node pre ++ [(n.key, n.val)]) =
            Spec.shared (seqOf dst.core.node od) (seqOf src.core.node pre) ++ Spec.shared (seqOf dst.core.node od) [(n.key, n.val)] :=
          List.filter_append _ _
        change Holds (c.with g) m2 src2 (_ ++ Spec.shared (seqOf dst.core.node od) (seqOf src.core.node pre ++ [(n.key, n.val)]) ++ _)
        rw [this]
        simpa [List.append_assoc] using g2

/-- What `merge` does to the two sequences: the first element of the source stays, and the others go over in the opposite order. -/
def Spec.merged (d s : List (K × V)) : List (K × V) × List (K × V) :=
  (d ++ (missing d s.tail).reverse, s.take 1 ++ shared d s.tail)

theorem merge_ok (hsz : 0 < c.sz) (hA : c.A.Sound c.sz) (hst : c.strict = true) {sd ss : List (K × V)} {g : K → Nat} (hd : Holds c m dst sd)
    (hs : Holds (c.with g) m src ss) (ha : Apart c.sz dst src) :
    ∃ m' dst' src', OTable.merge c m dst src = .ok (m', dst', src') ∧ Holds c m' dst' (Spec.merged sd ss).1 ∧
      Holds (c.with g) m' src' (Spec.merged sd ss).2 ∧ dst'.hd = dst.hd ∧ src'.hd = src.hd ∧
      Apart c.sz dst' src' ∧ Frame m m' (dst.foot c.sz ++ src.foot c.sz) (dst'.foot c.sz ++ src'.foot c.sz) := by
  obtain ⟨od, hd, rfl⟩ := hd
  obtain ⟨os, hs, rfl⟩ := hs
  obtain ⟨m1, d1, e1, b1, hnt, hfit, _, _⟩ := reserve_ok hsz hA hst hd (dst.core.size + src.core.size)
  have ha1 : Apart c.sz d1 src := ha.keep hs.link.foot_live b1.frame
  have hs1 : Rep (c.with g) m1 src os := hs.frame b1.frame (fun x hx q => ha x q hx)
  obtain ⟨od1, hd1, hsd⟩ := b1.holds
  have hsize : d1.core.size = dst.core.size := by
    have h1 := seqOf_length hd1.link.isSome
    have h2 := seqOf_length hd.link.isSome
    rw [← hd1.length, ← hd.length, ← h1, ← h2, hsd]
  have hroom : NoTomb d1.core ∨ Room d1 src.core.size := by
    rcases Nat.eq_zero_or_pos d1.core.cap with q | q
    · exact Or.inl (fun i hi => absurd hi (by omega))
    · exact Or.inr ⟨by omega, Or.inr q⟩
  have f1 : Frame m m1 (dst.foot c.sz ++ src.foot c.sz) (d1.foot c.sz ++ src.foot c.sz) := frame_swap (b1.frame.add (src.foot c.sz))
  unfold OTable.merge
  rw [e1, bind_ok]
  simp only
  rw [first_ok hs1, bind_ok]
  cases os with
  | nil =>
    refine ⟨m1, d1, src, ?_, ⟨od1, hd1, ?_⟩, ⟨[], hs1, rfl⟩, b1.hd, rfl, ha1, f1⟩
    · unfold OTable.mergeLoop
      rw [last_ok hs1, bind_ok]
      simp
    · simp [Spec.merged, Spec.missing, hsd, show seqOf src.core.node [] = [] from rfl]
  | cons i0 pre =>
    have hpos : m1.prv src.hd = src.addr c.sz ((i0 :: pre).getLastD i0) := by
      have h1 := last_ok hs1
      rw [Mem.prevOf_ok hs1.hd_live] at h1
      injection h1 with h1
      rw [h1, List.map_cons, getLastD_cons', List.getLastD_cons]
      simp only [List.getLastD_eq_getLast?, List.getLast?_map]
      cases pre.getLast? <;> rfl
    have hlen := hs1.length
    rw [List.length_cons] at hlen
    rw [List.map_cons, List.headD_cons]
    obtain ⟨m2, d2, s2, e2, g1, g2, g3, g4, g5, g6⟩ := mergeLoop_ok (fuel := src.core.size + 1) (kept := []) hsz hA hst hd1
      (by rw [List.append_nil]; exact hs1) ha1 hs1.hd_live hpos (hroom.imp_right (fun q => q.mono (by omega))) (by omega)
    rw [e2]
    obtain ⟨n, hn⟩ := hs1.link.get (i := i0) (by simp)
    refine ⟨m2, d2, s2, rfl, ?_, ?_, g3.trans b1.hd, g4, g5, f1.trans g6⟩
    · rw [hsd] at g1
      unfold Spec.merged
      rw [seqOf_cons hn, List.tail_cons]
      exact g1
    · rw [hsd, seqOf_cons hn] at g2
      unfold Spec.merged
      rw [seqOf_cons hn, List.tail_cons]
      simpa [seqOf] using g2

/-! ## Merging with itself -/

theorem mergeSelfLoop_ok (hsz : 0 < c.sz) {m : Mem} {t : OTable K V} : ∀ {fuel : Nat} {pre post : List Nat} {i0 : Nat} {pos : Int},
    Rep c m t (i0 :: pre ++ post) → pos ∈ m.live → m.prv pos = t.addr c.sz ((i0 :: pre).getLastD i0) → pre.length < fuel →
    OTable.mergeSelfLoop c (t.addr c.sz i0) fuel m t pos = .ok (m, t)
  | 0, _, _, _, _, _, _, _, hf => absurd hf (Nat.not_lt_zero _)
  | fuel + 1, pre, post, i0, pos, h, hl, hp, hf => by
    unfold OTable.mergeSelfLoop
    rw [Mem.prevOf_ok hl, bind_ok, hp]
    rcases List.eq_nil_or_concat pre with rfl | ⟨pre, i, rfl⟩
    · rw [List.getLastD_cons, List.getLastD_nil, if_pos rfl]
    · rw [List.concat_eq_append] at h hf ⊢
      have hlast : (i0 :: (pre ++ [i])).getLastD i0 = i := by
        rw [← List.cons_append, List.getLastD_eq_getLast?, List.getLast?_concat]
        rfl
      rw [hlast]
      have h' : Rep c m t ((i0 :: pre) ++ i :: post) := by simpa using h
      have hnd := h'.link.nodup
      have hne : i ≠ i0 := by
        rintro rfl
        rw [List.cons_append, List.nodup_cons] at hnd
        exact hnd.1 (by simp)
      have hin : i ∈ (i0 :: pre) ++ i :: post := by simp
      rw [if_neg (fun q => hne (addr_inj hsz q))]
      obtain ⟨n, hn⟩ := h'.link.get hin
      rw [List.length_append, List.length_singleton] at hf
      have e1 : OTable.transferSelf c m t (t.addr c.sz i) = .ok (m, t) := by
        unfold OTable.transferSelf
        rw [h'.elem hsz hin hn, bind_ok]
        simp only
        rcases h'.cases n.key with ⟨p, q, _, hp, _, _, hfn, _⟩ | ⟨hno, _, _⟩
        · rw [hfn, bind_ok, if_neg (Nat.ne_of_lt hp)]
        · exact absurd rfl (hno i (h'.link.lt hin) n hn)
      rw [e1, bind_ok]
      refine mergeSelfLoop_ok hsz h' (h'.addr_live hin) ?_ (by omega)
      have hr := h'.ring
      rw [List.map_append, List.map_cons] at hr
      rw [hr.around.2, getLastD_cons', List.getLastD_cons]
      simp only [List.getLastD_eq_getLast?, List.getLast?_map]
      cases pre.getLast? <;> rfl

/-- Merging a container with itself does what `reserve` does. -/
theorem mergeSelf_ok (hsz : 0 < c.sz) (hA : c.A.Sound c.sz) (hst : c.strict = true) (h : Rep c m t o) :
    ∃ m' t', t.reserve c m (t.core.size + t.core.size) = .ok (m', t') ∧ t.mergeSelf c m = .ok (m', t') ∧
      Becomes c m t m' t' (seqOf t.core.node o) := by
  obtain ⟨m1, d1, e1, b1, _⟩ := reserve_ok hsz hA hst h (t.core.size + t.core.size)
  obtain ⟨o1, h1, hs1⟩ := b1.holds
  refine ⟨m1, d1, e1, ?_, b1⟩
  unfold OTable.mergeSelf
  rw [e1, bind_ok]
  simp only
  rw [first_ok h1, bind_ok]
  cases o1 with
  | nil =>
    unfold OTable.mergeSelfLoop
    rw [last_ok h1, bind_ok]
    simp
  | cons i0 pre =>
    have hpos : m1.prv d1.hd = d1.addr c.sz ((i0 :: pre).getLastD i0) := by
      have hl1 := h1.hd_live
      have h1 := last_ok h1
      rw [Mem.prevOf_ok hl1] at h1
      injection h1 with h1
      rw [h1, List.map_cons, getLastD_cons', List.getLastD_cons]
      simp only [List.getLastD_eq_getLast?, List.getLast?_map]
      cases pre.getLast? <;> rfl
    have hlen := h1.length
    rw [List.length_cons] at hlen
    rw [List.map_cons, List.headD_cons]
    exact mergeSelfLoop_ok (post := []) hsz (by rw [List.append_nil]; exact h1) h1.hd_live hpos (by omega)

end Tpp.OSwiss
