import Verif.Swiss.Mem

/-!
# Memory and containers agree in every program

Consequences of `Verif.Swiss.Mem` for programs with several sparse containers.
-/

namespace Tpp.Swiss.Mem

open Tpp.Dense (Post)

namespace World

/-- Memory and containers agree. -/
structure Balanced (L : Lay) (w : World) : Prop where
  fresh : w.h.Fresh
  shape : ∀ {s c}, w.box s = some c → c.buf.Shape L
  live : ∀ {s c i x}, w.box s = some c → c.buf.blk L i = some x → w.h.live i = some x
  owner : ∀ {i x}, w.h.live i = some x → ∃ s c, w.box s = some c ∧ c.buf.blk L i = some x
  uniq : ∀ {s s' c c' i}, w.box s = some c → w.box s' = some c' → c.buf.blk L i ≠ none → c'.buf.blk L i ≠ none → s = s'

theorem Balanced.own {L : Lay} {w : World} (h : Balanced L w) {s : Nat} {c : Cont} (hc : w.box s = some c) :
    Own w.h (c.buf.blk L) := ⟨h.fresh, fun hx => h.live hc hx⟩

theorem Balanced.step1 {L : Lay} {w : World} (h : Balanced L w) {s : Nat} {b : Cont} (hb : w.box s = some b) {h' : Heap} {x : Cont}
    (hs : x.buf.Shape L) (hx : Step w.h (b.buf.blk L) h' (x.buf.blk L)) : Balanced L (w.put s h' x) := by
  have old : ∀ {u : Nat} {c : Cont} {i : Nat}, u ≠ s → w.box u = some c → c.buf.blk L i ≠ none →
      b.buf.blk L i = none ∧ x.buf.blk L i = none := by
    intro u c i hu hc hi
    have h1 : b.buf.blk L i = none := by
      by_contra hh
      exact hu (h.uniq hc hb hi hh)
    refine ⟨h1, ?_⟩
    by_contra hh
    rcases hx.new i hh with e | e
    · exact e h1
    · obtain ⟨y, hy⟩ := Option.ne_none_iff_exists'.1 hi
      have := h.live hc hy
      rw [this] at e
      cases e
  refine ⟨hx.own.fresh, fun {u c} hc => ?_, fun {u c i y} hc hy => ?_, fun {i y} hi => ?_, fun {u u' c c' i} hc hc' hi hi' => ?_⟩
  · simp only [put, upd_apply] at hc
    split at hc
    · cases hc
      exact hs
    · exact h.shape hc
  · simp only [put, upd_apply] at hc
    split at hc
    · cases hc
      exact hx.own.live hy
    · rename_i hu
      have hi : c.buf.blk L i ≠ none := by
        rw [hy]
        exact fun hh => (by cases hh)
      simp only [put]
      rw [hx.frame i (old hu hc hi).1 (old hu hc hi).2]
      exact h.live hc hy
  · simp only [put] at hi
    by_cases h1 : x.buf.blk L i = none
    · by_cases h2 : b.buf.blk L i = none
      · rw [hx.frame i h2 h1] at hi
        obtain ⟨u, c, hc, hy⟩ := h.owner hi
        refine ⟨u, c, ?_, hy⟩
        simp only [put]
        rw [upd_ne _ _ ?_]
        · exact hc
        · rintro rfl
          rw [hb] at hc
          cases hc
          rw [h2] at hy
          cases hy
      · rw [hx.gone i h2 h1] at hi
        cases hi
    · obtain ⟨z, hz⟩ := Option.ne_none_iff_exists'.1 h1
      have := hx.own.live hz
      rw [hi] at this
      cases this
      exact ⟨s, x, by simp [put], hz⟩
  · simp only [put, upd_apply] at hc hc'
    split at hc
    · rename_i e
      cases hc
      split at hc'
      · rename_i e'
        rw [e, e']
      · rename_i hu
        exact absurd (old hu hc' hi').2 hi
    · rename_i hu
      split at hc'
      · cases hc'
        exact absurd (old hu hc hi).2 hi'
      · exact h.uniq hc hc' hi hi'

/-- A container without buffer may be added. -/
theorem Balanced.add {L : Lay} {w : World} (h : Balanced L w) {s : Nat} (hs : w.box s = none) (al n : Nat) :
    Balanced L (w.put s w.h ⟨.init al, n⟩) := by
  have he : (Buf.init al).blk L = fun _ => none := blk_empty rfl rfl
  refine ⟨h.fresh, fun {u c} hc => ?_, fun {u c i y} hc hy => ?_, fun {i y} hi => ?_, fun {u u' c c' i} hc hc' hi hi' => ?_⟩
  · simp only [put, upd_apply] at hc
    split at hc
    · cases hc
      exact init_shape L al
    · exact h.shape hc
  · simp only [put, upd_apply] at hc
    split at hc
    · cases hc
      rw [he] at hy
      cases hy
    · exact h.live hc hy
  · obtain ⟨u, c, hc, hy⟩ := h.owner hi
    refine ⟨u, c, ?_, hy⟩
    simp only [put]
    rw [upd_ne _ _ ?_]
    · exact hc
    · rintro rfl
      rw [hs] at hc
      cases hc
  · simp only [put, upd_apply] at hc hc'
    split at hc
    · cases hc
      exact absurd (congrFun he i) hi
    · split at hc'
      · cases hc'
        exact absurd (congrFun he i) hi'
      · exact h.uniq hc hc' hi hi'

theorem put_put (w : World) (s : Nat) (h h' : Heap) (x y : Cont) : (w.put s h x).put s h' y = w.put s h' y := by
  unfold put
  congr 1
  funext i
  simp only [upd_apply]
  split <;> rfl

/-- A new container. -/
theorem Balanced.create {L : Lay} {w : World} (h : Balanced L w) {s : Nat} (hs : w.box s = none) {h' : Heap} {x : Cont}
    (hx : x.buf.Shape L) (hst : Step w.h (fun _ => none) h' (x.buf.blk L)) : Balanced L (w.put s h' x) := by
  have he : (Buf.init 0).blk L = fun _ => none := blk_empty rfl rfl
  have := (h.add hs 0 0).step1 (s := s) (b := ⟨.init 0, 0⟩) (by simp [put]) hx (h' := h') (by rw [he]; exact hst)
  rwa [put_put] at this

/-- A container without buffer may be removed. -/
theorem Balanced.remove {L : Lay} {w : World} (h : Balanced L w) {s : Nat} {b : Cont} (hb : w.box s = some b)
    (he : b.buf.blk L = fun _ => none) : Balanced L ⟨w.h, upd w.box s none⟩ := by
  refine ⟨h.fresh, fun {u c} hc => ?_, fun {u c i y} hc hy => ?_, fun {i y} hi => ?_, fun {u u' c c' i} hc hc' hi hi' => ?_⟩
  · simp only [upd_apply] at hc
    split at hc
    · cases hc
    · exact h.shape hc
  · simp only [upd_apply] at hc
    split at hc
    · cases hc
    · exact h.live hc hy
  · obtain ⟨u, c, hc, hy⟩ := h.owner hi
    refine ⟨u, c, ?_, hy⟩
    simp only
    rw [upd_ne _ _ ?_]
    · exact hc
    · rintro rfl
      rw [hb] at hc
      cases hc
      rw [he] at hy
      cases hy
  · simp only [upd_apply] at hc hc'
    split at hc
    · cases hc
    · split at hc'
      · cases hc'
      · exact h.uniq hc hc' hi hi'

/-- Two containers exchange their blocks. -/
theorem Balanced.exchange {L : Lay} {w : World} (h : Balanced L w) {a b : Nat} (hab : a ≠ b) {x y x' y' : Cont}
    (hx : w.box a = some x) (hy : w.box b = some y) (sx : x'.buf = y.buf) (sy : y'.buf = x.buf) :
    Balanced L ⟨w.h, upd (upd w.box a (some x')) b (some y')⟩ := by
  have key : ∀ {u : Nat} {c : Cont}, upd (upd w.box a (some x')) b (some y') u = some c →
      (u = b ∧ c = y') ∨ (u = a ∧ c = x') ∨ (u ≠ a ∧ u ≠ b ∧ w.box u = some c) := by
    intro u c hc
    rw [upd_apply] at hc
    split at hc
    · rename_i hu
      cases hc
      exact .inl ⟨hu, rfl⟩
    · rename_i hu
      rw [upd_apply] at hc
      split at hc
      · rename_i hu'
        cases hc
        exact .inr (.inl ⟨hu', rfl⟩)
      · rename_i hu'
        exact .inr (.inr ⟨hu', hu, hc⟩)
  refine ⟨h.fresh, fun {u c} hc => ?_, fun {u c i z} hc hz => ?_, fun {i z} hi => ?_, fun {u u' c c' i} hc hc' hi hi' => ?_⟩
  · rcases key hc with ⟨_, rfl⟩ | ⟨_, rfl⟩ | ⟨_, _, hc'⟩
    · rw [sy]
      exact h.shape hx
    · rw [sx]
      exact h.shape hy
    · exact h.shape hc'
  · rcases key hc with ⟨_, rfl⟩ | ⟨_, rfl⟩ | ⟨_, _, hc'⟩
    · rw [sy] at hz
      exact h.live hx hz
    · rw [sx] at hz
      exact h.live hy hz
    · exact h.live hc' hz
  · obtain ⟨u, c, hc, hz⟩ := h.owner hi
    by_cases hua : u = a
    · subst hua
      rw [hx] at hc
      cases hc
      exact ⟨b, y', by simp, by rw [sy]; exact hz⟩
    · by_cases hub : u = b
      · subst hub
        rw [hy] at hc
        cases hc
        exact ⟨a, x', by simp only; rw [upd_ne _ _ hab]; simp, by rw [sx]; exact hz⟩
      · exact ⟨u, c, by simp only; rw [upd_ne _ _ hub, upd_ne _ _ hua]; exact hc, hz⟩
  · rcases key hc with ⟨hu, rfl⟩ | ⟨hu, rfl⟩ | ⟨hu1, hu2, hc1⟩
    · rw [sy] at hi
      rcases key hc' with ⟨hv, rfl⟩ | ⟨hv, rfl⟩ | ⟨hv1, hv2, hc2⟩
      · rw [hu, hv]
      · rw [sx] at hi'
        exact absurd (h.uniq hx hy hi hi') hab
      · exact absurd (h.uniq hc2 hx hi' hi) hv1
    · rw [sx] at hi
      rcases key hc' with ⟨hv, rfl⟩ | ⟨hv, rfl⟩ | ⟨hv1, hv2, hc2⟩
      · rw [sy] at hi'
        exact absurd (h.uniq hy hx hi hi') (Ne.symm hab)
      · rw [hu, hv]
      · exact absurd (h.uniq hc2 hy hi' hi) hv2
    · rcases key hc' with ⟨hv, rfl⟩ | ⟨hv, rfl⟩ | ⟨hv1, hv2, hc2⟩
      · rw [sy] at hi'
        exact absurd (h.uniq hc1 hx hi hi') hu1
      · rw [sx] at hi'
        exact absurd (h.uniq hc1 hy hi hi') hu2
      · exact h.uniq hc1 hc2 hi hi'

end World

open World

/-! ## The functions of containers -/

/-- `copy_data` accounts for the memory unless it forgets a buffer of capacity 0. -/
theorem copyData_post {L : Lay} {nullOk : Bool} {h : Heap} {c o : Cont} (hs : c.buf.Shape L) (ho : Own h (c.buf.blk L))
    (hg : o.size ≠ 0 → c.buf.cap = 0 → 0 < o.buf.cap → c.buf.md = none) :
    Post (fun r => r.2.buf.Shape L ∧ r.2.buf.al = c.buf.al ∧ Step h (c.buf.blk L) r.1 (r.2.buf.blk L)) (c.copyData L nullOk h o) := by
  unfold Cont.copyData
  by_cases h1 : c.size ≠ 0
  · rw [if_pos h1]
    simp [Post]
  · rw [if_neg h1]
    by_cases h2 : o.size = 0
    · rw [if_pos h2]
      exact ⟨hs, rfl, Step.refl ho⟩
    · rw [if_neg h2]
      obtain ⟨r, e, e1, e2, e3⟩ := reallocate_ok (nullOk := nullOk) hs ho (hg h2)
      rw [e, bind_ok]
      exact ⟨e1, e2, e3⟩

/-- What a move does to both containers: the target's memory is accounted for and the source keeps its buffer, or they exchange
their buffers. -/
inductive Moved (L : Lay) (h : Heap) (c o : Cont) (r : Heap × Cont × Cont) : Prop
  | apart : r.2.1.buf.Shape L → Step h (c.buf.blk L) r.1 (r.2.1.buf.blk L) → r.2.2.buf = o.buf → Moved L h c o r
  | exchange (b : Buf) : b.Shape L → Step h (c.buf.blk L) r.1 (b.blk L) → r.2.1.buf = o.buf → r.2.2.buf = b → Moved L h c o r

theorem moveFrom_post {L : Lay} {nullOk : Bool} {h h' : Heap} {c c' o : Cont} (hs : c'.buf.Shape L)
    (hst : Step h (c.buf.blk L) h' (c'.buf.blk L))
    (hg : c'.buf.al ≠ o.buf.al → o.size ≠ 0 → c'.buf.cap = 0 → 0 < o.buf.cap → c'.buf.md = none) :
    Post (Moved L h c o) (c'.moveFrom L nullOk h' o) := by
  unfold Cont.moveFrom
  by_cases he : c'.buf.al = o.buf.al
  · rw [if_pos he]
    simp only [Buf.swapData, if_pos he, bind_ok]
    refine .exchange c'.buf hs hst ?_ ?_
    · simp only [he]
    · simp only [← he]
  · rw [if_neg he]
    refine (copyData_post (nullOk := nullOk) hs hst.own (hg he)).bind fun r hr => ?_
    exact .apart hr.1 (hst.trans hr.2.2) rfl

theorem World.Balanced.moved {L : Lay} {w : World} (h : Balanced L w) {dst src : Nat} (hds : dst ≠ src) {c o : Cont}
    (hc : w.box dst = some c) (ho : w.box src = some o) {r : Heap × Cont × Cont} (hm : Moved L w.h c o r) :
    Balanced L ⟨r.1, upd (upd w.box dst (some r.2.1)) src (some r.2.2)⟩ := by
  cases hm with
  | apart h1 h2 h3 =>
    have hw := h.step1 hc h1 h2
    have ho' : (w.put dst r.1 r.2.1).box src = some o := by
      simp only [put]
      rw [upd_ne _ _ (Ne.symm hds)]
      exact ho
    have := hw.step1 (x := r.2.2) ho' (by rw [h3]; exact hw.shape ho') (by rw [h3]; exact Step.refl (hw.own ho'))
    exact this
  | exchange b h1 h2 h3 h4 =>
    have hw := h.step1 (x := ⟨b, 0⟩) hc h1 h2
    have hc' : (w.put dst r.1 ⟨b, 0⟩).box dst = some ⟨b, 0⟩ := by simp [put]
    have ho' : (w.put dst r.1 ⟨b, 0⟩).box src = some o := by
      simp only [put]
      rw [upd_ne _ _ (Ne.symm hds)]
      exact ho
    have := hw.exchange (x' := r.2.1) (y' := r.2.2) hds hc' ho' h3 h4
    have e : upd (w.put dst r.1 ⟨b, 0⟩).box dst (some r.2.1) = upd w.box dst (some r.2.1) := by
      funext i
      simp only [put, upd_apply]
      split <;> rfl
    rw [e] at this
    exact this

theorem alignCapacity_ne (n : Nat) : alignCapacity n ≠ 0 := by
  unfold alignCapacity
  split
  · decide
  · have : 2 ≤ 2 ^ (Nat.log2 n + 1) := by
      rw [Nat.pow_succ]
      have := Nat.one_le_two_pow (n := Nat.log2 n)
      omega
    omega

/-- One statement keeps memory and containers in agreement and never deallocates wrongly. -/
theorem World.Balanced.step {cfg : ACfg} {L : Lay} {w : World} (h : Balanced L w) (o : Op) (hn : w.Fine cfg L o) :
    Post (Balanced L) (w.step cfg L o) := by
  obtain ⟨hn, hw, hg⟩ := hn
  cases o with
  | make s al =>
    simp only [World.step]
    split
    · exact h
    · rename_i hs
      exact h.add hs al 0
  | makeN s al n =>
    simp only [World.step]
    split
    · exact h
    · rename_i hs
      split
      · exact h.create hs (allocate_shape _ (init_shape L al) n) (allocate_step h.fresh (init_shape L al) n)
      · simp [Post]
  | copyMake s src al =>
    simp only [World.step]
    split
    · rename_i o hs ho
      have he : (Buf.init al).blk L = fun _ => none := blk_empty rfl rfl
      refine (copyData_post (nullOk := cfg.nullOk) (c := ⟨.init al, 0⟩) (h := w.h) (init_shape L al) ⟨h.fresh, fun hh => ?_⟩
        (fun _ _ _ => rfl)).bind fun r hr => ?_
      · rw [he] at hh
        cases hh
      · refine h.create hs hr.1 ?_
        have := hr.2.2
        rw [he] at this
        exact this
    · exact h
  | moveMake s src al =>
    simp only [World.step]
    split
    · rename_i o hs ho
      have hne : s ≠ src := by
        rintro rfl
        rw [hs] at ho
        cases ho
      have hw := h.add hs (al.getD o.buf.al) 0
      have hb : (w.put s w.h ⟨.init (al.getD o.buf.al), 0⟩).box s = some ⟨.init (al.getD o.buf.al), 0⟩ := by simp [put]
      have ho' : (w.put s w.h ⟨.init (al.getD o.buf.al), 0⟩).box src = some o := by
        simp only [put]
        rw [upd_ne _ _ (Ne.symm hne)]
        exact ho
      refine (moveFrom_post (nullOk := cfg.nullOk) (o := o) (init_shape L _) (Step.refl (hw.own hb)) (fun _ _ _ _ => rfl)).bind
        fun r hr => ?_
      have := hw.moved hne hb ho' hr
      have e : upd (w.put s w.h ⟨.init (al.getD o.buf.al), 0⟩).box s (some r.2.1) = upd w.box s (some r.2.1) := by
        funext i
        simp only [put, upd_apply]
        split <;> rfl
      rw [e] at this
      exact this
    · exact h
  | copyAssign dst src =>
    simp only [World.step]
    split
    · rename_i c o hc ho
      split
      · exact h
      · rename_i hne
        simp only [nullFree, wrongSize, forgets, hc, ho, hne, ne_eq, not_false_eq_true, decide_true, Bool.true_and] at hn hw hg
        obtain ⟨r, e, e1, e2, e3, e4, e5⟩ := assign_ok (nullOk := cfg.nullOk) (prop := cfg.copyProp) (h.shape hc) (h.own hc) o.buf.al
          (by
            rcases hn with hn | hn
            · exact .inr (.inl hn)
            · cases hp : cfg.copyProp with
              | false => exact .inl rfl
              | true =>
                rw [hp] at hn
                exact .inr (.inr (fun hh => by rw [hh] at hn; cases hn)))
          (by
            cases hp : cfg.copyProp with
            | false => exact .inl rfl
            | true =>
              cases hL : L.comb with
              | false => exact .inr (.inl rfl)
              | true =>
                rw [hp, hL] at hw
                right; right
                cases hm : c.buf.md with
                | none => rfl
                | some a =>
                  rw [hm] at hw
                  cases hw)
        rw [e, bind_ok]
        refine (copyData_post (nullOk := cfg.nullOk) (c := ⟨r.2, 0⟩) (o := o) e1 e5.own (fun g1 g2 g3 => ?_)).bind fun q hq =>
          h.step1 hc hq.1 (e5.trans hq.2.2)
        cases hp : cfg.copyProp with
        | true =>
          simp only [e4 hp]
        | false =>
          simp only [e3 hp] at g2 ⊢
          rw [hp] at hg
          cases hm : c.buf.md with
          | none => rfl
          | some a =>
            rw [hm] at hg
            simp [g1, g2, g3] at hg
    · exact h
  | moveAssign dst src =>
    simp only [World.step]
    split
    · rename_i c o hc ho
      split
      · exact h
      · rename_i hne
        simp only [nullFree, wrongSize, forgets, hc, ho, hne, ne_eq, not_false_eq_true, decide_true, Bool.true_and] at hn hw hg
        obtain ⟨r, e, e1, e2, e3, e4, e5⟩ := assign_ok (nullOk := cfg.nullOk) (prop := cfg.moveProp) (h.shape hc) (h.own hc) o.buf.al
          (by
            rcases hn with hn | hn
            · exact .inr (.inl hn)
            · cases hp : cfg.moveProp with
              | false => exact .inl rfl
              | true =>
                rw [hp] at hn
                exact .inr (.inr (fun hh => by rw [hh] at hn; cases hn)))
          (by
            cases hp : cfg.moveProp with
            | false => exact .inl rfl
            | true =>
              cases hL : L.comb with
              | false => exact .inr (.inl rfl)
              | true =>
                rw [hp, hL] at hw
                right; right
                cases hm : c.buf.md with
                | none => rfl
                | some a =>
                  rw [hm] at hw
                  cases hw)
        rw [e, bind_ok]
        refine (moveFrom_post (nullOk := cfg.nullOk) (c := c) (c' := ⟨r.2, 0⟩) (o := o) e1 e5 (fun g0 g1 g2 g3 => ?_)).bind
          fun q hq => h.moved hne hc ho hq
        cases hp : cfg.moveProp with
        | true =>
          simp only [e4 hp]
        | false =>
          simp only [e3 hp] at g0 g2 ⊢
          rw [hp] at hg
          cases hm : c.buf.md with
          | none => rfl
          | some a =>
            rw [hm] at hg
            simp [g0, g1, g2, g3] at hg
    · exact h
  | swap a b =>
    simp only [World.step]
    split
    · rename_i x y hx hy
      split
      · exact h
      · rename_i hne
        unfold Buf.swapData
        by_cases hal : x.buf.al = y.buf.al
        · rw [if_pos hal, bind_ok]
          exact h.exchange hne hx hy (by simp only [hal]) (by simp only [← hal])
        · rw [if_neg hal]
          simp [Post]
    · exact h
  | rehash s n =>
    simp only [World.step]
    split
    · exact h
    · rename_i c hc
      simp only [nullFree, hc] at hn
      obtain ⟨r, e, e1, _, e3⟩ := resize_ok (nullOk := cfg.nullOk) (h.shape hc) (h.own hc)
        (hn.imp id (fun hh h' => by rw [h'] at hh; cases hh)) (alignCapacity_ne n)
      rw [e, bind_ok]
      exact h.step1 hc e1 e3
  | resized s n =>
    simp only [World.step]
    split
    · exact h
    · rename_i c hc
      exact h.step1 (x := ⟨c.buf, n⟩) hc (h.shape (c := c) hc) (Step.refl (h.own (c := c) hc))
  | destroy s =>
    simp only [World.step]
    split
    · exact h
    · rename_i c hc
      simp only [nullFree, hc] at hn
      obtain ⟨r, e, e1⟩ := deallocate_ok (nullOk := cfg.nullOk) (h.shape hc) (h.own hc)
        (hn.imp id (fun hh h' => by rw [h'] at hh; cases hh))
      rw [e, bind_ok]
      have he : (Buf.init 0).blk L = fun _ => none := blk_empty rfl rfl
      have h1 := h.step1 (x := ⟨.init 0, 0⟩) hc (init_shape L 0) (by rw [he]; exact e1)
      have h2 := h1.remove (s := s) (b := ⟨.init 0, 0⟩) (by simp [put]) he
      have e : upd (w.put s r.1 ⟨.init 0, 0⟩).box s none = upd w.box s none := by
        funext i
        simp only [put, upd_apply]
        split <;> rfl
      rw [e] at h2
      exact h2

/-! ## Programs without bucket count 0 -/

/-- A buffer of capacity 0 is no buffer. -/
def Buf.Tight (b : Buf) : Prop := b.cap = 0 → b.md = none

theorem allocate_tight (L : Lay) (h : Heap) (b : Buf) {n : Nat} (hn : n ≠ 0) : (b.allocate L h n).2.Tight :=
  fun hh => absurd ((allocate_al L h b n).2.symm.trans hh) hn

theorem copyData_tight {L : Lay} {nullOk : Bool} {h : Heap} {c o : Cont} {r : Heap × Cont} (hc : c.buf.Tight)
    (e : c.copyData L nullOk h o = .ok r) : r.2.buf.Tight := by
  unfold Cont.copyData at e
  split at e
  · cases e
  · split at e
    · cases e
      exact hc
    · unfold Buf.reallocate at e
      by_cases h1 : c.buf.cap < o.buf.cap
      · rw [if_pos h1] at e
        cases e2 : (if c.buf.cap ≠ 0 then c.buf.release L nullOk h else .ok h : M Heap) with
        | error _ =>
          rw [e2] at e
          cases e
        | ok h' =>
          rw [e2] at e
          cases e
          exact allocate_tight L h' c.buf (by omega)
      · rw [if_neg h1] at e
        cases e
        exact hc

theorem moveFrom_tight {L : Lay} {nullOk : Bool} {h : Heap} {c o : Cont} {r : Heap × Cont × Cont} (hc : c.buf.Tight)
    (ho : o.buf.Tight) (e : c.moveFrom L nullOk h o = .ok r) : r.2.1.buf.Tight ∧ r.2.2.buf.Tight := by
  unfold Cont.moveFrom at e
  split at e
  · rename_i hal
    simp only [Buf.swapData, if_pos hal, bind_ok] at e
    cases e
    exact ⟨ho, hc⟩
  · cases e2 : c.copyData L nullOk h o with
    | error _ =>
      rw [e2] at e
      cases e
    | ok q =>
      rw [e2] at e
      cases e
      exact ⟨copyData_tight hc e2, ho⟩

theorem assign_tight {L : Lay} {nullOk prop : Bool} {h : Heap} {b : Buf} {al : Nat} {r : Heap × Buf} (hb : b.Tight)
    (e : b.assign L nullOk prop h al = .ok r) : r.2.Tight := by
  unfold Buf.assign at e
  split at e
  · split at e
    · cases e1 : h.free nullOk b.md ⟨b.al, .nodes, b.cap⟩ with
      | error _ =>
        rw [e1] at e
        cases e
      | ok q =>
        rw [e1] at e
        cases e
        exact fun _ => rfl
    · cases e1 : h.free nullOk b.md ⟨b.al, .bytes, b.cap + L.W⟩ with
      | error _ =>
        rw [e1] at e
        cases e
      | ok q =>
        rw [e1, bind_ok] at e
        cases e2 : q.free nullOk b.nd ⟨b.al, .nodes, b.cap⟩ with
        | error _ =>
          rw [e2] at e
          cases e
        | ok q' =>
          rw [e2] at e
          cases e
          exact fun _ => rfl
  · cases e
    exact hb

/-- All buffers are. -/
def World.Tight (w : World) : Prop := ∀ s c, w.box s = some c → c.buf.Tight

theorem put_tight {w : World} (h : w.Tight) {s : Nat} {m : Heap} {c : Cont} (hc : c.buf.Tight) : (w.put s m c).Tight := by
  intro u d hd
  simp only [put, upd_apply] at hd
  split at hd
  · cases hd
    exact hc
  · exact h _ _ hd

theorem two_tight {w : World} (h : w.Tight) {a b : Nat} {m : Heap} {c d : Cont} (hc : c.buf.Tight) (hd : d.buf.Tight) :
    World.Tight ⟨m, upd (upd w.box a (some c)) b (some d)⟩ :=
  put_tight (w := w.put a m c) (s := b) (m := m) (put_tight h hc) hd

theorem World.Tight.step {cfg : ACfg} {L : Lay} {w w' : World} (h : w.Tight) {o : Op} (hz : ∀ s al, o ≠ .makeN s al 0)
    (e : w.step cfg L o = .ok w') : w'.Tight := by
  cases o with
  | make s al =>
    simp only [World.step] at e
    split at e
    · cases e
      exact h
    · cases e
      exact put_tight h (fun _ => rfl)
  | makeN s al n =>
    simp only [World.step] at e
    split at e
    · cases e
      exact h
    · split at e
      · cases e
        exact put_tight h (allocate_tight L _ _ (fun hh => hz s al (by rw [hh])))
      · cases e
  | copyMake s src al =>
    simp only [World.step] at e
    split at e
    · rename_i o hs ho
      cases e1 : Cont.copyData L cfg.nullOk w.h ⟨.init al, 0⟩ o with
      | error _ =>
        rw [e1] at e
        cases e
      | ok r =>
        rw [e1] at e
        cases e
        exact put_tight h (copyData_tight (c := ⟨.init al, 0⟩) (fun _ => rfl) e1)
    · cases e
      exact h
  | moveMake s src al =>
    simp only [World.step] at e
    split at e
    · rename_i o hs ho
      cases e1 : Cont.moveFrom L cfg.nullOk w.h ⟨.init (al.getD o.buf.al), 0⟩ o with
      | error _ =>
        rw [e1] at e
        cases e
      | ok r =>
        rw [e1] at e
        cases e
        have := moveFrom_tight (c := ⟨.init (al.getD o.buf.al), 0⟩) (fun _ => rfl) (h _ _ ho) e1
        exact two_tight h this.1 this.2
    · cases e
      exact h
  | copyAssign dst src =>
    simp only [World.step] at e
    split at e
    · rename_i c o hc ho
      split at e
      · cases e
        exact h
      · cases e1 : c.buf.assign L cfg.nullOk cfg.copyProp w.h o.buf.al with
        | error _ =>
          rw [e1] at e
          cases e
        | ok r =>
          rw [e1, bind_ok] at e
          cases e2 : Cont.copyData L cfg.nullOk r.1 ⟨r.2, 0⟩ o with
          | error _ =>
            rw [e2] at e
            cases e
          | ok q =>
            rw [e2] at e
            cases e
            exact put_tight h (copyData_tight (c := ⟨r.2, 0⟩) (assign_tight (h _ _ hc) e1) e2)
    · cases e
      exact h
  | moveAssign dst src =>
    simp only [World.step] at e
    split at e
    · rename_i c o hc ho
      split at e
      · cases e
        exact h
      · cases e1 : c.buf.assign L cfg.nullOk cfg.moveProp w.h o.buf.al with
        | error _ =>
          rw [e1] at e
          cases e
        | ok r =>
          rw [e1, bind_ok] at e
          cases e2 : Cont.moveFrom L cfg.nullOk r.1 ⟨r.2, 0⟩ o with
          | error _ =>
            rw [e2] at e
            cases e
          | ok q =>
            rw [e2] at e
            cases e
            have := moveFrom_tight (c := ⟨r.2, 0⟩) (assign_tight (h _ _ hc) e1) (h _ _ ho) e2
            exact two_tight h this.1 this.2
    · cases e
      exact h
  | swap a b =>
    simp only [World.step] at e
    split at e
    · rename_i x y hx hy
      split at e
      · cases e
        exact h
      · unfold Buf.swapData at e
        split at e
        · rw [bind_ok] at e
          cases e
          exact two_tight h (h _ y hy) (h _ x hx)
        · cases e
    · cases e
      exact h
  | rehash s n =>
    simp only [World.step] at e
    split at e
    · cases e
      exact h
    · rename_i c hc
      unfold Buf.resize at e
      cases e1 : (if L.comb ∨ alignCapacity n ≠ 0 then c.buf.release L cfg.nullOk (c.buf.allocate L w.h (alignCapacity n)).1 else
          .ok (c.buf.allocate L w.h (alignCapacity n)).1 : M Heap) with
      | error _ =>
        simp only [e1] at e
        cases e
      | ok m =>
        simp only [e1] at e
        cases e
        exact put_tight h (allocate_tight L _ _ (alignCapacity_ne n))
  | resized s n =>
    simp only [World.step] at e
    split at e
    · cases e
      exact h
    · rename_i c hc
      cases e
      exact put_tight h (h _ c hc)
  | destroy s =>
    simp only [World.step] at e
    split at e
    · cases e
      exact h
    · rename_i c hc
      cases e1 : c.buf.deallocate L cfg.nullOk w.h with
      | error _ =>
        rw [e1] at e
        cases e
      | ok r =>
        rw [e1] at e
        cases e
        intro u d hd
        simp only [upd_apply] at hd
        split at hd
        · cases hd
        · exact h _ _ hd

/-- In such programs nothing is forgotten. -/
theorem World.Tight.forgets {cfg : ACfg} {w : World} (h : w.Tight) (o : Op) : w.forgets cfg o = false := by
  cases o with
  | copyAssign dst src =>
    simp only [World.forgets]
    split
    · rename_i c o hc ho
      by_cases hz : c.buf.cap = 0
      · rw [h _ _ hc hz]
        simp
      · simp [hz]
    · rfl
  | moveAssign dst src =>
    simp only [World.forgets]
    split
    · rename_i c o hc ho
      by_cases hz : c.buf.cap = 0
      · rw [h _ _ hc hz]
        simp
      · simp [hz]
    · rfl
  | _ => rfl

theorem World.wrongSize_split {cfg : ACfg} {L : Lay} (hL : L.comb = false) (w : World) (o : Op) : w.wrongSize cfg L o = false := by
  cases o with
  | copyAssign dst src =>
    simp only [World.wrongSize, hL]
    split <;> simp
  | moveAssign dst src =>
    simp only [World.wrongSize, hL]
    split <;> simp
  | _ => rfl

theorem init_balanced (L : Lay) : Balanced L World.init :=
  ⟨fun _ _ => rfl, fun h => (by cases h), fun h => (by cases h), fun h => (by cases h), fun h => (by cases h)⟩

theorem World.Reached.balanced {cfg : ACfg} {L : Lay} {w : World} (h : Reached cfg L w) : Balanced L w := by
  induction h with
  | init => exact init_balanced L
  | step _ hn e ih =>
    have := ih.step _ hn
    rw [e] at this
    exact this

end Tpp.Swiss.Mem
