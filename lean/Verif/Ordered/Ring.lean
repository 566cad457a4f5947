import Mathlib.Data.List.Perm.Basic
import Verif.Ordered.Link

/-!
# Rings of the nodes of an array

The elements of an ordered container are nodes of an array; the ring is the image of a list of node indices.  This file has what
the dense and the swiss containers share: moving nodes, walking along the ring, growing.
-/

set_option linter.unusedSectionVars false

namespace Tpp.Ordered

/-! ## Walking -/

/-- `for (i = begin(); i != end(); ++i)` (table_common.hpp 545-549, 560-564), reading every element. -/
def walk {E : Type} (m : Mem) (hd : Int) (rd : Int → M E) : Nat → Int → M (List E)
  | 0, _ => .error .diverge
  | fuel + 1, a =>
    if a = hd then .ok []
    else do
      let e ← rd a
      let n ← m.nextOf a
      let l ← walk m hd rd fuel n
      .ok (e :: l)

/-- `for (i = end(); i != begin();) --i` (table_common.hpp 556-560), reading every element. -/
def rwalk {E : Type} (m : Mem) (first : Int) (rd : Int → M E) : Nat → Int → M (List E)
  | 0, _ => .error .diverge
  | fuel + 1, a =>
    if a = first then .ok []
    else do
      let p ← m.prevOf a
      let e ← rd p
      let l ← rwalk m first rd fuel p
      .ok (e :: l)

/-- `std::next(begin(), n)`. -/
def advance (m : Mem) : Nat → Int → M Int
  | 0, a => .ok a
  | n + 1, a => do
    let b ← m.nextOf a
    advance m n b

theorem Ring.head_ne {m : Mem} {hd : Int} {l r : List Int} {a : Int} (h : Ring m hd (l ++ a :: r)) : a ≠ hd := by
  rintro rfl
  exact (List.nodup_cons.mp h.nodup).1 (by simp)

theorem walk_ok {E : Type} {m : Mem} {hd : Int} {rd : Int → M E} {val : Int → E} : ∀ {r l : List Int} {fuel : Nat},
    Ring m hd (l ++ r) → (∀ x ∈ r, rd x = .ok (val x)) → r.length < fuel →
    walk m hd rd fuel (r.headD hd) = .ok (r.map val)
  | [], l, fuel, _, _, hf => by
    cases fuel with
    | zero => exact absurd hf (Nat.not_lt_zero _)
    | succ fuel => simp [walk]
  | a :: r, l, fuel, h, hv, hf => by
    cases fuel with
    | zero => exact absurd hf (Nat.not_lt_zero _)
    | succ fuel =>
      have ha : a ∈ m.live := h.live a (by simp)
      have ih := walk_ok (r := r) (l := l ++ [a]) (fuel := fuel) (by rw [List.append_assoc]; exact h)
        (fun x hx => hv x (List.mem_cons_of_mem _ hx)) (by simp at hf; omega)
      rw [List.headD_cons]
      unfold walk
      rw [if_neg h.head_ne, hv a (by simp), bind_ok, Mem.nextOf_ok ha, bind_ok, h.around.1, ih, bind_ok]
      rfl

theorem rwalk_ok {E : Type} {m : Mem} {hd : Int} {rd : Int → M E} {val : Int → E} {as : List Int} (h : Ring m hd as)
    (hv : ∀ x ∈ as, rd x = .ok (val x)) : ∀ {l r : List Int} {fuel : Nat}, as = l.reverse ++ r → l.length < fuel →
    rwalk m (as.headD hd) rd fuel (r.headD hd) = .ok (l.map val)
  | [], r, fuel, e, hf => by
    cases fuel with
    | zero => exact absurd hf (Nat.not_lt_zero _)
    | succ fuel =>
      simp only [List.reverse_nil, List.nil_append] at e
      simp [rwalk, e]
  | b :: l, r, fuel, e, hf => by
    cases fuel with
    | zero => exact absurd hf (Nat.not_lt_zero _)
    | succ fuel =>
      have e' : as = l.reverse ++ b :: r := by rw [e]; simp
      have ih := rwalk_ok h hv (l := l) (r := b :: r) (fuel := fuel) e' (by simp at hf; omega)
      have hne : r.headD hd ≠ as.headD hd := by
        have hn := h.nodup
        rw [e'] at hn ⊢
        have hb : ∀ x, x ∈ l.reverse ++ [b] → r.headD hd ≠ x := by
          intro x hx q
          rw [show l.reverse ++ b :: r = (l.reverse ++ [b]) ++ r by simp] at hn
          obtain ⟨n1, n2⟩ := List.nodup_cons.mp hn
          have := headD_mem r hd
          rw [q] at this
          rcases List.mem_cons.mp this with g | g
          · exact n1 (by rw [← g]; exact List.mem_append_left _ hx)
          · exact (List.nodup_append.mp n2).2.2 x hx x g rfl
        cases hl : l.reverse with
        | nil => exact hb _ (by simp [hl])
        | cons c l' => exact hb _ (by simp [hl])
      have hr : Ring m hd ((l.reverse ++ [b]) ++ r) := by rw [List.append_assoc]; exact e' ▸ h
      have hpl := hr.place.2
      have hlive := hr.live _ (Ring.right_mem _ r)
      simp only [rwalk]
      rw [if_neg hne, Mem.prevOf_ok hlive, bind_ok, hpl]
      have e2 : (l.reverse ++ [b]).getLastD hd = b := by simp
      rw [e2, hv b (by rw [e']; simp), bind_ok]
      simp only [List.headD_cons] at ih
      rw [ih, bind_ok]
      rfl

theorem advance_ok {m : Mem} {hd : Int} : ∀ {n : Nat} {l r : List Int}, Ring m hd (l ++ r) → n ≤ r.length →
    advance m n (r.headD hd) = .ok ((r.drop n).headD hd)
  | 0, _, _, _, _ => rfl
  | n + 1, l, [], _, hn => absurd hn (by simp)
  | n + 1, l, a :: r, h, hn => by
    have ha : a ∈ m.live := h.live a (by simp)
    have ih := advance_ok (n := n) (l := l ++ [a]) (r := r) (by rw [List.append_assoc]; exact h) (by simp at hn; omega)
    simp only [advance, List.headD_cons, List.drop_succ_cons]
    rw [Mem.nextOf_ok ha, bind_ok, h.around.1, ih]

/-! ## Rings given by node indices -/

theorem map_upd_of_notMem {α : Type} {f : Nat → α} {i : Nat} {b : α} {o : List Nat} (h : i ∉ o) : o.map (upd f i b) = o.map f := by
  refine List.map_congr_left ?_
  intro x hx
  unfold upd
  rw [if_neg (by rintro rfl; exact h hx)]

/-- Moving node `i` to the address `b`. -/
theorem Ring.relinkAt {m : Mem} {hd : Int} {o : List Nat} {f : Nat → Int} (h : Ring m hd (o.map f)) {i : Nat} {b : Int} (hi : i ∈ o)
    (hb : b ∈ m.live) (hf : b ∉ hd :: o.map f) :
    ∃ m', m.relinkFrom b (f i) = .ok m' ∧ Ring m' hd (o.map (upd f i b)) ∧
      Mem.Same m m' (fun x => x ≠ b ∧ x ∉ hd :: o.map f) := by
  obtain ⟨l, r, rfl⟩ := List.append_of_mem hi
  have hn : (l ++ i :: r).Nodup := List.Nodup.of_map f (List.nodup_cons.mp h.nodup).2
  have hn' := (List.perm_middle (a := i) (l₁ := l) (l₂ := r)).nodup_iff.mp hn
  rw [List.nodup_cons, List.mem_append, not_or] at hn'
  rw [List.map_append, List.map_cons] at h hf
  obtain ⟨m', e, h', hs⟩ := h.relink hb hf
  refine ⟨m', e, ?_, ?_⟩
  · rw [List.map_append, List.map_cons, map_upd_of_notMem hn'.1.1, map_upd_of_notMem hn'.1.2]
    have : upd f i b i = b := by simp [upd]
    rw [this]
    exact h'
  · rw [List.map_append, List.map_cons]
    exact hs

/-- Unlinking node `i`. -/
theorem Ring.unlinkAt {m : Mem} {hd : Int} {o : List Nat} {f : Nat → Int} (h : Ring m hd (o.map f)) {i : Nat} (hi : i ∈ o) :
    ∃ m', m.unlink (f i) = .ok m' ∧ Ring m' hd ((o.erase i).map f) ∧
      Mem.Same m m' (fun x => x = f i ∨ x ∉ hd :: (o.erase i).map f) := by
  have hn : o.Nodup := List.Nodup.of_map f (List.nodup_cons.mp h.nodup).2
  obtain ⟨l, r, rfl⟩ := List.append_of_mem hi
  have hn' := (List.perm_middle (a := i) (l₁ := l) (l₂ := r)).nodup_iff.mp hn
  rw [List.nodup_cons, List.mem_append, not_or] at hn'
  rw [List.map_append, List.map_cons] at h
  have he : (l ++ i :: r).erase i = l ++ r := by
    rw [List.erase_append_right _ hn'.1.1, List.erase_cons_head]
  rw [he, List.map_append]
  exact h.unlink

/-- Linking node `i` at the end. -/
theorem Ring.appendAt {m : Mem} {hd : Int} {o : List Nat} {f : Nat → Int} (h : Ring m hd (o.map f)) {i : Nat}
    (hb : f i ∈ m.live) (hf : f i ∉ hd :: o.map f) :
    ∃ m', (do
        let p ← m.prevOf hd
        m.linkAfter (f i) p) = .ok m' ∧ Ring m' hd ((o ++ [i]).map f) ∧
      Mem.Same m m' (fun x => x ≠ f i ∧ x ∉ hd :: o.map f) := by
  have hhd : hd ∈ m.live := h.live hd (by simp)
  have hr : Ring m hd (o.map f ++ []) := by rw [List.append_nil]; exact h
  have hp := hr.place.2
  rw [List.headD_nil] at hp
  rw [Mem.prevOf_ok hhd, bind_ok, hp]
  obtain ⟨m', e, h', hs⟩ := hr.insert hb (by rw [List.append_nil]; exact hf)
  refine ⟨m', e, ?_, ?_⟩
  · rw [List.map_append, List.map_singleton]
    exact h'
  · rw [List.append_nil] at hs
    exact hs

theorem mem_slots {sz a x : Int} {n : Nat} : x ∈ slots sz a n ↔ ∃ i, i < n ∧ x = a + sz * (i : Int) := by
  unfold slots
  simp only [List.mem_map, List.mem_range]
  exact ⟨fun ⟨i, h, e⟩ => ⟨i, h, e.symm⟩, fun ⟨i, h, e⟩ => ⟨i, h, e.symm⟩⟩

theorem slot_inj {sz a : Int} (hs : 0 < sz) {i j : Nat} (h : a + sz * (i : Int) = a + sz * (j : Int)) : i = j := by
  have h1 : sz * (i : Int) = sz * (j : Int) := by omega
  have h2 := Int.eq_of_mul_eq_mul_left (by omega) h1
  omega

/-- Moving the nodes `0, …, n - 1` from one array to another (utility.hpp 226-230). -/
def moveLinks (sz : Int) (old new : Int) (m : Mem) (n : Nat) : M Mem :=
  (List.range n).foldlM (fun (m : Mem) (i : Nat) => m.relinkFrom (new + sz * (i : Int)) (old + sz * (i : Int))) m

/-- Moving the listed nodes to the given addresses. -/
theorem relinkAll_ok {hd : Int} {o : List Nat} {f g : Nat → Int} : ∀ {js : List Nat} {m : Mem} {p : Nat → Int},
    Ring m hd (o.map p) → js.Nodup → (∀ i ∈ js, i ∈ o) → (∀ i ∈ js, p i = f i) → (∀ i ∈ js, g i ∈ m.live) →
    (∀ i ∈ js, g i ∉ hd :: o.map p) → (∀ i ∈ js, ∀ j ∈ js, g i = g j → i = j) →
    ∃ m', js.foldlM (fun (m : Mem) (i : Nat) => m.relinkFrom (g i) (f i)) m = .ok m' ∧
      Ring m' hd (o.map (fun i => if i ∈ js then g i else p i)) ∧
      Mem.Same m m' (fun x => x ∉ js.map g ∧ x ∉ hd :: o.map p)
  | [], m, p, h, _, _, _, _, _, _ => by
    refine ⟨m, rfl, ?_, Mem.Same.refl _ _⟩
    simpa using h
  | j :: js, m, p, h, hn, ho, hp, hl, hf, hi => by
    rw [List.nodup_cons] at hn
    obtain ⟨m1, e1, h1, s1⟩ := h.relinkAt (ho j (by simp)) (hl j (by simp)) (hf j (by simp))
    obtain ⟨m2, e2, h2, s2⟩ := relinkAll_ok (f := f) (g := g) (js := js) h1 hn.2 (fun i hi => ho i (List.mem_cons_of_mem _ hi))
      (fun i hi' => by
        unfold upd
        rw [if_neg (by rintro rfl; exact hn.1 hi')]
        exact hp i (List.mem_cons_of_mem _ hi'))
      (fun i hi => by rw [s1.live]; exact hl i (List.mem_cons_of_mem _ hi))
      (fun i hi' => by
        have hij : i ≠ j := by rintro rfl; exact hn.1 hi'
        have hfi := hf i (List.mem_cons_of_mem _ hi')
        intro q
        rcases List.mem_cons.mp q with q | q
        · exact hfi (by simp [q])
        · rw [List.mem_map] at q
          obtain ⟨a, ha, q⟩ := q
          unfold upd at q
          by_cases c : a = j
          · rw [if_pos c] at q
            exact hij (hi j (by simp) i (List.mem_cons_of_mem _ hi') q).symm
          · rw [if_neg c] at q
            exact hfi (List.mem_cons_of_mem _ (List.mem_map.mpr ⟨a, ha, q⟩)))
      (fun a ha b hb => hi a (List.mem_cons_of_mem _ ha) b (List.mem_cons_of_mem _ hb))
    refine ⟨m2, ?_, ?_, ?_⟩
    · rw [List.foldlM_cons]
      have : p j = f j := hp j (by simp)
      rw [← this, e1, bind_ok, e2]
    · have : (fun i => if i ∈ js then g i else upd p j (g j) i) = (fun i => if i ∈ j :: js then g i else p i) := by
        funext i
        unfold upd
        by_cases c : i = j
        · subst c; simp
        · simp [c]
      rw [this] at h2
      exact h2
    · refine (s1.mono ?_).trans (s2.mono ?_)
      · intro x hx
        rw [List.map_cons, List.mem_cons, not_or] at hx
        exact ⟨hx.1.1, hx.2⟩
      · intro x hx
        rw [List.map_cons, List.mem_cons, not_or] at hx
        refine ⟨hx.1.2, ?_⟩
        intro q
        rcases List.mem_cons.mp q with q | q
        · exact hx.2 (by simp [q])
        · rw [List.mem_map] at q
          obtain ⟨a, ha, q⟩ := q
          unfold upd at q
          by_cases c : a = j
          · rw [if_pos c] at q
            exact hx.1.1 q.symm
          · rw [if_neg c] at q
            exact hx.2 (List.mem_cons_of_mem _ (List.mem_map.mpr ⟨a, ha, q⟩))

/-! ## Storage -/

/-- What an operation on the storage `F`, which becomes the storage `F'`, does to the rest of the memory: nothing. -/
structure Frame (m m' : Mem) (F F' : List Int) : Prop where
  keep : ∀ x ∈ m.live, x ∉ F → x ∈ m'.live ∧ m'.link x = m.link x
  fresh : ∀ x ∈ F', x ∈ F ∨ x ∉ m.live

theorem Frame.refl (m : Mem) (F : List Int) : Frame m m F F := ⟨fun _ h _ => ⟨h, rfl⟩, fun _ h => Or.inl h⟩

theorem Frame.trans {m m' m'' : Mem} {F F' F'' : List Int} (h : Frame m m' F F') (h' : Frame m' m'' F' F'') : Frame m m'' F F'' := by
  constructor
  · intro x hx hn
    obtain ⟨h1, h2⟩ := h.keep x hx hn
    obtain ⟨h3, h4⟩ := h'.keep x h1 (fun q => by
      rcases h.fresh x q with q | q
      · exact hn q
      · exact q hx)
    exact ⟨h3, h4.trans h2⟩
  · intro x hx
    rcases h'.fresh x hx with q | q
    · exact h.fresh x q
    · by_cases c : x ∈ F
      · exact Or.inl c
      · right
        intro hl
        exact q (h.keep x hl c).1

theorem Mem.Same.frame {m m' : Mem} {P : Int → Prop} {F : List Int} (h : Mem.Same m m' P) (hp : ∀ x, x ∉ F → P x) : Frame m m' F F :=
  ⟨fun x hx hn => ⟨by rw [h.live]; exact hx, h.link x (hp x hn)⟩, fun _ hx => Or.inl hx⟩

/-- A ring outside the touched storage stays, and stays outside. -/
theorem Frame.ring {m m' : Mem} {F F' : List Int} (h : Frame m m' F F') {hd : Int} {as : List Int} (hr : Ring m hd as)
    (hd' : ∀ x ∈ hd :: as, x ∉ F) : Ring m' hd as :=
  hr.frame (fun a ha => (h.keep a (hr.live a ha) (hd' a ha)).1) (fun a ha => (h.keep a (hr.live a ha) (hd' a ha)).2)

theorem free_ok {sz : Int} {m : Mem} {a : Int} {n : Nat} (h : ∀ x ∈ slots sz a n, x ∈ m.live) :
    m.free sz a n = .ok { m with live := m.live.filter fun x => x ∉ slots sz a n } := by
  unfold Mem.free
  rw [if_pos h]

/-- Moving all nodes of a ring to a new array of `c` nodes and freeing the old array. -/
theorem grow_ok {sz : Int} {A : Alloc} (hA : A.Sound sz) {m : Mem} {hd base : Int} {o js : List Nat} {f : Nat → Int} {d : Nat → Nat}
    {c cap : Nat} (hsz : 0 < sz) (h : Ring m hd (o.map f)) (hf : ∀ i ∈ o, f i ∈ slots sz base cap)
    (hlive : ∀ x ∈ slots sz base cap, x ∈ m.live) (hhd : hd ∉ slots sz base cap) (hn : js.Nodup) (hjs : ∀ i, i ∈ js ↔ i ∈ o)
    (hd' : ∀ i ∈ o, d i < c) (hinj : ∀ i ∈ o, ∀ j ∈ o, d i = d j → i = j) :
    ∃ m1 m', js.foldlM (fun mm i => mm.relinkFrom ((m.alloc sz A c).2 + sz * (d i : Int)) (f i)) (m.alloc sz A c).1 = .ok m1 ∧
      m1.free sz base cap = .ok m' ∧ Ring m' hd (o.map (fun i => (m.alloc sz A c).2 + sz * (d i : Int))) ∧
      (∀ x ∈ slots sz (m.alloc sz A c).2 c, x ∈ m'.live) ∧ hd ∉ slots sz (m.alloc sz A c).2 c ∧
      Frame m m' (hd :: slots sz base cap) (hd :: slots sz (m.alloc sz A c).2 c) := by
  have hnew := hA m.clock m.live c
  have hal : (m.alloc sz A c).2 = A m.clock m.live c := rfl
  have hlv : (m.alloc sz A c).1.live = slots sz (A m.clock m.live c) c ++ m.live := rfl
  have hlk : (m.alloc sz A c).1.link = m.link := rfl
  rw [hal]
  generalize A m.clock m.live c = a at *
  generalize (m.alloc sz A c).1 = m0 at *
  have hhl : hd ∈ m.live := h.live hd (by simp)
  have hdn : hd ∉ slots sz a c := fun q => hnew _ q hhl
  have h0 : Ring m0 hd (o.map f) := h.frame (fun x hx => by rw [hlv]; exact List.mem_append_right _ (h.live x hx))
    (fun x _ => by rw [hlk])
  have hmem : ∀ i ∈ o, a + sz * (d i : Int) ∈ slots sz a c := fun i hi => mem_slots.mpr ⟨d i, hd' i hi, rfl⟩
  obtain ⟨m1, e1, h1, s1⟩ := relinkAll_ok (f := f) (g := fun i => a + sz * (d i : Int)) (js := js) h0 hn (fun i hi => (hjs i).mp hi)
    (fun _ _ => rfl) (fun i hi => by rw [hlv]; exact List.mem_append_left _ (hmem i ((hjs i).mp hi)))
    (fun i hi q => hnew _ (hmem i ((hjs i).mp hi)) (h.live _ q))
    (fun i hi j hj e => hinj i ((hjs i).mp hi) j ((hjs j).mp hj) (slot_inj hsz e))
  have hfun : o.map (fun i => if i ∈ js then a + sz * (d i : Int) else f i) = o.map (fun i => a + sz * (d i : Int)) := by
    refine List.map_congr_left ?_
    intro i hi
    rw [if_pos ((hjs i).mpr hi)]
  rw [hfun] at h1
  have hfree : ∀ x ∈ slots sz base cap, x ∈ m1.live := fun x hx => by
    rw [s1.live, hlv]; exact List.mem_append_right _ (hlive x hx)
  have hkeep : ∀ x, x ∈ m1.live → x ∉ slots sz base cap → x ∈ m1.live.filter fun x => x ∉ slots sz base cap := by
    intro x hx hn
    rw [List.mem_filter]
    exact ⟨hx, by simpa using hn⟩
  have hdisj : ∀ x ∈ slots sz a c, x ∉ slots sz base cap := fun x hx q => hnew x hx (hlive x q)
  refine ⟨m1, _, e1, free_ok hfree, ?_, ?_, hdn, ?_, ?_⟩
  · refine h1.frame ?_ (fun _ _ => rfl)
    intro x hx
    refine hkeep x (h1.live x hx) ?_
    rcases List.mem_cons.mp hx with q | q
    · rw [q]; exact hhd
    · rw [List.mem_map] at q
      obtain ⟨i, hi, q⟩ := q
      rw [← q]
      exact hdisj _ (hmem i hi)
  · intro x hx
    exact hkeep x (by rw [s1.live, hlv]; exact List.mem_append_left _ hx) (hdisj x hx)
  · intro x hx hx'
    rw [List.mem_cons, not_or] at hx'
    refine ⟨hkeep x (by rw [s1.live, hlv]; exact List.mem_append_right _ hx) hx'.2, ?_⟩
    change m1.link x = m.link x
    rw [s1.link x, hlk]
    refine ⟨?_, ?_⟩
    · intro q
      rw [List.mem_map] at q
      obtain ⟨i, hi, q⟩ := q
      exact hnew _ (hmem i ((hjs i).mp hi)) (by rw [q]; exact hx)
    · intro q
      rcases List.mem_cons.mp q with q | q
      · exact hx'.1 q
      · rw [List.mem_map] at q
        obtain ⟨i, hi, q⟩ := q
        exact hx'.2 (q ▸ hf i hi)
  · intro x hx
    rcases List.mem_cons.mp hx with q | q
    · left; simp [q]
    · right; exact hnew x q

theorem slots_zero (sz a : Int) : slots sz a 0 = [] := rfl

theorem slots_one (sz a : Int) : slots sz a 1 = [a] := by
  simp [slots, List.range_succ]

/-- An allocation does not touch the live storage. -/
theorem alloc_frame {sz : Int} {A : Alloc} (hA : A.Sound sz) (m : Mem) (n : Nat) : Frame m (m.alloc sz A n).1 [] (slots sz (m.alloc sz A n).2 n) :=
  ⟨fun _ hx _ => ⟨List.mem_append_right _ hx, rfl⟩, fun _ hx => Or.inr (hA _ _ _ _ hx)⟩

theorem free_frame {sz : Int} {m : Mem} {a : Int} {n : Nat} : Frame m { m with live := m.live.filter fun x => x ∉ slots sz a n } (slots sz a n) [] :=
  ⟨fun x hx hn => ⟨List.mem_filter.mpr ⟨hx, by simpa using hn⟩, rfl⟩, fun _ hx => (by cases hx)⟩

/-- More storage may be declared touched, if it belongs to the operation before and after. -/
theorem Frame.add {m m' : Mem} {F F' : List Int} (h : Frame m m' F F') (G : List Int) : Frame m m' (G ++ F) (G ++ F') := by
  constructor
  · intro x hx hn
    rw [List.mem_append, not_or] at hn
    exact h.keep x hx hn.2
  · intro x hx
    rcases List.mem_append.mp hx with q | q
    · exact Or.inl (List.mem_append_left _ q)
    · exact (h.fresh x q).imp_left (List.mem_append_right _)

theorem Frame.congr {m m' : Mem} {F F' G G' : List Int} (h : Frame m m' F F') (h1 : ∀ x, x ∈ F → x ∈ G) (h2 : ∀ x, x ∈ G' → x ∈ F' ∨ x ∈ G) :
    Frame m m' G G' := by
  constructor
  · intro x hx hn
    exact h.keep x hx (fun q => hn (h1 x q))
  · intro x hx
    rcases h2 x hx with q | q
    · exact (h.fresh x q).imp_left (h1 x)
    · exact Or.inl q

end Tpp.Ordered
