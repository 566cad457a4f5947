import Verif.Ordered.HintWords
import Verif.Props.OrderedDense

/-!
# C61: hints of ordered dense containers and the growth of the array, in machine words
-/

set_option linter.unusedSectionVars false

namespace Tpp.ODense

open Tpp.Dense (Elem LF Table)
open Tpp.Ordered

variable {k : Nat} {K V : Type} [DecidableEq K]

/-- Where an insertion with a hint puts the array of nodes (the old address if it does not grow). -/
def OTable.newBase (sz : Int) (A : Alloc) (m : Mem) (t : OTable k K V) : Int :=
  if t.core.cap = t.core.size then (m.alloc sz A (if t.core.cap = 0 then 1 else t.core.cap * 2)).2 else t.base

theorem maybeGrow_base {sz : Int} {A : Alloc} {m m' : Mem} {t : OTable k K V} {b : Int} (h : t.maybeGrow sz A m = .ok (m', b)) :
    b = t.newBase sz A m := by
  unfold OTable.maybeGrow at h
  unfold OTable.newBase
  by_cases e : t.core.cap = t.core.size
  · rw [if_pos e] at h
    rw [if_pos e]
    unfold OTable.growLinks at h
    obtain ⟨_, _, h⟩ := Dense.bind_eq_ok h
    obtain ⟨_, _, h⟩ := Dense.bind_eq_ok h
    cases h
    rfl
  · rw [if_neg e] at h
    rw [if_neg e]
    cases h
    rfl

/-- If the hint is moved correctly, the insertion is the one of the model. -/
theorem insertW_eq {sub : Int → Int → Int} {hash : K → Nat} {sz : Int} {A : Alloc} {m : Mem} {t : OTable k K V} {key : Fin k → K} {v : V}
    {a : Int} (hm : t.hintAfter sub sz (t.newBase sz A m) a = a + (t.newBase sz A m - t.base)) :
    t.insertW sub hash sz A m key v (some a) = t.insert hash sz A m key v (some a) := by
  unfold OTable.insertW OTable.insert OTable.insertWithW OTable.insertWith
  cases e : t.maybeGrow sz A m with
  | error f => rfl
  | ok g =>
    have hb := maybeGrow_base (b := g.2) (m' := g.1) e
    simp only [bind_ok, Option.map_some, hb, hm]

/-- With the arithmetic as it is written: the new element is put behind the element the hint designates, also if the array grows, provided
that the arrays are a multiple of 16 bytes apart and the compiler computes the difference of the pointers by exact division.
Not proved, since it is false (`C61_dense_hint_words_false`): the same for all allocators whose storage is aligned for nodes (8 bytes). -/
theorem C61_dense_hint_words_partial {hash : K → Nat} {sz : Int} (hsz : 0 < sz) {A : Alloc} (hA : A.Sound sz) {w : World k K V}
    {s : Seqs k K V} (h : Reached hash sz A w s) {i : Nat} {t : OTable k K V} (ht : w.tab i = some t) {q : List (Elem k K V)}
    (hq : s i = some q) {key : Fin k → K} (v : V) (hnew : ∀ e ∈ q, ∀ j, e.1 j ≠ key j) {n : Nat} (hn : n < q.length)
    {sub : Int → Int → Int} (hsub : 2 ^ 64 ∣ sub (t.newBase sz A w.mem) t.base * sz - (t.newBase sz A w.mem - t.base))
    (h16 : 16 ∣ t.newBase sz A w.mem - t.base) (hlo : 0 ≤ t.newBase sz A w.mem)
    (hhi : t.newBase sz A w.mem + sz * t.core.size ≤ 2 ^ 64) :
    ∃ a m' t' r, t.nth w.mem n = .ok a ∧ t.insertW sub hash sz A w.mem key v (some a) = .ok (m', t', r, true) ∧
      t'.elemAt sz r = .ok (key, v) ∧ t'.elements sz m' = .ok (q.take (n + 1) ++ (key, v) :: q.drop (n + 1)) := by
  obtain ⟨a, m', t', r, e1, e2, e3, e4⟩ := C61_dense_behind_hint_partial hsz hA h ht hq v hnew hn
  refine ⟨a, m', t', r, e1, ?_, e3, e4⟩
  rw [insertW_eq, e2]
  obtain ⟨l, o, hr, rfl⟩ := h.holds hsz hA ht hq
  have hlen : (seq l o).length = l.length := by rw [seq_length hr.perm, hr.length]
  obtain ⟨o1, p, o2, rfl, hl1, hp, hs1, hel, hs2⟩ := split_at hr (n := n) (by omega)
  have h1 := nth_split hr
  rw [hl1, e1] at h1
  cases h1
  unfold OTable.hintAfter
  by_cases e : t.core.cap = t.core.size
  · rw [if_pos e, (hintMoved_iff hsub).mpr h16]
    have hsize := hr.core.size
    unfold OTable.addr
    have hple : sz * (p : Int) + sz ≤ sz * (t.core.size : Int) := by
      have : sz * ((p : Int) + 1) ≤ sz * (t.core.size : Int) := Int.mul_le_mul_of_nonneg_left (by omega) (by omega)
      rw [Int.mul_add] at this
      omega
    have hp0 : 0 ≤ sz * (p : Int) := Int.mul_nonneg (by omega) (by omega)
    simp only [List.map_cons, List.headD_cons]
    rw [Int.emod_eq_of_lt] <;> omega
  · rw [if_neg e]
    unfold OTable.newBase
    rw [if_neg e]
    omega

/-- The condition is needed: if the arrays are not a multiple of 16 bytes apart, the moved hint is the address of no node of the new array
(for nodes of at least 16 bytes, which have a link). -/
theorem C61_dense_hint_words_needed {sz : Int} (hsz : 16 ≤ sz) (t : OTable k K V) {b : Int} {sub : Int → Int → Int} (hfull : t.core.cap = t.core.size)
    (hsub : 2 ^ 64 ∣ sub b t.base * sz - (b - t.base)) (h16 : ¬ 16 ∣ b - t.base) (hlo : 16 ≤ b) {c : Nat} (hhi : b + sz * c ≤ 2 ^ 64)
    {p : Nat} (hp : p < c) : t.hintAfter sub sz b (t.addr sz p) ∉ slots sz b c := by
  unfold OTable.hintAfter
  rw [if_pos hfull, hintMoved_exact hsub]
  unfold OTable.addr
  have hple : sz * (p : Int) + sz ≤ sz * (c : Int) := by
    have : sz * ((p : Int) + 1) ≤ sz * (c : Int) := Int.mul_le_mul_of_nonneg_left (by omega) (by omega)
    rw [Int.mul_add] at this
    omega
  have hp0 : 0 ≤ sz * (p : Int) := Int.mul_nonneg (by omega) (by omega)
  rw [Int.emod_eq_of_lt (by omega) (by omega)]
  intro hmem
  unfold slots at hmem
  obtain ⟨j, _, hj⟩ := List.mem_map.mp hmem
  have hj' : sz * (j : Int) = sz * (p : Int) - (b - t.base) % 16 := by omega
  have hr : 0 < (b - t.base) % 16 ∧ (b - t.base) % 16 < 16 := by omega
  rcases Nat.lt_or_ge j p with hlt | hge
  · have : sz * ((j : Int) + 1) ≤ sz * (p : Int) := Int.mul_le_mul_of_nonneg_left (by omega) (by omega)
    rw [Int.mul_add] at this
    omega
  · have : sz * (p : Int) ≤ sz * (j : Int) := Int.mul_le_mul_of_nonneg_left (by omega) (by omega)
    omega

/-- An allocator whose storage is aligned to 8 bytes. -/
def bump8 : Alloc := fun c live _ => ((live.foldl max 0 + 40) / 16 + 1) * 16 + 8 * (c % 2 : Nat)

/-- An allocator whose storage is aligned to 16 bytes. -/
def bump16 : Alloc := fun _ live _ => ((live.foldl max 0 + 40) / 16 + 1) * 16

theorem bump8_sound : bump8.Sound 40 := by
  intro c live n x hx hl
  have := (le_foldl_max live 0).2 x hl
  unfold slots bump8 at hx
  obtain ⟨j, _, hj⟩ := List.mem_map.mp hx
  have h1 : (0 : Int) ≤ 40 * (j : Int) := by omega
  have h2 : (0 : Int) ≤ 8 * ((c % 2 : Nat) : Int) := by omega
  omega

theorem bump16_sound : bump16.Sound 40 := by
  intro c live n x hx hl
  have := (le_foldl_max live 0).2 x hl
  unfold slots bump16 at hx
  obtain ⟨j, _, hj⟩ := List.mem_map.mp hx
  omega

/-- The difference of pointers to nodes of 40 bytes as compilers compute it: the difference of the addresses divided by 8, times the inverse
of 5 modulo 2^64. -/
def subInv (a b : Int) : Int := (a - b) / 8 * 14757395258967641293

example : (subInv 4000 400 - 90) % 2 ^ 64 = 0 := by decide +kernel

/-- It is exact for all distances that are a multiple of 8 bytes. -/
theorem subInv_exact {a b : Int} (h : 8 ∣ a - b) : 2 ^ 64 ∣ subInv a b * 40 - (a - b) := by
  unfold subInv
  omega

/-- The world after a history that does not fault, for nodes of 40 bytes. -/
def after40 (A : Alloc) (os : List (WOp 1 Nat Nat)) : World 1 Nat Nat :=
  match World.run h3 40 A ⟨mem0, fun _ => none⟩ os with
  | .ok r => r.1
  | .error _ => ⟨mem0, fun _ => none⟩

theorem after40_reached {A : Alloc} (hA : A.Sound 40) {os : List (WOp 1 Nat Nat)} (hg : WSpec.Guarded (fun _ => none) os = true) :
    Reached h3 40 A (after40 A os) (WSpec.run (fun _ => none) os).1 := by
  obtain ⟨w', e, _⟩ := wrun_ok (by decide) hA os (winit (hash := h3) (sz := 40) mem0) hg
  refine ⟨mem0, os, (WSpec.run (fun _ => none) os).2, hg, ?_, rfl⟩
  unfold after40
  rw [e]

/-- Insertion of the key 9 with the first element as hint into a full container of four elements. -/
def hinted (sub : Int → Int → Int) (A : Alloc) : M (List (Elem 1 Nat Nat)) := do
  let w := after40 A (fill 0 4)
  let a ← (w.get 0).nth w.mem 0
  let r ← (w.get 0).insertW sub h3 40 A w.mem (fun _ => 9) 90 (some a)
  r.2.1.elements 40 r.1

-- with storage aligned to 16 bytes and exact division the hint is right
example : hinted subInv bump16 = .ok [el 1 10, el 9 90, el 2 20, el 3 30, el 4 40] := rfl

/-- C61 is false in machine words: with storage that is aligned to 8 bytes (which is enough for the nodes) the hint leads outside of the
nodes; with a division that rounds it does so with storage aligned to 16 bytes. -/
theorem C61_dense_hint_words_false :
    hinted subInv bump8 = .error .dangling ∧ hinted (subTrunc 40) bump16 = .error .dangling ∧
    bump8.Sound 40 ∧ (∀ c live n, 8 ∣ bump8 c live n) ∧ bump16.Sound 40 ∧ (∀ c live n, 16 ∣ bump16 c live n) ∧
    Reached h3 40 bump8 (after40 bump8 (fill 0 4)) (WSpec.run (fun _ => none) (fill 0 4)).1 ∧
    Reached h3 40 bump16 (after40 bump16 (fill 0 4)) (WSpec.run (fun _ => none) (fill 0 4)).1 :=
  ⟨rfl, rfl, bump8_sound, fun _ _ _ => by unfold bump8; omega, bump16_sound, fun _ _ _ => by unfold bump16; omega,
    after40_reached bump8_sound rfl, after40_reached bump16_sound rfl⟩

end Tpp.ODense
