import Verif.Swiss.Hist
import Verif.Props.Bits

/-!
# The swiss table with 64-bit arithmetic

`Verif.Swiss.Model` computes with unbounded numbers and reports a fault where an element counter would drop below 0.  Here
the functions of the table are written once more as the compiled code computes them: every `size_type` is a number below 2^64,
sums, differences and products are taken modulo 2^64, and nothing is checked.  The two are proved to agree for tables of fewer than 2^59
buckets.  Positions inside a block (`pos + i` for the `i`-th byte) and iterators are pointers, not `size_type`s, and remain as they are.
-/

set_option linter.unusedSectionVars false

namespace Tpp.Swiss

open Bits (alignWith clz)

variable {K V : Type} [DecidableEq K]

/-- `a + b` on `std::uint64_t`. -/
def wadd (a b : Nat) : Nat := (a + b) % 2 ^ 64

/-- `a - b` on `std::uint64_t`. -/
def wsub (a b : Nat) : Nat := (a + (2 ^ 64 - b % 2 ^ 64)) % 2 ^ 64

/-- `a * b` on `std::uint64_t`. -/
def wmul (a b : Nat) : Nat := a * b % 2 ^ 64

/-- `decompose_hash(h).first` (swiss_table.hpp 808-811). -/
def hashHiW (h : Nat) : Nat := h >>> 7

/-- `decompose_hash(h).second` (swiss_table.hpp 808-811): the conversion to `std::int8_t` keeps the low eight bits. -/
def hashLoW (h : Nat) : Nat := h % 256 &&& 127

/-- `capacity_to_max_size` (swiss_table.hpp 814-820). -/
def maxSizeW (isa : Isa) (n : Nat) : Nat := if isa.W = 8 ∧ n = 7 then 6 else wsub n (n / 8)

/-- `align_capacity(size_to_min_capacity(n) | m)` (swiss_table.hpp 822-833, 930, 1129) with the compiler's `clz`. -/
def alignMinW (isa : Isa) (m n : Nat) : M Nat := do
  let r ← alignWith clz (BitVec.ofNat 64 m ||| minCapacity64 isa (BitVec.ofNat 64 n))
  .ok r.toNat

/-- `block_idx` (swiss_table.hpp 1420). -/
def blockIdxW (isa : Isa) (cap start pos : Nat) : Nat := (wsub pos (start &&& cap) &&& cap) / isa.W

/-- `++probe` (swiss_table.hpp 780-786) on (index, position). -/
def probeNextW (isa : Isa) (cap : Nat) (p : Nat × Nat) : Nat × Nat := (wadd p.1 isa.W, wadd p.2 (wadd p.1 isa.W) &&& cap)

namespace Table

/-- `set_metadata` (swiss_table.hpp 1248-1254). -/
def setMetadataW (isa : Isa) (t : Table K V) (pos : Nat) (v : Ctl) : M (Table K V) := do
  let tail := isa.W - 1
  let t ← t.writeCtl (wadd (wsub pos tail &&& t.cap) (tail &&& t.cap)) v
  t.writeCtl pos v

/-- The inner loop of `find_node` (swiss_table.hpp 1221-1226, `off` 789). -/
def scanW (t : Table K V) (k : K) (pos : Nat) : List Nat → M (Option Nat)
  | [] => .ok none
  | i :: is => do
    let off := wadd pos i &&& t.cap
    let n ← t.readNode off
    if n.key = k then .ok (some off) else scanW t k pos is

/-- The probe loop of `find_node` (swiss_table.hpp 1217-1231, `operator++` 780-786). -/
def findLoopW (isa : Isa) (t : Table K V) (k : K) (tag : Nat) : (fuel pos idx : Nat) → M Nat
  | 0, _, _ => .error .diverge
  | fuel + 1, pos, idx => do
    t.loadBlock isa pos
    match ← t.scanW k pos (t.matchEq isa pos tag) with
    | some off => .ok off
    | none =>
      if t.matches_ isa pos (·.isEmpty) ≠ [] then .ok t.cap
      else if idx < t.cap then
        findLoopW isa t k tag fuel (probeNextW isa t.cap (idx, pos)).2 (probeNextW isa t.cap (idx, pos)).1
      else .error .assertFail

/-- `find_node` (swiss_table.hpp 1209-1234). -/
def findNodeW (isa : Isa) (t : Table K V) (k : K) (h : Nat) : M Nat :=
  if t.size ≠ 0 then t.findLoopW isa k (hashLoW h) (t.cap + 1) (hashHiW h &&& t.cap) 0
  else .ok t.cap

/-- The loop of `find_available` (swiss_table.hpp 1239-1245). -/
def availLoopW (isa : Isa) (t : Table K V) : (fuel pos idx : Nat) → M Nat
  | 0, _, _ => .error .diverge
  | fuel + 1, pos, idx => do
    t.loadBlock isa pos
    match t.matches_ isa pos (·.isAvailable) with
    | i :: _ => .ok (wadd pos i &&& t.cap)
    | [] =>
      if idx < t.cap then
        availLoopW isa t fuel (probeNextW isa t.cap (idx, pos)).2 (probeNextW isa t.cap (idx, pos)).1
      else .error .assertFail

/-- `find_available` (swiss_table.hpp 1235-1246). -/
def findAvailableW (isa : Isa) (t : Table K V) (h : Nat) : M Nat :=
  t.availLoopW isa (t.cap + 1) (hashHiW h &&& t.cap) 0

/-- One iteration of the relocation loop of `do_rehash` (swiss_table.hpp 1382-1390). -/
def relocOneW (isa : Isa) (p : Table K V × Table K V) (i : Nat) : M (Table K V × Table K V) := do
  let c ← p.1.readCtl i
  if c.isOccupied then
    let n ← p.1.readNode i
    let target ← p.2.findAvailableW isa n.hash
    let dst ← p.2.construct target n
    let src ← p.1.destroy i
    let dst ← dst.setMetadataW isa target (.full (hashLoW n.hash))
    .ok (src, { dst with log := .rel i target :: dst.log })
  else .ok p

/-- `do_rehash` (swiss_table.hpp 1376-1393, 523-550, 681-693). -/
def doRehashW (isa : Isa) (t : Table K V) (n : Nat) : M (Table K V) := do
  let t0 : Table K V :=
    { cap := n, len := wadd n isa.W, ctl := fillEmpty n, node := fun _ => none,
      size := t.size, numEmpty := t.numEmpty, log := .grow n :: t.log }
  let (src, t1) ← (List.range t.cap).foldlM (relocOneW isa) (t, t0)
  let _ ← src.dropBuffer
  .ok { t1 with numEmpty := wsub (maxSizeW isa n) t.size }

/-- The body of the second loop of `rehash_deleted` from `process_node` (swiss_table.hpp 1415-1441). -/
def processNodeW (isa : Isa) : (fuel : Nat) → (t : Table K V) → (i : Nat) → M (Table K V)
  | 0, _, _ => .error .diverge
  | fuel + 1, t, i => do
    let n ← t.readNode i
    let target ← t.findAvailableW isa n.hash
    if blockIdxW isa t.cap (hashHiW n.hash) target = blockIdxW isa t.cap (hashHiW n.hash) i then
      t.setMetadataW isa i (.full (hashLoW n.hash))
    else
      let c ← t.readCtl target
      if c = .empty then
        let t ← t.construct target n
        let t ← t.destroy i
        let t ← t.setMetadataW isa i .empty
        let t ← t.setMetadataW isa target (.full (hashLoW n.hash))
        .ok { t with log := .mv i target :: t.log }
      else
        let m ← t.readNode target
        let t := { t with node := upd (upd t.node i (some m)) target (some n), log := .swp i target :: t.log }
        let t ← t.setMetadataW isa target (.full (hashLoW n.hash))
        processNodeW isa fuel t i

/-- One iteration of the second loop of `rehash_deleted` (swiss_table.hpp 1410-1442). -/
def processSlotW (isa : Isa) (t : Table K V) (i : Nat) : M (Table K V) := do
  let c ← t.readCtl i
  if c = .deleted then processNodeW isa (t.cap + 1) t i else .ok t

/-- The first loop of `rehash_deleted` (swiss_table.hpp 1400-1405) from the counter `i` on. -/
def resetLoopW (isa : Isa) : (fuel : Nat) → (t : Table K V) → (i : Nat) → M (Table K V)
  | 0, _, _ => .error .diverge
  | fuel + 1, t, i =>
    if i < t.cap then do
      let t ← t.resetBlock isa i
      resetLoopW isa fuel t (wadd i isa.W)
    else .ok t

/-- `rehash_deleted` (swiss_table.hpp 1394-1446). -/
def rehashDeletedW (isa : Isa) (t : Table K V) : M (Table K V) := do
  let t ← resetLoopW isa (t.cap + 1) t 0
  let t ← t.cloneTail isa
  let t ← (List.range t.cap).foldlM (processSlotW isa) t
  .ok { t with numEmpty := wsub (maxSizeW isa t.cap) t.size }

/-- The position-finding part of `emplace_node` (swiss_table.hpp 1267-1287). -/
def prepareW (isa : Isa) (t : Table K V) (h : Nat) : M (Table K V × Nat) := do
  if t.cap = 0 then
    let t ← t.doRehashW isa 1
    let target ← t.findAvailableW isa h
    .ok (t, target)
  else
    let target ← t.findAvailableW isa h
    let c ← t.readCtl target
    if t.numEmpty = 0 ∧ c ≠ .deleted then
      let t ← if t.cap > isa.W ∧ wmul t.size 32 ≤ wmul t.cap 25 then t.rehashDeletedW isa
              else t.doRehashW isa (wsub (wmul (wadd t.cap 1) 2) 1)
      let target ← t.findAvailableW isa h
      .ok (t, target)
    else .ok (t, target)

/-- The construction part of `emplace_node` (swiss_table.hpp 1289-1299). -/
def commitW (isa : Isa) (t : Table K V) (target : Nat) (n : Node K V) : M (Table K V × Nat) := do
  let t ← t.construct target n
  let c ← t.readCtl target
  let t := { t with numEmpty := wsub t.numEmpty (if c = Ctl.empty then 1 else 0) }
  let t ← t.setMetadataW isa target (.full (hashLoW n.hash))
  .ok ({ t with size := wadd t.size 1 }, target)

/-- `emplace_node` (swiss_table.hpp 1264-1300). -/
def emplaceNodeW (isa : Isa) (t : Table K V) (n : Node K V) : M (Table K V × Nat) := do
  let (t, target) ← t.prepareW isa n.hash
  t.commitW isa target n

/-- `do_insert`, `do_try_emplace` (swiss_table.hpp 1330-1347), also `insert(node_type&&)` (962-970). -/
def insertW (isa : Isa) (hash : K → Nat) (t : Table K V) (k : K) (v : V) : M (Table K V × Nat × Bool) := do
  let h := hash k
  let pos ← t.findNodeW isa k h
  if pos = t.cap then
    let (t, p) ← t.emplaceNodeW isa ⟨k, v, h⟩
    .ok (t, p, true)
  else .ok (t, pos, false)

/-- `do_insert_or_assign` (swiss_table.hpp 1348-1359). -/
def insertOrAssignW (isa : Isa) (hash : K → Nat) (t : Table K V) (k : K) (v : V) : M (Table K V × Nat × Bool) := do
  let h := hash k
  let pos ← t.findNodeW isa k h
  if pos = t.cap then
    let (t, p) ← t.emplaceNodeW isa ⟨k, v, h⟩
    .ok (t, p, true)
  else
    let n ← t.readNode pos
    .ok ({ t with node := upd t.node pos (some { n with val := v }) }, pos, false)

/-- `erase_node` (swiss_table.hpp 1301-1316). -/
def eraseNodeW (isa : Isa) (t : Table K V) (pos : Nat) : M (Table K V) := do
  if pos < t.cap then
    let c ← t.readCtl pos
    if c.isOccupied then
      let t ← t.setMetadataW isa pos .deleted
      .ok { t with size := wsub t.size 1 }
    else .error .assertFail
  else .error .assertFail

/-- `do_erase` (swiss_table.hpp 1361-1368). -/
def doEraseW (isa : Isa) (t : Table K V) (pos : Nat) : M (Table K V × Nat) := do
  let t ← t.eraseNodeW isa pos
  let it ← t.toIter isa pos
  let t ← t.destroy pos
  .ok (t, it)

/-- `erase(key)` (swiss_table.hpp 1052-1059). -/
def eraseW (isa : Isa) (hash : K → Nat) (t : Table K V) (k : K) : M (Table K V × Nat) := do
  let pos ← t.findNodeW isa k (hash k)
  if pos ≠ t.cap then t.doEraseW isa pos
  else do
    let e ← t.end_ isa
    .ok (t, e)

/-- `extract(key)` (swiss_table.hpp 1077-1084, 1369-1374). -/
def extractW (isa : Isa) (hash : K → Nat) (t : Table K V) (k : K) : M (Table K V × Option (K × V)) := do
  let pos ← t.findNodeW isa k (hash k)
  if pos ≠ t.cap then
    let t ← t.eraseNodeW isa pos
    let _ ← t.toIter isa pos
    let n ← t.readNode pos
    let t ← t.destroy pos
    .ok (t, some (n.key, n.val))
  else .ok (t, none)

/-- `clear` (swiss_table.hpp 916-929). -/
def clearW (isa : Isa) (t : Table K V) : M (Table K V) := do
  if t.size ≠ 0 then
    let t ← t.eraseNodes
    let t ← t.fill isa
    .ok { t with size := 0, numEmpty := maxSizeW isa t.cap }
  else .ok t

/-- `reserve` (swiss_table.hpp 930). -/
def reserveW (isa : Isa) (t : Table K V) (n : Nat) : M (Table K V) :=
  if n > wadd t.size t.numEmpty then do
    let c ← alignMinW isa 0 n
    t.doRehashW isa c
  else .ok t

/-- `rehash` (swiss_table.hpp 1124-1131). -/
def rehashW (isa : Isa) (t : Table K V) (n : Nat) : M (Table K V) :=
  if n = 0 ∧ t.size = 0 then .ok t
  else do
    let newCap ← alignMinW isa n n
    if n = 0 ∨ newCap > t.cap then t.doRehashW isa newCap else .ok t

/-- One operation; returned iterators are dereferenced (as in `Table.step`).  `erase_if` and range insertion are loops over these
operations and are left out. -/
def stepW (isa : Isa) (hash : K → Nat) (t : Table K V) : Op K V → M (Table K V × Out K V)
  | .insert k v => do
    let (t, p, b) ← t.insertW isa hash k v
    let n ← t.readNode (← t.toIter isa p)
    .ok (t, .ins (n.key, n.val) b)
  | .insertNode x => do
    let (t, p, b) ← t.insertW isa hash x.1 x.2
    let n ← t.readNode (← t.toIter isa p)
    .ok (t, .ins (n.key, n.val) b)
  | .index k d => do
    let (t, p, _) ← t.insertW isa hash k d
    let n ← t.readNode (← t.toIter isa p)
    .ok (t, .opt (some n.val))
  | .insertThrow k => do
    let pos ← t.findNodeW isa k (hash k)
    if pos = t.cap then
      let (t, _) ← t.prepareW isa (hash k)
      .ok (t, .bool true)
    else .ok (t, .bool false)
  | .assign k v => do
    let (t, p, b) ← t.insertOrAssignW isa hash k v
    let n ← t.readNode (← t.toIter isa p)
    .ok (t, .ins (n.key, n.val) b)
  | .erase k => do
    let (t, _) ← t.eraseW isa hash k
    .ok (t, .unit)
  | .extract k => do
    let (t, x) ← t.extractW isa hash k
    .ok (t, .node x)
  | .clear => do
    let t ← t.clearW isa
    .ok (t, .unit)
  | .reserve n => do
    let t ← t.reserveW isa n
    .ok (t, .unit)
  | .rehash n => do
    let t ← t.rehashW isa (n + 1)
    .ok (t, .unit)
  | .find k => do
    let pos ← t.findNodeW isa k (hash k)
    if pos = t.cap then .ok (t, .opt none)
    else do
      let n ← t.readNode pos
      .ok (t, .opt (some n.val))
  | .contains k => do
    let pos ← t.findNodeW isa k (hash k)
    .ok (t, .bool (pos != t.cap))
  | .size => .ok (t, .nat t.size)
  | .iterate => do
    let l ← t.iterate isa
    .ok (t, .list l)
  | .eraseIf _ => .error .diverge
  | .insertRange _ _ => .error .diverge

/-- A history. -/
def runW (isa : Isa) (hash : K → Nat) (t : Table K V) : List (Op K V) → M (Table K V × List (Out K V))
  | [] => .ok (t, [])
  | op :: ops => do
    let (t, o) ← t.stepW isa hash op
    let (t, os) ← runW isa hash t ops
    .ok (t, o :: os)

end Table

/-! ## The arithmetic -/

/-- A bucket count as tables have it, small enough for 64-bit arithmetic. -/
def Small (cap : Nat) : Prop := (∃ m, cap + 1 = 2 ^ m) ∧ cap < 2 ^ 60

theorem W_le (isa : Isa) : isa.W ≤ 16 := by cases isa <;> simp [Isa.W]

theorem Small.dvd {cap : Nat} (h : Small cap) : cap + 1 ∣ 2 ^ 64 := by
  obtain ⟨⟨m, hm⟩, h⟩ := h
  rw [hm]
  refine Nat.pow_dvd_pow 2 ?_
  by_contra hc
  have := Nat.pow_le_pow_right (n := 2) (by omega) (show 64 ≤ m by omega)
  omega

theorem wadd_land {cap : Nat} (h : Small cap) (a b : Nat) : wadd a b &&& cap = (a + b) &&& cap := by
  obtain ⟨m, hm⟩ := h.1
  rw [land_pow hm, land_pow hm, wadd, Nat.mod_mod_of_dvd _ h.dvd]

theorem wadd_wadd_land {cap : Nat} (h : Small cap) (a b c : Nat) : wadd a (wadd b c) &&& cap = (a + (b + c)) &&& cap := by
  obtain ⟨m, hm⟩ := h.1
  rw [wadd_land h, land_pow hm, land_pow hm, wadd, Nat.add_mod, Nat.mod_mod_of_dvd _ h.dvd, ← Nat.add_mod]

theorem wadd_eq {a b : Nat} (h : a + b < 2 ^ 64) : wadd a b = a + b := Nat.mod_eq_of_lt h

theorem wmul_eq {a b : Nat} (h : a * b < 2 ^ 64) : wmul a b = a * b := Nat.mod_eq_of_lt h

theorem wsub_eq {a b : Nat} (h : b ≤ a) (ha : a < 2 ^ 64) : wsub a b = a - b := by
  unfold wsub
  omega

theorem wsub_land {cap : Nat} (h : Small cap) (a : Nat) {b c : Nat} (hb : b ≤ c * (cap + 1)) (hb' : b < 2 ^ 64) :
    wsub a b &&& cap = (a + c * (cap + 1) - b) &&& cap := by
  obtain ⟨m, hm⟩ := h.1
  obtain ⟨q, hq⟩ := h.dvd
  rw [land_pow hm, land_pow hm, wsub, Nat.mod_mod_of_dvd _ h.dvd, Nat.mod_eq_of_lt hb']
  have h1 : (a + (2 ^ 64 - b)) % (cap + 1) = (a + (2 ^ 64 - b) + (cap + 1) * c) % (cap + 1) := by
    rw [Nat.add_mul_mod_self_left]
  have h2 : (a + c * (cap + 1) - b) % (cap + 1) = (a + c * (cap + 1) - b + (cap + 1) * q) % (cap + 1) := by
    rw [Nat.add_mul_mod_self_left]
  rw [h1, h2, ← hq, Nat.mul_comm (cap + 1) c]
  generalize c * (cap + 1) = d at *
  congr 1
  omega

theorem hashHiW_eq (h : Nat) : hashHiW h = hashHi h := Nat.shiftRight_eq_div_pow h 7

theorem hashLoW_eq (h : Nat) : hashLoW h = hashLo h := by
  unfold hashLoW hashLo
  rw [show (127 : Nat) = 2 ^ 7 - 1 from rfl, Nat.and_two_pow_sub_one_eq_mod]
  omega

theorem maxSizeW_eq (isa : Isa) {n : Nat} (h : n < 2 ^ 64) : maxSizeW isa n = maxSize isa n := by
  unfold maxSizeW maxSize
  split
  · rfl
  · exact wsub_eq (Nat.div_le_self _ _) h

theorem blockIdxW_eq (isa : Isa) {cap : Nat} (h : Small cap) (start pos : Nat) : blockIdxW isa cap start pos = Table.blockIdx isa cap start pos := by
  unfold blockIdxW Table.blockIdx
  obtain ⟨m, hm⟩ := h.1
  have : start &&& cap ≤ 1 * (cap + 1) := by
    rw [land_pow hm]
    have := Nat.mod_lt start (show cap + 1 > 0 by omega)
    omega
  have h2 := h.2
  rw [wsub_land h pos this (by omega), Nat.one_mul]

theorem alignMinW_eq (isa : Isa) {m n : Nat} (hn : n < 2 ^ 59) (hm : m < 2 ^ 64) :
    alignMinW isa m n = .ok (alignCapacity (m ||| minCapacity isa n)) := by
  unfold alignMinW
  obtain ⟨r, e1, e2⟩ := C33_align_word (BitVec.ofNat 64 m ||| minCapacity64 isa (BitVec.ofNat 64 n))
  rw [e1, bind_ok, e2, BitVec.toNat_or, BitVec.toNat_ofNat, Nat.mod_eq_of_lt hm, C33_min_capacity_word]
  · rw [BitVec.toNat_ofNat, Nat.mod_eq_of_lt (by omega)]
  · rw [BitVec.toNat_ofNat, Nat.mod_eq_of_lt (by omega)]
    exact hn


/-! ## The functions -/

theorem setMetadataW_eq (isa : Isa) {t : Table K V} (h : Small t.cap) (pos : Nat) (v : Ctl) :
    t.setMetadataW isa pos v = t.setMetadata isa pos v := by
  unfold Table.setMetadataW Table.setMetadata
  have hW := W_le isa
  have h2 := h.2
  have hb : isa.W - 1 ≤ (isa.W - 1) * (t.cap + 1) := Nat.le_mul_of_pos_right _ (by omega)
  simp only
  rw [wsub_land h pos hb (by omega), wadd_eq]
  have h3 : (pos + (isa.W - 1) * (t.cap + 1) - (isa.W - 1)) &&& t.cap ≤ t.cap := Nat.and_le_right
  have h4 : isa.W - 1 &&& t.cap ≤ t.cap := Nat.and_le_right
  omega

theorem scanW_eq {t : Table K V} (h : Small t.cap) (k : K) (pos : Nat) (l : List Nat) : t.scanW k pos l = t.scan k pos l := by
  induction l with
  | nil => rfl
  | cons i l ih =>
    unfold Table.scanW Table.scan
    rw [wadd_land h, ih]

theorem findLoopW_eq (isa : Isa) {t : Table K V} (h : Small t.cap) (k : K) (tag fuel : Nat) :
    ∀ pos idx, t.findLoopW isa k tag fuel pos idx = t.findLoop isa k tag fuel pos idx := by
  induction fuel with
  | zero => intro _ _; rfl
  | succ fuel ih =>
    intro pos idx
    unfold Table.findLoopW Table.findLoop
    rw [scanW_eq h]
    congr 1
    funext _
    congr 1
    funext o
    cases o with
    | some _ => rfl
    | none =>
      simp only
      split
      · rfl
      · split
        · have := W_le isa
          have h2 := h.2
          unfold probeNextW
          rw [ih, wadd_wadd_land h, wadd_eq (by omega)]
        · rfl

theorem findNodeW_eq (isa : Isa) {t : Table K V} (h : Small t.cap) (k : K) (x : Nat) : t.findNodeW isa k x = t.findNode isa k x := by
  unfold Table.findNodeW Table.findNode
  rw [findLoopW_eq isa h, hashLoW_eq, hashHiW_eq]

theorem availLoopW_eq (isa : Isa) {t : Table K V} (h : Small t.cap) (fuel : Nat) :
    ∀ pos idx, t.availLoopW isa fuel pos idx = t.availLoop isa fuel pos idx := by
  induction fuel with
  | zero => intro _ _; rfl
  | succ fuel ih =>
    intro pos idx
    unfold Table.availLoopW Table.availLoop
    congr 1
    funext _
    cases t.matches_ isa pos (·.isAvailable) with
    | cons i _ =>
      simp only
      rw [wadd_land h]
    | nil =>
      simp only
      split
      · have := W_le isa
        have h2 := h.2
        unfold probeNextW
        rw [ih, wadd_wadd_land h, wadd_eq (by omega)]
      · rfl

theorem findAvailableW_eq (isa : Isa) {t : Table K V} (h : Small t.cap) (x : Nat) : t.findAvailableW isa x = t.findAvailable isa x := by
  unfold Table.findAvailableW Table.findAvailable
  rw [availLoopW_eq isa h, hashHiW_eq]

theorem ok_bind {α β : Type} {x : M α} {f : α → M β} {b : β} (h : x >>= f = .ok b) : ∃ a, x = .ok a ∧ f a = .ok b := by
  cases x with
  | error e => cases h
  | ok a => exact ⟨a, rfl, h⟩

/-- Bucket count and size are the same. -/
def Same (t r : Table K V) : Prop := r.cap = t.cap ∧ r.size = t.size

theorem Same.trans {a b c : Table K V} (h : Same a b) (h' : Same b c) : Same a c := ⟨h'.1.trans h.1, h'.2.trans h.2⟩

theorem Same.small {a b : Table K V} (h : Same a b) (hs : Small a.cap) : Small b.cap := by
  rw [h.1]
  exact hs

theorem writeCtl_same {t r : Table K V} {i : Nat} {v : Ctl} (e : t.writeCtl i v = .ok r) : Same t r := by
  unfold Table.writeCtl at e
  split at e
  · cases e; exact ⟨rfl, rfl⟩
  · cases e

theorem setMetadata_same {isa : Isa} {t r : Table K V} {i : Nat} {v : Ctl} (e : t.setMetadata isa i v = .ok r) : Same t r := by
  unfold Table.setMetadata at e
  obtain ⟨t1, e1, e⟩ := ok_bind e
  exact (writeCtl_same e1).trans (writeCtl_same e)

theorem construct_same {t r : Table K V} {i : Nat} {n : Node K V} (e : t.construct i n = .ok r) : Same t r := by
  unfold Table.construct at e
  split at e
  · split at e
    · cases e
    · cases e; exact ⟨rfl, rfl⟩
  · cases e

theorem destroy_same {t r : Table K V} {i : Nat} (e : t.destroy i = .ok r) : Same t r := by
  unfold Table.destroy at e
  split at e
  · split at e
    · cases e; exact ⟨rfl, rfl⟩
    · cases e
  · cases e

theorem resetBlock_same {isa : Isa} {t r : Table K V} {i : Nat} (e : t.resetBlock isa i = .ok r) : Same t r := by
  unfold Table.resetBlock at e
  split at e
  · cases e; exact ⟨rfl, rfl⟩
  · cases e

theorem cloneTail_same {isa : Isa} {t r : Table K V} (e : t.cloneTail isa = .ok r) : Same t r := by
  unfold Table.cloneTail at e
  split at e
  · cases e; exact ⟨rfl, rfl⟩
  · cases e

theorem foldlM_of {α β : Type} {f g : α → β → M α} {P : α → Prop} (hf : ∀ a x r, P a → f a x = .ok r → g a x = .ok r ∧ P r)
    (l : List β) {a r : α} (e : l.foldlM f a = .ok r) (ha : P a) : l.foldlM g a = .ok r ∧ P r := by
  induction l generalizing a with
  | nil => cases e; exact ⟨rfl, ha⟩
  | cons x l ih =>
    rw [List.foldlM_cons] at e ⊢
    obtain ⟨b, e1, e⟩ := ok_bind e
    obtain ⟨h1, h2⟩ := hf a x b ha e1
    rw [h1, bind_ok]
    exact ih e h2

theorem relocOneW_of {isa : Isa} {p r : Table K V × Table K V} {i : Nat} (h : Small p.2.cap) (e : Table.relocOne isa p i = .ok r) :
    Table.relocOneW isa p i = .ok r ∧ Same p.2 r.2 := by
  unfold Table.relocOne at e
  unfold Table.relocOneW
  obtain ⟨c, e1, e⟩ := ok_bind e
  rw [e1, bind_ok]
  split
  · rename_i hc
    rw [if_pos hc] at e
    obtain ⟨n, e2, e⟩ := ok_bind e
    obtain ⟨target, e3, e⟩ := ok_bind e
    obtain ⟨dst, e4, e⟩ := ok_bind e
    obtain ⟨src, e5, e⟩ := ok_bind e
    obtain ⟨d2, e6, e⟩ := ok_bind e
    cases e
    have s1 := construct_same e4
    rw [e2, bind_ok, findAvailableW_eq isa h, e3, bind_ok, e4, bind_ok, e5, bind_ok, setMetadataW_eq isa (s1.small h), hashLoW_eq, e6, bind_ok]
    have s2 := s1.trans (setMetadata_same e6)
    exact ⟨rfl, s2.1, s2.2⟩
  · rename_i hc
    rw [if_neg hc] at e
    cases e
    exact ⟨rfl, rfl, rfl⟩

theorem doRehashW_of {isa : Isa} {t r : Table K V} {n : Nat} (h : Small n) (e : t.doRehash isa n = .ok r) :
    t.doRehashW isa n = .ok r ∧ r.cap = n ∧ r.size = t.size ∧ r.numEmpty < 2 ^ 64 := by
  unfold Table.doRehash at e
  unfold Table.doRehashW
  have h2 := h.2
  have hW := W_le isa
  obtain ⟨⟨src, t1⟩, e1, e⟩ := ok_bind e
  obtain ⟨h3, h4⟩ := foldlM_of (g := Table.relocOneW isa) (P := fun p => p.2.cap = n ∧ p.2.size = t.size)
    (fun a x r ha e => by
      obtain ⟨g1, g2⟩ := relocOneW_of (by rw [ha.1]; exact h) e
      exact ⟨g1, g2.1.trans ha.1, g2.2.trans ha.2⟩) (List.range t.cap) e1 ⟨rfl, rfl⟩
  simp only at e h4
  obtain ⟨u, e2, e⟩ := ok_bind e
  simp only
  rw [wadd_eq (by omega), h3, bind_ok]
  simp only
  rw [e2, bind_ok]
  split at e
  · rename_i hle
    cases e
    have hm : maxSize isa n < 2 ^ 64 := by unfold maxSize; split <;> omega
    rw [maxSizeW_eq isa (by omega), wsub_eq hle hm]
    exact ⟨rfl, h4.1, h4.2, by simp only; omega⟩
  · cases e

theorem processNodeW_of {isa : Isa} (fuel : Nat) : ∀ {t r : Table K V} {i : Nat}, Small t.cap → Table.processNode isa fuel t i = .ok r →
    Table.processNodeW isa fuel t i = .ok r ∧ Same t r := by
  induction fuel with
  | zero => intro t r i _ e; cases e
  | succ fuel ih =>
    intro t r i h e
    unfold Table.processNode at e
    unfold Table.processNodeW
    obtain ⟨n, e1, e⟩ := ok_bind e
    obtain ⟨target, e2, e⟩ := ok_bind e
    rw [e1, bind_ok, findAvailableW_eq isa h, e2, bind_ok, blockIdxW_eq isa h, blockIdxW_eq isa h, hashHiW_eq, hashLoW_eq]
    split
    · rename_i hb
      rw [if_pos hb] at e
      rw [setMetadataW_eq isa h]
      exact ⟨e, setMetadata_same e⟩
    · rename_i hb
      rw [if_neg hb] at e
      obtain ⟨c, e3, e⟩ := ok_bind e
      rw [e3, bind_ok]
      split
      · rename_i hc
        rw [if_pos hc] at e
        obtain ⟨t1, e4, e⟩ := ok_bind e
        obtain ⟨t2, e5, e⟩ := ok_bind e
        obtain ⟨t3, e6, e⟩ := ok_bind e
        obtain ⟨t4, e7, e⟩ := ok_bind e
        cases e
        have s1 := construct_same e4
        have s2 := s1.trans (destroy_same e5)
        have s3 := s2.trans (setMetadata_same e6)
        have s4 := s3.trans (setMetadata_same e7)
        rw [e4, bind_ok, e5, bind_ok, setMetadataW_eq isa (s2.small h), e6, bind_ok, setMetadataW_eq isa (s3.small h), e7, bind_ok]
        exact ⟨rfl, s4⟩
      · rename_i hc
        rw [if_neg hc] at e
        obtain ⟨m, e4, e⟩ := ok_bind e
        obtain ⟨t1, e5, e⟩ := ok_bind e
        have s1 := setMetadata_same e5
        have s2 : Same t t1 := s1
        rw [e4, bind_ok]
        simp only
        rw [setMetadataW_eq isa (by exact h), e5, bind_ok]
        obtain ⟨g1, g2⟩ := ih (s2.small h) e
        exact ⟨g1, s2.trans g2⟩

theorem processSlotW_of {isa : Isa} {t r : Table K V} {i : Nat} (h : Small t.cap) (e : Table.processSlot isa t i = .ok r) :
    Table.processSlotW isa t i = .ok r ∧ Same t r := by
  unfold Table.processSlot at e
  unfold Table.processSlotW
  obtain ⟨c, e1, e⟩ := ok_bind e
  rw [e1, bind_ok]
  split
  · rename_i hc
    rw [if_pos hc] at e
    exact processNodeW_of _ h e
  · rename_i hc
    rw [if_neg hc] at e
    cases e
    exact ⟨rfl, rfl, rfl⟩

/-- The loop with the counter `b * W` is the fold over the block numbers. -/
theorem resetLoopW_of {isa : Isa} (n fuel : Nat) : ∀ (b : Nat) {t r : Table K V}, Small t.cap → n = (t.cap + isa.W - 1) / isa.W - b →
    n < fuel → b * isa.W ≤ t.cap + isa.W →
    (List.range' b n).foldlM (fun (t : Table K V) b => t.resetBlock isa (b * isa.W)) t = .ok r →
    Table.resetLoopW isa fuel t (b * isa.W) = .ok r ∧ Same t r := by
  have hpos : 0 < isa.W := by cases isa <;> simp [Isa.W]
  have hW := W_le isa
  induction n generalizing fuel with
  | zero =>
    intro b t r h hn hf hb e
    obtain ⟨fuel, rfl⟩ : ∃ f, fuel = f + 1 := ⟨fuel - 1, by omega⟩
    cases e
    unfold Table.resetLoopW
    have : (t.cap + isa.W - 1) / isa.W ≤ b := by omega
    have := Nat.div_le_iff_le_mul_add_pred hpos |>.mp this
    rw [if_neg (by rw [Nat.mul_comm]; omega)]
    exact ⟨rfl, rfl, rfl⟩
  | succ n ih =>
    intro b t r h hn hf hb e
    obtain ⟨fuel, rfl⟩ : ∃ f, fuel = f + 1 := ⟨fuel - 1, by omega⟩
    rw [List.range'_succ, List.foldlM_cons] at e
    obtain ⟨t1, e1, e⟩ := ok_bind e
    have s1 := resetBlock_same e1
    unfold Table.resetLoopW
    have h1 : b < (t.cap + isa.W - 1) / isa.W := by omega
    have h2 : (b + 1) * isa.W ≤ t.cap + isa.W - 1 := (Nat.le_div_iff_mul_le hpos).mp h1
    have h3 : (b + 1) * isa.W = b * isa.W + isa.W := by ring
    have hc := h.2
    rw [if_pos (by omega), e1, bind_ok, wadd_eq (by omega), ← h3]
    obtain ⟨g1, g2⟩ := ih fuel (b + 1) (s1.small h) (by rw [s1.1]; omega) (by omega) (by rw [s1.1]; omega) e
    exact ⟨g1, s1.trans g2⟩

theorem rehashDeletedW_of {isa : Isa} {t r : Table K V} (h : Small t.cap) (e : t.rehashDeleted isa = .ok r) :
    t.rehashDeletedW isa = .ok r ∧ Same t r ∧ r.numEmpty < 2 ^ 64 := by
  unfold Table.rehashDeleted at e
  unfold Table.rehashDeletedW
  have hW := W_le isa
  have hpos : 0 < isa.W := by cases isa <;> simp [Isa.W]
  obtain ⟨t1, e1, e⟩ := ok_bind e
  obtain ⟨t2, e2, e⟩ := ok_bind e
  obtain ⟨t3, e3, e⟩ := ok_bind e
  rw [List.range_eq_range'] at e1
  have hb : (t.cap + isa.W - 1) / isa.W < t.cap + 1 := by
    rw [Nat.div_lt_iff_lt_mul hpos]
    have : t.cap + isa.W ≤ (t.cap + 1) * isa.W := by
      rw [Nat.add_mul]
      have := Nat.le_mul_of_pos_right t.cap hpos
      omega
    omega
  obtain ⟨g1, s1⟩ := resetLoopW_of _ (t.cap + 1) 0 h rfl (by omega) (by omega) e1
  rw [Nat.zero_mul] at g1
  have s2 := s1.trans (cloneTail_same e2)
  obtain ⟨g3, s3⟩ := foldlM_of (g := Table.processSlotW isa) (P := fun p => Same t p)
    (fun a x r ha e => by
      obtain ⟨g1, g2⟩ := processSlotW_of (ha.small h) e
      exact ⟨g1, ha.trans g2⟩) _ e3 s2
  rw [g1, bind_ok, e2, bind_ok, g3, bind_ok]
  split at e
  · rename_i hle
    cases e
    have h2 := (s3.small h).2
    have hm : maxSize isa t3.cap < 2 ^ 64 := by unfold maxSize; split <;> omega
    rw [maxSizeW_eq isa (by omega), wsub_eq hle hm]
    exact ⟨rfl, s3, by simp only; omega⟩
  · cases e

theorem prepareW_of {isa : Isa} {t : Table K V} {r : Table K V × Nat} {x : Nat} (h : Small t.cap) (h' : t.cap < 2 ^ 59) (hs : t.size ≤ t.cap)
    (hne : t.numEmpty < 2 ^ 64) (e : t.prepare isa x = .ok r) : t.prepareW isa x = .ok r ∧ r.1.size = t.size ∧ Small r.1.cap ∧ r.1.numEmpty < 2 ^ 64 := by
  unfold Table.prepare at e
  unfold Table.prepareW
  split
  · rename_i hc
    rw [if_pos hc] at e
    obtain ⟨t1, e1, e⟩ := ok_bind e
    obtain ⟨p, e2, e⟩ := ok_bind e
    cases e
    obtain ⟨g1, g2, g3, g4⟩ := doRehashW_of (n := 1) ⟨⟨1, rfl⟩, by omega⟩ e1
    have hsm : Small t1.cap := by rw [g2]; exact ⟨⟨1, rfl⟩, by omega⟩
    rw [g1, bind_ok, findAvailableW_eq isa hsm, e2, bind_ok]
    exact ⟨rfl, g3, hsm, g4⟩
  · rename_i hc
    rw [if_neg hc] at e
    obtain ⟨p, e1, e⟩ := ok_bind e
    obtain ⟨c, e2, e⟩ := ok_bind e
    rw [findAvailableW_eq isa h, e1, bind_ok, e2, bind_ok]
    split
    · rename_i hg
      rw [if_pos hg] at e
      rw [wmul_eq (show t.size * 32 < 2 ^ 64 by omega), wmul_eq (show t.cap * 25 < 2 ^ 64 by omega)]
      simp only at e ⊢
      split at e
      · rename_i hd
        obtain ⟨t1, e3, e⟩ := ok_bind e
        obtain ⟨q, e4, e⟩ := ok_bind e
        cases e
        obtain ⟨g1, g2, g4⟩ := rehashDeletedW_of h e3
        have hsm := g2.small h
        rw [if_pos hd, g1, bind_ok, findAvailableW_eq isa hsm, e4, bind_ok]
        exact ⟨rfl, g2.2, hsm, g4⟩
      · rename_i hd
        obtain ⟨t1, e3, e⟩ := ok_bind e
        obtain ⟨q, e4, e⟩ := ok_bind e
        cases e
        have hsm : Small ((t.cap + 1) * 2 - 1) := by
          obtain ⟨m, hm⟩ := h.1
          refine ⟨⟨m + 1, ?_⟩, by omega⟩
          rw [Nat.pow_succ, ← hm]
          omega
        obtain ⟨g1, g2, g3, g4⟩ := doRehashW_of hsm e3
        have hsm' : Small t1.cap := by rw [g2]; exact hsm
        rw [if_neg hd, wadd_eq (by omega), wmul_eq (by omega), wsub_eq (by omega) (by omega), g1, bind_ok,
          findAvailableW_eq isa hsm', e4, bind_ok]
        exact ⟨rfl, g3, hsm', g4⟩
    · rename_i hg
      rw [if_neg hg] at e
      cases e
      exact ⟨rfl, rfl, h, hne⟩

theorem commitW_of {isa : Isa} {t : Table K V} {r : Table K V × Nat} {p : Nat} {n : Node K V} (h : Small t.cap) (hs : t.size < 2 ^ 63)
    (hne : t.numEmpty < 2 ^ 64) (e : t.commit isa p n = .ok r) : t.commitW isa p n = .ok r := by
  unfold Table.commit at e
  unfold Table.commitW
  obtain ⟨t1, e1, e⟩ := ok_bind e
  obtain ⟨c, e2, e⟩ := ok_bind e
  have s1 := construct_same e1
  have hn1 : t1.numEmpty = t.numEmpty := by
    unfold Table.construct at e1
    split at e1
    · split at e1
      · cases e1
      · cases e1; rfl
    · cases e1
  rw [e1, bind_ok, e2, bind_ok]
  simp only at e ⊢
  generalize (if c = Ctl.empty then 1 else 0) = d at e ⊢
  split at e
  · rename_i hle
    obtain ⟨t2, e3, e⟩ := ok_bind e
    cases e
    have s2 := setMetadata_same e3
    rw [wsub_eq hle (by omega)]
    have hsm : Small ({ t1 with numEmpty := t1.numEmpty - d } : Table K V).cap := s1.small h
    rw [setMetadataW_eq isa hsm, hashLoW_eq, e3, bind_ok, wadd_eq]
    have h5 : t2.size = t1.size := s2.2
    rw [h5, s1.2]
    omega
  · cases e


theorem emplaceNodeW_of {isa : Isa} {t : Table K V} {r : Table K V × Nat} {n : Node K V} (h : Small t.cap) (h' : t.cap < 2 ^ 59)
    (hs : t.size ≤ t.cap) (hne : t.numEmpty < 2 ^ 64) (e : t.emplaceNode isa n = .ok r) : t.emplaceNodeW isa n = .ok r := by
  unfold Table.emplaceNode at e
  unfold Table.emplaceNodeW
  obtain ⟨⟨t1, p⟩, e1, e⟩ := ok_bind e
  obtain ⟨g1, g2, g3, g4⟩ := prepareW_of h h' hs hne e1
  rw [g1, bind_ok]
  simp only at e g2 g3 g4 ⊢
  exact commitW_of g3 (by omega) g4 e

/-- What 64-bit arithmetic needs: fewer than 2^59 buckets, and a budget that fits. -/
structure Fits (t : Table K V) : Prop where
  cap : t.cap < 2 ^ 59
  budget : t.numEmpty ≤ t.cap

theorem Inv.small {isa : Isa} {hash : K → Nat} {t : Table K V} (h : Inv isa hash t) (hf : Fits t) : Small t.cap :=
  ⟨h.pow, by have := hf.cap; omega⟩

theorem Inv.size_le_cap {isa : Isa} {hash : K → Nat} {t : Table K V} (h : Inv isa hash t) : t.size ≤ t.cap := by
  rw [h.size_eq]
  exact cnt_le _ _

/-- A table with buckets never has more free slots to use than buckets. -/
theorem Inv.budget_le {isa : Isa} {hash : K → Nat} {t : Table K V} (h : Inv isa hash t) (hc : 0 < t.cap) : t.numEmpty ≤ t.cap := by
  have h1 := h.budget hc
  have := maxSize_le isa t.cap
  omega

theorem insertW_of {isa : Isa} {hash : K → Nat} {t : Table K V} (h : Inv isa hash t) (hf : Fits t) {k : K} {v : V} {r : Table K V × Nat × Bool}
    (e : t.insert isa hash k v = .ok r) : t.insertW isa hash k v = .ok r := by
  have hsm := h.small hf
  have := hf.cap
  have := hf.budget
  unfold Table.insert at e
  unfold Table.insertW
  simp only at e ⊢
  obtain ⟨pos, e1, e⟩ := ok_bind e
  rw [findNodeW_eq isa hsm, e1, bind_ok]
  split
  · rename_i hc
    rw [if_pos hc] at e
    obtain ⟨⟨t1, p⟩, e2, e⟩ := ok_bind e
    rw [emplaceNodeW_of hsm hf.cap h.size_le_cap (by omega) e2, bind_ok]
    exact e
  · rename_i hc
    rw [if_neg hc] at e
    exact e

theorem insertOrAssignW_of {isa : Isa} {hash : K → Nat} {t : Table K V} (h : Inv isa hash t) (hf : Fits t) {k : K} {v : V}
    {r : Table K V × Nat × Bool} (e : t.insertOrAssign isa hash k v = .ok r) : t.insertOrAssignW isa hash k v = .ok r := by
  have hsm := h.small hf
  have := hf.cap
  have := hf.budget
  unfold Table.insertOrAssign Table.insertOrAssignWith at e
  unfold Table.insertOrAssignW
  simp only at e ⊢
  obtain ⟨pos, e1, e⟩ := ok_bind e
  rw [findNodeW_eq isa hsm, e1, bind_ok]
  split
  · rename_i hc
    rw [if_pos hc] at e
    obtain ⟨⟨t1, p⟩, e2, e⟩ := ok_bind e
    rw [emplaceNodeW_of hsm hf.cap h.size_le_cap (by omega) e2, bind_ok]
    exact e
  · rename_i hc
    rw [if_neg hc] at e
    exact e

theorem eraseNodeW_of {isa : Isa} {t r : Table K V} {pos : Nat} (h : Small t.cap) (hs : t.size < 2 ^ 64)
    (e : t.eraseNode isa pos = .ok r) : t.eraseNodeW isa pos = .ok r := by
  unfold Table.eraseNode at e
  unfold Table.eraseNodeW
  split
  · rename_i hp
    rw [if_pos hp] at e
    obtain ⟨c, e1, e⟩ := ok_bind e
    rw [e1, bind_ok]
    split
    · rename_i hc
      rw [if_pos hc] at e
      obtain ⟨t1, e2, e⟩ := ok_bind e
      rw [setMetadataW_eq isa h, e2, bind_ok]
      have hs1 := (setMetadata_same e2).2
      split at e
      · rename_i h1
        rw [wsub_eq h1 (by omega)]
        exact e
      · cases e
    · rename_i hc
      rw [if_neg hc] at e
      cases e
  · rename_i hp
    rw [if_neg hp] at e
    cases e

theorem eraseW_of {isa : Isa} {hash : K → Nat} {t : Table K V} (h : Inv isa hash t) (hf : Fits t) {k : K} {r : Table K V × Nat}
    (e : t.erase isa hash k = .ok r) : t.eraseW isa hash k = .ok r := by
  have hsm := h.small hf
  have := hf.cap
  have := h.size_le_cap
  unfold Table.erase at e
  unfold Table.eraseW
  obtain ⟨pos, e1, e⟩ := ok_bind e
  rw [findNodeW_eq isa hsm, e1, bind_ok]
  split
  · rename_i hc
    rw [if_pos hc] at e
    unfold Table.doErase at e
    unfold Table.doEraseW
    obtain ⟨t1, e2, e⟩ := ok_bind e
    rw [eraseNodeW_of hsm (by omega) e2, bind_ok]
    exact e
  · rename_i hc
    rw [if_neg hc] at e
    exact e

theorem extractW_of {isa : Isa} {hash : K → Nat} {t : Table K V} (h : Inv isa hash t) (hf : Fits t) {k : K} {r : Table K V × Option (K × V)}
    (e : t.extract isa hash k = .ok r) : t.extractW isa hash k = .ok r := by
  have hsm := h.small hf
  have := hf.cap
  have := h.size_le_cap
  unfold Table.extract at e
  unfold Table.extractW
  obtain ⟨pos, e1, e⟩ := ok_bind e
  rw [findNodeW_eq isa hsm, e1, bind_ok]
  split
  · rename_i hc
    rw [if_pos hc] at e
    obtain ⟨⟨t1, n⟩, e2, e⟩ := ok_bind e
    unfold Table.extractAt at e2
    obtain ⟨t2, e3, e2⟩ := ok_bind e2
    obtain ⟨it, e4, e2⟩ := ok_bind e2
    obtain ⟨m, e5, e2⟩ := ok_bind e2
    obtain ⟨t3, e6, e2⟩ := ok_bind e2
    cases e2
    rw [eraseNodeW_of hsm (by omega) e3, bind_ok, e4, bind_ok, e5, bind_ok, e6, bind_ok]
    exact e
  · rename_i hc
    rw [if_neg hc] at e
    exact e

theorem foldlM_inv {α β : Type} {f : α → β → M α} {P : α → Prop} (hf : ∀ a x r, P a → f a x = .ok r → P r)
    (l : List β) {a r : α} (e : l.foldlM f a = .ok r) (ha : P a) : P r :=
  (foldlM_of (g := f) (fun a x r h e => ⟨e, hf a x r h e⟩) l e ha).2

theorem eraseNodes_cap {t r : Table K V} (e : t.eraseNodes = .ok r) : r.cap = t.cap := by
  unfold Table.eraseNodes at e
  obtain ⟨t1, e1, e⟩ := ok_bind e
  cases e
  show t1.cap = t.cap
  refine foldlM_inv (P := fun a : Table K V => a.cap = t.cap) ?_ _ e1 rfl
  intro a x r ha e
  obtain ⟨c, _, e⟩ := ok_bind e
  split at e
  · exact (destroy_same e).1.trans ha
  · cases e; exact ha

theorem clearW_of {isa : Isa} {t r : Table K V} (h : t.cap < 2 ^ 64) (e : t.clear isa = .ok r) : t.clearW isa = .ok r := by
  unfold Table.clear at e
  unfold Table.clearW
  split
  · rename_i hc
    rw [if_pos hc] at e
    obtain ⟨t1, e1, e⟩ := ok_bind e
    obtain ⟨t2, e2, e⟩ := ok_bind e
    have h1 := eraseNodes_cap e1
    have h2 : t2.cap = t1.cap := by
      unfold Table.fill at e2
      split at e2
      · cases e2; rfl
      · cases e2
    rw [e1, bind_ok, e2, bind_ok, maxSizeW_eq isa (by omega)]
    exact e
  · rename_i hc
    rw [if_neg hc] at e
    exact e

theorem minCapacity_lt (isa : Isa) {n : Nat} (h : n < 2 ^ 59) : minCapacity isa n < 2 ^ 60 := by
  unfold minCapacity
  split <;> omega

theorem alignCapacity_small {n : Nat} (h : n < 2 ^ 60) : Small (alignCapacity n) := by
  obtain ⟨m, hm, _⟩ := alignCapacity_pow' n
  refine ⟨⟨m, hm⟩, ?_⟩
  have := alignCapacity_least (n := n) (c := 2 ^ 60 - 1) (j := 60) (by omega) (by omega) (by omega)
  omega

theorem reserveW_of {isa : Isa} {hash : K → Nat} {t r : Table K V} (h : Inv isa hash t) (hf : Fits t) {n : Nat} (hn : n < 2 ^ 59)
    (e : t.reserve isa n = .ok r) : t.reserveW isa n = .ok r := by
  have := hf.cap
  have := hf.budget
  have := h.size_le_cap
  unfold Table.reserve at e
  unfold Table.reserveW
  rw [wadd_eq (by omega)]
  split
  · rename_i hc
    rw [if_pos hc] at e
    rw [alignMinW_eq isa hn (by omega), bind_ok, Nat.zero_or]
    exact (doRehashW_of (alignCapacity_small (minCapacity_lt isa hn)) e).1
  · rename_i hc
    rw [if_neg hc] at e
    exact e

theorem rehashW_of {isa : Isa} {t r : Table K V} {n : Nat} (hn : n < 2 ^ 59) (e : t.rehash isa n = .ok r) : t.rehashW isa n = .ok r := by
  unfold Table.rehash at e
  unfold Table.rehashW
  split
  · rename_i hc
    rw [if_pos hc] at e
    exact e
  · rename_i hc
    rw [if_neg hc] at e
    rw [alignMinW_eq isa hn (by omega), bind_ok]
    simp only at e
    split
    · rename_i hd
      rw [if_pos hd] at e
      exact (doRehashW_of (alignCapacity_small (Nat.or_lt_two_pow (by omega) (minCapacity_lt isa hn))) e).1
    · rename_i hd
      rw [if_neg hd] at e
      exact e

/-- Operations written out in 64-bit arithmetic, with arguments that fit. -/
def _root_.Tpp.Op.fits {K V : Type} : Op K V → Prop
  | .reserve n => n < 2 ^ 59
  | .rehash n => n + 1 < 2 ^ 59
  | .eraseIf _ => False
  | .insertRange _ _ => False
  | _ => True

/-- If an operation ends normally in the model, the 64-bit code computes the same. -/
theorem stepW_of {isa : Isa} {hash : K → Nat} {t : Table K V} (h : Inv isa hash t) (hf : Fits t) {op : Op K V} (ho : op.fits)
    {r : Table K V × Out K V} (e : t.step isa hash op = .ok r) : t.stepW isa hash op = .ok r := by
  have hsm := h.small hf
  have hc := hf.cap
  have hb := hf.budget
  have hs := h.size_le_cap
  cases op with
  | insert k v =>
    simp only [Table.step] at e
    simp only [Table.stepW]
    obtain ⟨⟨t1, p, b⟩, e1, e⟩ := ok_bind e
    rw [insertW_of h hf e1, bind_ok]
    exact e
  | insertNode x =>
    simp only [Table.step] at e
    simp only [Table.stepW]
    obtain ⟨⟨t1, p, b, q⟩, e1, e⟩ := ok_bind e
    have e2 : t.insert isa hash x.1 x.2 = .ok (t1, p, b) := by
      unfold Table.insertNode at e1
      unfold Table.insert
      simp only at e1 ⊢
      obtain ⟨pos, e2, e1⟩ := ok_bind e1
      rw [e2, bind_ok]
      split
      · rename_i hp
        rw [if_pos hp] at e1
        obtain ⟨⟨t2, p2⟩, e3, e1⟩ := ok_bind e1
        cases e1
        rw [e3, bind_ok]
      · rename_i hp
        rw [if_neg hp] at e1
        cases e1
        rfl
    rw [insertW_of h hf e2, bind_ok]
    exact e
  | index k d =>
    simp only [Table.step] at e
    simp only [Table.stepW]
    obtain ⟨⟨t1, v⟩, e1, e⟩ := ok_bind e
    unfold Table.index at e1
    obtain ⟨⟨t2, p, b⟩, e2, e1⟩ := ok_bind e1
    obtain ⟨it, e3, e1⟩ := ok_bind e1
    obtain ⟨n, e4, e1⟩ := ok_bind e1
    cases e1
    rw [insertW_of h hf e2, bind_ok]
    simp only
    rw [e3, bind_ok, e4, bind_ok]
    exact e
  | insertThrow k =>
    simp only [Table.step] at e
    simp only [Table.stepW]
    obtain ⟨⟨t1, b⟩, e1, e⟩ := ok_bind e
    unfold Table.insertThrow at e1
    simp only at e1
    obtain ⟨pos, e2, e1⟩ := ok_bind e1
    rw [findNodeW_eq isa hsm, e2, bind_ok]
    split
    · rename_i hp
      rw [if_pos hp] at e1
      obtain ⟨⟨t2, p⟩, e3, e1⟩ := ok_bind e1
      cases e1
      rw [(prepareW_of hsm hc hs (by omega) e3).1, bind_ok]
      exact e
    · rename_i hp
      rw [if_neg hp] at e1
      cases e1
      exact e
  | assign k v =>
    simp only [Table.step] at e
    simp only [Table.stepW]
    obtain ⟨⟨t1, p, b⟩, e1, e⟩ := ok_bind e
    rw [insertOrAssignW_of h hf e1, bind_ok]
    exact e
  | erase k =>
    simp only [Table.step] at e
    simp only [Table.stepW]
    obtain ⟨⟨t1, p⟩, e1, e⟩ := ok_bind e
    rw [eraseW_of h hf e1, bind_ok]
    exact e
  | extract k =>
    simp only [Table.step] at e
    simp only [Table.stepW]
    obtain ⟨⟨t1, p⟩, e1, e⟩ := ok_bind e
    rw [extractW_of h hf e1, bind_ok]
    exact e
  | clear =>
    simp only [Table.step] at e
    simp only [Table.stepW]
    obtain ⟨t1, e1, e⟩ := ok_bind e
    rw [clearW_of (by omega) e1, bind_ok]
    exact e
  | reserve n =>
    simp only [Table.step] at e
    simp only [Table.stepW]
    obtain ⟨t1, e1, e⟩ := ok_bind e
    rw [reserveW_of h hf ho e1, bind_ok]
    exact e
  | rehash n =>
    simp only [Table.step] at e
    simp only [Table.stepW]
    obtain ⟨t1, e1, e⟩ := ok_bind e
    rw [rehashW_of ho e1, bind_ok]
    exact e
  | find k =>
    simp only [Table.step, Table.lookup] at e
    simp only [Table.stepW]
    obtain ⟨v, e1, e⟩ := ok_bind e
    obtain ⟨pos, e2, e1⟩ := ok_bind e1
    rw [findNodeW_eq isa hsm, e2, bind_ok]
    split
    · rename_i hp
      rw [if_pos hp] at e1
      cases e1
      exact e
    · rename_i hp
      rw [if_neg hp] at e1
      obtain ⟨n, e3, e1⟩ := ok_bind e1
      cases e1
      rw [e3, bind_ok]
      exact e
  | contains k =>
    simp only [Table.step, Table.contains] at e
    simp only [Table.stepW]
    obtain ⟨v, e1, e⟩ := ok_bind e
    obtain ⟨pos, e2, e1⟩ := ok_bind e1
    cases e1
    rw [findNodeW_eq isa hsm, e2, bind_ok]
    exact e
  | size => exact e
  | iterate => exact e
  | eraseIf p => exact ho.elim
  | insertRange ra xs => exact ho.elim


/-! ## Containers without buckets have no budget -/

theorem doRehash_cap {isa : Isa} {t r : Table K V} {n : Nat} (e : t.doRehash isa n = .ok r) : r.cap = n := by
  unfold Table.doRehash at e
  simp only at e
  obtain ⟨⟨src, t1⟩, e1, e⟩ := ok_bind e
  have h1 := foldlM_inv (P := fun p : Table K V × Table K V => p.2.cap = n) (fun a x r ha e => by
    unfold Table.relocOne at e
    obtain ⟨c, _, e⟩ := ok_bind e
    split at e
    · obtain ⟨_, _, e⟩ := ok_bind e
      obtain ⟨_, _, e⟩ := ok_bind e
      obtain ⟨_, e4, e⟩ := ok_bind e
      obtain ⟨_, _, e⟩ := ok_bind e
      obtain ⟨_, e6, e⟩ := ok_bind e
      cases e
      exact ((construct_same e4).trans (setMetadata_same e6)).1.trans ha
    · cases e; exact ha) _ e1 rfl
  obtain ⟨_, _, e⟩ := ok_bind e
  split at e
  · cases e; exact h1
  · cases e

theorem eraseNode_cap {isa : Isa} {t r : Table K V} {pos : Nat} (e : t.eraseNode isa pos = .ok r) : 0 < r.cap := by
  unfold Table.eraseNode at e
  split at e
  · rename_i hp
    obtain ⟨c, _, e⟩ := ok_bind e
    split at e
    · obtain ⟨t1, e2, e⟩ := ok_bind e
      have h1 := (setMetadata_same e2).1
      split at e
      · cases e
        simp only
        omega
      · cases e
    · cases e
  · cases e

theorem processNode_cap {isa : Isa} (fuel : Nat) : ∀ {t r : Table K V} {i : Nat}, Table.processNode isa fuel t i = .ok r → r.cap = t.cap := by
  induction fuel with
  | zero => intro t r i e; cases e
  | succ fuel ih =>
    intro t r i e
    unfold Table.processNode at e
    obtain ⟨n, _, e⟩ := ok_bind e
    obtain ⟨target, _, e⟩ := ok_bind e
    split at e
    · exact (setMetadata_same e).1
    · obtain ⟨c, _, e⟩ := ok_bind e
      split at e
      · obtain ⟨t1, e4, e⟩ := ok_bind e
        obtain ⟨t2, e5, e⟩ := ok_bind e
        obtain ⟨t3, e6, e⟩ := ok_bind e
        obtain ⟨t4, e7, e⟩ := ok_bind e
        cases e
        exact ((((construct_same e4).trans (destroy_same e5)).trans (setMetadata_same e6)).trans (setMetadata_same e7)).1
      · obtain ⟨m, _, e⟩ := ok_bind e
        obtain ⟨t1, e5, e⟩ := ok_bind e
        exact (ih e).trans (setMetadata_same e5).1

theorem processSlot_cap {isa : Isa} {t r : Table K V} {i : Nat} (e : Table.processSlot isa t i = .ok r) : r.cap = t.cap := by
  unfold Table.processSlot at e
  obtain ⟨c, _, e⟩ := ok_bind e
  split at e
  · exact processNode_cap _ e
  · cases e
    rfl

/-- The operations on one container keep `Settled`. -/
theorem step_settled {isa : Isa} {hash : K → Nat} {t : Table K V} (h : Inv isa hash t) (hS : Settled t) {op : Op K V} (ho : op.fits)
    {r : Table K V × Out K V} (e : t.step isa hash op = .ok r) : Settled r.1 := by
  cases op with
  | insert k v =>
    simp only [Table.step] at e
    obtain ⟨t', p, b, h1, h2, _, h3⟩ := insert_spec h k v
    have hp : p < t'.cap := by
      rcases h3 with ⟨_, _, _, h4, _⟩ | ⟨_, _, _, rfl, h4⟩ <;> exact h4.1
    rw [h1, bind_ok] at e
    simp only at e
    obtain ⟨_, _, e⟩ := ok_bind e
    obtain ⟨_, _, e⟩ := ok_bind e
    cases e
    intro hc
    simp only at hc
    omega
  | insertNode x =>
    simp only [Table.step] at e
    obtain ⟨t', p, b, l, h1, h2, _, h3⟩ := insertNode_spec h x
    have hp : p < t'.cap := by
      rcases h3 with ⟨_, _, _, _, h4⟩ | ⟨_, _, _, _, rfl, h4⟩ <;> exact h4.1
    rw [h1, bind_ok] at e
    simp only at e
    obtain ⟨_, _, e⟩ := ok_bind e
    obtain ⟨_, _, e⟩ := ok_bind e
    cases e
    intro hc
    simp only at hc
    omega
  | index k d =>
    simp only [Table.step, Table.index] at e
    obtain ⟨t', p, b, h1, h2, _, h3⟩ := insert_spec h k d
    have hp : p < t'.cap := by
      rcases h3 with ⟨_, _, _, h4, _⟩ | ⟨_, _, _, rfl, h4⟩ <;> exact h4.1
    rw [h1, bind_ok] at e
    simp only at e
    obtain ⟨⟨_, _⟩, e1, e⟩ := ok_bind e
    obtain ⟨_, _, e1⟩ := ok_bind e1
    obtain ⟨_, _, e1⟩ := ok_bind e1
    cases e1
    cases e
    intro hc
    simp only at hc
    omega
  | insertThrow k =>
    simp only [Table.step, Table.insertThrow] at e
    obtain ⟨⟨t1, b⟩, e1, e⟩ := ok_bind e
    cases e
    obtain ⟨pos, e2, e1⟩ := ok_bind e1
    split at e1
    · obtain ⟨⟨t2, p⟩, e3, e1⟩ := ok_bind e1
      cases e1
      unfold Table.prepare at e3
      split at e3
      · obtain ⟨_, e4, e3⟩ := ok_bind e3
        obtain ⟨_, _, e3⟩ := ok_bind e3
        cases e3
        intro hc
        have := doRehash_cap e4
        simp only at hc
        omega
      · rename_i hc0
        obtain ⟨_, _, e3⟩ := ok_bind e3
        obtain ⟨_, _, e3⟩ := ok_bind e3
        split at e3
        · simp only at e3
          split at e3
          · obtain ⟨t3, e4, e3⟩ := ok_bind e3
            obtain ⟨_, _, e3⟩ := ok_bind e3
            cases e3
            intro hc
            obtain ⟨t4, f1, e4⟩ := ok_bind e4
            obtain ⟨t5, f2, e4⟩ := ok_bind e4
            obtain ⟨t6, f3, e4⟩ := ok_bind e4
            have g1 : t4.cap = t.cap := foldlM_inv (P := fun a : Table K V => a.cap = t.cap)
              (fun a x r ha e => (resetBlock_same e).1.trans ha) _ f1 rfl
            have g2 := (cloneTail_same f2).1
            have g3 : t6.cap = t5.cap := by
              refine foldlM_inv (P := fun a : Table K V => a.cap = t5.cap) ?_ _ f3 rfl
              intro a x r ha e
              refine Eq.trans ?_ ha
              exact processSlot_cap e
            split at e4
            · cases e4
              simp only at hc
              omega
            · cases e4
          · obtain ⟨t3, e4, e3⟩ := ok_bind e3
            obtain ⟨_, _, e3⟩ := ok_bind e3
            cases e3
            intro hc
            have := doRehash_cap e4
            simp only at hc
            omega
        · cases e3
          exact hS
    · cases e1
      exact hS
  | assign k v =>
    simp only [Table.step, Table.insertOrAssign] at e
    obtain ⟨t', p, b, h1, h2, _, h3⟩ := insertOrAssignWith_spec h k v (fun _ => v)
    have hp : p < t'.cap := by
      rcases h3 with ⟨_, _, _, h4, _⟩ | ⟨_, _, _, _, h4, _⟩ <;> exact h4.1
    rw [h1, bind_ok] at e
    simp only at e
    obtain ⟨_, _, e⟩ := ok_bind e
    obtain ⟨_, _, e⟩ := ok_bind e
    cases e
    intro hc
    simp only at hc
    omega
  | erase k =>
    simp only [Table.step, Table.erase] at e
    obtain ⟨⟨t1, p⟩, e1, e⟩ := ok_bind e
    cases e
    obtain ⟨pos, _, e1⟩ := ok_bind e1
    split at e1
    · unfold Table.doErase at e1
      obtain ⟨t2, e2, e1⟩ := ok_bind e1
      obtain ⟨_, _, e1⟩ := ok_bind e1
      obtain ⟨t3, e3, e1⟩ := ok_bind e1
      cases e1
      intro hc
      have := eraseNode_cap e2
      have := (destroy_same e3).1
      simp only at hc
      omega
    · obtain ⟨_, _, e1⟩ := ok_bind e1
      cases e1
      exact hS
  | extract k =>
    simp only [Table.step, Table.extract] at e
    obtain ⟨⟨t1, p⟩, e1, e⟩ := ok_bind e
    cases e
    obtain ⟨pos, _, e1⟩ := ok_bind e1
    split at e1
    · obtain ⟨⟨t2, n⟩, e2, e1⟩ := ok_bind e1
      cases e1
      unfold Table.extractAt at e2
      obtain ⟨t2, e3, e2⟩ := ok_bind e2
      obtain ⟨_, _, e2⟩ := ok_bind e2
      obtain ⟨_, _, e2⟩ := ok_bind e2
      obtain ⟨t3, e4, e2⟩ := ok_bind e2
      cases e2
      intro hc
      have := eraseNode_cap e3
      have := (destroy_same e4).1
      simp only at hc
      omega
    · cases e1
      exact hS
  | clear =>
    simp only [Table.step, Table.clear] at e
    obtain ⟨t1, e1, e⟩ := ok_bind e
    cases e
    split at e1
    · rename_i hs
      obtain ⟨t2, e2, e1⟩ := ok_bind e1
      obtain ⟨t3, e3, e1⟩ := ok_bind e1
      cases e1
      have h1 := eraseNodes_cap e2
      have h2 : t3.cap = t2.cap := by
        unfold Table.fill at e3
        split at e3
        · cases e3; rfl
        · cases e3
      have := h.size_le_cap
      intro hc
      simp only at hc
      omega
    · cases e1
      exact hS
  | reserve n =>
    simp only [Table.step] at e
    obtain ⟨t', h1, h2, h3, h4, h5, h6, _⟩ := reserve_spec h n
    rw [h1, bind_ok] at e
    cases e
    exact (h6 hS).1
  | rehash n =>
    simp only [Table.step] at e
    obtain ⟨t', h1, h2, h3, h4, h5, h6, _⟩ := rehash_spec h (n := n + 1) (by omega)
    rw [h1, bind_ok] at e
    cases e
    intro hc
    simp only at hc
    omega
  | find k =>
    simp only [Table.step] at e
    obtain ⟨_, _, e⟩ := ok_bind e
    cases e
    exact hS
  | contains k =>
    simp only [Table.step] at e
    obtain ⟨_, _, e⟩ := ok_bind e
    cases e
    exact hS
  | size =>
    cases e
    exact hS
  | iterate =>
    simp only [Table.step] at e
    obtain ⟨_, _, e⟩ := ok_bind e
    cases e
    exact hS
  | eraseIf p => exact ho.elim
  | insertRange ra xs => exact ho.elim

end Tpp.Swiss
