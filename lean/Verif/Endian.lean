import Verif.Bits

/-!
# Unaligned reads (tpp/detail/utility.hpp 82-145)

The portable block loads eight control bytes with `read_unaligned` (swiss_table.hpp 206).  On targets other than x86 it
assembles the word from single bytes, in an order chosen by `TPP_BYTE_ORDER`.  `Verif.Bits` uses the word `word v`,
whose least significant byte is the first one in memory.
-/

namespace Tpp.Bits

/-- `read_unaligned<std::uint64_t>` on little-endian targets other than x86 (utility.hpp 88-100). -/
def readLE (b : Lanes) : BitVec 64 :=
  ((b 7).setWidth 64 <<< 56) ||| ((b 6).setWidth 64 <<< 48) ||| ((b 5).setWidth 64 <<< 40) |||
  ((b 4).setWidth 64 <<< 32) ||| ((b 3).setWidth 64 <<< 24) ||| ((b 2).setWidth 64 <<< 16) |||
  ((b 1).setWidth 64 <<< 8) ||| (b 0).setWidth 64

/-- `read_unaligned<std::uint64_t>` on all other targets (utility.hpp 117-129). -/
def readBE (b : Lanes) : BitVec 64 :=
  ((b 0).setWidth 64 <<< 56) ||| ((b 1).setWidth 64 <<< 48) ||| ((b 2).setWidth 64 <<< 40) |||
  ((b 3).setWidth 64 <<< 32) ||| ((b 4).setWidth 64 <<< 24) ||| ((b 5).setWidth 64 <<< 16) |||
  ((b 6).setWidth 64 <<< 8) ||| (b 7).setWidth 64

theorem readLE_eq (b : Lanes) : readLE b = word b := by
  apply BitVec.eq_of_getLsbD_eq
  intro j hj
  rw [getLsbD_word b hj]
  have hd : j / 8 < 8 := by omega
  have hm : j % 8 < 8 := by omega
  obtain ⟨q, r, hq, hr, e⟩ : ∃ q r, q < 8 ∧ r < 8 ∧ j = 8 * q + r := ⟨j / 8, j % 8, hd, hm, by omega⟩
  subst e
  have e1 : (8 * q + r) / 8 = q := by omega
  have e2 : (8 * q + r) % 8 = r := by omega
  rw [e1, e2]
  unfold readLE
  simp only [BitVec.getLsbD_or, BitVec.getLsbD_shiftLeft, BitVec.getLsbD_setWidth]
  have z : ∀ (c : BitVec 8) k, 8 ≤ k → c.getLsbD k = false := fun c k hk => BitVec.getLsbD_of_ge c k hk
  rcases q with _ | _ | _ | _ | _ | _ | _ | _ | q
  · simp [show r < 8 by omega, show r < 16 by omega, show r < 24 by omega, show r < 32 by omega, show r < 40 by omega,
      show r < 48 by omega, show r < 56 by omega, show r < 64 by omega]
  all_goals first | omega | skip
  all_goals
    simp (disch := omega) [z, decide_eq_true, decide_eq_false, hr]

/-- On big-endian targets the block appears reversed. -/
theorem readBE_eq (b : Lanes) : readBE b = word fun i => b (7 - i) := by
  rw [← readLE_eq]; rfl

end Tpp.Bits
