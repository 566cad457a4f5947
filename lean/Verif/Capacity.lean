/-!
# Block width, hash decomposition and capacity arithmetic

Models `/repo/tpp/detail/swiss_table.hpp` lines 184-193 (block types) and 808-833.
-/

namespace Tpp

/-- Which control-byte block implementation is compiled (swiss_table.hpp 184-193): `sse2` uses 16-byte blocks,
`neon` 8-byte vector blocks, `portable` 64-bit words. -/
inductive Isa
  | sse2
  | neon
  | portable
  deriving DecidableEq, Repr

/-- `sizeof(meta_block)` (swiss_table.hpp 184-193, 195-219). -/
def Isa.W : Isa → Nat
  | .sse2 => 16
  | .neon => 8
  | .portable => 8

/-- `decompose_hash(h).first = h >> 7` (swiss_table.hpp 808-811). -/
def hashHi (h : Nat) : Nat := h / 128

/-- `decompose_hash(h).second = int8(h) & 0x7f` (swiss_table.hpp 808-811). -/
def hashLo (h : Nat) : Nat := h % 128

/-- `capacity_to_max_size` (swiss_table.hpp 814-820). -/
def maxSize (isa : Isa) (n : Nat) : Nat :=
  if isa.W = 8 ∧ n = 7 then 6 else n - n / 8

/-- `size_to_min_capacity` (swiss_table.hpp 822-828).  `(int64(n) - 1) / 7` truncates towards zero, so it is
0 for `n = 0`, as natural subtraction gives.  Simplification: `n < 2^63`. -/
def minCapacity (isa : Isa) (n : Nat) : Nat :=
  if isa.W = 8 ∧ n = 7 then 8 else n + (n - 1) / 7

/-- `align_capacity` (swiss_table.hpp 830-833) with a correct `clz`: `max >> clz(n)` keeps as many ones as
`n` has binary digits, i.e. `2^(bit length of n) - 1`; `Nat.log2 n + 1` is the bit length of `n ≠ 0`.
(`Verif.Bits` relates this to the 64-bit expression.) -/
def alignCapacity (n : Nat) : Nat := if n = 0 then 1 else 2 ^ (Nat.log2 n + 1) - 1

end Tpp
