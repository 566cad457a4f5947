import Verif.Basic
import Mathlib.Order.Defs.LinearOrder

/-!
# References to map elements (tpp/detail/table_common.hpp 727-785)

Dense and sparse maps hand out their elements as `packed_map_ref`, a pair of references with its own comparison
operators.  Keys and mapped values are taken from linear orders; each operator below applies the operators of the
components exactly as the code does.
-/

namespace Tpp.Refs

variable {K M : Type} [LinearOrder K] [LinearOrder M]

/-- `operator==` (table_common.hpp 758-759, 771-772). -/
def eq (a b : K × M) : Bool := decide (a.1 = b.1) && decide (a.2 = b.2)

/-- `operator!=` before C++20 (table_common.hpp 760-761). -/
def ne (a b : K × M) : Bool := decide (a.1 ≠ b.1) || decide (a.2 ≠ b.2)

/-- `operator>=` before C++20 (table_common.hpp 762-763). -/
def ge (a b : K × M) : Bool := decide (b.1 ≤ a.1) && decide (b.2 ≤ a.2)

/-- `operator<=` before C++20 (table_common.hpp 764-765). -/
def le (a b : K × M) : Bool := decide (a.1 ≤ b.1) && decide (a.2 ≤ b.2)

/-- `operator>` before C++20 (table_common.hpp 766-767). -/
def gt (a b : K × M) : Bool := decide (b.1 < a.1) && decide (b.2 < a.2)

/-- `operator<` before C++20 (table_common.hpp 768-769). -/
def lt (a b : K × M) : Bool := decide (a.1 < b.1) && decide (a.2 < b.2)

/-- `synth_three_way` for components without `<=>` (utility.hpp 263-272). -/
def threeWay {T : Type} [LinearOrder T] (a b : T) : Ordering :=
  if a < b then .lt else if b < a then .gt else .eq

/-- `operator<=>` since C++20 (table_common.hpp 773-780).  (As written its constraint is never met, because the second
template parameter of `synth_three_way` cannot be deduced; this is the operator if that is repaired.) -/
def spaceship (a b : K × M) : Ordering :=
  let res := threeWay a.1 b.1
  if res = .eq then threeWay a.2 b.2 else res

end Tpp.Refs
