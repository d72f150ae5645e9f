/-
Independent vocabulary for the characters of co-representations.
-/
import Mathlib.Data.Int.Basic

namespace Spgrep.Spec

/-- The dimension, over the reals, of the algebra commuting with an irreducible co-representation, from its indicator:
the reals (1), the quaternions (-1) or the complex numbers (0). -/
def corepWeight (ε : ℤ) : ℕ := if ε = 1 then 1 else if ε = -1 then 4 else 2

end Spgrep.Spec
