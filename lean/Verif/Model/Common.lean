/-
Conventions shared by all model files: Python exceptions as values and the numpy rounding and
comparison primitives over exact real numbers.
-/
import Mathlib.Data.Real.Basic
import Mathlib.Algebra.Order.Round
import Mathlib.Data.Matrix.Basic
import Mathlib.Data.Matrix.Mul
import Mathlib.Analysis.Complex.Basic

namespace Spgrep

/-- Python exceptions raised by the modelled code.  `diverges` stands for a loop that has used up the
fuel of its model (never raised by Python; shown unreachable on the stated domain); `nan` for a computation
that Python continues with NaN values. -/
inductive PyErr where
  | valueError
  | typeError
  | indexError
  | keyError
  | assertionError
  | unboundLocalError
  | nan
  | diverges
  deriving DecidableEq, Repr

/-- Integer 3x3 matrices (numpy arrays of shape `(3, 3)`, dtype int). -/
abbrev M3 := Matrix (Fin 3) (Fin 3) ℤ

/-- Real vectors of length 3 (numpy arrays of shape `(3,)`, dtype float, taken exact). -/
abbrev V3 := Fin 3 → ℝ

/-- `np.rint` / `np.around`: round to the nearest integer, ties to even. -/
noncomputable def rint (x : ℝ) : ℤ :=
  if x - ⌊x⌋ < 1 / 2 then ⌊x⌋
  else if 1 / 2 < x - ⌊x⌋ then ⌊x⌋ + 1
  else if Even ⌊x⌋ then ⌊x⌋ else ⌊x⌋ + 1

/-- `np.isclose(a, b, rtol, atol)` on reals: `|a - b| <= atol + rtol * |b|`. -/
def IsClose (rtol atol a b : ℝ) : Prop := |a - b| ≤ atol + rtol * |b|

/-- `np.isclose(a, b, rtol, atol)` on complex numbers (the modulus is used). -/
def IsCloseC (rtol atol : ℝ) (a b : ℂ) : Prop := ‖a - b‖ ≤ atol + rtol * ‖b‖

/-- `np.allclose` on two arrays of the same shape. -/
def AllClose {ι : Type*} (rtol atol : ℝ) (a b : ι → ℝ) : Prop := ∀ i, IsClose rtol atol (a i) (b i)

/-- `list.index(a)` on the list `[xs[0], ..., xs[n-1]]`: the first position holding `a`
(`none` models the `ValueError`). -/
def indexOf? {n : ℕ} {α : Type*} [DecidableEq α] (xs : Fin n → α) (a : α) : Option (Fin n) :=
  (List.finRange n).find? fun k => decide (xs k = a)

end Spgrep
