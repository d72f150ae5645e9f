/-
Independent vocabulary for spin rotations.
-/
import Verif.Spec.Rep
import Mathlib.LinearAlgebra.Matrix.Determinant.Basic

namespace Spgrep.Spec

/-- The Pauli matrices. -/
def pauli : Fin 3 → Matrix (Fin 2) (Fin 2) ℂ
  | 0 => !![0, 1; 1, 0]
  | 1 => !![0, -Complex.I; Complex.I, 0]
  | 2 => !![1, 0; 0, -1]

/-- `U` is in SU(2). -/
def IsSU2 (U : Matrix (Fin 2) (Fin 2) ℂ) : Prop := U * U.conjTranspose = 1 ∧ U.det = 1

/-- Conjugation by `U` turns the Pauli matrices like the rotation `R` turns the Cartesian basis vectors. -/
def InducesRotation (U : Matrix (Fin 2) (Fin 2) ℂ) (R : Matrix (Fin 3) (Fin 3) ℝ) : Prop :=
  ∀ b, U * pauli b * U.conjTranspose = ∑ a, (R a b : ℂ) • pauli a

/-- The integer matrix `R` (in fractional coordinates) is an isometry of the lattice whose basis vectors are the rows
of `lattice`: it preserves the metric tensor. -/
def PreservesMetric (lattice : Matrix (Fin 3) (Fin 3) ℝ) (R : Matrix (Fin 3) (Fin 3) ℤ) : Prop :=
  (R.map fun x => (x : ℝ)).transpose * (lattice * lattice.transpose) * (R.map fun x => (x : ℝ)) =
    lattice * lattice.transpose

/-- The Cartesian matrix of the integer matrix `R`: it maps the basis vectors (rows of `lattice`) to the combinations
given by the columns of `R`. -/
def IsCartesianOf (lattice : Matrix (Fin 3) (Fin 3) ℝ) (R : Matrix (Fin 3) (Fin 3) ℤ)
    (C : Matrix (Fin 3) (Fin 3) ℝ) : Prop :=
  C * lattice.transpose = lattice.transpose * R.map fun x => (x : ℝ)

end Spgrep.Spec
