/-
Direct sums of matrix families with multiplicities.
-/
import Mathlib.Data.Complex.Basic
import Mathlib.Data.Matrix.Block
import Mathlib.LinearAlgebra.Matrix.Kronecker

namespace Spgrep.Spec

/-- `m a` copies of the block `D a`, for every `a`. -/
def blockSum {I A : Type*} [DecidableEq A] {d : A → ℕ} (m : A → ℕ) (D : ∀ a, I → Matrix (Fin (d a)) (Fin (d a)) ℂ) (g : I) :
    Matrix (Σ a, Fin (m a) × Fin (d a)) (Σ a, Fin (m a) × Fin (d a)) ℂ :=
  Matrix.blockDiagonal' fun a => Matrix.kroneckerMap (· * ·) (1 : Matrix (Fin (m a)) (Fin (m a)) ℂ) (D a g)

end Spgrep.Spec
