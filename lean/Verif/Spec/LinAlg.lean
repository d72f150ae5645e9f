/-
Contracts of the numerical linear algebra routines used as oracles.
-/
import Mathlib.Analysis.Complex.Basic
import Mathlib.LinearAlgebra.Matrix.ConjTranspose
import Mathlib.LinearAlgebra.Matrix.Diagonal

namespace Spgrep.Spec

/-- `Q` is a possible orthonormal factor of the reduced QR decomposition of `A`. -/
def IsQR {n k r : ℕ} (A : Matrix (Fin n) (Fin k) ℂ) (Q : Matrix (Fin n) (Fin r) ℂ) : Prop :=
  Q.conjTranspose * Q = 1 ∧ ∃ R : Matrix (Fin r) (Fin k) ℂ, A = Q * R

/-- `σ` are singular values of `A` in descending order (`r = min a b`). -/
def IsSVD {a b r : ℕ} (A : Matrix (Fin a) (Fin b) ℂ) (σ : Fin r → ℝ) : Prop :=
  Antitone σ ∧ (∀ i, 0 ≤ σ i) ∧
  ∃ (U : Matrix (Fin a) (Fin r) ℂ) (V : Matrix (Fin b) (Fin r) ℂ),
    U.conjTranspose * U = 1 ∧ V.conjTranspose * V = 1 ∧
    A = U * Matrix.diagonal (fun i => (σ i : ℂ)) * V.conjTranspose

/-- `w` are eigenvalues of `M` and the columns of `V` are an orthonormal basis of eigenvectors. -/
def IsEigh {d : ℕ} (M : Matrix (Fin d) (Fin d) ℂ) (w : Fin d → ℝ) (V : Matrix (Fin d) (Fin d) ℂ) : Prop :=
  V.conjTranspose * V = 1 ∧ M * V = V * Matrix.diagonal fun i => (w i : ℂ)

end Spgrep.Spec
