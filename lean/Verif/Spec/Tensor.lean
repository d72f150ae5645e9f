/-
Independent vocabulary for tensors.
-/
import Mathlib.Analysis.Complex.Basic
import Mathlib.Data.Matrix.Mul
import Mathlib.Algebra.BigOperators.Fin

namespace Spgrep.Spec

variable {D p : ℕ}

/-- A matrix acting on all indices of a tensor. -/
def actTensor (A : Matrix (Fin D) (Fin D) ℂ) (t : (Fin p → Fin D) → ℂ) : (Fin p → Fin D) → ℂ :=
  fun a => ∑ b : Fin p → Fin D, (∏ s, A (a s) (b s)) * t b

/-- The tensor with its axes permuted. -/
def permTensor (σ : Equiv.Perm (Fin p)) (t : (Fin p → Fin D) → ℂ) : (Fin p → Fin D) → ℂ := fun a => t (a ∘ σ)

end Spgrep.Spec
