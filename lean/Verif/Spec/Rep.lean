/-
Independent vocabulary for (projective) representations by matrices.
-/
import Mathlib.Analysis.Complex.Basic
import Mathlib.LinearAlgebra.Matrix.ToLin

namespace Spgrep.Spec

variable {I ι κ : Type*} [Fintype ι] [Fintype κ] [DecidableEq ι] [DecidableEq κ]

/-- `D(g) D(h) = μ(g,h) D(gh)` for the multiplication table `T`. -/
def IsProjRep (T : I → I → I) (μ : I → I → ℂ) (D : I → Matrix ι ι ℂ) : Prop :=
  ∀ g h, D g * D h = μ g h • D (T g h)

/-- Every matrix is unitary. -/
def IsUnitaryRep (D : I → Matrix ι ι ℂ) : Prop := ∀ g, D g * (D g).conjTranspose = 1

/-- No invariant subspace except 0 and the whole (non-zero) space. -/
def IsIrreducible (D : I → Matrix ι ι ℂ) : Prop :=
  Nonempty ι ∧ ∀ W : Submodule ℂ (ι → ℂ), (∀ g, ∀ v ∈ W, (D g).mulVec v ∈ W) → W = ⊥ ∨ W = ⊤

/-- Equivalent families of matrices: related by one invertible change of basis. -/
def AreEquivalent (D : I → Matrix ι ι ℂ) (E : I → Matrix κ κ ℂ) : Prop :=
  ∃ (S : Matrix ι κ ℂ) (S' : Matrix κ ι ℂ), S * S' = 1 ∧ S' * S = 1 ∧ ∀ g, D g * S = S * E g

/-- A list of matrix families is a complete list of unitary irreducible projective representations for
the multiplication table `T` and factor system `μ`: all are such representations, no two are
equivalent, and every irreducible representation (by invertible matrices) is equivalent to one of
them. -/
structure IsCompleteIrreps (T : I → I → I) (μ : I → I → ℂ)
    (L : List (Σ d : ℕ, I → Matrix (Fin d) (Fin d) ℂ)) : Prop where
  rep : ∀ D ∈ L, IsProjRep T μ D.2
  unitary : ∀ D ∈ L, IsUnitaryRep D.2
  irred : ∀ D ∈ L, IsIrreducible D.2
  inequiv : L.Pairwise fun D E => ¬ AreEquivalent D.2 E.2
  complete : ∀ (e : ℕ) (E : I → Matrix (Fin e) (Fin e) ℂ), IsProjRep T μ E → (∀ g, IsUnit (E g)) →
    IsIrreducible E → ∃ D ∈ L, AreEquivalent E D.2

end Spgrep.Spec
