/-
Independent vocabulary for real representations of a space group that are built from small representations.
-/
import Verif.Spec.Rep
import Mathlib.Analysis.SpecialFunctions.Trigonometric.Basic

namespace Spgrep.Spec

variable {n : ℕ} {ι : Type*} [Fintype ι] [DecidableEq ι]

/-- The documented matrix of the translation `t` in a doubled representation at `k` (docstring of
`enumerate_small_representations`, irreps.py:43-55): `[[cos, -sin], [sin, cos]]` of `2π k·t`. -/
noncomputable def translationBlock (ι : Type*) [DecidableEq ι] (k t : Fin 3 → ℝ) : Matrix (ι ⊕ ι) (ι ⊕ ι) ℝ :=
  Matrix.fromBlocks (Real.cos (2 * Real.pi * ∑ x, k x * t x) • 1) (-Real.sin (2 * Real.pi * ∑ x, k x * t x) • 1)
    (Real.sin (2 * Real.pi * ∑ x, k x * t x) • 1) (Real.cos (2 * Real.pi * ∑ x, k x * t x) • 1)

/-- The doubled real representation `R`, with lattice translations acting by `translationBlock`, has a
non-zero subspace on which the coset representatives act by `Γ` and the lattice translations `t` by the
character `exp(-2πi k·t)`. -/
def ContainsSmall {κ : Type*} [Fintype κ] (k : Fin 3 → ℝ) (R : Fin n → Matrix (ι ⊕ ι) (ι ⊕ ι) ℝ)
    (Γ : Fin n → Matrix κ κ ℂ) : Prop :=
  ∃ X : Matrix (ι ⊕ ι) κ ℂ, X ≠ 0 ∧ (∀ g, (R g).map Complex.ofReal * X = X * Γ g) ∧
    ∀ t : Fin 3 → ℤ, (translationBlock ι k fun x => (t x : ℝ)).map Complex.ofReal * X =
      Complex.exp (-2 * Real.pi * Complex.I * ((∑ x, k x * (t x : ℝ) : ℝ) : ℂ)) • X

/-- No real invariant subspace except 0 and the whole (non-zero) space. -/
def IsRealIrreducible (R : Fin n → Matrix ι ι ℝ) : Prop :=
  Nonempty ι ∧ ∀ W : Submodule ℝ (ι → ℝ), (∀ g, ∀ v ∈ W, (R g).mulVec v ∈ W) → W = ⊥ ∨ W = ⊤

/-- A unitary representation that is irreducible, or real and irreducible over the reals. -/
structure GoodIrrep {d : ℕ} (T : Fin n → Fin n → Fin n) (E : Fin n → Matrix (Fin d) (Fin d) ℂ) : Prop where
  rep : IsProjRep T (fun _ _ => 1) E
  unitary : IsUnitaryRep E
  irred : IsIrreducible E ∨ ∃ R : Fin n → Matrix (Fin d) (Fin d) ℝ, (∀ g, E g = (R g).map Complex.ofReal) ∧
    IsRealIrreducible R

end Spgrep.Spec
