/-
Draws with independent uniform entries: `rng.random((d, d)) + 1j * rng.random((d, d))`.
-/
import Mathlib.MeasureTheory.Measure.Lebesgue.EqHaar
import Mathlib.MeasureTheory.Constructions.Pi

namespace Spgrep.Spec

open MeasureTheory

/-- Two real square matrices, the real and the imaginary parts of a draw. -/
abbrev DrawPair (d : ℕ) := (Fin d → Fin d → ℝ) × (Fin d → Fin d → ℝ)

/-- The law of two matrices whose entries are independent and uniform in `[0, 1)`: Lebesgue measure on the unit cube. -/
noncomputable def uniformLaw (d : ℕ) : Measure (DrawPair d) :=
  volume.restrict {p | ∀ i j, p.1 i j ∈ Set.Ico 0 1 ∧ p.2 i j ∈ Set.Ico 0 1}

/-- The complex matrix of a draw. -/
noncomputable def drawOf {d : ℕ} (p : DrawPair d) : Matrix (Fin d) (Fin d) ℂ :=
  fun i j => (p.1 i j : ℂ) + (p.2 i j : ℂ) * Complex.I

end Spgrep.Spec
