/-
Independent vocabulary: operations that are compatible with the Bloch character of the translations.
-/
import Verif.Spec.Lattice
import Verif.Spec.Corep
import Mathlib.Analysis.Complex.Exponential
import Mathlib.Analysis.Real.Pi.Bounds

namespace Spgrep.Spec

/-- The operator of a pure translation `x` on Bloch states of wave vector `k` (core.py: `Γ(E, t) = e^{-ik·t}`). -/
noncomputable def blochPhase (k x : Fin 3 → ℝ) : ℂ := Complex.exp (-2 * Real.pi * (∑ a, k a * x a : ℝ) * Complex.I)

/-- The law of a co-representation for `g x = (R x) g`, where `x` is a translation of the lattice generated by the columns of `P`
and `g` an operation with rotation `R`, anti-linear if `θ`: the operator `e^{-ik·x}`, conjugated when it is moved past an
anti-linear operator, is the operator of `R x`. -/
def BlochCompatible (P : Matrix (Fin 3) (Fin 3) ℝ) (R : Matrix (Fin 3) (Fin 3) ℤ) (θ : Bool) (k : Fin 3 → ℝ) : Prop :=
  ∀ x ∈ columnLattice P, blochPhase k (fun a => ∑ b, (R a b : ℝ) * x b) = conjIf θ (blochPhase k x)

end Spgrep.Spec
