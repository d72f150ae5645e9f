/-
Independent vocabulary for space groups in a primitive basis and for factor systems.
-/
import Verif.Spec.Group
import Verif.Spec.Rep
import Mathlib.Analysis.SpecialFunctions.Trigonometric.Basic

namespace Spgrep.Spec

variable {n : ℕ}

/-- The operations `(R_i, w_i)` are coset representatives, modulo the lattice `ℤ³`, of a space group
written in a primitive basis: the rotations enumerate a group and products of representatives agree
with representatives up to an integer translation. -/
def IsSpaceGroup (rots : Fin n → Matrix (Fin 3) (Fin 3) ℤ) (trans : Fin n → Fin 3 → ℝ) : Prop :=
  EnumeratesGroup rots ∧ ∀ i j l, rots i * rots j = rots l → ∀ a, ∃ m : ℤ,
    (∑ b, (rots i a b : ℝ) * trans j b) + trans i a - trans l a = m

/-- `R` fixes the k-point modulo reciprocal lattice vectors: `Rᵀ k - k ∈ ℤ³`. -/
def FixesK (R : Matrix (Fin 3) (Fin 3) ℤ) (k : Fin 3 → ℝ) : Prop :=
  ∀ a, ∃ m : ℤ, (∑ b, (R b a : ℝ) * k b) - k a = m

/-- `μ` satisfies the 2-cocycle condition with respect to the multiplication table `T`. -/
def IsCocycle (T : Fin n → Fin n → Fin n) (μ : Fin n → Fin n → ℂ) : Prop :=
  ∀ i j k, μ i (T j k) * μ j k = μ (T i j) k * μ i j

/-- The multiplication law of a (spinor) small representation at `k`:
`Γ_i Γ_j = z(i,j) exp(-2πi k·(R_i w_j + w_i - w_l)) Γ_l` whenever `R_i R_j = R_l`.  The exponent is the
lattice translation by which the product differs from the chosen representative `l`. -/
def SpaceGroupLaw {ι : Type*} [Fintype ι] (rots : Fin n → Matrix (Fin 3) (Fin 3) ℤ)
    (trans : Fin n → Fin 3 → ℝ) (k : Fin 3 → ℝ) (z : Fin n → Fin n → ℂ)
    (Γ : Fin n → Matrix ι ι ℂ) : Prop :=
  ∀ i j l, rots i * rots j = rots l →
    Γ i * Γ j = (z i j * Complex.exp (-2 * Real.pi * Complex.I *
      ((∑ a, k a * ((∑ b, (rots i a b : ℝ) * trans j b) + trans i a - trans l a) : ℝ) : ℂ))) • Γ l

/-- `g` is regular at `k`: whenever a rotation commutes with that of `g`, the commutator of the two space-group
operations, a lattice translation, has trivial phase at `k`. -/
def RegularAt (rots : Fin n → Matrix (Fin 3) (Fin 3) ℤ) (trans : Fin n → Fin 3 → ℝ) (k : Fin 3 → ℝ) (g : Fin n) : Prop :=
  ∀ x, rots x * rots g = rots g * rots x → ∃ q : ℤ,
    ∑ a, k a * (((∑ b, (rots x a b : ℝ) * trans g b) + trans x a) - ((∑ b, (rots g a b : ℝ) * trans x b) + trans g a)) = q

end Spgrep.Spec
