/-
Conditions under which the phases of a space group at a k-point are signs, in a conventional basis.
-/
import Verif.Spec.Lattice

namespace Spgrep.Spec

/-- Twice the products of the reciprocal lattice vectors `kR - k` with the translations of the operations that fix `k`
are integers. -/
def SignResiduals {n : ℕ} (P : Matrix (Fin 3) (Fin 3) ℝ) (rots : Fin n → Matrix (Fin 3) (Fin 3) ℤ)
    (trans : Fin n → Fin 3 → ℝ) (k : Fin 3 → ℝ) : Prop :=
  ∀ i j, FixesKLattice P (rots i) k → FixesKLattice P (rots j) k →
    ∃ m : ℤ, 2 * ∑ a, ((∑ b, (rots i b a : ℝ) * k b) - k a) * trans j a = m

/-- The group is symmorphic in the given origin; or `2k` is a reciprocal lattice vector and twice the products of the
reciprocal lattice vectors `kR - k` with the translations are integers (for example `k = 0`). -/
def SignPhases {n : ℕ} (P : Matrix (Fin 3) (Fin 3) ℝ) (rots : Fin n → Matrix (Fin 3) (Fin 3) ℤ)
    (trans : Fin n → Fin 3 → ℝ) (k : Fin 3 → ℝ) : Prop :=
  (∀ i, trans i ∈ columnLattice P) ∨
  ((∀ x ∈ columnLattice P, ∃ m : ℤ, 2 * ∑ a, k a * x a = m) ∧ SignResiduals P rots trans k)

end Spgrep.Spec
