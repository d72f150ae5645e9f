/-
k-points without near misses.
-/
import Verif.Spec.Lattice

namespace Spgrep.Spec

/-- No operation moves `k` by almost a reciprocal lattice vector only: if, for the three vectors generating the lattice
(the columns of `P`), `(Rᵀk - k)·P_a` is within `atol` of integers, then `R` fixes `k` modulo the reciprocal lattice. -/
def NoNearMiss {n : ℕ} (P : Matrix (Fin 3) (Fin 3) ℝ) (rots : Fin n → Matrix (Fin 3) (Fin 3) ℤ) (k : Fin 3 → ℝ)
    (atol : ℝ) : Prop :=
  ∀ i, (∃ m : Fin 3 → ℤ, ∀ a, |∑ c, ((∑ b, (rots i b c : ℝ) * k b) - k c) * P c a - m a| ≤ atol) →
    FixesKLattice P (rots i) k

end Spgrep.Spec
