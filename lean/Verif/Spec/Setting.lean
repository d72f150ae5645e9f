/-
Independent vocabulary: two descriptions of the same space group and k-point.
-/
import Verif.Spec.SpaceGroup

namespace Spgrep.Spec

variable {n : ℕ}

/-- The primed operations and k-point describe the same little group as the unprimed ones: another primitive
basis (`U`, with inverse `V`), another origin (`x₀`), the operations in another order (`π`), other coset
representatives (lattice vectors `m i` added to the translations) and an equivalent k-point (`G` added). -/
structure ChangeOfSetting (rots : Fin n → Matrix (Fin 3) (Fin 3) ℤ) (trans : Fin n → Fin 3 → ℝ) (k : Fin 3 → ℝ)
    (rots' : Fin n → Matrix (Fin 3) (Fin 3) ℤ) (trans' : Fin n → Fin 3 → ℝ) (k' : Fin 3 → ℝ)
    (U V : Matrix (Fin 3) (Fin 3) ℤ) (x₀ : Fin 3 → ℝ) (π : Equiv.Perm (Fin n)) (m : Fin n → Fin 3 → ℤ)
    (G : Fin 3 → ℤ) : Prop where
  inv : U * V = 1
  rot : ∀ i, rots' i = V * rots (π i) * U
  trans : ∀ i a, trans' i a = ∑ b, (V a b : ℝ) * (trans (π i) b + m i b + (∑ c, (rots (π i) b c : ℝ) * x₀ c) - x₀ b)
  kpt : ∀ a, k' a = (∑ b, (U b a : ℝ) * k b) + G a

end Spgrep.Spec
