/-
Independent vocabulary for a whole space group, with its infinitely many translations, and its representations.
-/
import Verif.Spec.SpaceGroup
import Mathlib.Algebra.Group.Subgroup.Lattice
import Mathlib.Algebra.Group.End

namespace Spgrep.Spec

variable {n : ℕ}

/-- The map `f` is the operation `x ↦ R x + w + t`. -/
def IsOperation (R : Matrix (Fin 3) (Fin 3) ℤ) (w : Fin 3 → ℝ) (t : Fin 3 → ℤ) (f : Equiv.Perm (Fin 3 → ℝ)) : Prop :=
  ∀ x a, f x a = (∑ b, (R a b : ℝ) * x b) + w a + t a

/-- The space group: all maps of space generated by the operations and the lattice translations. -/
def spaceGroup (rots : Fin n → Matrix (Fin 3) (Fin 3) ℤ) (trans : Fin n → Fin 3 → ℝ) : Subgroup (Equiv.Perm (Fin 3 → ℝ)) :=
  Subgroup.closure {f | ∃ i t, IsOperation (rots i) (trans i) t f}

/-- The phase `exp(-2πi k·t)`. -/
noncomputable def transPhase (k t : Fin 3 → ℝ) : ℂ :=
  Complex.exp (-2 * Real.pi * Complex.I * ((∑ a, k a * t a : ℝ) : ℂ))

variable {rots : Fin n → Matrix (Fin 3) (Fin 3) ℤ} {trans : Fin n → Fin 3 → ℝ} {ε : Type*} [Fintype ε] [DecidableEq ε]

/-- A representation of the whole group contains a Bloch state at `k`. -/
def HasBloch (k : Fin 3 → ℝ) (E : spaceGroup rots trans →* Matrix ε ε ℂ) : Prop :=
  ∃ v, v ≠ 0 ∧ ∀ (g : spaceGroup rots trans) (t : Fin 3 → ℤ), IsOperation 1 0 t g.1 →
    (E g).mulVec v = transPhase k (fun a => t a) • v

/-- A representation of the whole group contains states that transform by `Γ` under the operations listed by `M`, and by the
phases of `k` under translations. -/
def SubducesTo (k : Fin 3 → ℝ) (M : List (Fin n)) {d : ℕ} (Γ : Fin M.length → Matrix (Fin d) (Fin d) ℂ)
    (E : spaceGroup rots trans →* Matrix ε ε ℂ) : Prop :=
  ∃ X : Matrix ε (Fin d) ℂ, X ≠ 0 ∧ ∀ (g : spaceGroup rots trans) (p : Fin M.length) (t : Fin 3 → ℤ),
    IsOperation (rots (M.get p)) (trans (M.get p)) t g.1 → E g * X = transPhase k (fun a => t a) • (X * Γ p)

end Spgrep.Spec
