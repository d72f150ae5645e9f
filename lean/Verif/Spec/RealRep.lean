/-
Independent vocabulary for representations by real matrices.
-/
import Verif.Spec.PhysIrrep

namespace Spgrep.Spec

variable {n : ℕ} {ι κ : Type*} [Fintype ι] [Fintype κ] [DecidableEq ι] [DecidableEq κ]

/-- Families of real matrices related by one invertible real change of basis. -/
def AreRealEquivalent (R : Fin n → Matrix ι ι ℝ) (R' : Fin n → Matrix κ κ ℝ) : Prop :=
  ∃ (S : Matrix ι κ ℝ) (S' : Matrix κ ι ℝ), S * S' = 1 ∧ S' * S = 1 ∧ ∀ g, R g * S = S * R' g

/-- `R(g) R(h) = ε(g,h) R(gh)` for the multiplication table `T`. -/
def IsRealProjRep (T : Fin n → Fin n → Fin n) (ε : Fin n → Fin n → ℝ) (R : Fin n → Matrix ι ι ℝ) : Prop :=
  ∀ g h, R g * R h = ε g h • R (T g h)

/-- A list of families of real matrices is a complete list of real irreducible representations for the multiplication
table `T` and factors `ε`: all are orthogonal representations irreducible over the reals, no two are equivalent over
the reals, and every real irreducible representation (by invertible matrices) is equivalent over the reals to one of
them. -/
structure IsCompleteRealIrreps (T : Fin n → Fin n → Fin n) (ε : Fin n → Fin n → ℝ)
    (L : List (Σ d : ℕ, Fin n → Matrix (Fin d) (Fin d) ℝ)) : Prop where
  rep : ∀ R ∈ L, IsRealProjRep T ε R.2
  orthogonal : ∀ R ∈ L, ∀ g, R.2 g * (R.2 g).transpose = 1
  irred : ∀ R ∈ L, IsRealIrreducible R.2
  inequiv : L.Pairwise fun R R' => ¬ AreRealEquivalent R.2 R'.2
  complete : ∀ (e : ℕ) (E : Fin n → Matrix (Fin e) (Fin e) ℝ), IsRealProjRep T ε E → (∀ g, IsUnit (E g)) →
    IsRealIrreducible E → ∃ R ∈ L, AreRealEquivalent E R.2

end Spgrep.Spec
