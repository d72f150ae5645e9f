/-
Independent vocabulary for the classification of co-representations.
-/
import Verif.Spec.Corep

namespace Spgrep.Spec

variable {n : ℕ} {ι κ : Type*} [Fintype ι] [Fintype κ] [DecidableEq ι] [DecidableEq κ]

/-- No subspace except 0 and the whole (non-zero) space is invariant under the linear operators `v ↦ D_i v` and the
anti-linear operators `v ↦ D_i v*`. -/
def IsIrreducibleCorep (a : Fin n → Bool) (D : Fin n → Matrix ι ι ℂ) : Prop :=
  Nonempty ι ∧ ∀ W : Submodule ℂ (ι → ℂ),
    (∀ i, ∀ v ∈ W, (D i).mulVec (fun x => conjIf (a i) (v x)) ∈ W) → W = ⊥ ∨ W = ⊤

/-- Equivalent co-representations: related by one invertible change of basis, conjugated for the anti-linear operators. -/
def AreCorepEquivalent (a : Fin n → Bool) (D : Fin n → Matrix ι ι ℂ) (E : Fin n → Matrix κ κ ℂ) : Prop :=
  ∃ (S : Matrix ι κ ℂ) (S' : Matrix κ ι ℂ), S * S' = 1 ∧ S' * S = 1 ∧ ∀ i, D i * S.map (conjIf (a i)) = S * E i

/-- A complete list of unitary irreducible co-representations for the multiplication table `T`, the flags `a` of anti-linear
operations and the factor system `ω`: all are such, no two are equivalent, and every irreducible one is equivalent to one of
the list. -/
structure IsCompleteCoreps (T : Fin n → Fin n → Fin n) (a : Fin n → Bool) (ω : Fin n → Fin n → ℂ)
    (L : List (Σ d : ℕ, Fin n → Matrix (Fin d) (Fin d) ℂ)) : Prop where
  law : ∀ D ∈ L, CorepLaw T a ω D.2
  unitary : ∀ D ∈ L, IsUnitaryRep D.2
  irred : ∀ D ∈ L, IsIrreducibleCorep a D.2
  inequiv : L.Pairwise fun D E => ¬ AreCorepEquivalent a D.2 E.2
  complete : ∀ (e : ℕ) (E : Fin n → Matrix (Fin e) (Fin e) ℂ), CorepLaw T a ω E → (∀ i, IsUnit (E i)) →
    IsIrreducibleCorep a E → ∃ D ∈ L, AreCorepEquivalent a E D.2

end Spgrep.Spec
