/-
Scalars of the twisted group algebra: conjugation factors, computed in the projective regular
representation.
-/
import Verif.Proofs.RepCount

set_option linter.unusedSectionVars false

namespace Spgrep

open Spec Matrix

variable {G : Type} [Group G] [Fintype G] [DecidableEq G] {μ : G → G → ℂ}

/-- A normalised unimodular 2-cocycle. -/
structure Cocy (μ : G → G → ℂ) : Prop where
  norm : ∀ g h, ‖μ g h‖ = 1
  coc : ∀ i j k, μ i (j * k) * μ j k = μ (i * j) k * μ i j
  one : μ 1 1 = 1

namespace Cocy

variable (hμ : Cocy μ)
include hμ

theorem ne (g h : G) : μ g h ≠ 0 := by
  intro h0
  have := hμ.norm g h
  rw [h0, norm_zero] at this
  norm_num at this

theorem one_left (g : G) : μ 1 g = 1 := by rw [cocycle_one_left hμ.ne hμ.coc, hμ.one]

theorem one_right (g : G) : μ g 1 = 1 := by rw [cocycle_one_right hμ.ne hμ.coc, hμ.one]

theorem reg (g h : G) : regRep μ g * regRep μ h = μ g h • regRep μ (g * h) := regRep_proj hμ.coc g h

theorem reg_one : regRep μ 1 = (1 : Matrix G G ℂ) := by
  rw [regRep_one hμ.ne hμ.coc, hμ.one, one_smul]

theorem reg_isUnit (g : G) : IsUnit (regRep μ g) :=
  projRep_isUnit hμ.ne hμ.reg (by rw [hμ.reg_one]; exact isUnit_one) g

theorem reg_cancel {g : G} {x y : ℂ} (h : x • regRep μ g = y • regRep μ g) : x = y := by
  have h1 := congrFun (congrFun h g) 1
  simp only [regRep, Matrix.smul_apply, Matrix.of_apply, mul_one, if_true, smul_eq_mul] at h1
  exact mul_right_cancel₀ (hμ.ne g 1) h1

end Cocy

/-- `u_g u_y = indc g x y u_x u_{x⁻¹ g y}` in the twisted group algebra. -/
noncomputable def indc (μ : G → G → ℂ) (g x y : G) : ℂ := μ g y / μ x (x⁻¹ * g * y)

theorem indc_ne (hμ : Cocy μ) (g x y : G) : indc μ g x y ≠ 0 := div_ne_zero (hμ.ne _ _) (hμ.ne _ _)

theorem indc_norm (hμ : Cocy μ) (g x y : G) : ‖indc μ g x y‖ = 1 := by
  unfold indc; rw [norm_div, hμ.norm, hμ.norm, div_one]

theorem indc_reg (hμ : Cocy μ) (g x y : G) :
    regRep μ g * regRep μ y = indc μ g x y • (regRep μ x * regRep μ (x⁻¹ * g * y)) := by
  rw [hμ.reg, hμ.reg, smul_smul, indc, div_mul_cancel₀ _ (hμ.ne _ _)]
  congr 2; group

theorem indc_mul (hμ : Cocy μ) (g h x y z : G) :
    indc μ g x y * indc μ h y z * μ (x⁻¹ * g * y) (y⁻¹ * h * z) = μ g h * indc μ (g * h) x z := by
  have e1 : regRep μ g * regRep μ h * regRep μ z =
      (indc μ g x y * indc μ h y z * μ (x⁻¹ * g * y) (y⁻¹ * h * z) * μ x (x⁻¹ * (g * h) * z)) •
        regRep μ (g * h * z) := by
    rw [Matrix.mul_assoc, indc_reg hμ h y z, Matrix.mul_smul, ← Matrix.mul_assoc, indc_reg hμ g x y,
      Matrix.smul_mul, Matrix.mul_assoc, hμ.reg (x⁻¹ * g * y), Matrix.mul_smul,
      show x⁻¹ * g * y * (y⁻¹ * h * z) = x⁻¹ * (g * h) * z by group, hμ.reg x, smul_smul, smul_smul, smul_smul,
      show x * (x⁻¹ * (g * h) * z) = g * h * z by group]
    congr 1; ring
  have e2 : regRep μ g * regRep μ h * regRep μ z =
      (μ g h * indc μ (g * h) x z * μ x (x⁻¹ * (g * h) * z)) • regRep μ (g * h * z) := by
    rw [hμ.reg g h, Matrix.smul_mul, indc_reg hμ (g * h) x z, hμ.reg x, smul_smul, smul_smul,
      show x * (x⁻¹ * (g * h) * z) = g * h * z by group]
  exact mul_right_cancel₀ (hμ.ne x (x⁻¹ * (g * h) * z)) (hμ.reg_cancel (e1.symm.trans e2))

/-- Conjugation factors compose. -/
theorem indc_comp (hμ : Cocy μ) (s g h : G) :
    indc μ s h h * indc μ (h⁻¹ * s * h) g g = indc μ s (h * g) (h * g) := by
  have e1 : regRep μ s * (regRep μ h * regRep μ g) =
      (indc μ s h h * indc μ (h⁻¹ * s * h) g g) •
        (regRep μ h * regRep μ g * regRep μ (g⁻¹ * (h⁻¹ * s * h) * g)) := by
    rw [← Matrix.mul_assoc, indc_reg hμ s h h, Matrix.smul_mul, Matrix.mul_assoc,
      indc_reg hμ (h⁻¹ * s * h) g g, Matrix.mul_smul, smul_smul, Matrix.mul_assoc]
  rw [hμ.reg h g, Matrix.mul_smul, indc_reg hμ s (h * g) (h * g), Matrix.smul_mul, smul_smul, smul_smul,
    show (h * g)⁻¹ * s * (h * g) = g⁻¹ * (h⁻¹ * s * h) * g by group, hμ.reg (h * g), smul_smul, smul_smul] at e1
  have e2 := hμ.reg_cancel e1
  have h1 := hμ.ne (h * g) (g⁻¹ * (h⁻¹ * s * h) * g)
  have h2 := hμ.ne h g
  apply mul_right_cancel₀ h1
  apply mul_right_cancel₀ h2
  linear_combination -e2

/-- Multiplication of `u_x u_s` and `u_y u_t`. -/
theorem indc_split (hμ : Cocy μ) (x s y t : G) :
    indc μ s y y * μ x y * μ (y⁻¹ * s * y) t * μ (x * y) (y⁻¹ * s * y * t) =
      μ (x * s) (y * t) * μ x s * μ y t := by
  have e1 : regRep μ x * regRep μ s * (regRep μ y * regRep μ t) =
      (indc μ s y y * μ x y * μ (y⁻¹ * s * y) t * μ (x * y) (y⁻¹ * s * y * t)) •
        regRep μ (x * s * (y * t)) := by
    have : regRep μ x * regRep μ s * (regRep μ y * regRep μ t) =
        regRep μ x * (regRep μ s * regRep μ y) * regRep μ t := by simp only [Matrix.mul_assoc]
    rw [this, indc_reg hμ s y y, Matrix.mul_smul, Matrix.smul_mul, ← Matrix.mul_assoc, hμ.reg x y,
      Matrix.mul_assoc, hμ.reg (y⁻¹ * s * y) t, Matrix.smul_mul, Matrix.mul_smul, hμ.reg (x * y), smul_smul,
      smul_smul, smul_smul, show x * y * (y⁻¹ * s * y * t) = x * s * (y * t) by group]
  have e2 : regRep μ x * regRep μ s * (regRep μ y * regRep μ t) =
      (μ (x * s) (y * t) * μ x s * μ y t) • regRep μ (x * s * (y * t)) := by
    rw [hμ.reg x s, hμ.reg y t, Matrix.smul_mul, Matrix.mul_smul, hμ.reg (x * s), smul_smul, smul_smul]
    congr 1; ring
  exact hμ.reg_cancel (e1.symm.trans e2)

theorem indc_one (hμ : Cocy μ) (s : G) : indc μ s 1 1 = 1 := by
  simp [indc, hμ.one_left, hμ.one_right]

end Spgrep
