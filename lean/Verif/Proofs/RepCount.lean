/-
Counting: squares of dimensions of a family of pairwise inequivalent projective irreps.
-/
import Verif.Proofs.RepComplete
import Mathlib.LinearAlgebra.LinearIndependent.Lemmas

set_option linter.unusedSectionVars false

namespace Spgrep

open Spec Matrix Module

variable {G : Type*} [Group G] [Fintype G]
variable {μ : G → G → ℂ} {A : Type*} [Fintype A] {d : A → ℕ}

/-- Pairwise inequivalent projective irreps (not necessarily all of them). -/
structure IrrepFamily (μ : G → G → ℂ) (D : ∀ a : A, G → Matrix (Fin (d a)) (Fin (d a)) ℂ) : Prop where
  proj : ∀ a, IsProjRep (· * ·) μ (D a)
  unit : ∀ a g, IsUnit (D a g)
  irr : ∀ a, IsIrreducible (D a)
  ineq : ∀ a b, AreEquivalent (D a) (D b) → a = b

variable {D : ∀ a : A, G → Matrix (Fin (d a)) (Fin (d a)) ℂ}

/-- All matrix coefficients of an irrep family, as functions on the group. -/
def coeffs (D : ∀ a : A, G → Matrix (Fin (d a)) (Fin (d a)) ℂ)
    (x : Σ a, Fin (d a) × Fin (d a)) : G → ℂ := fun g => D x.1 g x.2.1 x.2.2

theorem coeffs_linearIndependent (hμ : ∀ g h, μ g h ≠ 0) (hF : IrrepFamily μ D) :
    LinearIndependent ℂ (coeffs D) := by
  classical
  rw [Fintype.linearIndependent_iff]
  rintro c hc ⟨b, k, l⟩
  have hcg : ∀ g, ∑ x : (Σ a, Fin (d a) × Fin (d a)), c x * D x.1 g x.2.1 x.2.2 = 0 := by
    intro g
    have := congrFun hc g
    simpa [coeffs] using this
  have hsum : ∑ g, (∑ x : (Σ a, Fin (d a) × Fin (d a)), c x * D x.1 g x.2.1 x.2.2) *
      (D b g)⁻¹ l k = 0 := by simp [hcg]
  have hcard : (Fintype.card (Fin (d b)) : ℂ) ≠ 0 := by
    have := (hF.irr b).1
    exact_mod_cast Fintype.card_ne_zero
  have hG : (Fintype.card G : ℂ) ≠ 0 := card_ne_zero'
  simp only [Finset.sum_mul] at hsum
  rw [Finset.sum_comm] at hsum
  rw [Finset.sum_eq_single (⟨b, k, l⟩ : Σ a, Fin (d a) × Fin (d a))] at hsum
  · simp only [mul_assoc] at hsum
    rw [← Finset.mul_sum,
      schur_orthogonality_self hμ (hF.proj b) (hF.irr b) (hF.unit b) k l l k] at hsum
    simp only [and_self, if_true] at hsum
    rcases mul_eq_zero.1 hsum with h | h
    · exact h
    · exact absurd h (div_ne_zero hG hcard)
  · rintro ⟨a, i, j⟩ _ hne
    simp only [mul_assoc]
    rw [← Finset.mul_sum]
    by_cases hab : a = b
    · subst hab
      rw [schur_orthogonality_self hμ (hF.proj a) (hF.irr a) (hF.unit a) i j l k, if_neg, mul_zero]
      rintro ⟨rfl, rfl⟩
      exact hne rfl
    · rw [schur_orthogonality_ne hμ (hF.proj a) (hF.proj b) (hF.irr a) (hF.irr b) (hF.unit b)
        (fun h => hab (hF.ineq _ _ h)) i j l k, mul_zero]
  · intro h
    exact absurd (Finset.mem_univ _) h

theorem sum_sq_le_card (hμ : ∀ g h, μ g h ≠ 0) (hF : IrrepFamily μ D) :
    ∑ a, d a ^ 2 ≤ Fintype.card G := by
  have h := (coeffs_linearIndependent hμ hF).fintype_card_le_finrank
  rw [finrank_fintype_fun_eq_card] at h
  simpa [Fintype.card_sigma, sq] using h

theorem coeffs_span_of_card (hμ : ∀ g h, μ g h ≠ 0) (hF : IrrepFamily μ D)
    (hcard : ∑ a, d a ^ 2 = Fintype.card G) : Submodule.span ℂ (Set.range (coeffs D)) = ⊤ := by
  apply LinearIndependent.span_eq_top_of_card_eq_finrank' (coeffs_linearIndependent hμ hF)
  rw [finrank_fintype_fun_eq_card, ← hcard]
  simp [Fintype.card_sigma, sq]

/-- If the squares of dimensions add up to |G|, every projective irrep occurs in the family. -/
theorem complete_of_card (hμ : ∀ g h, μ g h ≠ 0) (hF : IrrepFamily μ D)
    (hcard : ∑ a, d a ^ 2 = Fintype.card G) {κ : Type*} [Fintype κ] [DecidableEq κ]
    {Γ : G → Matrix κ κ ℂ} (hΓ : IsProjRep (· * ·) μ Γ) (hΓu : ∀ g, IsUnit (Γ g))
    (hΓi : IsIrreducible Γ) : ∃ a, AreEquivalent (D a) Γ := by
  by_contra hno
  push Not at hno
  obtain ⟨k0⟩ := hΓi.1
  have key : ∀ f : G → ℂ, ∑ g, f g * (Γ g)⁻¹ k0 k0 = 0 := by
    intro f
    have hf : f ∈ Submodule.span ℂ (Set.range (coeffs D)) := by
      rw [coeffs_span_of_card hμ hF hcard]; trivial
    induction hf using Submodule.span_induction with
    | mem x hx =>
      obtain ⟨⟨a, i, j⟩, rfl⟩ := hx
      exact schur_orthogonality_ne hμ (hF.proj a) hΓ (hF.irr a) hΓi hΓu (hno a) i j k0 k0
    | zero => simp
    | add x y _ _ hx hy => simp [add_mul, Finset.sum_add_distrib, hx, hy]
    | smul c x _ hx => simp [mul_assoc, ← Finset.mul_sum, hx]
  classical
  have h1 := key (Pi.single 1 1)
  rw [Finset.sum_eq_single 1] at h1
  · have hone := projRep_one hΓ (hΓu 1)
    have hinv : (Γ 1)⁻¹ = (μ 1 1)⁻¹ • 1 := by
      apply Matrix.inv_eq_right_inv
      rw [hone]
      simp [smul_smul, hμ 1 1]
    rw [hinv] at h1
    simp [hμ 1 1] at h1
  · intro g _ hg
    simp [hg]
  · intro h
    exact absurd (Finset.mem_univ _) h

/-- The projective (left) regular representation of a cocycle. -/
def regRep [DecidableEq G] (μ : G → G → ℂ) (g : G) : Matrix G G ℂ :=
  Matrix.of fun i j => if i = g * j then μ g j else 0

theorem regRep_proj [DecidableEq G] (hc : ∀ i j k, μ i (j * k) * μ j k = μ (i * j) k * μ i j) :
    IsProjRep (· * ·) μ (regRep μ) := by
  intro g h
  ext i j
  simp only [Matrix.mul_apply, regRep, Matrix.of_apply, Matrix.smul_apply, smul_eq_mul]
  rw [Finset.sum_eq_single (h * j)]
  · simp only [if_true]
    by_cases hi : i = g * (h * j)
    · rw [if_pos hi, if_pos (by rw [hi, mul_assoc]), hc, mul_comm]
    · rw [if_neg hi, if_neg (by rwa [mul_assoc]), zero_mul, mul_zero]
  · intro x _ hx
    rw [if_neg hx, mul_zero]
  · intro hx
    exact absurd (Finset.mem_univ _) hx

theorem cocycle_one_left (hμ : ∀ g h, μ g h ≠ 0)
    (hc : ∀ i j k, μ i (j * k) * μ j k = μ (i * j) k * μ i j) (g : G) : μ 1 g = μ 1 1 := by
  have h := hc 1 1 g
  simp only [one_mul] at h
  exact mul_left_cancel₀ (hμ 1 g) h

theorem cocycle_one_right (hμ : ∀ g h, μ g h ≠ 0)
    (hc : ∀ i j k, μ i (j * k) * μ j k = μ (i * j) k * μ i j) (g : G) : μ g 1 = μ 1 1 := by
  have h := hc g 1 1
  simp only [mul_one] at h
  exact (mul_left_cancel₀ (hμ g 1) h).symm

theorem regRep_one [DecidableEq G] (hμ : ∀ g h, μ g h ≠ 0)
    (hc : ∀ i j k, μ i (j * k) * μ j k = μ (i * j) k * μ i j) : regRep μ 1 = μ 1 1 • 1 := by
  ext i j
  simp [regRep, Matrix.one_apply, cocycle_one_left hμ hc j]

/-- If every projective irrep occurs in the family, the squares of dimensions add up to |G|. -/
theorem card_of_complete (hμ : ∀ g h, μ g h ≠ 0)
    (hc : ∀ i j k, μ i (j * k) * μ j k = μ (i * j) k * μ i j) (hF : IrrepFamily μ D)
    (hcomp : ∀ (e : ℕ) (Γ : G → Matrix (Fin e) (Fin e) ℂ), IsProjRep (· * ·) μ Γ →
      (∀ g, IsUnit (Γ g)) → IsIrreducible Γ → ∃ a, AreEquivalent (D a) Γ) :
    ∑ a, d a ^ 2 = Fintype.card G := by
  classical
  apply le_antisymm (sum_sq_le_card hμ hF)
  -- Fourier transform
  let F : (G → ℂ) →ₗ[ℂ] (∀ a, Matrix (Fin (d a)) (Fin (d a)) ℂ) :=
    { toFun := fun f a => ∑ g, f g • D a g
      map_add' := by intro f f'; funext a; simp [add_smul, Finset.sum_add_distrib]
      map_smul' := by intro c f; funext a; simp [smul_smul, Finset.smul_sum] }
  have hFinj : Function.Injective F := by
    rw [← LinearMap.ker_eq_bot, Submodule.eq_bot_iff]
    intro f hf
    rw [LinearMap.mem_ker] at hf
    let R := regRep μ
    have hR := regRep_proj hc
    have hR1 := regRep_one hμ hc
    have hRu : IsUnit (R 1) := by
      rw [show R 1 = μ 1 1 • (1 : Matrix G G ℂ) from hR1]
      exact ⟨⟨μ 1 1 • 1, (μ 1 1)⁻¹ • 1, by simp [smul_smul, hμ 1 1], by simp [smul_smul, hμ 1 1]⟩, rfl⟩
    -- vectors killed by all functions with vanishing transform
    let K : Submodule ℂ (G → ℂ) :=
      { carrier := {v | ∀ f, F f = 0 → (∑ g, f g • R g).mulVec v = 0}
        add_mem' := by intro v w hv hw f hf; rw [Matrix.mulVec_add, hv f hf, hw f hf, add_zero]
        zero_mem' := by intro f _; rw [Matrix.mulVec_zero]
        smul_mem' := by intro c v hv f hf; rw [Matrix.mulVec_smul, hv f hf, smul_zero] }
    have hKinv : ∀ g, ∀ v ∈ K, (R g).mulVec v ∈ K := by
      intro h v hv f hf
      let f' : G → ℂ := fun x => f (x * h⁻¹) * μ (x * h⁻¹) h
      have hre : ∀ {τ : Type _} [Fintype τ] [DecidableEq τ] (E : G → Matrix τ τ ℂ),
          IsProjRep (· * ·) μ E → ∑ x, f' x • E x = (∑ g, f g • E g) * E h := by
        intro τ _ _ E hE
        rw [← Equiv.sum_comp (Equiv.mulRight h), Matrix.sum_mul]
        apply Finset.sum_congr rfl
        intro g _
        simp only [Equiv.coe_mulRight, f', mul_inv_cancel_right]
        rw [Matrix.smul_mul, hE g h, smul_smul]
      have hf' : F f' = 0 := by
        funext a
        show ∑ x, f' x • D a x = 0
        have h2 : ∑ g, f g • D a g = 0 := congrFun hf a
        rw [← Equiv.sum_comp (Equiv.mulRight h)]
        have : ∀ g, f' (Equiv.mulRight h g) • D a (Equiv.mulRight h g) = (f g • D a g) * D a h := by
          intro g
          simp only [Equiv.coe_mulRight, f', mul_inv_cancel_right]
          rw [Matrix.smul_mul, hF.proj a g h, smul_smul]
        simp only [this]
        rw [← Matrix.sum_mul, h2, Matrix.zero_mul]
      have h3 := hv f' hf'
      rw [hre R hR] at h3
      rwa [Matrix.mulVec_mulVec]
    have hKtop : K = ⊤ := by
      by_contra hne
      obtain ⟨P, hP1, hP2, hP3⟩ := maschke hμ hR hRu K hKinv
      -- complement: kernel of P
      let C := LinearMap.ker P.mulVecLin
      have hCinv : ∀ g, ∀ v ∈ C, (R g).mulVec v ∈ C := by
        intro g v hv
        simp only [C, LinearMap.mem_ker, Matrix.mulVecLin_apply] at hv ⊢
        rw [Matrix.mulVec_mulVec, ← hP1, ← Matrix.mulVec_mulVec, hv, Matrix.mulVec_zero]
      have hCne : C ≠ ⊥ := by
        intro hC
        apply hne
        rw [Submodule.eq_top_iff']
        intro v
        have h4 : v - P.mulVec v ∈ C := by
          simp only [C, LinearMap.mem_ker, Matrix.mulVecLin_apply]
          rw [Matrix.mulVec_sub, hP3 _ (hP2 v), sub_self]
        rw [hC, Submodule.mem_bot, sub_eq_zero] at h4
        rw [h4]; exact hP2 v
      obtain ⟨e, J, Γ, hJ, hΓ, hJinj, hJC⟩ := exists_irred_sub C hCinv hCne
      have hΓp := sub_projRep hR hJ hJinj
      have hΓ1 := sub_one (hμ 1 1) hR1 hJ hJinj
      have hΓu := projRep_isUnit hμ hΓp hΓ1
      obtain ⟨a, S, S', h1, h2, hS⟩ := hcomp e Γ hΓp hΓu hΓ
      -- the image of J lies in K
      have hJK : ∀ v, J.mulVec v ∈ K := by
        intro v f hf
        have h5 : ∑ g, f g • Γ g = 0 := by
          have h6 : ∑ g, f g • D a g = 0 := congrFun hf a
          have h7 : S * (∑ g, f g • Γ g) = (∑ g, f g • D a g) * S := by
            rw [Matrix.mul_sum, Matrix.sum_mul]
            apply Finset.sum_congr rfl
            intro g _
            rw [Matrix.mul_smul, Matrix.smul_mul, hS]
          rw [h6, Matrix.zero_mul] at h7
          calc _ = S' * S * ∑ g, f g • Γ g := by rw [h2, Matrix.one_mul]
            _ = 0 := by rw [Matrix.mul_assoc, h7, Matrix.mul_zero]
        rw [Matrix.mulVec_mulVec, Matrix.sum_mul]
        have h8 : ∀ g, f g • R g * J = J * (f g • Γ g) := by
          intro g; rw [Matrix.smul_mul, hJ, Matrix.mul_smul]
        simp only [h8]
        rw [← Matrix.mul_sum, h5, Matrix.mul_zero, Matrix.zero_mulVec]
      -- but it also lies in C, where P vanishes
      obtain ⟨i0⟩ := hΓ.1
      have h9 := hJC (Pi.single i0 1)
      simp only [C, LinearMap.mem_ker, Matrix.mulVecLin_apply] at h9
      rw [hP3 _ (hJK _)] at h9
      have h10 : (Pi.single i0 1 : Fin e → ℂ) = 0 := hJinj (h9.trans (Matrix.mulVec_zero J).symm)
      have := congrFun h10 i0
      simp at this
    -- apply to the unit vector at the identity
    have h11 : (Pi.single 1 1 : G → ℂ) ∈ K := by rw [hKtop]; trivial
    have h12 := h11 f hf
    funext g
    have h13 := congrFun h12 g
    rw [Matrix.sum_mulVec, Finset.sum_apply] at h13
    rw [Finset.sum_eq_single g] at h13
    · simp [R, regRep, cocycle_one_right hμ hc] at h13
      rcases h13 with h | h
      · exact h
      · exact absurd h (hμ 1 1)
    · intro x _ hx
      simp [R, regRep, hx.symm]
    · intro h
      exact absurd (Finset.mem_univ _) h
  have h := LinearMap.finrank_le_finrank_of_injective hFinj
  rw [finrank_fintype_fun_eq_card, finrank_pi_fintype] at h
  simpa [finrank_matrix, sq] using h

end Spgrep
