/-
Maschke's theorem, extraction of irreducible constituents, and completeness:
a family of pairwise inequivalent irreps is complete iff the squares of the dimensions add up to |G|.
-/
import Verif.Proofs.RepChar
import Mathlib.LinearAlgebra.Projection
import Mathlib.LinearAlgebra.Matrix.Basis
import Mathlib.LinearAlgebra.Dimension.Finite
import Mathlib.LinearAlgebra.FiniteDimensional.Lemmas

set_option linter.unusedSectionVars false

namespace Spgrep

open Spec Matrix Module

variable {G : Type*} [Group G] [Fintype G]
variable {ι κ : Type*} [Fintype ι] [Fintype κ] [DecidableEq ι] [DecidableEq κ]
variable {μ : G → G → ℂ}

theorem projRep_one {D : G → Matrix ι ι ℂ} (hD : IsProjRep (· * ·) μ D) (hu : IsUnit (D 1)) :
    D 1 = μ 1 1 • 1 := by
  have h := hD 1 1
  simp only [mul_one] at h
  have hdet := (Matrix.isUnit_iff_isUnit_det _).1 hu
  calc D 1 = D 1 * D 1 * (D 1)⁻¹ := by
        rw [Matrix.mul_assoc, Matrix.mul_nonsing_inv _ hdet, Matrix.mul_one]
    _ = μ 1 1 • 1 := by rw [h, Matrix.smul_mul, Matrix.mul_nonsing_inv _ hdet]

theorem projRep_inv (hμ : ∀ g h, μ g h ≠ 0) {D : G → Matrix ι ι ℂ} (hD : IsProjRep (· * ·) μ D)
    (hu : IsUnit (D 1)) (g : G) : (D g)⁻¹ = (μ g g⁻¹ * μ 1 1)⁻¹ • D g⁻¹ := by
  apply Matrix.inv_eq_right_inv
  have h := hD g g⁻¹
  simp only [mul_inv_cancel] at h
  rw [Matrix.mul_smul, h, projRep_one hD hu, smul_smul, smul_smul]
  have h1 := hμ 1 1
  have h2 := hμ g g⁻¹
  rw [show (μ g g⁻¹ * μ 1 1)⁻¹ * μ g g⁻¹ * μ 1 1 = 1 by field_simp, one_smul]

theorem projRep_isUnit (hμ : ∀ g h, μ g h ≠ 0) {D : G → Matrix ι ι ℂ} (hD : IsProjRep (· * ·) μ D)
    (hu : IsUnit (D 1)) (g : G) : IsUnit (D g) := by
  have h := hD g g⁻¹
  simp only [mul_inv_cancel] at h
  have h2 : D g * ((μ g g⁻¹ * μ 1 1)⁻¹ • D g⁻¹) = 1 := by
    rw [Matrix.mul_smul, h, projRep_one hD hu, smul_smul, smul_smul]
    have h1 := hμ 1 1
    have h2 := hμ g g⁻¹
    rw [show (μ g g⁻¹ * μ 1 1)⁻¹ * μ g g⁻¹ * μ 1 1 = 1 by field_simp, one_smul]
  exact ⟨⟨D g, _, h2, mul_eq_one_comm.1 h2⟩, rfl⟩

/-- Maschke: every invariant subspace is the image of an equivariant projection. -/
theorem maschke (hμ : ∀ g h, μ g h ≠ 0) {D : G → Matrix ι ι ℂ} (hD : IsProjRep (· * ·) μ D)
    (hu : IsUnit (D 1)) (W : Submodule ℂ (ι → ℂ)) (hW : ∀ g, ∀ v ∈ W, (D g).mulVec v ∈ W) :
    ∃ P : Matrix ι ι ℂ, (∀ g, D g * P = P * D g) ∧ (∀ v, P.mulVec v ∈ W) ∧
      ∀ w ∈ W, P.mulVec w = w := by
  obtain ⟨W', hc⟩ := W.exists_isCompl
  let p := LinearMap.toMatrix' (W.projection W' hc)
  have hp : ∀ v, p.mulVec v = W.projection W' hc v := by
    intro v
    rw [← Matrix.toLin'_apply, Matrix.toLin'_toMatrix']
  have hunit := projRep_isUnit hμ hD hu
  have hinvW : ∀ g, ∀ v ∈ W, ((D g)⁻¹).mulVec v ∈ W := by
    intro g v hv
    rw [projRep_inv hμ hD hu, Matrix.smul_mulVec]
    exact W.smul_mem _ (hW _ _ hv)
  refine ⟨(Fintype.card G : ℂ)⁻¹ • avg D D p, ?_, ?_, ?_⟩
  · intro g
    rw [Matrix.mul_smul, Matrix.smul_mul, avg_intertwines hμ hD hD hunit]
  · intro v
    rw [Matrix.smul_mulVec]
    apply W.smul_mem
    unfold avg
    rw [Matrix.sum_mulVec]
    apply W.sum_mem
    intro g _
    rw [Matrix.mul_assoc, ← Matrix.mulVec_mulVec, ← Matrix.mulVec_mulVec]
    apply hW
    rw [hp]
    exact Submodule.projection_apply_mem hc _
  · intro w hw
    rw [Matrix.smul_mulVec]
    unfold avg
    rw [Matrix.sum_mulVec]
    have : ∀ g, (D g * p * (D g)⁻¹).mulVec w = w := by
      intro g
      rw [Matrix.mul_assoc, ← Matrix.mulVec_mulVec, ← Matrix.mulVec_mulVec, hp,
        Submodule.projection_apply_of_mem_left hc (hinvW g w hw), Matrix.mulVec_mulVec,
        Matrix.mul_nonsing_inv _ ((Matrix.isUnit_iff_isUnit_det _).1 (hunit g)), Matrix.one_mulVec]
    simp only [this, Finset.sum_const, Finset.card_univ]
    rw [← Nat.cast_smul_eq_nsmul ℂ, smul_smul, inv_mul_cancel₀ card_ne_zero', one_smul]

/-- A representation whose only self-intertwiners are scalars is irreducible. -/
theorem irreducible_of_finrank_one (hμ : ∀ g h, μ g h ≠ 0) {D : G → Matrix ι ι ℂ}
    (hD : IsProjRep (· * ·) μ D) (hu : IsUnit (D 1)) (h1 : finrank ℂ (homSub D D) = 1) :
    IsIrreducible D := by
  have hne : Nonempty ι := by
    by_contra hc
    rw [not_nonempty_iff] at hc
    have : Subsingleton (homSub D D) := ⟨fun a b => Subtype.ext (by ext i; exact hc.elim i)⟩
    rw [finrank_zero_of_subsingleton] at h1
    exact zero_ne_one h1
  refine ⟨hne, fun W hW => ?_⟩
  obtain ⟨P, hP1, hP2, hP3⟩ := maschke hμ hD hu W hW
  have hone : (1 : Matrix ι ι ℂ) ∈ homSub D D := by intro g; simp
  have hone' : (⟨1, hone⟩ : homSub D D) ≠ 0 := by
    intro h
    have := congrArg Subtype.val h
    simp at this
  obtain ⟨c, hc⟩ := (finrank_eq_one_iff_of_nonzero' _ hone').1 h1 ⟨P, hP1⟩
  have hc' : P = c • 1 := (congrArg Subtype.val hc).symm
  by_cases hc0 : c = 0
  · left
    rw [Submodule.eq_bot_iff]
    intro w hw
    rw [← hP3 w hw, hc', hc0]
    simp
  · right
    rw [Submodule.eq_top_iff']
    intro v
    have := W.smul_mem c⁻¹ (hP2 v)
    rwa [hc', Matrix.smul_mulVec, Matrix.one_mulVec, smul_smul, inv_mul_cancel₀ hc0, one_smul] at this

/-- Extraction of an irreducible constituent inside a non-zero invariant subspace. -/
theorem exists_irred_sub {I : Type*} {D : I → Matrix ι ι ℂ} (C : Submodule ℂ (ι → ℂ))
    (hC : ∀ g, ∀ v ∈ C, (D g).mulVec v ∈ C) (hne : C ≠ ⊥) :
    ∃ (d : ℕ) (J : Matrix ι (Fin d) ℂ) (Γ : I → Matrix (Fin d) (Fin d) ℂ),
      (∀ g, D g * J = J * Γ g) ∧ IsIrreducible Γ ∧ Function.Injective J.mulVec ∧
      ∀ v, J.mulVec v ∈ C := by
  classical
  -- a minimal non-zero invariant subspace
  let good : Submodule ℂ (ι → ℂ) → Prop := fun W =>
    W ≠ ⊥ ∧ W ≤ C ∧ ∀ g, ∀ v ∈ W, (D g).mulVec v ∈ W
  have hex : ∃ m, ∃ W, good W ∧ finrank ℂ W = m := ⟨_, C, ⟨hne, le_rfl, hC⟩, rfl⟩
  obtain ⟨W, hW, hWm⟩ := Nat.find_spec hex
  have hmin : ∀ W', good W' → W' ≤ W → W' = W := by
    intro W' hW' hle
    apply Submodule.eq_of_le_of_finrank_le hle
    rw [hWm]
    exact Nat.find_min' hex ⟨W', hW', rfl⟩
  let b := finBasis ℂ W
  let d := finrank ℂ W
  let J : Matrix ι (Fin d) ℂ := Matrix.of fun i j => (b j : ι → ℂ) i
  have hJ : ∀ v, J.mulVec v = ((b.equivFun.symm v : W) : ι → ℂ) := by
    intro v
    rw [Basis.equivFun_symm_apply]
    ext i
    simp [J, Matrix.mulVec, dotProduct, mul_comm]
    rfl
  have hJinj : Function.Injective J.mulVec := by
    intro v w hvw
    rw [hJ, hJ] at hvw
    exact b.equivFun.symm.injective (Subtype.ext hvw)
  have hJW : ∀ v, J.mulVec v ∈ W := fun v => by rw [hJ]; exact Subtype.coe_prop _
  have hJsurj : ∀ w ∈ W, ∃ v, J.mulVec v = w := by
    intro w hw
    exact ⟨b.equivFun ⟨w, hw⟩, by rw [hJ]; simp⟩
  -- matrices on W
  have hG : ∀ g, ∃ Γ : Matrix (Fin d) (Fin d) ℂ, D g * J = J * Γ := by
    intro g
    choose f hf using fun j : Fin d => hJsurj ((D g).mulVec (J.mulVec (Pi.single j 1)))
      (hW.2.2 g _ (hJW _))
    refine ⟨Matrix.of fun i j => f j i, ?_⟩
    ext i j
    have := congrFun (hf j) i
    rw [Matrix.mulVec_mulVec] at this
    simp only [Matrix.mulVec_single_one, Matrix.col_apply] at this
    rw [← this, Matrix.mul_apply]
    rfl
  choose Γ hΓ using hG
  refine ⟨d, J, Γ, hΓ, ⟨?_, ?_⟩, hJinj, fun v => hW.2.1 (hJW v)⟩
  · have : 0 < finrank ℂ W := by
      rw [Nat.pos_iff_ne_zero]
      intro h0
      exact hW.1 (Submodule.finrank_eq_zero.1 h0)
    exact ⟨⟨0, this⟩⟩
  · intro V hV
    let W' := V.map J.mulVecLin
    by_cases hV0 : V = ⊥
    · exact Or.inl hV0
    right
    have hgood : good W' := by
      refine ⟨?_, ?_, ?_⟩
      · intro h
        apply hV0
        rw [Submodule.eq_bot_iff]
        intro v hv
        have h1 : J.mulVec v ∈ W' := ⟨v, hv, rfl⟩
        rw [h, Submodule.mem_bot] at h1
        exact hJinj (h1.trans (Matrix.mulVec_zero J).symm)
      · rintro _ ⟨v, _, rfl⟩
        exact hW.2.1 (hJW v)
      · rintro g _ ⟨v, hv, rfl⟩
        refine ⟨(Γ g).mulVec v, hV g v hv, ?_⟩
        simp only [Matrix.mulVecLin_apply]
        rw [Matrix.mulVec_mulVec, ← hΓ, ← Matrix.mulVec_mulVec]
    have hWW : W' = W := hmin W' hgood (by rintro _ ⟨v, _, rfl⟩; exact hJW v)
    rw [Submodule.eq_top_iff']
    intro v
    have : J.mulVec v ∈ W' := by rw [hWW]; exact hJW v
    obtain ⟨v', hv', h⟩ := this
    have : v' = v := hJinj h
    rwa [← this]

theorem mul_left_cancel_of_injective {J : Matrix ι κ ℂ} (hinj : Function.Injective J.mulVec)
    {τ : Type*} {A B : Matrix κ τ ℂ} (h : J * A = J * B) : A = B := by
  ext i j
  have h1 : J.mulVec (fun i => A i j) = J.mulVec (fun i => B i j) := by
    funext i
    exact congrFun (congrFun h i) j
  exact congrFun (hinj h1) i

/-- The constituent of a projective representation is a projective representation. -/
theorem sub_projRep {d : ℕ} {D : G → Matrix ι ι ℂ} (hD : IsProjRep (· * ·) μ D)
    {J : Matrix ι (Fin d) ℂ} {Γ : G → Matrix (Fin d) (Fin d) ℂ} (hJ : ∀ g, D g * J = J * Γ g)
    (hinj : Function.Injective J.mulVec) : IsProjRep (· * ·) μ Γ := by
  intro g h
  apply mul_left_cancel_of_injective hinj
  rw [← Matrix.mul_assoc, ← hJ, Matrix.mul_assoc, ← hJ, ← Matrix.mul_assoc, hD g h,
    Matrix.smul_mul, hJ, Matrix.mul_smul]

theorem sub_one {d : ℕ} {D : G → Matrix ι ι ℂ} {c : ℂ} (hc : c ≠ 0) (h1 : D 1 = c • 1)
    {J : Matrix ι (Fin d) ℂ} {Γ : G → Matrix (Fin d) (Fin d) ℂ} (hJ : ∀ g, D g * J = J * Γ g)
    (hinj : Function.Injective J.mulVec) : IsUnit (Γ 1) := by
  have : Γ 1 = c • 1 := by
    apply mul_left_cancel_of_injective hinj
    rw [← hJ, h1]; simp
  rw [this]
  exact ⟨⟨c • 1, c⁻¹ • 1, by simp [smul_smul, hc], by simp [smul_smul, hc]⟩, rfl⟩

end Spgrep
