/-
Almost representations by unitary matrices are near unitary representations.
-/
import Verif.Proofs.Ulam
import Verif.Proofs.TableRep
import Verif.Proofs.Enumerate
import Mathlib.Analysis.CStarAlgebra.Matrix
import Mathlib.Analysis.Matrix.Spectrum

namespace Spgrep

open Spec Matrix

open scoped Matrix.Norms.L2Operator

variable {n d : ℕ}

/-! ### The operator norm -/

theorem l2_entry_le (A : Matrix (Fin d) (Fin d) ℂ) (i j : Fin d) : ‖A i j‖ ≤ ‖A‖ := by
  have h1 := Matrix.l2_opNorm_mulVec A (EuclideanSpace.single j (1 : ℂ))
  rw [EuclideanSpace.norm_single, norm_one, mul_one] at h1
  refine le_trans ?_ h1
  have h2 := PiLp.norm_apply_le (WithLp.toLp 2 (A *ᵥ (EuclideanSpace.single j (1 : ℂ)))) i
  refine le_trans (le_of_eq ?_) h2
  simp

theorem l2_le_entries {A : Matrix (Fin d) (Fin d) ℂ} {B : ℝ} (hB : 0 ≤ B) (h : ∀ i j, ‖A i j‖ ≤ B) : ‖A‖ ≤ d * B := by
  rw [Matrix.cstar_norm_def]
  refine ContinuousLinearMap.opNorm_le_bound _ (by positivity) fun x => ?_
  rw [EuclideanSpace.norm_eq, EuclideanSpace.norm_eq]
  have h1 : ∀ i, ‖(Matrix.toEuclideanCLM (n := Fin d) (𝕜 := ℂ) A x) i‖ ^ 2 ≤ d * B ^ 2 * ∑ j, ‖x j‖ ^ 2 := by
    intro i
    have h2 : (Matrix.toEuclideanCLM (n := Fin d) (𝕜 := ℂ) A x) i = ∑ j, A i j * x j := rfl
    have h3 : ‖∑ j, A i j * x j‖ ≤ ∑ j, B * ‖x j‖ :=
      (norm_sum_le _ _).trans (Finset.sum_le_sum fun j _ => by
        rw [norm_mul]; exact mul_le_mul_of_nonneg_right (h i j) (norm_nonneg _))
    have h4 := Finset.sum_mul_sq_le_sq_mul_sq Finset.univ (fun _ : Fin d => B) fun j => ‖x j‖
    rw [h2]
    calc _ ≤ (∑ j, B * ‖x j‖) ^ 2 := pow_le_pow_left₀ (norm_nonneg _) h3 2
      _ ≤ _ := h4
      _ = _ := by simp
  rw [← Real.sqrt_sq (by positivity : (0 : ℝ) ≤ d * B), ← Real.sqrt_mul (by positivity)]
  apply Real.sqrt_le_sqrt
  calc _ ≤ ∑ _i : Fin d, d * B ^ 2 * ∑ j, ‖x j‖ ^ 2 := Finset.sum_le_sum fun i _ => h1 i
    _ = _ := by rw [Finset.sum_const, Finset.card_univ, Fintype.card_fin, nsmul_eq_mul]; ring

theorem l2_one_le : ‖(1 : Matrix (Fin d) (Fin d) ℂ)‖ ≤ 1 := by
  rw [← Matrix.diagonal_one, Matrix.l2_opNorm_diagonal]
  exact (pi_norm_le_iff_of_nonneg zero_le_one).2 fun i => by simp

theorem l2_unitary_le {U : Matrix (Fin d) (Fin d) ℂ} (h : U * U.conjTranspose = 1) : ‖U‖ ≤ 1 := by
  have h1 := Matrix.l2_opNorm_conjTranspose_mul_self U
  rw [mul_eq_one_comm.1 h] at h1
  nlinarith [norm_nonneg U, l2_one_le (d := d)]

/-! ### The theorem -/

/-- Almost unitary matrices: norm and inverse. -/
theorem almost_unitary_unit {U : Matrix (Fin d) (Fin d) ℂ} {θ : ℝ} (h : ‖U * U.conjTranspose - 1‖ ≤ θ) (hθ : θ ≤ 1 / 100) :
    ‖U‖ ≤ 1 + θ ∧ IsUnit U ∧ ‖Ring.inverse U‖ ≤ 9 / 8 := by
  have : CompleteSpace (Matrix (Fin d) (Fin d) ℂ) := FiniteDimensional.complete ℂ _
  have hθ0 : 0 ≤ θ := (norm_nonneg _).trans h
  have hn : ‖U‖ ≤ 1 + θ := by
    have h1 := Matrix.l2_opNorm_conjTranspose_mul_self U.conjTranspose
    rw [conjTranspose_conjTranspose, Matrix.l2_opNorm_conjTranspose] at h1
    have h2 : ‖U * U.conjTranspose‖ ≤ 1 + θ := by
      have h3 : U * U.conjTranspose = 1 + (U * U.conjTranspose - 1) := by abel
      rw [h3]
      exact (norm_add_le _ _).trans (add_le_add l2_one_le h)
    nlinarith [norm_nonneg U]
  have hone : ‖Ring.inverse (1 : Matrix (Fin d) (Fin d) ℂ)‖ ≤ 1 := by rw [Ring.inverse_one]; exact l2_one_le
  obtain ⟨hWu, hW⟩ := unit_near (isUnit_one (M := Matrix (Fin d) (Fin d) ℂ)) hone (v := U * U.conjTranspose) (r := θ)
    (by rw [norm_sub_rev]; exact h) (by linarith)
  set W := Ring.inverse (U * U.conjTranspose) with hWd
  have hUW : U * (U.conjTranspose * W) = 1 := by rw [← mul_assoc]; exact Ring.mul_inverse_cancel _ hWu
  have hu : IsUnit U := IsUnit.of_mul_eq_one _ hUW
  have hinv : Ring.inverse U = U.conjTranspose * W := by
    have h1 := Ring.inverse_mul_cancel _ hu
    calc Ring.inverse U = Ring.inverse U * (U * (U.conjTranspose * W)) := by rw [hUW, mul_one]
      _ = _ := by rw [← mul_assoc, h1, one_mul]
  refine ⟨hn, hu, ?_⟩
  rw [hinv]
  calc _ ≤ ‖U.conjTranspose‖ * ‖W‖ := norm_mul_le _ _
    _ ≤ (1 + θ) * (10 / 9 * 1) := by
        rw [Matrix.l2_opNorm_conjTranspose]
        exact mul_le_mul hn hW (norm_nonneg _) (by linarith)
    _ ≤ _ := by linarith

/-- Almost representations by almost unitary matrices. -/
theorem almost_unitary {T : Fin n → Fin n → Fin n} {μ : Fin n → Fin n → ℂ} (hT : IsGroupTable T)
    (hμ : IsCocycle T μ) {D : RepArr n d} {θ : ℝ} (hD : ∀ g, ‖D g * (D g).conjTranspose - 1‖ ≤ θ) (hθ : θ ≤ 1 / 100)
    {δ : ℝ} (hδ0 : 0 ≤ δ) (hδ : ∀ g h i j, ‖(D g * D h) i j - μ g h * D (T g h) i j‖ ≤ δ) (hs : 41 * (d * δ) ≤ 1) :
    ∃ E : RepArr n d, IsProjRep T μ E ∧ ∀ g, ‖D g - E g‖ ≤ 3 / 2 * (d * δ) := by
  let _ := TG.group hT
  have : CompleteSpace (Matrix (Fin d) (Fin d) ℂ) := FiniteDimensional.complete ℂ _
  obtain ⟨E, h1, h2, -⟩ := almost_rep (G := TG T) (A := Matrix (Fin d) (Fin d) ℂ) (μ := μ) (f := D) (K := 9 / 8)
    (δ := d * δ) (fun g h x => by
      have := hμ g h x
      change μ g h * μ (T g h) x = μ h x * μ g (T h x)
      rw [mul_comm, ← this, mul_comm])
    (fun g => (almost_unitary_unit (hD g) hθ).2.1) (fun g => (almost_unitary_unit (hD g) hθ).2.2)
    (fun g h => l2_le_entries hδ0 fun i j => by
      rw [Matrix.sub_apply, Matrix.smul_apply, smul_eq_mul]; exact hδ g h i j) (by
      have : 0 ≤ (d : ℝ) * δ := by positivity
      linarith)
  exact ⟨E, h1, fun g => (h2 g).trans (le_of_eq (by ring))⟩

/-- A positive square root near one. -/
theorem sqrt_near_one {P : Matrix (Fin d) (Fin d) ℂ} (hP : P.IsHermitian) {η : ℝ} (h : ‖P - 1‖ ≤ η) (hη : η ≤ 1) :
    ∃ S : Matrix (Fin d) (Fin d) ℂ, S.conjTranspose = S ∧ S * S = P ∧ ‖S - 1‖ ≤ η := by
  set U : Matrix (Fin d) (Fin d) ℂ := (hP.eigenvectorUnitary : Matrix (Fin d) (Fin d) ℂ) with hU
  have hU1 : U * U.conjTranspose = 1 := Matrix.mem_unitaryGroup_iff.1 hP.eigenvectorUnitary.2
  have hU2 : U.conjTranspose * U = 1 := mul_eq_one_comm.1 hU1
  set Λ : Matrix (Fin d) (Fin d) ℂ := diagonal fun i => ((hP.eigenvalues i : ℝ) : ℂ) with hΛ
  have hspec : P = U * Λ * U.conjTranspose := by
    have h1 := hP.spectral_theorem
    conv_lhs => rw [h1]
    rw [Unitary.conjStarAlgAut_apply]
    rfl
  have hη0 : 0 ≤ η := (norm_nonneg _).trans h
  have hun : ‖U‖ ≤ 1 := l2_unitary_le hU1
  have hun' : ‖U.conjTranspose‖ ≤ 1 := by rw [Matrix.l2_opNorm_conjTranspose]; exact hun
  have hconj : ∀ A : Matrix (Fin d) (Fin d) ℂ, ‖U * A * U.conjTranspose‖ ≤ ‖A‖ := by
    intro A
    calc _ ≤ ‖U * A‖ * ‖U.conjTranspose‖ := norm_mul_le _ _
      _ ≤ ‖U‖ * ‖A‖ * ‖U.conjTranspose‖ := by gcongr; exact norm_mul_le _ _
      _ ≤ 1 * ‖A‖ * 1 := by gcongr
      _ = _ := by ring
  have hconj' : ∀ A : Matrix (Fin d) (Fin d) ℂ, ‖U.conjTranspose * A * U‖ ≤ ‖A‖ := by
    intro A
    calc _ ≤ ‖U.conjTranspose * A‖ * ‖U‖ := norm_mul_le _ _
      _ ≤ ‖U.conjTranspose‖ * ‖A‖ * ‖U‖ := by gcongr; exact norm_mul_le _ _
      _ ≤ 1 * ‖A‖ * 1 := by gcongr
      _ = _ := by ring
  have hev : ∀ i, |hP.eigenvalues i - 1| ≤ η := by
    intro i
    have h1 : Λ - 1 = U.conjTranspose * (P - 1) * U := by
      rw [mul_sub, sub_mul, mul_one, hU2, hspec]
      simp only [← mul_assoc, hU2, one_mul]
      rw [mul_assoc, hU2, mul_one]
    have h2 : ‖Λ - 1‖ ≤ η := by rw [h1]; exact (hconj' _).trans h
    have h3 := (l2_entry_le (Λ - 1) i i).trans h2
    rw [Matrix.sub_apply, hΛ, diagonal_apply_eq, one_apply_eq] at h3
    rwa [← Complex.ofReal_one, ← Complex.ofReal_sub, Complex.norm_real, Real.norm_eq_abs] at h3
  have hpos : ∀ i, 0 ≤ hP.eigenvalues i := fun i => by have := (abs_le.1 (hev i)).1; linarith
  set R : Matrix (Fin d) (Fin d) ℂ := diagonal fun i => ((Real.sqrt (hP.eigenvalues i) : ℝ) : ℂ) with hR
  have hRR : R * R = Λ := by
    rw [hR, diagonal_mul_diagonal, hΛ]
    congr 1
    funext i
    rw [← Complex.ofReal_mul, Real.mul_self_sqrt (hpos i)]
  have hRs : R.conjTranspose = R := by
    rw [hR, diagonal_conjTranspose]
    congr 1
    funext i
    simp
  refine ⟨U * R * U.conjTranspose, ?_, ?_, ?_⟩
  · simp only [conjTranspose_mul, conjTranspose_conjTranspose, hRs, mul_assoc]
  · rw [hspec, ← hRR]
    simp only [mul_assoc]
    rw [← mul_assoc U.conjTranspose U, hU2, one_mul]
  · have h1 : U * R * U.conjTranspose - 1 = U * (R - 1) * U.conjTranspose := by
      rw [mul_sub, sub_mul, mul_one, hU1]
    rw [h1]
    refine (hconj _).trans ?_
    have h2 : R - 1 = diagonal fun i => ((Real.sqrt (hP.eigenvalues i) - 1 : ℝ) : ℂ) := by
      rw [hR, ← diagonal_one, diagonal_sub]
      congr 1
      funext i
      push_cast
      rfl
    rw [h2, Matrix.l2_opNorm_diagonal]
    refine (pi_norm_le_iff_of_nonneg hη0).2 fun i => ?_
    rw [Complex.norm_real, Real.norm_eq_abs]
    refine le_trans ?_ (hev i)
    have h3 := Real.sqrt_nonneg (hP.eigenvalues i)
    have h4 : hP.eigenvalues i - 1 = (Real.sqrt (hP.eigenvalues i) - 1) * (Real.sqrt (hP.eigenvalues i) + 1) := by
      have := Real.mul_self_sqrt (hpos i)
      linear_combination -this
    rw [h4, abs_mul, abs_of_nonneg (by linarith : 0 ≤ Real.sqrt (hP.eigenvalues i) + 1)]
    nlinarith [abs_nonneg (Real.sqrt (hP.eigenvalues i) - 1)]

/-- A representation near unitary matrices is equivalent to a unitary one nearby. -/
theorem unitarise {T : Fin n → Fin n → Fin n} {μ : Fin n → Fin n → ℂ} (hT : IsGroupTable T) (hμ : ∀ g h, ‖μ g h‖ = 1)
    {D E : RepArr n d} {θ : ℝ} (hD : ∀ g, ‖D g * (D g).conjTranspose - 1‖ ≤ θ) (hθ : θ ≤ 1 / 100) (hE : IsProjRep T μ E)
    {ε : ℝ} (h : ∀ g, ‖D g - E g‖ ≤ ε) (hε : ε ≤ 1 / 100) :
    ∃ F : RepArr n d, IsProjRep T μ F ∧ IsUnitaryRep F ∧ AreEquivalent E F ∧ ∀ g, ‖E g - F g‖ ≤ 5 * ε + 3 * θ := by
  have : CompleteSpace (Matrix (Fin d) (Fin d) ℂ) := FiniteDimensional.complete ℂ _
  have hn := table_pos hT
  have hn0 : (n : ℂ) ≠ 0 := by exact_mod_cast hn.ne'
  have hε0 : 0 ≤ ε := (norm_nonneg _).trans (h ⟨0, hn⟩)
  have hθ0 : 0 ≤ θ := (norm_nonneg _).trans (hD ⟨0, hn⟩)
  have hDn : ∀ g, ‖D g‖ ≤ 1 + θ := fun g => (almost_unitary_unit (hD g) hθ).1
  have hEn : ∀ g, ‖E g‖ ≤ 102 / 100 := by
    intro g
    have h1 : E g = D g - (D g - E g) := by abel
    rw [h1]
    refine (norm_sub_le _ _).trans ((add_le_add (hDn g) (h g)).trans (by linarith))
  have hEE : ∀ g, ‖E g * (E g).conjTranspose - 1‖ ≤ 203 / 100 * ε + θ := by
    intro g
    have h1 : E g * (E g).conjTranspose - 1 = -(E g * (D g - E g).conjTranspose) - (D g - E g) * (D g).conjTranspose +
        (D g * (D g).conjTranspose - 1) := by
      rw [conjTranspose_sub, mul_sub, sub_mul]
      abel
    rw [h1]
    calc _ ≤ ‖E g * (D g - E g).conjTranspose‖ + ‖(D g - E g) * (D g).conjTranspose‖ + ‖D g * (D g).conjTranspose - 1‖ := by
          refine (norm_add_le _ _).trans (add_le_add_left ((norm_sub_le _ _).trans ?_) _)
          rw [norm_neg]
      _ ≤ 102 / 100 * ε + ε * (1 + θ) + θ := by
          refine add_le_add (add_le_add ((norm_mul_le _ _).trans ?_) ((norm_mul_le _ _).trans ?_)) (hD g)
          · rw [Matrix.l2_opNorm_conjTranspose]
            exact mul_le_mul (hEn g) (h g) (norm_nonneg _) (by norm_num)
          · rw [Matrix.l2_opNorm_conjTranspose]
            exact mul_le_mul (h g) (hDn g) (norm_nonneg _) hε0
      _ ≤ _ := by nlinarith
  set P : Matrix (Fin d) (Fin d) ℂ := (n : ℂ)⁻¹ • ∑ x, E x * (E x).conjTranspose with hP
  have hPh : P.IsHermitian := by
    unfold Matrix.IsHermitian
    rw [hP, conjTranspose_smul, conjTranspose_sum]
    simp only [conjTranspose_mul, conjTranspose_conjTranspose]
    congr 1
    simp
  have hP1 : ‖P - 1‖ ≤ (203 / 100 * ε + θ) := by
    have h1 : P - 1 = (n : ℂ)⁻¹ • ∑ x, (E x * (E x).conjTranspose - 1) := by
      rw [Finset.sum_sub_distrib, smul_sub, hP, Finset.sum_const, Finset.card_univ, Fintype.card_fin,
        ← Nat.cast_smul_eq_nsmul ℂ, smul_smul, inv_mul_cancel₀ hn0, one_smul]
    rw [h1, norm_smul, norm_inv, Complex.norm_natCast, inv_mul_le_iff₀ (by exact_mod_cast hn)]
    calc _ ≤ ∑ x, ‖E x * (E x).conjTranspose - 1‖ := norm_sum_le _ _
      _ ≤ ∑ _x : Fin n, (203 / 100 * ε + θ) := Finset.sum_le_sum fun x _ => hEE x
      _ = _ := by simp [mul_add]
  have hinvP : ∀ g, E g * P * (E g).conjTranspose = P := by
    intro g
    rw [hP, Matrix.mul_smul, Matrix.smul_mul, Finset.mul_sum, Finset.sum_mul]
    congr 1
    let _ := TG.group hT
    have h1 : ∀ x, E g * (E x * (E x).conjTranspose) * (E g).conjTranspose = E (T g x) * (E (T g x)).conjTranspose := by
      intro x
      have h2 : E g * (E x * (E x).conjTranspose) * (E g).conjTranspose = (E g * E x) * (E g * E x).conjTranspose := by
        rw [conjTranspose_mul]; simp only [mul_assoc]
      rw [h2, hE g x, conjTranspose_smul, Matrix.smul_mul, Matrix.mul_smul, smul_smul, Complex.star_def, Complex.mul_conj,
        Complex.normSq_eq_norm_sq, hμ]
      simp
    rw [Finset.sum_congr rfl fun x _ => h1 x]
    exact Equiv.sum_comp (Equiv.mulLeft (G := TG T) g) fun x : TG T => E x * (E x).conjTranspose
  obtain ⟨S, hSh, hSS, hS1⟩ := sqrt_near_one hPh hP1 (by linarith)
  have hone : ‖Ring.inverse (1 : Matrix (Fin d) (Fin d) ℂ)‖ ≤ 1 := by rw [Ring.inverse_one]; exact l2_one_le
  obtain ⟨hSu, hSi⟩ := unit_near (isUnit_one (M := Matrix (Fin d) (Fin d) ℂ)) hone (v := S)
    (r := (203 / 100 * ε + θ)) (by rw [norm_sub_rev]; exact hS1) (by linarith)
  set S' := Ring.inverse S with hS'
  have hs1 : S * S' = 1 := Ring.mul_inverse_cancel _ hSu
  have hs2 : S' * S = 1 := Ring.inverse_mul_cancel _ hSu
  have hs3 : S'.conjTranspose = S' := by
    have h1 := congrArg conjTranspose hs2
    rw [conjTranspose_mul, hSh, conjTranspose_one] at h1
    calc S'.conjTranspose = (S' * S) * S'.conjTranspose := by rw [hs2, one_mul]
      _ = S' := by rw [mul_assoc, h1, mul_one]
  refine ⟨fun g => S' * E g * S, fun g k => ?_, fun g => ?_, ⟨S, S', hs1, hs2, fun g => ?_⟩, fun g => ?_⟩
  · show S' * E g * S * (S' * E k * S) = μ g k • (S' * E (T g k) * S)
    calc _ = S' * (E g * (S * S') * E k) * S := by simp only [mul_assoc]
      _ = _ := by rw [hs1, mul_one, hE g k, Matrix.mul_smul, Matrix.smul_mul]
  · show S' * E g * S * (S' * E g * S).conjTranspose = 1
    rw [conjTranspose_mul, conjTranspose_mul, hSh, hs3]
    calc _ = S' * (E g * (S * S) * (E g).conjTranspose) * S' := by simp only [mul_assoc]
      _ = 1 := by rw [hSS, hinvP, ← hSS, ← mul_assoc, hs2, one_mul, hs1]
  · show E g * S = S * (S' * E g * S)
    rw [mul_assoc S', ← mul_assoc S, hs1, one_mul]
  · have h1 : E g - S' * E g * S = S' * ((S - 1) * E g - E g * (S - 1)) := by
      have h2 : (S - 1) * E g - E g * (S - 1) = S * E g - E g * S := by
        rw [sub_mul, mul_sub, one_mul, mul_one]; abel
      rw [h2, mul_sub, ← mul_assoc, hs2, one_mul, mul_assoc]
    rw [h1]
    calc _ ≤ ‖S'‖ * (‖(S - 1) * E g‖ + ‖E g * (S - 1)‖) :=
          (norm_mul_le _ _).trans (mul_le_mul_of_nonneg_left (norm_sub_le _ _) (norm_nonneg _))
      _ ≤ 10 / 9 * 1 * ((203 / 100 * ε + θ) * (102 / 100) + 102 / 100 * (203 / 100 * ε + θ)) := by
          refine mul_le_mul hSi (add_le_add ((norm_mul_le _ _).trans ?_) ((norm_mul_le _ _).trans ?_)) (by positivity)
            (by norm_num)
          · exact mul_le_mul hS1 (hEn g) (norm_nonneg _) (by linarith)
          · exact mul_le_mul (hEn g) hS1 (norm_nonneg _) (by linarith)
      _ ≤ _ := by linarith

end Spgrep
