/-
Property C20: the real case of `get_physically_irrep`.
-/
import Verif.Proofs.Reality
import Verif.Props.Representation
import Verif.Props.Examples

namespace Spgrep

open Spec

variable {n : ℕ}

/-! ### C20 -/

/-- Admissible output of the eigen-solver for one matrix: unit eigenvectors as columns of an
invertible matrix. -/
def Spec.IsEig {d : ℕ} (A : Matrix (Fin d) (Fin d) ℂ) (r : (Fin d → ℂ) × Matrix (Fin d) (Fin d) ℂ) : Prop :=
  A * r.2 = r.2 * Matrix.diagonal r.1 ∧ IsUnit r.2 ∧ ∀ j, ∑ i, ‖r.2 i j‖ ^ 2 = 1

/-- The full statement of C20. -/
def C20 : Prop := ∀ (n d : ℕ) (T : Fin n → Fin n → Fin n) (μ : Fin n → Fin n → ℂ) (D : RepArr n d),
  IsGroupTable T → (∀ g h, μ g h = 1 ∨ μ g h = -1) → IsProjRep T μ D → IsUnitaryRep D →
  IsIrreducible D → frobeniusSchur D = .ok 1 →
  ∀ (eig : EigOracle) (random : ℕ → Matrix (Fin d) (Fin d) ℂ),
    IsEig (getIntertwiner random D (fun k => (D k).map star) 1e-5 4).1
      (eig d (getIntertwiner random D (fun k => (D k).map star) 1e-5 4).1) →
    (getIntertwiner random D (fun k => (D k).map star) 1e-5 4).2 = false →
    ∃ R : Fin n → Matrix (Fin d) (Fin d) ℝ, getPhysicallyIrrep eig random D 1 1e-5 4 = .ok ⟨d, R⟩ ∧
      AreEquivalent (fun g => (R g).map Complex.ofReal) D

/-- The unit number `(12 + 5i)/13` and its square. -/
noncomputable def ηW : ℂ := ⟨12 / 13, 5 / 13⟩
noncomputable def ζW : ℂ := ⟨119 / 169, 120 / 169⟩

theorem ηW_sq : ηW ^ 2 = ζW := by
  rw [pow_two]; apply Complex.ext <;> simp [ηW, ζW] <;> norm_num

theorem ζW_mul_star : ζW * star ζW = 1 := by
  apply Complex.ext <;> simp [ζW] <;> norm_num

/-- The witness: the projective irrep of the Klein four-group in the basis `(e₁, ζ e₂)`. -/
noncomputable def repW : RepArr 4 2 := fun g =>
  Matrix.diagonal ![1, ζW] * repV4 g * Matrix.diagonal ![1, star ζW]

theorem repW_equiv : AreEquivalent repW repV4 := by
  have h1 : (Matrix.diagonal ![1, ζW] : Matrix (Fin 2) (Fin 2) ℂ) * Matrix.diagonal ![1, star ζW] = 1 := by
    rw [Matrix.diagonal_mul_diagonal, ← Matrix.diagonal_one]
    congr 1; funext i; fin_cases i
    · simp
    · exact ζW_mul_star
  refine ⟨Matrix.diagonal ![1, ζW], Matrix.diagonal ![1, star ζW], h1, mul_eq_one_comm.1 h1, fun g => ?_⟩
  unfold repW
  rw [Matrix.mul_assoc _ (Matrix.diagonal ![1, star ζW]), mul_eq_one_comm.1 h1, Matrix.mul_one]


theorem repW_proj : IsProjRep tblV4 μV4 repW := AreEquivalent.projRep repW_equiv repV4_proj

theorem repW_irreducible : IsIrreducible repW := AreEquivalent.irreducible repW_equiv repV4_irreducible

theorem diagW_star : (Matrix.diagonal ![1, ζW] : Matrix (Fin 2) (Fin 2) ℂ).conjTranspose =
    Matrix.diagonal ![1, star ζW] := by
  rw [Matrix.diagonal_conjTranspose]
  congr 1; funext i; fin_cases i <;> simp

theorem diagW_unitary : (Matrix.diagonal ![1, ζW] : Matrix (Fin 2) (Fin 2) ℂ) *
    Matrix.diagonal ![1, star ζW] = 1 := by
  rw [Matrix.diagonal_mul_diagonal, ← Matrix.diagonal_one]
  congr 1; funext i; fin_cases i
  · simp
  · exact ζW_mul_star

theorem repW_unitary : IsUnitaryRep repW := by
  intro g
  unfold repW
  rw [← diagW_star, Matrix.conjTranspose_mul, Matrix.conjTranspose_mul, Matrix.conjTranspose_conjTranspose]
  calc _ = Matrix.diagonal ![1, ζW] * (repV4 g * ((Matrix.diagonal ![1, ζW]).conjTranspose *
        Matrix.diagonal ![1, ζW]) * (repV4 g).conjTranspose) * (Matrix.diagonal ![1, ζW]).conjTranspose := by
          simp only [Matrix.mul_assoc]
    _ = 1 := by
      rw [diagW_star, mul_eq_one_comm.1 diagW_unitary, Matrix.mul_one, repV4_unitary g, Matrix.mul_one,
        diagW_unitary]

/-- The symmetric intertwiner `diag(1, ζ²)`. -/
noncomputable def V2W : Matrix (Fin 2) (Fin 2) ℂ := Matrix.diagonal ![1, ζW ^ 2]

theorem repW_map_star (g : Fin 4) : (repW g).map star =
    Matrix.diagonal ![1, star ζW] * repV4 g * Matrix.diagonal ![1, ζW] := by
  ext i j
  simp only [repW, Matrix.map_apply, Matrix.mul_diagonal, Matrix.diagonal_mul, star_mul']
  have h : star (repV4 g i j) = repV4 g i j := by simp [repV4]
  rw [h]
  fin_cases i <;> fin_cases j <;> simp

theorem V2W_intertwines (g : Fin 4) : repW g * V2W = V2W * (repW g).map star := by
  rw [repW_map_star]
  ext i j
  simp only [repW, V2W, Matrix.mul_diagonal, Matrix.diagonal_mul, ← Matrix.mul_assoc]
  have h := ζW_mul_star
  fin_cases i <;> fin_cases j <;> simp at h ⊢
  · linear_combination (repV4 g 0 1) * ζW * h
  · linear_combination (-(repV4 g 1 0) * ζW) * h
  · linear_combination 0 * h

theorem repW_indicator : frobeniusSchur repW = .ok 1 := by
  obtain ⟨s, h1, _, _, h2, _⟩ := c17_frobenius_schur tblV4_group μV4_real repW_proj repW_unitary
    repW_irreducible
  rw [h1]
  congr 1
  rw [h2]
  refine ⟨V2W, ?_, ?_, V2W_intertwines⟩
  · rw [Matrix.isUnit_iff_isUnit_det, V2W, Matrix.det_diagonal, Fin.prod_univ_two]
    have hz : ζW ≠ 0 := fun h => by have := ζW_mul_star; rw [h] at this; simp at this
    simp [hz]
  · rw [V2W, Matrix.diagonal_transpose]

theorem sq_cpow_half {η : ℂ} (h : 0 < η.re) : (η ^ 2) ^ ((1 : ℂ) / (2 : ℕ)) = η := by
  rw [one_div]
  have h2 := Complex.abs_arg_lt_pi_div_two_iff.2 (Or.inl h)
  rw [abs_lt] at h2
  exact Complex.pow_cpow_nat_inv (by norm_num) (by exact_mod_cast h2.1) (by exact_mod_cast h2.2.le)

/-- The intertwiner computed when the random matrix is `diag(1, ζ²)`. -/
theorem repW_intertwiner : getIntertwiner (fun _ => V2W) repW (fun k => (repW k).map star) 1e-5 4 =
    (Matrix.diagonal ![star ζW, ζW], false) := by
  have hsum : intertwinerSum repW (fun k => (repW k).map star) V2W = (4 : ℂ) • V2W := by
    rw [intertwinerSum_eq]
    have : ∀ g, repW g * V2W * ((repW g).map star).conjTranspose = V2W := by
      intro g
      rw [V2W_intertwines, Matrix.mul_assoc, conj_unitary repW_unitary g, Matrix.mul_one]
    simp only [this, Finset.sum_const, Finset.card_univ, Fintype.card_fin]
    rw [← Nat.cast_smul_eq_nsmul ℂ]
    norm_num
  have hr : (List.range 4).map (fun _ : ℕ => V2W) = [V2W, V2W, V2W, V2W] := rfl
  unfold getIntertwiner
  rw [hr, intertwinerLoop]
  simp only [hsum]
  have hz : ζW ≠ 0 := fun h => by have := ζW_mul_star; rw [h] at this; simp at this
  rw [if_pos]
  · have hdet : ((4 : ℂ) • V2W).det = (4 * ζW) ^ 2 := by
      rw [Matrix.det_smul, Fintype.card_fin, V2W, Matrix.det_diagonal, Fin.prod_univ_two]
      simp; ring
    have hroot : ((4 : ℂ) • V2W).det ^ ((1 : ℂ) / (2 : ℕ)) = 4 * ζW := by
      rw [hdet]; apply sq_cpow_half; simp [ζW]
    rw [hroot]
    congr 1
    have h4 : (4 : ℂ) ≠ 0 := by norm_num
    ext i j
    simp only [V2W, Matrix.smul_apply, Matrix.diagonal_apply, smul_eq_mul]
    have h := ζW_mul_star
    have hinv : star ζW = ζW⁻¹ := eq_inv_of_mul_eq_one_right h
    fin_cases i <;> fin_cases j <;> simp at hinv ⊢
    · rw [hinv]; try field_simp
    · try field_simp
  · intro hall
    have := hall 0 0
    rw [hsum] at this
    simp only [IsCloseC, V2W, Matrix.smul_apply, Matrix.diagonal_apply_eq, smul_eq_mul] at this
    norm_num at this

/-- Eigen-solver that is exact on diagonal matrices. -/
noncomputable def eigDiag : EigOracle := fun _ A => (fun i => A i i, 1)

theorem realEigMatrix_one (d : ℕ) {atol : ℝ} (ha : atol < 1) : realEigMatrix atol (1 : Matrix (Fin d) (Fin d) ℂ) = 1 := by
  ext i c
  unfold realEigMatrix realEigvec
  simp only [Matrix.of_apply]
  have hre : ∀ r, ((1 : Matrix (Fin d) (Fin d) ℂ) r c).re = (1 : Matrix (Fin d) (Fin d) ℝ) r c := by
    intro r; simp only [Matrix.one_apply]; split_ifs <;> simp
  rw [if_pos]
  · simp only [hre]
    have : ∑ j, (1 : Matrix (Fin d) (Fin d) ℝ) j c ^ 2 = 1 := by
      simp only [Matrix.one_apply, ite_pow, one_pow]
      simp
    rw [this]; simp
  · intro hall
    have := hall c
    unfold IsClose at this
    simp at this
    linarith

/-- C20 is false: with a genuine eigendecomposition of the intertwiner the returned matrices are not
equivalent to the irrep (here they do not even form a representation). -/
theorem c20_real_case_refuted : ¬ C20 := by
  intro h
  obtain ⟨R, h1, h2⟩ := h 4 2 tblV4 μV4 repW tblV4_group μV4_real repW_proj repW_unitary
    repW_irreducible repW_indicator eigDiag (fun _ => V2W) (by
      rw [repW_intertwiner]
      refine ⟨?_, isUnit_one, fun j => ?_⟩
      · simp only [eigDiag, Matrix.mul_one, Matrix.one_mul]
        congr 1; funext i; simp
      · simp only [eigDiag, Matrix.one_apply]
        simp only [apply_ite norm, ite_pow, norm_one, norm_zero, one_pow]
        simp) (by rw [repW_intertwiner])
  unfold getPhysicallyIrrep at h1
  rw [if_pos rfl, repW_intertwiner] at h1
  simp only [Except.ok.injEq, Sigma.mk.injEq, heq_eq_eq, true_and] at h1
  have hdet : ((R 1).map Complex.ofReal).det = (repW 1).det := by
    obtain ⟨S, S', e1, e2, e3⟩ := h2
    have : (R 1).map Complex.ofReal = S * repW 1 * S' := by
      rw [← e3 1, Matrix.mul_assoc, e1, Matrix.mul_one]
    rw [this, Matrix.det_mul, Matrix.det_mul, mul_comm, ← mul_assoc, ← Matrix.det_mul, e2,
      Matrix.det_one, one_mul]
  have hη : star ηW ^ 2 = star ζW := by rw [← ηW_sq, star_pow]
  have r0 : nroot (star ζW) 2 = star ηW := by
    rw [← hη]; apply nroot_of_sq; simp [ηW]
  have r1 : nroot ζW 2 = ηW := by
    rw [← ηW_sq]; apply nroot_of_sq; simp [ηW]
  have hT : sqrtIntertwiner (realEigMatrix 1e-5 (1 : Matrix (Fin 2) (Fin 2) ℂ))
      (fun i => (Matrix.diagonal ![star ζW, ζW] : Matrix (Fin 2) (Fin 2) ℂ) i i) =
      Matrix.diagonal ![star ηW, ηW] := by
    rw [realEigMatrix_one 2 (by norm_num)]
    unfold sqrtIntertwiner
    rw [show (1 : Matrix (Fin 2) (Fin 2) ℝ).map Complex.ofReal = 1 by simp, Matrix.transpose_one,
      Matrix.one_mul, Matrix.mul_one]
    congr 1; funext i; fin_cases i
    · simpa using r0
    · simpa using r1
  have hR : R 1 = !![0, -239 / 28561; -239 / 28561, 0] := by
    rw [← h1]
    unfold physRealFrom
    simp only [eigDiag]
    rw [hT]
    ext i j
    simp only [Matrix.map_apply, repW, Matrix.diagonal_map, Matrix.mul_diagonal, Matrix.diagonal_mul,
      star_zero]
    fin_cases i <;> fin_cases j <;> simp [repV4, matV4, ηW, ζW] <;> norm_num
  rw [hR] at hdet
  have hd2 : (repW 1).det = -1 := by
    simp [Matrix.det_fin_two, repW, Matrix.mul_diagonal, Matrix.diagonal_mul, repV4, matV4]
    have := ζW_mul_star
    simpa using this
  rw [hd2, Matrix.det_fin_two] at hdet
  simp at hdet
  have h3 := congrArg Complex.re hdet
  norm_num at h3

/-- What holds of C20.  Let `U` intertwine the unitary irrep with its conjugate, let the eigen-solver
output give an orthogonal real matrix `S` and unit eigenvalues `w`, and let `Sᵀ diag(w) S` be
proportional to the inverse of `U` (always true in dimension one).  Then the computed matrices are real
without loss (`np.real` drops nothing), orthogonal, equivalent to the irrep and have the same factor
system.  Missing: the last hypothesis, which fails for some valid eigendecompositions. -/
theorem c20_real_case_partial {d : ℕ} {D : RepArr n d} (hDu : IsUnitaryRep D)
    (eig : EigOracle) (atol : ℝ) {U : Matrix (Fin d) (Fin d) ℂ} (hU : ∀ g, D g * U = U * (D g).map star)
    (hS : realEigMatrix atol (eig d U).2 * (realEigMatrix atol (eig d U).2).transpose = 1)
    (hw : ∀ i, ‖(eig d U).1 i‖ = 1) {c : ℂ} (hc : c ≠ 0)
    (hWU : ((realEigMatrix atol (eig d U).2).map Complex.ofReal).transpose *
      Matrix.diagonal (eig d U).1 * (realEigMatrix atol (eig d U).2).map Complex.ofReal * U = c • 1) :
    AreEquivalent (fun g => (physRealFrom eig atol U D g).map Complex.ofReal) D ∧
    (∀ g, physRealFrom eig atol U D g * (physRealFrom eig atol U D g).transpose = 1) ∧
    ∀ (T : Fin n → Fin n → Fin n) (μ : Fin n → Fin n → ℂ), IsProjRep T μ D →
      IsProjRep T μ fun g => (physRealFrom eig atol U D g).map Complex.ofReal := by
  set R := realEigMatrix atol (eig d U).2
  set w := (eig d U).1
  set S : Matrix (Fin d) (Fin d) ℂ := R.map Complex.ofReal with hSdef
  have hSS : S * S.transpose = 1 := by
    have := congrArg (fun M : Matrix (Fin d) (Fin d) ℝ => M.map Complex.ofRealHom) hS
    simp only [Matrix.map_mul] at this
    rw [Matrix.map_one _ (map_zero _) (map_one _)] at this
    exact this
  have hstar : S.map star = S := by
    ext i j; simp [hSdef]
  set q : Matrix (Fin d) (Fin d) ℂ := Matrix.diagonal fun i => nroot (w i) 2
  have hT : sqrtIntertwiner R w = S.transpose * q * S := rfl
  set T := sqrtIntertwiner R w
  have hTc : T.map star = S.transpose * q.map star * S := by
    have h := (Matrix.map_mul (f := starRingEnd ℂ) (L := S.transpose * q) (M := S)).trans
      (congrArg (· * S.map (starRingEnd ℂ)) (Matrix.map_mul (f := starRingEnd ℂ) (L := S.transpose) (M := q)))
    rw [hT]
    refine h.trans ?_
    have h1 : S.map (starRingEnd ℂ) = S := hstar
    have h2 : S.transpose.map (starRingEnd ℂ) = S.transpose := by
      exact congrArg Matrix.transpose h1
    rw [h1, h2]; rfl
  have hmul : ∀ A B : Matrix (Fin d) (Fin d) ℂ,
      (S.transpose * A * S) * (S.transpose * B * S) = S.transpose * (A * B) * S := by
    intro A B
    calc _ = S.transpose * (A * (S * S.transpose) * B) * S := by simp only [Matrix.mul_assoc]
      _ = _ := by rw [hSS, Matrix.mul_one]
  have hqq : q * q = Matrix.diagonal w := by
    rw [Matrix.diagonal_mul_diagonal]; congr 1; funext i; exact nroot_two_sq _
  have hqc : q * q.map star = 1 := by
    rw [Matrix.diagonal_map (star_zero _), Matrix.diagonal_mul_diagonal, ← Matrix.diagonal_one]
    congr 1; funext i
    have h1 := congrArg norm (nroot_two_sq (w i))
    rw [norm_mul, hw i] at h1
    have h2 : ‖nroot (w i) 2‖ = 1 := by nlinarith [norm_nonneg (nroot (w i) 2)]
    simp only [RCLike.star_def]
    rw [Complex.mul_conj', h2]; norm_num
  have hSt : S.transpose * S = 1 := mul_eq_one_comm.1 hSS
  have hTT : T * T = S.transpose * Matrix.diagonal w * S := by rw [hT, hmul, hqq]
  have hTTc : T * T.map star = 1 := by
    rw [hTc, hT, hmul, hqc, Matrix.mul_one, hSt]
  have hTcT : T.map star * T = 1 := mul_eq_one_comm.1 hTTc
  have hTsym : T.transpose = T := by
    rw [hT, Matrix.transpose_mul, Matrix.transpose_mul, Matrix.transpose_transpose,
      Matrix.diagonal_transpose, Matrix.mul_assoc]
  have hUeq : U = c • (T.map star * T.map star) := by
    have h1 : T.map star * T.map star * (T * T * U) = U := by
      calc _ = T.map star * (T.map star * T) * (T * U) := by simp only [Matrix.mul_assoc]
        _ = U := by rw [hTcT, Matrix.mul_one, ← Matrix.mul_assoc, hTcT, Matrix.one_mul]
    rw [← h1, hTT, hWU, Matrix.mul_smul, Matrix.mul_one]
  have hconj : ∀ A B : Matrix (Fin d) (Fin d) ℂ, (A * B).map star = A.map star * B.map star :=
    fun A B => Matrix.map_mul (f := starRingEnd ℂ)
  have hss : ∀ A : Matrix (Fin d) (Fin d) ℂ, (A.map star).map star = A := by
    intro A; ext i j; simp only [Matrix.map_apply, star_star]
  have hW : ∀ g, T * T * D g = (D g).map star * (T * T) := by
    intro g
    have h1 := hU g
    rw [hUeq, Matrix.mul_smul, Matrix.smul_mul] at h1
    have h2 := smul_right_injective _ hc h1
    have h3 := congrArg (fun M : Matrix (Fin d) (Fin d) ℂ => M.map star) h2
    simp only [hconj, hss] at h3
    exact h3.symm
  have hreal : ∀ g, (physRealFrom eig atol U D g).map Complex.ofReal = T * D g * T.map star := by
    intro g
    have hM : (T * D g * T.map star).map star = T * D g * T.map star := by
      rw [hconj, hconj, hss]
      calc _ = T.map star * ((D g).map star * (T * T)) * T.map star := by
            rw [Matrix.mul_assoc (T.map star) (_ * _), Matrix.mul_assoc ((D g).map star), Matrix.mul_assoc T,
              hTTc, Matrix.mul_one, Matrix.mul_assoc]
        _ = _ := by
            rw [← hW, ← Matrix.mul_assoc, ← Matrix.mul_assoc, hTcT, Matrix.one_mul]
    have : physRealFrom eig atol U D g = (T * D g * T.map star).map Complex.re := rfl
    rw [this]
    ext i j
    have h1 := congrFun (congrFun hM i) j
    simp only [Matrix.map_apply] at h1 ⊢
    have h1' : (starRingEnd ℂ) ((T * D g * T.map star) i j) = (T * D g * T.map star) i j := h1
    exact Complex.conj_eq_iff_re.1 h1'
  have heq : AreEquivalent (fun g => (physRealFrom eig atol U D g).map Complex.ofReal) D := by
    refine ⟨T, T.map star, hTTc, hTcT, fun g => ?_⟩
    beta_reduce
    rw [hreal, Matrix.mul_assoc _ (T.map star) T, hTcT, Matrix.mul_one]
  refine ⟨heq, fun g => ?_, fun T' μ hD => AreEquivalent.projRep heq hD⟩
  have hinj : Function.Injective (fun M : Matrix (Fin d) (Fin d) ℝ => M.map Complex.ofRealHom) :=
    Matrix.map_injective Complex.ofReal_injective
  apply hinj
  beta_reduce
  rw [Matrix.map_mul, Matrix.map_one _ (map_zero _) (map_one _)]
  have h1 : (physRealFrom eig atol U D g).transpose.map Complex.ofRealHom =
      (T * D g * T.map star).conjTranspose := by
    rw [← hreal]; ext i j; simp [Matrix.conjTranspose_apply]
  have h2 : (physRealFrom eig atol U D g).map Complex.ofRealHom = T * D g * T.map star := hreal g
  rw [h1, h2, Matrix.conjTranspose_mul, Matrix.conjTranspose_mul]
  have h3 : (T.map star).conjTranspose = T := by
    conv_rhs => rw [← hTsym]
    ext i j; simp only [Matrix.conjTranspose_apply, Matrix.map_apply, star_star, Matrix.transpose_apply]
  have h4 : T.conjTranspose = T.map star := by
    conv_rhs => rw [← hTsym]
    rfl
  rw [h3, h4]
  calc _ = T * (D g * (T.map star * T) * (D g).conjTranspose) * T.map star := by simp only [Matrix.mul_assoc]
    _ = 1 := by rw [hTcT, Matrix.mul_one, hDu g, Matrix.mul_one, hTTc]

/-- Case of the partial C20: the real form of the Klein four-group irrep, with the exact
eigendecomposition of the identity. -/
example : AreEquivalent (fun g => (physRealFrom eigDiag 1e-5 1 repV4 g).map Complex.ofReal) repV4 := by
  have h1 : realEigMatrix 1e-5 (eigDiag 2 (1 : Matrix (Fin 2) (Fin 2) ℂ)).2 = 1 :=
    realEigMatrix_one 2 (by norm_num)
  refine (c20_real_case_partial repV4_unitary eigDiag 1e-5 (U := 1) (fun g => ?_) ?_ (fun i => ?_)
    (c := 1) one_ne_zero ?_).1
  · rw [Matrix.mul_one, Matrix.one_mul]
    ext i j; simp [repV4]
  · rw [h1]; simp
  · simp [eigDiag]
  · rw [h1]
    simp [eigDiag]

end Spgrep
