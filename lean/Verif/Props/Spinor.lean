/-
C43-C45: spin rotations, their factor system, and spinor small representations.
-/
import Verif.Proofs.Spinor
import Verif.Props.Conventional
import Mathlib.Analysis.Matrix.Spectrum

namespace Spgrep

open Spec Matrix

variable {n : ℕ} {T : Fin n → Fin n → Fin n}

/-! ### C43 -/

theorem proper_unique {S P : M3} (hP : P = S ∨ P = -S) (hd : P.det = 1) : properPart S = P := by
  rcases hP with rfl | rfl
  · unfold properPart
    rw [hd]
    simp
  · have h1 : S.det = -1 := by
      rw [Matrix.det_neg] at hd
      norm_num at hd
      omega
    unfold properPart
    rw [h1]
    simp

/-- C43 (partial): for every integer matrix that is an isometry of a non-degenerate lattice,
`get_spinor_unitary_rotation` returns a matrix in SU(2) whose conjugation action on the Pauli matrices is the Cartesian
matrix of the proper part; ± the identity gives the identity.  Missing from the full claim: rotations that do not
preserve a lattice, where tolerances matter, see `c43_angle_axis_partial` and `c43_small_angle_refuted`. -/
theorem c43_spinor_rotation_partial {eig : EigOracle} (he : SymmEigContract eig) {L : R3} (hL : L.det ≠ 0) {S : M3}
    (hS : PreservesMetric L S) :
    ∃ U, getSpinorUnitaryRotation eig L S = .ok U ∧ IsSU2 U ∧
      (∀ P C, (P = S ∨ P = -S) → P.det = 1 → IsCartesianOf L P C → InducesRotation U C) ∧
      (S = 1 ∨ S = -1 → U = 1) := by
  obtain ⟨U, h1, h2, h3, h4⟩ := getSpinorUnitaryRotation_spec he hL hS
  have hLt : IsUnit (L.transpose).det := by rw [Matrix.det_transpose]; exact hL.isUnit
  refine ⟨U, h1, h2, fun P C hP hd hC => ?_, fun h => h4 ?_⟩
  · have hp := proper_unique hP hd
    have : C = L.transpose * realMat (properPart S) * (L.transpose)⁻¹ := by
      rw [hp]
      unfold IsCartesianOf at hC
      unfold realMat
      rw [← hC, Matrix.mul_assoc, Matrix.mul_nonsing_inv _ hLt, Matrix.mul_one]
    rw [this]
    exact h3
  · rcases h with rfl | rfl
    · exact proper_unique (.inl rfl) Matrix.det_one
    · exact proper_unique (.inr (neg_neg 1).symm) Matrix.det_one

theorem sharp_of_gap {R : R3} (h : SO3Facts R) (h3 : R.trace = 3 ∨ R.trace ≤ 3 - 1e-4)
    (h1 : R.trace = -1 ∨ -1 + 1e-4 ≤ R.trace) : SharpAngle R := by
  have hsum : R.trace = R 0 0 + R 1 1 + R 2 2 := by rw [Matrix.trace, Fin.sum_univ_three]; rfl
  constructor
  · intro hc
    rcases h3 with h3 | h3
    · exact h3
    · exfalso
      have h0 := abs_le.1 (hc (0, 0))
      have h1 := abs_le.1 (hc (1, 1))
      have h2 := abs_le.1 (hc (2, 2))
      norm_num at h0 h1 h2 h3
      linarith [h0.1, h1.1, h2.1]
  · intro hc
    rcases h1 with h1 | h1
    · exact h1
    · exfalso
      unfold IsClose at hc
      have h0 := (abs_le.1 hc).2
      norm_num at h0 h1
      linarith

/-- C43 (partial), the continuum: for every proper rotation whose trace is 3 (no rotation), -1 (rotation by π), or
further than `1e-4` from both, the angle is between 0 and π, the axis is a unit vector, and the SU(2) matrix built from
them turns the Pauli matrices like the rotation.  Missing: angles closer to 0 or π, where it is false. -/
theorem c43_angle_axis_partial {eig : EigOracle} (he : SymmEigContract eig) {R : R3} (hR : R * R.transpose = 1)
    (hd : R.det = 1) (h3 : R.trace = 3 ∨ R.trace ≤ 3 - 1e-4) (h1 : R.trace = -1 ∨ -1 + 1e-4 ≤ R.trace) :
    ∃ θ v, getRotationAngleAndAxis eig R = .ok (θ, some v) ∧ 0 ≤ θ ∧ θ ≤ Real.pi ∧ ∑ a, v a ^ 2 = 1 ∧
      1 + 2 * Real.cos θ = R.trace ∧ R.mulVec v = v ∧
      IsSU2 (spinorMatrix θ v) ∧ InducesRotation (spinorMatrix θ v) R := by
  obtain ⟨θ, v, k1, k2, k3, k4, k5, -⟩ := getRotationAngleAndAxis_spec he hR hd (sharp_of_gap (so3Facts hR hd) h3 h1)
  have k4' := k4
  rw [Fin.sum_univ_three] at k4'
  refine ⟨θ, v, k1, k2, k3, k4, ?_, ?_, spinorMatrix_su2 θ k4, ?_⟩
  · rw [← k5, Matrix.trace, Fin.sum_univ_three]
    simp [rodrigues]
    linear_combination (Real.cos θ - 1) * k4'
  · rw [← k5]
    funext a
    simp only [Matrix.mulVec, dotProduct, Fin.sum_univ_three]
    fin_cases a <;> simp [rodrigues]
    · linear_combination ((1 - Real.cos θ) * v 0) * k4'
    · linear_combination ((1 - Real.cos θ) * v 1) * k4'
    · linear_combination ((1 - Real.cos θ) * v 2) * k4'
  · have := spinorMatrix_induces θ k4
    rwa [k5] at this

theorem induces_one {R : R3} (h : InducesRotation 1 R) : R = 1 := by
  have key : ∀ b, pauli b = ∑ a, (R a b : ℂ) • pauli a := by
    intro b
    have := h b
    rwa [Matrix.one_mul, Matrix.conjTranspose_one, Matrix.mul_one] at this
  have e00 := fun b => congrFun (congrFun (key b) 0) 0
  have e01 := fun b => congrFun (congrFun (key b) 0) 1
  simp only [Fin.sum_univ_three, Matrix.add_apply, Matrix.smul_apply] at e00 e01
  ext a b
  have h2 := e00 b
  have h3 := congrArg Complex.re (e01 b)
  have h4 := congrArg Complex.im (e01 b)
  have h2' := congrArg Complex.re h2
  fin_cases a <;> fin_cases b <;> simp [pauli] at h2' h3 h4 ⊢ <;> linarith

/-- Rotation around z by the angle with half-angle tangent `1e-9`. -/
noncomputable def tinyRotation : R3 :=
  !![(1 - 1e-18) / (1 + 1e-18), -(2e-9 / (1 + 1e-18)), 0; 2e-9 / (1 + 1e-18), (1 - 1e-18) / (1 + 1e-18), 0; 0, 0, 1]

/-- C43, refutation: a rotation by a tiny angle is taken for the identity; the SU(2) matrix is exactly 1 and does not
induce the rotation. -/
theorem c43_small_angle_refuted : ∃ R : R3, R * R.transpose = 1 ∧ R.det = 1 ∧ ∀ eig : EigOracle,
    getRotationAngleAndAxis eig R = .ok (0, some ![0, 0, 1]) ∧ ¬ InducesRotation (spinorMatrix 0 ![0, 0, 1]) R := by
  refine ⟨tinyRotation, ?_, ?_, fun eig => ⟨?_, ?_⟩⟩
  · unfold tinyRotation
    ext i j
    fin_cases i <;> fin_cases j <;> simp [Matrix.mul_apply, Fin.sum_univ_three] <;> norm_num
  · unfold tinyRotation
    rw [Matrix.det_fin_three]
    simp
    norm_num
  · unfold getRotationAngleAndAxis
    rw [if_pos]
    rintro ⟨i, j⟩
    unfold tinyRotation IsClose
    fin_cases i <;> fin_cases j <;> simp <;> norm_num [abs_le]
  · rw [spinorMatrix_zero]
    intro h
    have h2 := congrFun (congrFun (induces_one h) 1) 0
    unfold tinyRotation at h2
    simp at h2
    norm_num at h2

/-- Eigenvectors as assumed exist. -/
theorem symmEigContract_exists : ∃ eig : EigOracle, SymmEigContract eig := by
  classical
  have key : ∀ A : R3, A.transpose = A → ∃ x : (Fin 3 → ℂ) × Matrix (Fin 3) (Fin 3) ℂ,
      A.map Complex.ofReal * x.2 = x.2 * Matrix.diagonal x.1 ∧ IsUnit x.2 ∧ ∀ a i, (x.2 a i).im = 0 := by
    intro A hA
    have hH : A.IsHermitian := by
      rw [Matrix.IsHermitian, Matrix.conjTranspose_eq_transpose_of_trivial, hA]
    refine ⟨(fun i => (hH.eigenvalues i : ℂ), (hH.eigenvectorUnitary : R3).map Complex.ofReal), ?_, ?_, ?_⟩
    · dsimp only
      have h1 : A * (hH.eigenvectorUnitary : R3) = (hH.eigenvectorUnitary : R3) * Matrix.diagonal hH.eigenvalues := by
        have h2 := hH.spectral_theorem
        have h3 : star (hH.eigenvectorUnitary : R3) * (hH.eigenvectorUnitary : R3) = 1 :=
          Unitary.coe_star_mul_self hH.eigenvectorUnitary
        rw [Unitary.conjStarAlgAut_apply] at h2
        generalize (hH.eigenvectorUnitary : R3) = V at *
        have h5 : A * V = V * Matrix.diagonal (RCLike.ofReal ∘ hH.eigenvalues) * (star V * V) := by
          rw [← Matrix.mul_assoc, ← h2]
        rw [h5, h3, Matrix.mul_one]
        rfl
      have h4 := congrArg (fun M : R3 => M.map Complex.ofRealHom) h1
      simp only [Matrix.map_mul] at h4
      rw [Matrix.diagonal_map (by simp)] at h4
      exact h4
    · have h3 : star (hH.eigenvectorUnitary : R3) * (hH.eigenvectorUnitary : R3) = 1 :=
        Unitary.coe_star_mul_self hH.eigenvectorUnitary
      have h4 := congrArg (fun M : R3 => M.map Complex.ofRealHom) h3
      simp only [Matrix.map_mul] at h4
      rw [Matrix.map_one _ (by simp) (by simp)] at h4
      exact IsUnit.of_mul_eq_one_right _ h4
    · intro a i
      simp
  choose f hf using key
  let g : Matrix (Fin 3) (Fin 3) ℂ → (Fin 3 → ℂ) × Matrix (Fin 3) (Fin 3) ℂ := fun M =>
    if h : (M.map Complex.re).transpose = M.map Complex.re then f _ h else (0, 0)
  let eig : EigOracle := fun d => if h : d = 3 then by subst h; exact g else fun _ => (0, 0)
  refine ⟨eig, fun A hA => ?_⟩
  have e1 : (A.map Complex.ofReal).map Complex.re = A := by ext; simp
  have e2 : eig 3 (A.map Complex.ofReal) = f A hA := by
    show g (A.map Complex.ofReal) = f A hA
    simp only [g]
    rw [dif_pos (by rw [e1]; exact hA)]
    congr 1
  rw [e2]
  exact hf A hA

/-- The body-centred cubic lattice (edge 2). -/
def latticeBcc : R3 := !![-1, 1, 1; 1, -1, 1; 1, 1, -1]

theorem latticeBcc_det : latticeBcc.det ≠ 0 := by
  unfold latticeBcc
  rw [Matrix.det_fin_three]
  simp
  norm_num

theorem metric_of_int {L : M3} {S : M3} (h : S.transpose * (L * L.transpose) * S = L * L.transpose) :
    PreservesMetric (L.map fun x => (x : ℝ)) S := by
  unfold PreservesMetric
  have := congrArg (fun M : M3 => M.map (Int.castRingHom ℝ)) h
  simp only [Matrix.map_mul] at this
  exact this

theorem metric_I24 (i : Fin 4) : PreservesMetric latticeBcc (rotsI24 i) := by
  have h : ∀ i, (rotsI24 i).transpose * ((!![-1, 1, 1; 1, -1, 1; 1, 1, -1] : M3) * (!![-1, 1, 1; 1, -1, 1; 1, 1, -1] : M3).transpose) *
      rotsI24 i = (!![-1, 1, 1; 1, -1, 1; 1, 1, -1] : M3) * (!![-1, 1, 1; 1, -1, 1; 1, 1, -1] : M3).transpose := by
    decide +kernel
  have h2 := metric_of_int (h i)
  have h3 : (!![-1, 1, 1; 1, -1, 1; 1, 1, -1] : M3).map (fun x => (x : ℝ)) = latticeBcc := by
    unfold latticeBcc
    ext a b
    fin_cases a <;> fin_cases b <;> simp
  rwa [h3] at h2

/-- Non-vacuity of C43: a twofold rotation of the bcc lattice. -/
example : ∃ eig : EigOracle, SymmEigContract eig ∧ latticeBcc.det ≠ 0 ∧ PreservesMetric latticeBcc (rotsI24 1) ∧
    rotsI24 1 ≠ 1 := by
  obtain ⟨eig, h⟩ := symmEigContract_exists
  exact ⟨eig, h, latticeBcc_det, metric_I24 1, by decide⟩

/-- Non-vacuity of the continuum version: rotation by the angle with cosine 3/5. -/
example : ∃ R : R3, R * R.transpose = 1 ∧ R.det = 1 ∧ (R.trace = 3 ∨ R.trace ≤ 3 - 1e-4) ∧
    (R.trace = -1 ∨ -1 + 1e-4 ≤ R.trace) := by
  refine ⟨!![3 / 5, -(4 / 5), 0; 4 / 5, 3 / 5, 0; 0, 0, 1], ?_, ?_, Or.inr ?_, Or.inr ?_⟩
  · ext i j
    fin_cases i <;> fin_cases j <;> simp [Matrix.mul_apply, Fin.sum_univ_three] <;> norm_num
  · rw [Matrix.det_fin_three]
    simp
    norm_num
  · rw [Matrix.trace, Fin.sum_univ_three]
    simp
    norm_num
  · rw [Matrix.trace, Fin.sum_univ_three]
    simp
    norm_num

/-! ### C44 -/

/-- C44: for every point group acting by isometries of a non-degenerate lattice, `get_spinor_factor_system` returns
SU(2) matrices and factors `±1` with `U_i U_j = z(i,j) U_ij`; the factors form a cocycle, are 1 when one argument is the
identity, and neither they nor the SU(2) matrices change when rotations are combined with the inversion. -/
theorem c44_spinor_factor_system {eig : EigOracle} (he : SymmEigContract eig) {L : R3} (hL : L.det ≠ 0)
    {rots : Fin n → M3} (h : EnumeratesGroup rots) (hm : ∀ i, PreservesMetric L (rots i)) :
    ∃ z U, getSpinorFactorSystem eig L rots = .ok (z, U) ∧
      (∀ i, IsSU2 (U i) ∧ getSpinorUnitaryRotation eig L (rots i) = .ok (U i)) ∧
      (∀ i j, z i j = 1 ∨ z i j = -1) ∧
      (∀ i j l, rots i * rots j = rots l → U i * U j = z i j • U l) ∧
      (∀ T, getCayleyTable rots = .ok T → IsCocycle T z) ∧
      (∀ e, rots e = 1 → U e = 1 ∧ ∀ i, z e i = 1 ∧ z i e = 1) ∧
      (∀ i i', rots i' = -rots i → U i' = U i) ∧
      (∀ i i' j j', (rots i' = rots i ∨ rots i' = -rots i) → (rots j' = rots j ∨ rots j' = -rots j) →
        z i' j' = z i j) := by
  obtain ⟨T, hT, -, hTg⟩ := c01_cayley_table_ordinary h
  have hrot : ∀ i j, rots (T i j) = rots i * rots j := fun i j => (cayley_none_spec hT i j).1
  choose U hU1 hU2 hU3 hU4 using fun i => getSpinorUnitaryRotation_spec he hL (hm i)
  have hLt : IsUnit (L.transpose).det := by rw [Matrix.det_transpose]; exact hL.isUnit
  have hsign : ∀ i, (rots i).det = 1 ∨ (rots i).det = -1 := fun i => det_sign hL (hm i)
  let z : Fin n → Fin n → ℂ := fun i j => multiplierOf (U i * U j) (U (T i j))
  have hcase : ∀ i j, (U i * U j = U (T i j) ∧ z i j = 1) ∨ (U i * U j = -U (T i j) ∧ z i j = -1) := by
    intro i j
    refine multiplierOf_spec (hU2 _).1 (su2_sign (su2_mul (hU2 i) (hU2 j)) (hU2 _) (induces_mul (hU3 i) (hU3 j)) ?_)
    have h1 : (L.transpose * realMat (properPart (rots i)) * (L.transpose)⁻¹) *
        (L.transpose * realMat (properPart (rots j)) * (L.transpose)⁻¹) =
        L.transpose * realMat (properPart (rots (T i j))) * (L.transpose)⁻¹ := by
      rw [hrot, properPart_mul (hsign i) (hsign j), realMat_mul]
      calc _ = L.transpose * realMat (properPart (rots i)) * ((L.transpose)⁻¹ * L.transpose) *
            (realMat (properPart (rots j)) * (L.transpose)⁻¹) := by simp only [Matrix.mul_assoc]
        _ = _ := by rw [Matrix.nonsing_inv_mul _ hLt, Matrix.mul_one]; simp only [Matrix.mul_assoc]
    rw [h1]
    exact hU3 _
  have hz : ∀ i j, z i j = 1 ∨ z i j = -1 := fun i j => (hcase i j).imp And.right And.right
  have hmul : ∀ i j, U i * U j = z i j • U (T i j) := by
    intro i j
    rcases hcase i j with ⟨h1, h2⟩ | ⟨h1, h2⟩ <;> rw [h1, h2] <;> simp
  have hne : ∀ i, U i ≠ 0 := by
    intro i h0
    have := (hU2 i).2
    rw [h0, Matrix.det_zero] at this
    exact zero_ne_one this
  have hinj : ∀ {a b : ℂ} {i}, a • U i = b • U i → a = b := fun {a b i} hab =>
    smul_left_injective ℂ (hne i) hab
  have hrun : getSpinorFactorSystem eig L rots = .ok (z, U) := by
    unfold getSpinorFactorSystem
    rw [arrayM_ok hU1]
    simp only [bind, Except.bind, hT]
    rfl
  have hneg : ∀ i i', (rots i' = rots i ∨ rots i' = -rots i) → U i' = U i := by
    intro i i' hi
    have hdet : (rots i).det ≠ 0 := by rcases hsign i with h1 | h1 <;> rw [h1] <;> norm_num
    have h1 : getSpinorUnitaryRotation eig L (rots i') = getSpinorUnitaryRotation eig L (rots i) := by
      rcases hi with hi | hi
      · rw [hi]
      · rw [hi, getSpinorUnitaryRotation_neg eig L hdet]
    rw [hU1, hU1] at h1
    exact Except.ok.inj h1
  refine ⟨z, U, hrun, fun i => ⟨hU2 i, hU1 i⟩, hz, ?_, ?_, ?_, fun i i' hi => hneg i i' (.inr hi), ?_⟩
  · intro i j l hl
    have : l = T i j := h.1 (by rw [hrot, hl])
    rw [this]
    exact hmul i j
  · intro T' hT'
    obtain rfl : T = T' := by rw [hT] at hT'; exact Except.ok.inj hT'
    intro i j k
    have h1 : U i * (U j * U k) = (z i (T j k) * z j k) • U (T i (T j k)) := by
      rw [hmul j k, Matrix.mul_smul, hmul, smul_smul, mul_comm]
    have h2 : U i * U j * U k = (z (T i j) k * z i j) • U (T (T i j) k) := by
      rw [hmul i j, Matrix.smul_mul, hmul, smul_smul, mul_comm]
    have h3 : T (T i j) k = T i (T j k) := h.1 (by simp only [hrot, Matrix.mul_assoc])
    rw [Matrix.mul_assoc, h1, h3] at h2
    exact hinj h2
  · intro e hee
    have h1 : U e = 1 := hU4 e (proper_unique (.inl hee.symm) Matrix.det_one)
    refine ⟨h1, fun i => ⟨?_, ?_⟩⟩
    · have h2 := hmul e i
      have h3 : T e i = i := h.1 (by rw [hrot, hee, Matrix.one_mul])
      rw [h1, h3, Matrix.one_mul] at h2
      exact hinj (h2.symm.trans (one_smul _ _).symm)
    · have h2 := hmul i e
      have h3 : T i e = i := h.1 (by rw [hrot, hee, Matrix.mul_one])
      rw [h1, h3, Matrix.mul_one] at h2
      exact hinj (h2.symm.trans (one_smul _ _).symm)
  · intro i i' j j' hi hj
    have h1 : rots (T i' j') = rots (T i j) ∨ rots (T i' j') = -rots (T i j) := by
      rw [hrot, hrot]
      rcases hi with hi | hi <;> rcases hj with hj | hj <;> rw [hi, hj] <;> simp
    show multiplierOf (U i' * U j') (U (T i' j')) = multiplierOf (U i * U j) (U (T i j))
    rw [hneg i i' hi, hneg j j' hj, hneg _ _ h1]

/-- Non-vacuity of C44: the group 222 in the bcc lattice. -/
example : ∃ eig : EigOracle, SymmEigContract eig ∧ latticeBcc.det ≠ 0 ∧ EnumeratesGroup rotsI24 ∧
    ∀ i, PreservesMetric latticeBcc (rotsI24 i) := by
  obtain ⟨eig, h⟩ := symmEigContract_exists
  exact ⟨eig, h, latticeBcc_det, rotsI24_group, metric_I24⟩

/-! ### C45 -/

/-- Multiplying a complete list of cogroup irreps with the phases gives a complete list of (spinor) small
representations. -/
theorem complete_spinor {rots : Fin n → M3} (h : EnumeratesGroup rots) (hT : getCayleyTable rots = .ok T)
    (trans : Fin n → V3) (k : V3) (z : Fin n → Fin n → ℂ) {L : List (AnyRep n)}
    (hL : IsCompleteIrreps T (fun i j => z i j * getFactorSystem rots trans k i j) L) :
    (∀ Γ ∈ L.map fun D => (⟨D.1, phaseMul trans k D.2⟩ : AnyRep n),
      SpaceGroupLaw rots trans k z Γ.2 ∧ IsUnitaryRep Γ.2 ∧ Spec.IsIrreducible Γ.2) ∧
    (L.map fun D => (⟨D.1, phaseMul trans k D.2⟩ : AnyRep n)).Pairwise (fun Γ Γ' => ¬ AreEquivalent Γ.2 Γ'.2) ∧
    ∀ (e : ℕ) (E : RepArr n e), SpaceGroupLaw rots trans k z E → (∀ g, IsUnit (E g)) → Spec.IsIrreducible E →
      ∃ Γ ∈ L.map fun D => (⟨D.1, phaseMul trans k D.2⟩ : AnyRep n), AreEquivalent E Γ.2 := by
  refine ⟨?_, ?_, ?_⟩
  · intro D' hD'
    obtain ⟨D, hD, rfl⟩ := List.mem_map.1 hD'
    exact ⟨(c10_small_representation h hT trans k z D.2).1.1 (hL.rep D hD),
      (c10_small_representation h hT trans k z D.2).2.1.1 (hL.unitary D hD),
      phaseMul_irreducible (hL.irred D hD) trans k⟩
  · rw [List.pairwise_map]
    exact hL.inequiv.imp fun {D E} hDE hc => hDE ((phaseMul_equiv_iff trans k).1 hc)
  · intro e E hE hEu hEi
    have hE' : IsProjRep T (fun i j => z i j * getFactorSystem rots trans k i j) (phaseMul trans (-k) E) := by
      rw [(c10_small_representation h hT trans k z _).1, phaseMul_neg]; exact hE
    obtain ⟨D, hD, hDE⟩ := hL.complete e (phaseMul trans (-k) E) hE' (fun g => by
      unfold phaseMul
      exact (hEu g).smul (Units.mk0 _ (expPhase_ne_zero _))) (phaseMul_irreducible hEi _ _)
    refine ⟨_, List.mem_map.2 ⟨D, hD, rfl⟩, ?_⟩
    have := phaseMul_equiv trans k hDE
    rwa [phaseMul_neg] at this

/-- The combined factor system is a normalised cocycle of unit complex numbers. -/
theorem spinor_setup {rots : Fin n → M3} {trans : Fin n → V3} {k : V3} (h : IsSpaceGroup rots trans)
    (hk : ∀ i, FixesK (rots i) k) {z : Fin n → Fin n → ℂ} (hz : ∀ i j, z i j = 1 ∨ z i j = -1)
    (hzc : ∀ T, getCayleyTable rots = .ok T → IsCocycle T z) (hz1 : ∀ e, rots e = 1 → z e e = 1) :
    ∃ T e, getCayleyTable rots = .ok T ∧ IsGroupTable T ∧ rots e = 1 ∧
      IsCocycle T (fun i j => z i j * getFactorSystem rots trans k i j) ∧
      (∀ i j, ‖z i j * getFactorSystem rots trans k i j‖ = 1) ∧ z e e * getFactorSystem rots trans k e e = 1 := by
  obtain ⟨T, e, hT, hTg, he, hc, hn, h1⟩ := small_setup h hk
  refine ⟨T, e, hT, hTg, he, fun i j l => ?_, fun i j => ?_, ?_⟩
  · have h2 := hzc T hT i j l
    have h3 := hc i j l
    linear_combination (getFactorSystem rots trans k i (T j l) * getFactorSystem rots trans k j l) * h2 +
      (z (T i j) l * z i j) * h3
  · rw [norm_mul, hn, mul_one]
    rcases hz i j with h2 | h2 <;> rw [h2] <;> simp
  · rw [hz1 e he, h1, one_mul]

/-- Any enumeration method returns a complete list if it does not warn. -/
theorem raw_complete {rots : Fin n → M3} (h : EnumeratesGroup rots) (hT : getCayleyTable rots = .ok T)
    {μ : Fin n → Fin n → ℂ} (hc : IsCocycle T μ) (hn : ∀ g h, ‖μ g h‖ = 1) {e : Fin n} (he : rots e = 1) (h1 : μ e e = 1)
    {o : Oracles} {method : IrrepMethod} {rtol : ℝ} (ho : MethodContract o method rtol rots) {atol : ℝ}
    (ha : 0 ≤ atol) {maxGen : ℕ} {L : List (AnyRep n)}
    (hraw : rawIrreps o rots μ method rtol atol maxGen = .ok (L, false)) : IsCompleteIrreps T μ L := by
  obtain ⟨T', hT', -, hTg⟩ := c01_cayley_table_ordinary h
  obtain rfl : T' = T := by rw [hT] at hT'; exact (Except.ok.inj hT').symm
  cases method with
  | neto =>
    obtain ⟨L', w, hraw', hw, -⟩ := neto_raw h hT hTg hc hn he h1 o ho rtol ha maxGen
    rw [hraw] at hraw'
    obtain ⟨rfl, rfl⟩ := Prod.mk.inj (Except.ok.inj hraw')
    exact hw rfl
  | random =>
    obtain ⟨reg, lookup, q1, -, -, L', w, q3, q4, -⟩ := c35_random_enumeration h hT hn hc ho.1 (o.random n) ho.2.1 ho.2.2 maxGen
    unfold rawIrreps at hraw
    dsimp only at hraw
    simp only [q1, bind, Except.bind, q3] at hraw
    obtain ⟨rfl, rfl⟩ := Prod.mk.inj (Except.ok.inj hraw)
    exact (q4 rfl).1
  | other => cases hraw

/-- What a successful run went through. -/
theorem spinorSmall_ok {o : Oracles} {L : R3} {rots : Fin n → M3} {trans : Fin n → V3} {k : V3} {method : IrrepMethod}
    {rtol atol : ℝ} {maxGen : ℕ} {irreps : List (AnyRep n)} {z : Fin n → Fin n → ℂ}
    {U : Fin n → Matrix (Fin 2) (Fin 2) ℂ} {w : Bool}
    (hrun : enumerateSpinorSmallReps o L rots trans k method rtol atol maxGen = .ok ((irreps, z, U), w)) :
    getSpinorFactorSystem o.eig L rots = .ok (z, U) ∧ ∃ R,
      rawIrreps o rots (fun i j => z i j * getFactorSystem rots trans k i j) method rtol atol maxGen = .ok (R, w) ∧
      irreps = smallList trans k atol R := by
  unfold enumerateSpinorSmallReps enumerateUnitaryIrreps at hrun
  simp only [Option.getD_some, bind, Except.bind, pure, Except.pure] at hrun
  cases hz : getSpinorFactorSystem o.eig L rots with
  | error e => rw [hz] at hrun; cases hrun
  | ok zU =>
    rw [hz] at hrun
    dsimp only at hrun
    cases hraw : rawIrreps o rots (fun i j => zU.1 i j * getFactorSystem rots trans k i j) method rtol atol maxGen with
    | error e => rw [hraw] at hrun; cases hrun
    | ok Rw =>
      obtain ⟨R, w'⟩ := Rw
      rw [hraw] at hrun
      simp only [Bool.false_eq_true, if_false] at hrun
      cases hl : withIndicators (R.map fun D => (⟨D.1, purifyIrrepValue D.2 atol⟩ : AnyRep n)) with
      | error e => rw [hl] at hrun; cases hrun
      | ok l =>
        rw [hl] at hrun
        dsimp only at hrun
        obtain ⟨h1, rfl⟩ := Prod.mk.inj (Except.ok.inj hrun)
        obtain ⟨h2, h3⟩ := Prod.mk.inj h1
        obtain ⟨rfl, rfl⟩ := Prod.mk.inj h3
        refine ⟨rfl, R, hraw, ?_⟩
        rw [← h2]
        have h4 := withIndicators_fst hl
        unfold smallList
        rw [show (l.map fun D : AnyRep n × ℤ => (⟨D.1.1, phaseMul trans k D.1.2⟩ : AnyRep n)) =
          (l.map Prod.fst).map fun D => (⟨D.1, phaseMul trans k D.2⟩ : AnyRep n) by rw [List.map_map]; rfl, h4, List.map_map]
        rfl

/-- C45: if `enumerate_spinor_small_representations` returns without a warning, its arrays are entrywise within `atol`
of unitary irreducible families obeying `Γ_i Γ_j = z(i,j) exp(-2πi k·(R_i w_j + w_i - w_ij)) Γ_ij` with the returned
factor system `z`, no two of which are equivalent, and to one of which every irreducible family obeying that law is
equivalent; the squares of the dimensions add up to the order of the little co-group.  The returned `z` and `U` are
those of `get_spinor_factor_system`. -/
theorem c45_spinor_small_reps {rots : Fin n → M3} {trans : Fin n → V3} {k : V3} (h : IsSpaceGroup rots trans)
    (hk : ∀ i, FixesK (rots i) k) {o : Oracles} (he : SymmEigContract o.eig) {L : R3} (hL : L.det ≠ 0)
    (hm : ∀ i, PreservesMetric L (rots i)) {method : IrrepMethod} {rtol : ℝ} (ho : MethodContract o method rtol rots)
    {atol : ℝ} (ha : 0 < atol) (ha5 : atol ≤ 1 / 5) {maxGen : ℕ} {irreps : List (AnyRep n)} {z : Fin n → Fin n → ℂ}
    {U : Fin n → Matrix (Fin 2) (Fin 2) ℂ}
    (hrun : enumerateSpinorSmallReps o L rots trans k method rtol atol maxGen = .ok ((irreps, z, U), false)) :
    getSpinorFactorSystem o.eig L rots = .ok (z, U) ∧
    ∃ S : List (AnyRep n),
      List.Forall₂ (fun Γ x => ∃ A : RepArr n Γ.1, x = ⟨Γ.1, A⟩ ∧ ∀ g i j, ‖Γ.2 g i j - A g i j‖ ≤ atol) S irreps ∧
      (∀ Γ ∈ S, SpaceGroupLaw rots trans k z Γ.2 ∧ IsUnitaryRep Γ.2 ∧ Spec.IsIrreducible Γ.2) ∧
      S.Pairwise (fun Γ Γ' => ¬ AreEquivalent Γ.2 Γ'.2) ∧
      (∀ (e : ℕ) (E : RepArr n e), SpaceGroupLaw rots trans k z E → (∀ g, IsUnit (E g)) →
        Spec.IsIrreducible E → ∃ Γ ∈ S, AreEquivalent E Γ.2) ∧
      (S.map fun Γ => Γ.1 ^ 2).sum = n := by
  obtain ⟨hzU, R, hraw, rfl⟩ := spinorSmall_ok hrun
  refine ⟨hzU, ?_⟩
  obtain ⟨z', U', hzU', hU, hz, -, hzc, hz1, -⟩ := c44_spinor_factor_system he hL h.1 hm
  obtain ⟨rfl, rfl⟩ := Prod.mk.inj (Except.ok.inj (hzU.symm.trans hzU'))
  obtain ⟨T, e, hT, hTg, he1, hc, hn, h1⟩ := spinor_setup h hk hz hzc fun e he => ((hz1 e he).2 e).1
  have hR := raw_complete h.1 hT hc hn he1 h1 ho ha.le hraw
  obtain ⟨s1, s2, s3⟩ := complete_spinor h.1 hT trans k z hR
  refine ⟨_, ?_, s1, s2, s3, ?_⟩
  · unfold smallList
    rw [List.forall₂_map_left_iff, List.forall₂_map_right_iff, List.forall₂_same]
    exact fun D _ => ⟨_, rfl, (near_purify D.2 ha ha5).phaseMul trans k⟩
  · rw [List.map_map]
    exact IsCompleteIrreps.sum_sq hTg (ne_zero_of_norm_one hn) hc hR

/-- C45, the Neto method does return without a warning for suitable draws, when the nonsymmorphic factors are `±1` (for
example at `k = 0`, or without fractional translations). -/
theorem c45_runs {rots : Fin n → M3} {trans : Fin n → V3} {k : V3} (h : IsSpaceGroup rots trans)
    (hk : ∀ i, FixesK (rots i) k) (hμ : ∀ i j, getFactorSystem rots trans k i j = 1 ∨ getFactorSystem rots trans k i j = -1)
    {o : Oracles} (he : SymmEigContract o.eig) {L : R3} (hL : L.det ≠ 0)
    (hm : ∀ i, PreservesMetric L (rots i)) {rtol : ℝ} (ho : PointgroupContract o.pointgroup rots)
    {atol : ℝ} (ha : 0 < atol) (hna : n * atol ≤ 1 / 5) {maxGen : ℕ} (hr : RichDraws n o.random atol maxGen) :
    ∃ irreps z U, enumerateSpinorSmallReps o L rots trans k .neto rtol atol maxGen = .ok ((irreps, z, U), false) := by
  obtain ⟨z, U, hzU, hU, hz, -, hzc, hz1, -⟩ := c44_spinor_factor_system he hL h.1 hm
  obtain ⟨T, e, hT, hTg, he1, hc, hn, h1⟩ := spinor_setup h hk hz hzc fun e he => ((hz1 e he).2 e).1
  obtain ⟨R, w, hraw, hw, hr'⟩ := neto_raw h.1 hT hTg hc hn he1 h1 o ho rtol ha.le maxGen
  obtain rfl := hr' hr
  have hR := hw rfl
  have hn1 : (1 : ℝ) ≤ n := by exact_mod_cast table_pos hTg
  have ha5 : atol ≤ 1 / 5 := by nlinarith
  have hf : ∀ D ∈ R.map fun D => (⟨D.1, purifyIrrepValue D.2 atol⟩ : AnyRep n),
      ∃ c : ℤ, (c = 1 ∨ c = -1 ∨ c = 0) ∧ frobeniusSchur D.2 = .ok c := by
    intro D' hD'
    obtain ⟨D, hD, rfl⟩ := List.mem_map.1 hD'
    have hd := IsCompleteIrreps.dim_le hTg (ne_zero_of_norm_one hn) hc hR hD
    refine fs_ok hTg (hR.rep D hD) (hR.unitary D hD) (hR.irred D hD) (Or.inr fun i j => ?_)
      hd ha.le hna (near_purify D.2 ha ha5)
    rcases hz i j with h2 | h2 <;> rcases hμ i j with h3 | h3 <;> simp [h2, h3]
  obtain ⟨l, hl, -⟩ := withIndicators_ok hf
  refine ⟨l.map fun D => ⟨D.1.1, phaseMul trans k D.1.2⟩, z, U, ?_⟩
  unfold enumerateSpinorSmallReps enumerateUnitaryIrreps
  simp only [hzU, Option.getD_some, bind, Except.bind, pure, Except.pure, hraw, Bool.false_eq_true, if_false, hl]

/-- Non-vacuity of C45: I222 at W with spin, enumerated without a warning. -/
example : ∃ (o : Oracles) (irreps : List (AnyRep 4)) (z : Fin 4 → Fin 4 → ℂ) (U : Fin 4 → Matrix (Fin 2) (Fin 2) ℂ),
    SymmEigContract o.eig ∧ MethodContract o .neto 1e-5 rotsI24 ∧
    enumerateSpinorSmallReps o latticeBcc rotsI24 (fun _ _ => 0) kW .neto 1e-5 1e-8 4 = .ok ((irreps, z, U), false) := by
  have h : IsSpaceGroup rotsI24 (fun _ _ => 0) := ⟨rotsI24_group, fun _ _ _ _ _ => ⟨0, by simp⟩⟩
  obtain ⟨eig, he⟩ := symmEigContract_exists
  obtain ⟨random, hr⟩ := exists_richDraws 1e-8 4 4 fun d hd => hd
  let o : Oracles := { random := random, eig := eig, eigh := fun d _ => (fun _ => 0, 0), qr := fun _ _ _ => 0,
                       pointgroup := (PgSymbol.pg_222, trafoI24.map fun x : ℤ => (x : ℝ)) }
  obtain ⟨irreps, z, U, hrun⟩ := c45_runs (o := o) (rtol := 1e-5) (atol := 1e-8) (maxGen := 4) h fixesK_I24 (fun i j => .inl (by
    unfold getFactorSystem
    have : dot3 (residual (rotsI24 i) kW) ((fun _ _ => 0 : Fin 4 → V3) j) = 0 := by unfold dot3; simp
    rw [this, expPhase_zero])) he latticeBcc_det metric_I24 pointgroup_I24 (by norm_num) (by norm_num) hr
  exact ⟨o, irreps, z, U, he, pointgroup_I24, hrun⟩

end Spgrep
