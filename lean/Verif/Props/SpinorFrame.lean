/-
C107: the spinor functions do not depend on the eigen-solver, and on the lattice only up to signs.
-/
import Verif.Props.SelfCheck
import Verif.Props.CoreSpinor
import Mathlib.Analysis.Matrix.Spectrum

namespace Spgrep

open Spec Matrix

variable {n : ℕ}

/-! ### The axis of a half turn -/

theorem foldlM_fix {β : Type} {f : Option V3 → β → Except PyErr (Option V3)}
    (hf : ∀ a b v, f a b = .ok (some v) → a = some v ∨ ∃ w, v = fixDirection w) :
    ∀ (l : List β) (a : Option V3) (v : V3), l.foldlM f a = .ok (some v) → a = some v ∨ ∃ w, v = fixDirection w := by
  intro l
  induction l with
  | nil =>
    intro a v h
    exact .inl (Except.ok.inj h)
  | cons b l ih =>
    intro a v h
    rw [List.foldlM_cons] at h
    rcases hb : f a b with e | c
    · rw [hb] at h
      exact absurd h (by simp [bind, Except.bind])
    · rw [hb] at h
      rcases ih c v h with rfl | h'
      · exact hf a b v hb
      · exact .inr h'

theorem halfTurnAxis_fix {eig : EigOracle} {R : R3} {v : V3} (h : halfTurnAxis eig R = .ok (some v)) :
    ∃ w, v = fixDirection w := by
  classical
  unfold halfTurnAxis at h
  have hf := foldlM_fix (fun a b v hv => ?_) _ _ _ h
  · rcases hf with h' | h'
    · cases h'
    · exact h'
  · dsimp only at hv
    split at hv
    · exact .inl (Except.ok.inj hv)
    · split at hv
      · cases hv
      · exact .inr ⟨_, (Option.some.inj (Except.ok.inj hv)).symm⟩

theorem close_zero_neg {x : ℝ} : IsClose 1e-5 1e-8 (-x) 0 ↔ IsClose 1e-5 1e-8 x 0 := by
  unfold IsClose
  rw [sub_zero, sub_zero, abs_neg]

open Classical in
/-- The first component that is not almost zero. -/
theorem fixDirection_pos {w : V3} {j : Fin 3}
    (hj : ((List.finRange 3).find? fun j => decide (¬ IsClose 1e-5 1e-8 (fixDirection w j) 0)) = some j) :
    0 ≤ fixDirection w j := by
  have hsame : ∀ u : V3, (u = w ∨ u = fun a => -w a) →
      ((List.finRange 3).find? fun j => decide (¬ IsClose 1e-5 1e-8 (u j) 0)) =
      (List.finRange 3).find? fun j => decide (¬ IsClose 1e-5 1e-8 (w j) 0) := by
    rintro u (rfl | rfl)
    · rfl
    · simp only [close_zero_neg]
  have hj' : ((List.finRange 3).find? fun j => decide (¬ IsClose 1e-5 1e-8 (w j) 0)) = some j := by
    rw [← hsame _ (fixDirection_eq w)]
    exact hj
  unfold fixDirection
  rw [hj']
  dsimp only
  split
  · linarith
  · linarith

open Classical in
theorem fixDirection_unique {w w' : V3} (hn : ∑ a, fixDirection w a ^ 2 = 1)
    (h : fixDirection w = fixDirection w' ∨ fixDirection w = fun a => -fixDirection w' a) :
    fixDirection w = fixDirection w' := by
  rcases h with h | h
  · exact h
  exfalso
  rcases hf : (List.finRange 3).find? fun j => decide (¬ IsClose 1e-5 1e-8 (fixDirection w j) 0)
    with _ | j
  · rw [List.find?_eq_none] at hf
    have hs : ∀ a, fixDirection w a ^ 2 ≤ 1e-16 := by
      intro a
      have h1 := hf a (List.mem_finRange a)
      simp only [decide_eq_true_eq, not_not] at h1
      unfold IsClose at h1
      rw [sub_zero, abs_zero, mul_zero, add_zero] at h1
      rw [← sq_abs]
      calc |fixDirection w a| ^ 2 ≤ (1e-8) ^ 2 := by gcongr
        _ = _ := by norm_num
    rw [Fin.sum_univ_three] at hn
    linarith [hs 0, hs 1, hs 2]
  · have h1 := fixDirection_pos (w := w) (j := j) hf
    have h2 : ((List.finRange 3).find? fun j => decide (¬ IsClose 1e-5 1e-8 (fixDirection w' j) 0)) =
        some j := by
      rw [← hf]
      simp only [h, close_zero_neg]
    have h3 := fixDirection_pos (w := w') (j := j) h2
    have h4 := List.find?_some hf
    simp only [decide_eq_true_eq] at h4
    have h5 : fixDirection w j = -fixDirection w' j := congrFun h j
    apply h4
    have h6 : fixDirection w j = 0 := by linarith
    unfold IsClose
    rw [h6]
    norm_num

/-- The unit vectors fixed by a half turn. -/
theorem half_turn_axis_sign {R : R3} (h : SO3Facts R) (h2 : R.trace = -1) {v v' : V3} (hv : R.mulVec v = v)
    (hn : ∑ a, v a ^ 2 = 1) (hv' : R.mulVec v' = v') (hn' : ∑ a, v' a ^ 2 = 1) : v = v' ∨ v = fun a => -v' a := by
  have e : ∀ a b, v a * v b = v' a * v' b := by
    intro a b
    have h3 := (half_turn_formula h h2 hv hn).trans (half_turn_formula h h2 hv' hn').symm
    have h4 := congrFun (congrFun h3 a) b
    unfold rodrigues at h4
    rw [Real.cos_pi, Real.sin_pi] at h4
    fin_cases a <;> fin_cases b <;> simp at h4 ⊢ <;> linarith
  obtain ⟨b, hb⟩ : ∃ b, v' b ≠ 0 := by
    by_contra hc
    push Not at hc
    simp [hc] at hn'
  have hbb := e b b
  rcases mul_self_eq_mul_self_iff.1 hbb with h5 | h5
  · left
    funext a
    have := e a b
    rw [h5] at this
    exact mul_right_cancel₀ hb this
  · right
    funext a
    have := e a b
    rw [h5] at this
    refine mul_right_cancel₀ hb ?_
    linarith

theorem halfTurnAxis_unique {eig eig' : EigOracle} (he : SymmEigContract eig) (he' : SymmEigContract eig') {R : R3}
    (h : SO3Facts R) (hd : R.det = 1) (h2 : R.trace = -1) : halfTurnAxis eig R = halfTurnAxis eig' R := by
  obtain ⟨v, hv, hv1, hv2⟩ := halfTurnAxis_spec he h hd h2
  obtain ⟨v', hv', hv1', hv2'⟩ := halfTurnAxis_spec he' h hd h2
  obtain ⟨w, rfl⟩ := halfTurnAxis_fix hv
  obtain ⟨w', rfl⟩ := halfTurnAxis_fix hv'
  rw [hv, hv', fixDirection_unique hv2 (half_turn_axis_sign h h2 hv1 hv2 hv1' hv2')]

/-- **C107, eigen-solver**: for every isometry of a lattice the SU(2) matrix does not depend on the eigenvectors that
`np.linalg.eig` chooses. -/
theorem c107_solver_free {eig eig' : EigOracle} (he : SymmEigContract eig) (he' : SymmEigContract eig') {L : R3}
    (hL : L.det ≠ 0) {S : M3} (hS : PreservesMetric L S) :
    getSpinorUnitaryRotation eig L S = getSpinorUnitaryRotation eig' L S := by
  have hm := properPart_metric hS
  obtain ⟨h1, h2, h3, -⟩ := cartesian_orthogonal hL hm
  have hdet : (L.transpose * realMat (properPart S) * (L.transpose)⁻¹).det = 1 := by
    rw [h2, properPart_det (det_sign hL hS)]
    norm_num
  have hso := so3Facts h1 hdet
  have hsh := sharp_of_int hso h3
  have key : getRotationAngleAndAxis eig (L.transpose * realMat (properPart S) * (L.transpose)⁻¹) =
      getRotationAngleAndAxis eig' (L.transpose * realMat (properPart S) * (L.transpose)⁻¹) := by
    unfold getRotationAngleAndAxis
    split
    · rfl
    · dsimp only
      split
      · rename_i hc
        rw [halfTurnAxis_unique he he' hso hdet (hsh.2 hc)]
      · rfl
  have hinv : linInv L.transpose = .ok (L.transpose)⁻¹ := by
    unfold linInv
    rw [if_neg (by rw [Matrix.det_transpose]; exact hL)]
  unfold getSpinorUnitaryRotation
  have hp : (if 0 < S.det then (1 : ℤ) else -1) • S = properPart S := rfl
  simp only [bind, Except.bind, hp, hinv, key]

/-- **C107, eigen-solver**: the factor system and the SU(2) matrices. -/
theorem c107_factor_solver_free {eig eig' : EigOracle} (he : SymmEigContract eig) (he' : SymmEigContract eig') {L : R3}
    (hL : L.det ≠ 0) {rots : Fin n → M3} (hm : ∀ i, PreservesMetric L (rots i)) :
    getSpinorFactorSystem eig L rots = getSpinorFactorSystem eig' L rots := by
  unfold getSpinorFactorSystem
  rw [show (fun i => getSpinorUnitaryRotation eig L (rots i)) = fun i => getSpinorUnitaryRotation eig' L (rots i) from
    funext fun i => c107_solver_free he he' hL (hm i)]

/-- The SU(2) matrix of a half turn around the unit vector `v`: `-i (v · σ)`. -/
noncomputable def halfTurnSpinor (v : V3) : Matrix (Fin 2) (Fin 2) ℂ :=
  !![-Complex.I * v 2, -Complex.I * v 0 - v 1; -Complex.I * v 0 + v 1, Complex.I * v 2]

theorem spinorMatrix_pi (v : V3) : spinorMatrix Real.pi v = halfTurnSpinor v := by
  have hc : Real.cos (0.5 * Real.pi) = 0 := by rw [show (0.5 : ℝ) * Real.pi = Real.pi / 2 by ring]; exact Real.cos_pi_div_two
  have hs : Real.sin (0.5 * Real.pi) = 1 := by rw [show (0.5 : ℝ) * Real.pi = Real.pi / 2 by ring]; exact Real.sin_pi_div_two
  unfold spinorMatrix halfTurnSpinor
  rw [hc, hs]
  ext a b
  fin_cases a <;> fin_cases b <;> simp

/-- **C107, convention**: which of the two SU(2) matrices of an isometry with Cartesian matrix `C` is returned: the one
with positive trace, and for half turns the one of the axis whose first component that is larger than the tolerance is
positive. -/
theorem c107_convention {eig : EigOracle} (he : SymmEigContract eig) {L : R3} (hL : L.det ≠ 0) {S : M3}
    (hS : PreservesMetric L S) {C : R3} (hC : C * L.transpose = L.transpose * ((S.det : ℝ) • S.map fun x => (x : ℝ))) :
    ∃ U, getSpinorUnitaryRotation eig L S = .ok U ∧ IsSU2 U ∧ InducesRotation U C ∧
      (C.trace ≠ -1 → 0 < U.trace.re) ∧
      (C.trace = -1 → ∃ v : V3, C.mulVec v = v ∧ ∑ a, v a ^ 2 = 1 ∧
        (∀ j, (∀ i < j, |v i| ≤ 1e-8) → 1e-8 < |v j| → 0 < v j) ∧ U = halfTurnSpinor v) := by
  have hLt : IsUnit (L.transpose).det := by rw [Matrix.det_transpose]; exact hL.isUnit
  have hpp : realMat (properPart S) = (S.det : ℝ) • S.map fun x => (x : ℝ) := by
    unfold realMat properPart
    rcases det_sign hL hS with h | h <;> rw [h] <;> ext a b <;> simp
  rw [← hpp] at hC
  have hCC : L.transpose * realMat (properPart S) * (L.transpose)⁻¹ = C := by
    rw [← hC, Matrix.mul_assoc, Matrix.mul_nonsing_inv _ hLt, Matrix.mul_one]
  have hm := properPart_metric hS
  obtain ⟨h1, h2, h3, -⟩ := cartesian_orthogonal hL hm
  have hdet : (L.transpose * realMat (properPart S) * (L.transpose)⁻¹).det = 1 := by
    rw [h2, properPart_det (det_sign hL hS)]
    norm_num
  rw [hCC] at h1 h3 hdet
  have hso := so3Facts h1 hdet
  have hsh := sharp_of_int hso h3
  obtain ⟨θ, v, k1, k2, k3, k4, k5, k6⟩ := getRotationAngleAndAxis_spec he h1 hdet hsh
  have hinv : linInv L.transpose = .ok (L.transpose)⁻¹ := by
    unfold linInv
    rw [if_neg (by rw [Matrix.det_transpose]; exact hL)]
  refine ⟨spinorMatrix θ v, ?_, spinorMatrix_su2 θ k4, k5 ▸ spinorMatrix_induces θ k4, fun ht => ?_, fun ht => ?_⟩
  · unfold getSpinorUnitaryRotation
    have hp : (if 0 < S.det then (1 : ℤ) else -1) • S = properPart S := rfl
    simp only [bind, Except.bind, hp, hinv, hCC, k1]
    rfl
  · have hlt : θ < Real.pi := by
      refine lt_of_le_of_ne k3 fun hθ => ht ?_
      rw [← k5, hθ, Matrix.trace, Fin.sum_univ_three]
      rw [Fin.sum_univ_three] at k4
      simp [rodrigues]
      linarith
    have hcos : 0 < Real.cos (0.5 * θ) := Real.cos_pos_of_mem_Ioo ⟨by linarith [Real.pi_pos], by linarith⟩
    rw [Matrix.trace, Fin.sum_univ_two]
    simp only [Matrix.diag_apply, spinorMatrix, Matrix.of_apply, Matrix.cons_val', Matrix.cons_val_zero, Matrix.cons_val_one,
      Matrix.cons_val_fin_one]
    rw [show (Real.cos (0.5 * θ) : ℂ) - Complex.I * v 2 * Real.sin (0.5 * θ) +
      ((Real.cos (0.5 * θ) : ℂ) + Complex.I * v 2 * Real.sin (0.5 * θ)) = ((2 * Real.cos (0.5 * θ) : ℝ) : ℂ) by push_cast; ring,
      Complex.ofReal_re]
    linarith
  · have key : ∃ u, halfTurnAxis eig C = .ok (some u) ∧ C.mulVec u = u ∧ ∑ a, u a ^ 2 = 1 ∧ θ = Real.pi ∧ v = u := by
      obtain ⟨u, hu, hu1, hu2⟩ := halfTurnAxis_spec he hso hdet ht
      refine ⟨u, hu, hu1, hu2, ?_⟩
      unfold getRotationAngleAndAxis at k1
      rw [if_neg (fun hc => by have := hsh.1 hc; rw [ht] at this; norm_num at this)] at k1
      dsimp only at k1
      rw [if_pos (by rw [ht]; unfold IsClose; norm_num), hu] at k1
      have := Prod.mk.inj (Except.ok.inj k1)
      exact ⟨this.1.symm, (Option.some.inj this.2).symm⟩
    obtain ⟨u, hu, hu1, hu2, rfl, rfl⟩ := key
    refine ⟨v, hu1, hu2, fun j hj hj' => ?_, spinorMatrix_pi v⟩
    obtain ⟨w, rfl⟩ := halfTurnAxis_fix hu
    have hclose : ∀ x : ℝ, IsClose 1e-5 1e-8 x 0 ↔ |x| ≤ 1e-8 := fun x => by
      unfold IsClose
      rw [sub_zero, abs_zero, mul_zero, add_zero]
    have h5 : 0 ≤ fixDirection w j := by
      classical
      refine fixDirection_pos ?_
      rw [List.find?_eq_some_iff_getElem]
      refine ⟨by simp only [hclose, decide_eq_true_eq, not_le]; exact hj', j, by simp, by simp, fun i hi => ?_⟩
      simp only [List.getElem_finRange, hclose, Fin.cast_mk, Bool.not_eq_true', decide_eq_false_iff_not, not_not]
      exact hj _ (Fin.lt_def.2 hi)
    rw [abs_of_nonneg h5] at hj'
    linarith

/-- A half turn of the body-centred lattice. -/
example : ∃ eig C, SymmEigContract eig ∧ PreservesMetric latticeBcc (rotsI24 1) ∧ C.trace = -1 ∧
    C * latticeBcc.transpose = latticeBcc.transpose * (((rotsI24 1).det : ℝ) • (rotsI24 1).map fun x => (x : ℝ)) := by
  obtain ⟨eig, he⟩ := symmEigContract_exists
  refine ⟨eig, !![-1, 0, 0; 0, -1, 0; 0, 0, 1], he, metric_I24 1, ?_, ?_⟩
  · simp [Matrix.trace, Fin.sum_univ_three]
  · rw [show (rotsI24 1).det = 1 by decide +kernel]
    ext a b
    fin_cases a <;> fin_cases b <;> simp [Matrix.mul_apply, Fin.sum_univ_three, latticeBcc, rotsI24] <;> norm_num

/-! ### Change of the lattice -/

/-- Every rotation is induced by a matrix in SU(2). -/
theorem so3_lift {Q : R3} (hQ : Q * Q.transpose = 1) (hd : Q.det = 1) : ∃ V, IsSU2 V ∧ InducesRotation V Q := by
  have h := so3Facts hQ hd
  have build : ∀ (θ : ℝ) (v : V3), ∑ a, v a ^ 2 = 1 → rodrigues θ v = Q → ∃ V, IsSU2 V ∧ InducesRotation V Q :=
    fun θ v hv hr => ⟨spinorMatrix θ v, spinorMatrix_su2 θ hv, hr ▸ spinorMatrix_induces θ hv⟩
  by_cases h3 : Q.trace = 3
  · exact build 0 ![0, 0, 1] (by simp [Fin.sum_univ_three]) (by rw [rodrigues_zero, eq_one_of_trace h h3])
  · by_cases h1 : Q.trace = -1
    · obtain ⟨eig, he⟩ := symmEigContract_exists
      obtain ⟨v, -, hv, hn⟩ := halfTurnAxis_spec he h hd h1
      exact build _ v hn (half_turn_formula h h1 hv hn)
    · obtain ⟨-, -, -, h4, h5⟩ := generic_branch h h3 h1
      exact build _ _ h4 h5

theorem induces_star {V : Matrix (Fin 2) (Fin 2) ℂ} (hV : IsSU2 V) {Q : R3} (hQ : Q * Q.transpose = 1)
    (h : InducesRotation V Q) : InducesRotation V.conjTranspose Q.transpose := by
  have hV1 : V.conjTranspose * V = 1 := mul_eq_one_comm.1 hV.1
  have hcomb : ∀ c, ∑ b, (Q c b : ℂ) • (V * pauli b * V.conjTranspose) = pauli c := by
    intro c
    simp only [h _, Finset.smul_sum, smul_smul]
    rw [Finset.sum_comm]
    have : ∀ a, ∑ b, ((Q c b : ℂ) * (Q a b : ℂ)) • pauli a = (if c = a then (1 : ℂ) else 0) • pauli a := by
      intro a
      rw [← Finset.sum_smul]
      congr 1
      have := congrFun (congrFun hQ c) a
      rw [Matrix.mul_apply, Matrix.one_apply] at this
      simp only [Matrix.transpose_apply] at this
      have h2 := congrArg (fun x : ℝ => (x : ℂ)) this
      simp only [Complex.ofReal_sum, Complex.ofReal_mul] at h2
      rw [h2]
      split <;> simp
    simp only [this, ite_smul, one_smul, zero_smul]
    simp
  intro c
  rw [Matrix.conjTranspose_conjTranspose, ← hcomb c, Matrix.mul_sum, Matrix.sum_mul]
  refine Finset.sum_congr rfl fun b _ => ?_
  rw [Matrix.mul_smul, Matrix.smul_mul, Matrix.transpose_apply]
  congr 1
  calc V.conjTranspose * (V * pauli b * V.conjTranspose) * V
      = (V.conjTranspose * V) * pauli b * (V.conjTranspose * V) := by simp only [Matrix.mul_assoc]
    _ = _ := by rw [hV1, Matrix.one_mul, Matrix.mul_one]

theorem su2_star {V : Matrix (Fin 2) (Fin 2) ℂ} (hV : IsSU2 V) : IsSU2 V.conjTranspose := by
  refine ⟨?_, by rw [Matrix.det_conjTranspose, hV.2, star_one]⟩
  rw [Matrix.conjTranspose_conjTranspose]
  exact mul_eq_one_comm.1 hV.1

/-- The orthogonal factor of an invertible matrix intertwines the same orthogonal matrices. -/
theorem polar_factor {A : R3} (hA : A.det ≠ 0) : ∃ Q : R3, Q * Q.transpose = 1 ∧
    ∀ C C' : R3, C * C.transpose = 1 → C' * C'.transpose = 1 → C' * A = A * C → C' * Q = Q * C := by
  have hH : (A.transpose * A).IsHermitian := by
    rw [Matrix.IsHermitian, Matrix.conjTranspose_eq_transpose_of_trivial, Matrix.transpose_mul, Matrix.transpose_transpose]
  obtain ⟨O, lam, hO, hspec⟩ : ∃ (O : R3) (lam : Fin 3 → ℝ), O.transpose * O = 1 ∧
      A.transpose * A * O = O * Matrix.diagonal lam := by
    refine ⟨(hH.eigenvectorUnitary : R3), hH.eigenvalues, ?_, ?_⟩
    · have h3 : star (hH.eigenvectorUnitary : R3) * (hH.eigenvectorUnitary : R3) = 1 :=
        Unitary.coe_star_mul_self hH.eigenvectorUnitary
      rwa [Matrix.star_eq_conjTranspose, Matrix.conjTranspose_eq_transpose_of_trivial] at h3
    · have h2 := hH.spectral_theorem
      have h3 : star (hH.eigenvectorUnitary : R3) * (hH.eigenvectorUnitary : R3) = 1 :=
        Unitary.coe_star_mul_self hH.eigenvectorUnitary
      rw [Unitary.conjStarAlgAut_apply] at h2
      generalize (hH.eigenvectorUnitary : R3) = V at *
      have h5 : A.transpose * A * V = V * Matrix.diagonal (RCLike.ofReal ∘ hH.eigenvalues) * (star V * V) := by
        rw [← Matrix.mul_assoc, ← h2]
      rw [h5, h3, Matrix.mul_one]
      rfl
  have hO' : O * O.transpose = 1 := mul_eq_one_comm.1 hO
  have hdiag : (A * O).transpose * (A * O) = Matrix.diagonal lam := by
    rw [Matrix.transpose_mul, Matrix.mul_assoc, ← Matrix.mul_assoc A.transpose, hspec, ← Matrix.mul_assoc, hO, Matrix.one_mul]
  have hpos : ∀ i, 0 < lam i := by
    intro i
    have h1 := congrFun (congrFun hdiag i) i
    rw [Matrix.mul_apply, Matrix.diagonal_apply_eq] at h1
    simp only [Matrix.transpose_apply] at h1
    rw [← h1]
    refine lt_of_le_of_ne (Finset.sum_nonneg fun a _ => mul_self_nonneg _) fun h0 => ?_
    have h2 := (Finset.sum_eq_zero_iff_of_nonneg fun a _ => mul_self_nonneg _).1 h0.symm
    have h3 : (A * O).det = 0 := Matrix.det_eq_zero_of_column_eq_zero i fun a => mul_self_eq_zero.1 (h2 a (Finset.mem_univ a))
    rw [Matrix.det_mul] at h3
    rcases mul_eq_zero.1 h3 with h4 | h4
    · exact hA h4
    · have h5 := congrArg Matrix.det hO
      rw [Matrix.det_mul, h4, mul_zero, Matrix.det_one] at h5
      exact zero_ne_one h5
  let f : Fin 3 → ℝ := fun i => (Real.sqrt (lam i))⁻¹
  have hf : ∀ i, f i * (lam i * f i) = 1 := by
    intro i
    have h1 := Real.mul_self_sqrt (hpos i).le
    have h2 : Real.sqrt (lam i) ≠ 0 := (Real.sqrt_pos.2 (hpos i)).ne'
    simp only [f]
    rw [inv_mul_eq_iff_eq_mul₀ h2, mul_one, mul_inv_eq_iff_eq_mul₀ h2, h1]
  refine ⟨A * O * Matrix.diagonal f * O.transpose, ?_, fun C C' hC hC' hCA => ?_⟩
  · rw [mul_eq_one_comm]
    rw [Matrix.transpose_mul, Matrix.transpose_mul, Matrix.transpose_transpose, Matrix.diagonal_transpose]
    calc O * (Matrix.diagonal f * (A * O).transpose) * (A * O * Matrix.diagonal f * O.transpose)
        = O * (Matrix.diagonal f * ((A * O).transpose * (A * O) * Matrix.diagonal f)) * O.transpose := by
          simp only [Matrix.mul_assoc]
      _ = 1 := by
          rw [hdiag, Matrix.diagonal_mul_diagonal, Matrix.diagonal_mul_diagonal]
          simp only [hf]
          rw [Matrix.diagonal_one, Matrix.mul_one, hO']
  · have hcomm : C * (A.transpose * A) = A.transpose * A * C := by
      have h1 : C'.transpose * C' = 1 := mul_eq_one_comm.1 hC'
      have h2 : A.transpose * C'.transpose = C.transpose * A.transpose := by
        rw [← Matrix.transpose_mul, hCA, Matrix.transpose_mul]
      calc C * (A.transpose * A) = C * (A.transpose * (C'.transpose * C') * A) := by rw [h1, Matrix.mul_one]
        _ = C * (A.transpose * C'.transpose) * (C' * A) := by simp only [Matrix.mul_assoc]
        _ = C * C.transpose * (A.transpose * A * C) := by rw [h2, hCA]; simp only [Matrix.mul_assoc]
        _ = _ := by rw [hC, Matrix.one_mul]
    set D := O.transpose * C * O with hD
    have hDl : D * Matrix.diagonal lam = Matrix.diagonal lam * D := by
      have h1 : Matrix.diagonal lam = O.transpose * (A.transpose * A) * O := by
        rw [Matrix.mul_assoc, hspec, ← Matrix.mul_assoc, hO, Matrix.one_mul]
      rw [h1, hD]
      calc O.transpose * C * O * (O.transpose * (A.transpose * A) * O)
          = O.transpose * C * (O * O.transpose) * (A.transpose * A) * O := by simp only [Matrix.mul_assoc]
        _ = O.transpose * (C * (A.transpose * A)) * O := by rw [hO', Matrix.mul_one]; simp only [Matrix.mul_assoc]
        _ = O.transpose * (A.transpose * A) * (O * O.transpose) * C * O := by
          rw [hcomm, hO', Matrix.mul_one]; simp only [Matrix.mul_assoc]
        _ = _ := by simp only [Matrix.mul_assoc]
    have hDf : D * Matrix.diagonal f = Matrix.diagonal f * D := by
      ext i j
      have h1 := congrFun (congrFun hDl i) j
      rw [Matrix.mul_diagonal, Matrix.diagonal_mul] at h1 ⊢
      by_cases h2 : lam i = lam j
      · simp only [f, h2]
        ring
      · have h3 : D i j * (lam j - lam i) = 0 := by linear_combination h1
        rcases mul_eq_zero.1 h3 with h4 | h4
        · rw [h4]; ring
        · exact absurd (by linarith) h2
    have hCO : C * O = O * D := by
      rw [hD, ← Matrix.mul_assoc, ← Matrix.mul_assoc, hO', Matrix.one_mul]
    have hDO : D * O.transpose = O.transpose * C := by
      rw [hD, Matrix.mul_assoc, hO', Matrix.mul_one]
    calc C' * (A * O * Matrix.diagonal f * O.transpose)
        = C' * A * (O * Matrix.diagonal f * O.transpose) := by simp only [Matrix.mul_assoc]
      _ = A * (C * O) * (Matrix.diagonal f * O.transpose) := by rw [hCA]; simp only [Matrix.mul_assoc]
      _ = A * O * (D * Matrix.diagonal f) * O.transpose := by rw [hCO]; simp only [Matrix.mul_assoc]
      _ = A * O * Matrix.diagonal f * (D * O.transpose) := by rw [hDf]; simp only [Matrix.mul_assoc]
      _ = _ := by rw [hDO]; simp only [Matrix.mul_assoc]

/-- The spinor factor systems and SU(2) matrices for two lattices with the same symmetries. -/
structure SpinorTwist (rots : Fin n → M3) (z z' : Fin n → Fin n → ℂ) (U U' : Fin n → Matrix (Fin 2) (Fin 2) ℂ)
    (V : Matrix (Fin 2) (Fin 2) ℂ) (s : Fin n → ℂ) : Prop where
  su2 : IsSU2 V
  sign : ∀ g, s g = 1 ∨ s g = -1
  unitary : ∀ g, U' g = s g • (V * U g * V.conjTranspose)
  factor : ∀ i j l, rots i * rots j = rots l → z' i j * s l = s i * s j * z i j

/-- Two lattices determine one change of basis of the spinors: for every rotation preserving both, the SU(2) matrices for
the two lattices agree up to a sign after this change of basis. -/
theorem spinor_frame {L L' : R3} (hL : L.det ≠ 0) (hL' : L'.det ≠ 0) : ∃ V, IsSU2 V ∧ ∀ {eig eig' : EigOracle},
    SymmEigContract eig → SymmEigContract eig' → ∀ {S : M3}, PreservesMetric L S → PreservesMetric L' S →
      ∀ {u u' : Matrix (Fin 2) (Fin 2) ℂ}, getSpinorUnitaryRotation eig L S = .ok u →
        getSpinorUnitaryRotation eig' L' S = .ok u' → IsSU2 u ∧ IsSU2 u' ∧
          (u' = V * u * V.conjTranspose ∨ u' = -(V * u * V.conjTranspose)) := by
  have hLt : IsUnit (L.transpose).det := by rw [Matrix.det_transpose]; exact hL.isUnit
  have hLt' : IsUnit (L'.transpose).det := by rw [Matrix.det_transpose]; exact hL'.isUnit
  let C : M3 → R3 := fun S => L.transpose * realMat (properPart S) * (L.transpose)⁻¹
  let C' : M3 → R3 := fun S => L'.transpose * realMat (properPart S) * (L'.transpose)⁻¹
  obtain ⟨Q, hQ, hd, hint⟩ : ∃ Q : R3, Q * Q.transpose = 1 ∧ Q.det = 1 ∧ ∀ S, PreservesMetric L S → PreservesMetric L' S →
      C' S * Q = Q * C S := by
    have hA : (L'.transpose * (L.transpose)⁻¹).det ≠ 0 := by
      rw [Matrix.det_mul]
      refine mul_ne_zero hLt'.ne_zero ?_
      rw [Matrix.det_nonsing_inv]
      exact hLt.ringInverse.ne_zero
    obtain ⟨Q, hQ, hint⟩ := polar_factor hA
    have hint' : ∀ S, PreservesMetric L S → PreservesMetric L' S → C' S * Q = Q * C S := fun S hm hm' =>
      hint _ _ (cartesian_orthogonal hL (properPart_metric hm)).1 (cartesian_orthogonal hL' (properPart_metric hm')).1 (by
      calc C' S * (L'.transpose * (L.transpose)⁻¹)
          = L'.transpose * realMat (properPart S) * ((L'.transpose)⁻¹ * L'.transpose) * (L.transpose)⁻¹ := by
            simp only [C', Matrix.mul_assoc]
        _ = L'.transpose * ((L.transpose)⁻¹ * L.transpose) * realMat (properPart S) * (L.transpose)⁻¹ := by
            rw [Matrix.nonsing_inv_mul _ hLt', Matrix.nonsing_inv_mul _ hLt, Matrix.mul_one, Matrix.mul_one]
        _ = _ := by simp only [C, Matrix.mul_assoc])
    have h1 := congrArg Matrix.det hQ
    rw [Matrix.det_mul, Matrix.det_transpose, Matrix.det_one] at h1
    rcases mul_self_eq_one_iff.1 h1 with h2 | h2
    · exact ⟨Q, hQ, h2, hint'⟩
    · refine ⟨-Q, by rw [Matrix.transpose_neg, neg_mul_neg, hQ], ?_, fun S hm hm' => ?_⟩
      · rw [Matrix.det_neg, h2]
        norm_num
      · rw [Matrix.mul_neg, Matrix.neg_mul, hint' S hm hm']
  obtain ⟨V, hV, hVQ⟩ := so3_lift hQ hd
  refine ⟨V, hV, ?_⟩
  intro eig eig' he he' S hm hm' u u' hu hu'
  obtain ⟨X, hX, hX2, hX3, -⟩ := getSpinorUnitaryRotation_spec he hL hm
  obtain rfl := Except.ok.inj (hX.symm.trans hu)
  obtain ⟨X', hX', hX2', hX3', -⟩ := getSpinorUnitaryRotation_spec he' hL' hm'
  obtain rfl := Except.ok.inj (hX'.symm.trans hu')
  refine ⟨hX2, hX2', su2_sign hX2' (su2_mul (su2_mul hV hX2) (su2_star hV)) hX3' ?_⟩
  have h3 := induces_mul (induces_mul hVQ hX3) (induces_star hV hQ hVQ)
  have h4 : Q * (L.transpose * realMat (properPart S) * (L.transpose)⁻¹) * Q.transpose = C' S := by
    rw [show L.transpose * realMat (properPart S) * (L.transpose)⁻¹ = C S from rfl, ← hint S hm hm', Matrix.mul_assoc, hQ,
      Matrix.mul_one]
  rw [h4] at h3
  exact h3

/-- **C107, lattice**: let the rotations preserve two lattices, which may differ by a rotation or a strain.  The SU(2)
matrices for the two differ by one common change of basis of the spinors and by signs, and the factor systems by the
coboundary of these signs. -/
theorem c107_lattice {eig eig' : EigOracle} (he : SymmEigContract eig) (he' : SymmEigContract eig') {L L' : R3}
    (hL : L.det ≠ 0) (hL' : L'.det ≠ 0) {rots : Fin n → M3} (h : EnumeratesGroup rots)
    (hm : ∀ i, PreservesMetric L (rots i)) (hm' : ∀ i, PreservesMetric L' (rots i)) {z z' : Fin n → Fin n → ℂ}
    {U U' : Fin n → Matrix (Fin 2) (Fin 2) ℂ} (hrun : getSpinorFactorSystem eig L rots = .ok (z, U))
    (hrun' : getSpinorFactorSystem eig' L' rots = .ok (z', U')) : ∃ V s, SpinorTwist rots z z' U U' V s := by
  obtain ⟨V, hV, hframe⟩ := spinor_frame hL hL'
  obtain ⟨z1, U1, hr1, hU, hz, hmul, -⟩ := c44_spinor_factor_system he hL h hm
  obtain ⟨rfl, rfl⟩ := Prod.mk.inj (Except.ok.inj (hrun.symm.trans hr1))
  obtain ⟨z1, U1, hr1', hU', hz', hmul', -⟩ := c44_spinor_factor_system he' hL' h hm'
  obtain ⟨rfl, rfl⟩ := Prod.mk.inj (Except.ok.inj (hrun'.symm.trans hr1'))
  have hpm : ∀ g, U' g = V * U g * V.conjTranspose ∨ U' g = -(V * U g * V.conjTranspose) := fun g =>
    (hframe he he' (hm g) (hm' g) (hU g).2 (hU' g).2).2.2
  have hs : ∀ g, ∃ x : ℂ, (x = 1 ∨ x = -1) ∧ U' g = x • (V * U g * V.conjTranspose) := by
    intro g
    rcases hpm g with h1 | h1
    · exact ⟨1, .inl rfl, by rw [one_smul, h1]⟩
    · exact ⟨-1, .inr rfl, by rw [h1]; simp⟩
  choose s hs1 hs2 using hs
  refine ⟨V, s, hV, hs1, hs2, fun i j l hl => ?_⟩
  have hVV : V.conjTranspose * V = 1 := mul_eq_one_comm.1 hV.1
  have h1 := hmul' i j l hl
  rw [hs2 i, hs2 j, hs2 l] at h1
  have h2 : s i • (V * U i * V.conjTranspose) * s j • (V * U j * V.conjTranspose) =
      (s i * s j * z i j) • (V * U l * V.conjTranspose) := by
    rw [Matrix.smul_mul, Matrix.mul_smul, smul_smul]
    have : V * U i * V.conjTranspose * (V * U j * V.conjTranspose) = V * (U i * U j) * V.conjTranspose := by
      calc _ = V * U i * (V.conjTranspose * V) * U j * V.conjTranspose := by simp only [Matrix.mul_assoc]
        _ = _ := by rw [hVV, Matrix.mul_one]; simp only [Matrix.mul_assoc]
    rw [this, hmul i j l hl, Matrix.mul_smul, Matrix.smul_mul, smul_smul]
  rw [h2, smul_smul] at h1
  refine (smul_left_injective ℂ (fun h0 => ?_) h1).symm
  have h3 := (su2_mul (su2_mul hV (hU l).1) (su2_star hV)).2
  rw [h0, Matrix.det_zero] at h3
  exact zero_ne_one h3

/-! ### Two runs -/

theorem near_agree {rots : Fin n → M3} (h : EnumeratesGroup rots) (hn : n ≤ 48) {trans : Fin n → V3} {k : V3}
    {z : Fin n → Fin n → ℂ} (hz : ∀ i j, ‖z i j‖ = 1) {S S' l l' : List (AnyRep n)} (hS : IsCompleteSmall rots trans k z S)
    (hS' : IsCompleteSmall rots trans k z S') {ε ε' : ℝ} (hε : ε ≤ 1e-4) (hε' : ε' ≤ 1e-4)
    (h1 : List.Forall₂ (NearRep ε) S l) (h1' : List.Forall₂ (NearRep ε') S' l') :
    ∃ σ : Fin l.length ≃ Fin l'.length,
      (∀ a, (l'.get (σ a)).1 = (l.get a).1 ∧ ∀ g, ‖getCharacter (l.get a).2 g - getCharacter (l'.get (σ a)).2 g‖ ≤
        (l.get a).1 * (ε + ε')) ∧
      ∀ a b, IsEquivalentIrrep (List.ofFn (getCharacter (l.get a).2)) (List.ofFn (getCharacter (l'.get b).2)) ↔ b = σ a := by
  obtain ⟨T, hT, -, hTg⟩ := c01_cayley_table_ordinary h
  obtain ⟨σ, hσ⟩ := complete_small_agree hS hS'
  have near : ∀ {δ : ℝ} {X m : List (AnyRep n)}, List.Forall₂ (NearRep δ) X m → ∀ (hl : X.length = m.length) (a : Fin X.length),
      (m.get (a.cast hl)).1 = (X.get a).1 ∧ ∀ g, ‖getCharacter (m.get (a.cast hl)).2 g - ((X.get a).2 g).trace‖ ≤ (X.get a).1 * δ := by
    intro δ X m hX hl a
    obtain ⟨-, hget⟩ := List.forall₂_iff_get.1 hX
    obtain ⟨F, e1, e2⟩ := hget a a.2 (a.cast hl).2
    have e3 : m.get (a.cast hl) = ⟨(X.get a).1, F⟩ := e1
    rw [e3]
    refine ⟨rfl, fun g => ?_⟩
    have := sum_near (fun a' => F g a' a') (fun a' => (X.get a).2 g a' a') fun a' => by
      rw [norm_sub_rev]
      exact e2 g a' a'
    rw [Fintype.card_fin] at this
    exact this
  have hl : S.length = l.length := h1.length_eq
  have hl' : S'.length = l'.length := h1'.length_eq
  have key := near h1 hl
  have key' := near h1' hl'
  have hcast : ∀ a : Fin l.length, ∃ s : Fin S.length, a = s.cast hl := fun a => ⟨a.cast hl.symm, rfl⟩
  have hcast' : ∀ a : Fin l'.length, ∃ s : Fin S'.length, a = s.cast hl' := fun a => ⟨a.cast hl'.symm, rfl⟩
  refine ⟨((finCongr hl.symm).trans σ).trans (finCongr hl'), fun a => ?_, fun a b => ?_⟩
  · obtain ⟨s, rfl⟩ := hcast a
    have hσs : (((finCongr hl.symm).trans σ).trans (finCongr hl')) (s.cast hl) = (σ s).cast hl' := rfl
    have hdim := AreEquivalent.dim_eq (hσ s)
    have hdim' : ((l.get (s.cast hl)).1 : ℝ) = (S'.get (σ s)).1 := by exact_mod_cast (key s).1.trans hdim
    rw [hσs]
    refine ⟨(key' (σ s)).1.trans (hdim.symm.trans (key s).1.symm), fun g => ?_⟩
    have e1 := (key s).2 g
    have e2 := (key' (σ s)).2 g
    rw [AreEquivalent.trace (hσ s) g] at e1
    have hdR : ((S.get s).1 : ℝ) = (S'.get (σ s)).1 := by exact_mod_cast hdim
    rw [hdR] at e1
    rw [norm_sub_rev] at e2
    have := norm_add_le (getCharacter (l.get (s.cast hl)).2 g - ((S'.get (σ s)).2 g).trace)
      (((S'.get (σ s)).2 g).trace - getCharacter (l'.get ((σ s).cast hl')).2 g)
    rw [sub_add_sub_cancel] at this
    rw [hdim']
    linarith
  · obtain ⟨s, rfl⟩ := hcast a
    obtain ⟨t, rfl⟩ := hcast' b
    have hσs : (((finCongr hl.symm).trans σ).trans (finCongr hl')) (s.cast hl) = (σ s).cast hl' := rfl
    rw [hσs, Fin.cast_inj]
    have hC := hS.irreps h hT
    have hC' := hS'.irreps h hT
    have hmem := List.get_mem S s
    have hmem' := List.get_mem S' t
    have hd : ((S.get s).1 : ℝ) ≤ 6 := by exact_mod_cast (dim_bounds hn (dim_sq_le hS.sum_sq hmem)).1
    have hd' : ((S'.get t).1 : ℝ) ≤ 6 := by exact_mod_cast (dim_bounds hn (dim_sq_le hS'.sum_sq hmem')).1
    have hn' : (n : ℝ) ≤ 48 := by exact_mod_cast hn
    have hd0 : (0 : ℝ) ≤ (S.get s).1 := Nat.cast_nonneg _
    have hd0' : (0 : ℝ) ≤ (S'.get t).1 := Nat.cast_nonneg _
    rw [c97_character_test hTg (smallFactor_norm hz) (hC.rep _ hmem) (hC'.rep _ hmem') (hC.unitary _ hmem)
      (hC'.unitary _ hmem') (hC.irred _ hmem) (hC'.irred _ hmem') (ε := 6e-4)
      (fun g => ((key s).2 g).trans (by nlinarith)) (fun g => ((key' t).2 g).trans (by nlinarith))
      (by
        calc (n : ℝ) * (6e-4 * ((S.get s).1 + (S'.get t).1 + 6e-4)) ≤ 48 * (6e-4 * (6 + 6 + 6e-4)) := by gcongr
          _ < _ := by norm_num)]
    constructor
    · intro heq
      by_contra hne
      have h6 : AreEquivalent (S'.get t).2 (S'.get (σ s)).2 := AreEquivalent.trans (AreEquivalent.symm heq) (hσ s)
      rcases lt_or_gt_of_ne hne with hlt | hlt
      · exact List.pairwise_iff_get.1 hS'.inequiv t (σ s) hlt h6
      · exact List.pairwise_iff_get.1 hS'.inequiv (σ s) t hlt (AreEquivalent.symm h6)
    · rintro rfl
      exact hσ s

/-- The matrices of a family multiplied by signs. -/
def signTwist (s : Fin n → ℂ) (X : AnyRep n) : AnyRep n := ⟨X.1, fun g => s g • X.2 g⟩

theorem sign_sq {s : Fin n → ℂ} (hs : ∀ g, s g = 1 ∨ s g = -1) (g : Fin n) : s g * s g = 1 := by
  rcases hs g with h | h <;> rw [h] <;> norm_num

theorem sign_norm {s : Fin n → ℂ} (hs : ∀ g, s g = 1 ∨ s g = -1) (g : Fin n) : ‖s g‖ = 1 := by
  rcases hs g with h | h <;> rw [h] <;> simp

theorem signTwist_law {rots : Fin n → M3} {trans : Fin n → V3} {k : V3} {z z' : Fin n → Fin n → ℂ} {s : Fin n → ℂ}
    (hz : ∀ i j l, rots i * rots j = rots l → z' i j * s l = s i * s j * z i j) {d : ℕ}
    {Γ : RepArr n d} (h : SpaceGroupLaw rots trans k z Γ) : SpaceGroupLaw rots trans k z' fun g => s g • Γ g := by
  intro i j l hl
  dsimp only
  rw [Matrix.smul_mul, Matrix.mul_smul, smul_smul, h i j l hl, smul_smul, smul_smul]
  congr 1
  linear_combination -Complex.exp (-2 * Real.pi * Complex.I *
    ((∑ a, k a * ((∑ b, (rots i a b : ℝ) * trans j b) + trans i a - trans l a) : ℝ) : ℂ)) * hz i j l hl

theorem signTwist_irred {s : Fin n → ℂ} (hs : ∀ g, s g = 1 ∨ s g = -1) {d : ℕ} {Γ : RepArr n d}
    (h : Spec.IsIrreducible Γ) : Spec.IsIrreducible fun g => s g • Γ g := by
  refine ⟨h.1, fun W hW => h.2 W fun g v hv => ?_⟩
  have := W.smul_mem (s g) (hW g v hv)
  rwa [Matrix.smul_mulVec, smul_smul, sign_sq hs, one_smul] at this

theorem signTwist_equiv {s : Fin n → ℂ} {d e : ℕ} {Γ : RepArr n d} {Δ : RepArr n e} (h : AreEquivalent Γ Δ) :
    AreEquivalent (fun g => s g • Γ g) fun g => s g • Δ g := by
  obtain ⟨A, B, h1, h2, h3⟩ := h
  exact ⟨A, B, h1, h2, fun g => by rw [Matrix.smul_mul, Matrix.mul_smul, h3 g]⟩

theorem signTwist_twice {s : Fin n → ℂ} (hs : ∀ g, s g = 1 ∨ s g = -1) {d : ℕ} (Γ : RepArr n d) :
    (fun g => s g • s g • Γ g) = Γ := by
  funext g
  rw [smul_smul, sign_sq hs, one_smul]

/-- A complete list for one factor system gives a complete list for the other. -/
theorem signTwist_complete {rots : Fin n → M3} {trans : Fin n → V3} {k : V3} {z z' : Fin n → Fin n → ℂ} {s : Fin n → ℂ}
    (hs : ∀ g, s g = 1 ∨ s g = -1) (hz : ∀ i j l, rots i * rots j = rots l → z' i j * s l = s i * s j * z i j)
    {S : List (AnyRep n)} (hS : IsCompleteSmall rots trans k z S) : IsCompleteSmall rots trans k z' (S.map (signTwist s)) where
  law := by
    intro X hX
    obtain ⟨Γ, hΓ, rfl⟩ := List.mem_map.1 hX
    obtain ⟨h1, h2, h3⟩ := hS.law Γ hΓ
    exact ⟨signTwist_law hz h1, fun g => smul_unitary (sign_norm hs g) (h2 g), signTwist_irred hs h3⟩
  inequiv := by
    rw [List.pairwise_map]
    refine hS.inequiv.imp fun {a b} hab hne => hab ?_
    have := signTwist_equiv (s := s) (Γ := fun g => s g • a.2 g) (Δ := fun g => s g • b.2 g) hne
    rwa [signTwist_twice hs a.2, signTwist_twice hs b.2] at this
  complete := by
    intro e E hE hu hi
    have hz' : ∀ i j l, rots i * rots j = rots l → z i j * s l = s i * s j * z' i j := by
      intro i j l hl
      have h1 := hz i j l hl
      linear_combination (-(s i * s j) * s l) * h1 + (z i j * s l) * (-1 * (sign_sq hs i) * 1) +
        (s i * s j * z' i j) * (sign_sq hs l) - (z i j * s l * (s i * s i)) * (sign_sq hs j)
    obtain ⟨Γ, hΓ, heq⟩ := hS.complete e (fun g => s g • E g) (signTwist_law hz' hE)
      (fun g => by
        obtain ⟨u, hu⟩ := hu g
        refine IsUnit.of_mul_eq_one (s g • (u⁻¹ : (Matrix (Fin e) (Fin e) ℂ)ˣ).1) ?_
        rw [Matrix.smul_mul, Matrix.mul_smul, smul_smul, sign_sq hs, one_smul, ← hu, Units.mul_inv])
      (signTwist_irred hs hi)
    refine ⟨signTwist s Γ, List.mem_map_of_mem hΓ, ?_⟩
    have := signTwist_equiv (s := s) heq
    rwa [signTwist_twice hs] at this
  sum_sq := by
    rw [List.map_map]
    exact hS.sum_sq

/-- **C107, two runs**: two runs of `enumerate_spinor_small_representations` without warnings for the same operations
and the same k-point, with any two lattices that the rotations preserve and any methods, draws, answers of the outside
routines and tolerances, agree up to signs that depend only on the operations: corresponding arrays have the same
dimension and, up to the tolerances, the same characters, and the character test recognises exactly the corresponding
arrays. -/
theorem c107_runs_agree {rots : Fin n → M3} {trans : Fin n → V3} {k : V3} (h : IsSpaceGroup rots trans)
    (hk : ∀ i, FixesK (rots i) k) (hn : n ≤ 48) {o o' : Oracles} (he : SymmEigContract o.eig) (he' : SymmEigContract o'.eig)
    {L L' : R3} (hL : L.det ≠ 0) (hL' : L'.det ≠ 0) (hm : ∀ i, PreservesMetric L (rots i))
    (hm' : ∀ i, PreservesMetric L' (rots i)) {method method' : IrrepMethod} {rtol rtol' : ℝ}
    (ho : MethodContract o method rtol rots) (ho' : MethodContract o' method' rtol' rots) {atol atol' : ℝ} (ha : 0 < atol)
    (ha' : 0 < atol') (hle : atol ≤ 1e-4) (hle' : atol' ≤ 1e-4) {maxGen maxGen' : ℕ} {l l' : List (AnyRep n)}
    {z z' : Fin n → Fin n → ℂ} {U U' : Fin n → Matrix (Fin 2) (Fin 2) ℂ}
    (hrun : enumerateSpinorSmallReps o L rots trans k method rtol atol maxGen = .ok ((l, z, U), false))
    (hrun' : enumerateSpinorSmallReps o' L' rots trans k method' rtol' atol' maxGen' = .ok ((l', z', U'), false)) :
    ∃ (V : Matrix (Fin 2) (Fin 2) ℂ) (s : Fin n → ℂ), SpinorTwist rots z z' U U' V s ∧ (L = L' → V = 1 ∧ ∀ g, s g = 1) ∧
      ∃ σ : Fin l.length ≃ Fin l'.length,
        (∀ a, (l'.get (σ a)).1 = (l.get a).1 ∧ ∀ g, ‖s g * ((l.get a).2 g).trace - ((l'.get (σ a)).2 g).trace‖ ≤
          (l.get a).1 * (atol + atol')) ∧
        ∀ a b, IsEquivalentIrrep (List.ofFn fun g => s g * ((l.get a).2 g).trace)
          (List.ofFn fun g => ((l'.get b).2 g).trace) ↔ b = σ a := by
  obtain ⟨hzU, S, h1, h2, h3, h4, h5⟩ := c45_spinor_small_reps h hk he hL hm ho ha (hle.trans (by norm_num)) hrun
  obtain ⟨hzU', S', h1', h2', h3', h4', h5'⟩ :=
    c45_spinor_small_reps h hk he' hL' hm' ho' ha' (hle'.trans (by norm_num)) hrun'
  obtain ⟨V, s, hV, hLL⟩ : ∃ V s, SpinorTwist rots z z' U U' V s ∧ (L = L' → V = 1 ∧ ∀ g, s g = 1) := by
    by_cases hLL : L = L'
    · subst hLL
      rw [c107_factor_solver_free he he' hL hm, hzU'] at hzU
      obtain ⟨rfl, rfl⟩ := Prod.mk.inj (Except.ok.inj hzU)
      exact ⟨1, fun _ => 1, ⟨⟨by simp, Matrix.det_one⟩, fun _ => .inl rfl, fun g => by simp, fun i j l _ => by ring⟩,
        fun _ => ⟨rfl, fun _ => rfl⟩⟩
    · obtain ⟨V, s, hV⟩ := c107_lattice he he' hL hL' h.1 hm hm' hzU hzU'
      exact ⟨V, s, hV, fun hc => absurd hc hLL⟩
  refine ⟨V, s, hV, hLL, ?_⟩
  obtain ⟨z1, U1, hr1, -, hsign, -⟩ := c44_spinor_factor_system he' hL' h.1 hm'
  obtain ⟨rfl, rfl⟩ := Prod.mk.inj (Except.ok.inj (hzU'.symm.trans hr1))
  have hnear : List.Forall₂ (NearRep atol) (S.map (signTwist s)) (l.map (signTwist s)) := by
    rw [List.forall₂_map_left_iff, List.forall₂_map_right_iff]
    refine h1.imp fun X Y hXY => ?_
    obtain ⟨F, rfl, hF⟩ := hXY
    refine ⟨fun g => s g • F g, rfl, fun g i j => ?_⟩
    show ‖s g * X.2 g i j - s g * F g i j‖ ≤ atol
    rw [← mul_sub, norm_mul, sign_norm hV.sign, one_mul]
    exact hF g i j
  obtain ⟨σ, g1, g2⟩ := near_agree h.1 hn (fun i j => by rcases hsign i j with h | h <;> simp [h])
    (signTwist_complete hV.sign hV.factor ⟨h2, h3, h4, h5⟩) ⟨h2', h3', h4', h5'⟩ hle hle' hnear
    (h1' : List.Forall₂ (NearRep atol') S' l')
  have hlen : (l.map (signTwist s)).length = l.length := List.length_map _
  have hget : ∀ a : Fin l.length, (l.map (signTwist s)).get (a.cast hlen.symm) = signTwist s (l.get a) := fun a => by simp
  have htr : ∀ (a : Fin l.length) (g : Fin n), getCharacter ((l.map (signTwist s)).get (a.cast hlen.symm)).2 g =
      s g * ((l.get a).2 g).trace := by
    intro a g
    rw [hget]
    exact Matrix.trace_smul (s g) ((l.get a).2 g)
  refine ⟨(finCongr hlen.symm).trans σ, fun a => ?_, fun a b => ?_⟩
  · obtain ⟨e1, e2⟩ := g1 (a.cast hlen.symm)
    simp only [htr] at e2
    rw [hget] at e1 e2
    exact ⟨e1, e2⟩
  · have := g2 (a.cast hlen.symm) b
    rw [show getCharacter ((l.map (signTwist s)).get (a.cast hlen.symm)).2 = fun g => s g * ((l.get a).2 g).trace from
      funext (htr a)] at this
    exact this

/-! ### The signs occur -/

theorem fixDirection_nonneg {v : V3} (h : ∀ a, 0 ≤ v a) : fixDirection v = v := by
  unfold fixDirection
  split
  · rw [if_neg (not_lt.2 (h _))]
  · rfl

/-- The SU(2) matrix of a half turn. -/
theorem half_turn_unitary {eig : EigOracle} (he : SymmEigContract eig) {L : R3} (hL : L.det ≠ 0) {S : M3}
    (hS : PreservesMetric L S) {C : R3} (hC : C * L.transpose = L.transpose * realMat (properPart S)) (ht : C.trace = -1)
    {v : V3} (hv : C.mulVec v = v) (hn : ∑ a, v a ^ 2 = 1) (hf : fixDirection v = v) :
    getSpinorUnitaryRotation eig L S = .ok (spinorMatrix Real.pi v) := by
  have hLt : IsUnit (L.transpose).det := by rw [Matrix.det_transpose]; exact hL.isUnit
  have hCC : L.transpose * realMat (properPart S) * (L.transpose)⁻¹ = C := by
    rw [← hC, Matrix.mul_assoc, Matrix.mul_nonsing_inv _ hLt, Matrix.mul_one]
  have hm := properPart_metric hS
  obtain ⟨h1, h2, h3, -⟩ := cartesian_orthogonal hL hm
  have hdet : (L.transpose * realMat (properPart S) * (L.transpose)⁻¹).det = 1 := by
    rw [h2, properPart_det (det_sign hL hS)]
    norm_num
  rw [hCC] at h1 h3 hdet
  have hso := so3Facts h1 hdet
  have hsh := sharp_of_int hso h3
  have key : getRotationAngleAndAxis eig C = .ok (Real.pi, some v) := by
    unfold getRotationAngleAndAxis
    rw [if_neg (fun hc => by have := hsh.1 hc; rw [ht] at this; norm_num at this)]
    dsimp only
    rw [if_pos (by rw [ht]; unfold IsClose; norm_num)]
    obtain ⟨u, hu, hu1, hu2⟩ := halfTurnAxis_spec he hso hdet ht
    obtain ⟨w, rfl⟩ := halfTurnAxis_fix hu
    have huv : fixDirection w = fixDirection v :=
      fixDirection_unique hu2 (half_turn_axis_sign hso ht hu1 hu2 (by rw [hf]; exact hv) (by rw [hf]; exact hn))
    rw [hu, huv, hf]
    rfl
  have hinv : linInv L.transpose = .ok (L.transpose)⁻¹ := by
    unfold linInv
    rw [if_neg (by rw [Matrix.det_transpose]; exact hL)]
  unfold getSpinorUnitaryRotation
  have hp : (if 0 < S.det then (1 : ℤ) else -1) • S = properPart S := rfl
  simp only [bind, Except.bind, hp, hinv, hCC, key]
  rfl

/-- The point group 222 in an orthogonal basis. -/
def rotsD2 : Fin 4 → M3 := ![!![1, 0, 0; 0, 1, 0; 0, 0, 1], !![1, 0, 0; 0, -1, 0; 0, 0, -1], !![-1, 0, 0; 0, 1, 0; 0, 0, -1],
  !![-1, 0, 0; 0, -1, 0; 0, 0, 1]]

/-- The primitive cubic lattice turned by 90 degrees around the third axis. -/
def latticeTurned : R3 := !![0, 1, 0; -1, 0, 0; 0, 0, 1]

theorem rotsD2_group : EnumeratesGroup rotsD2 := by
  apply enumerates_of_isMatrixGroup (by norm_num)
  · decide +kernel
  · decide +kernel

theorem latticeTurned_det : latticeTurned.det ≠ 0 := by
  unfold latticeTurned
  rw [Matrix.det_fin_three]
  simp

theorem latticeTurned_gram : latticeTurned * latticeTurned.transpose = 1 := by
  unfold latticeTurned
  ext a b
  fin_cases a <;> fin_cases b <;> simp [Matrix.mul_apply, Fin.sum_univ_three]

theorem metric_D2 (i : Fin 4) : PreservesMetric 1 (rotsD2 i) := by
  have h : ∀ i, (rotsD2 i).transpose * ((1 : M3) * (1 : M3).transpose) * rotsD2 i = (1 : M3) * (1 : M3).transpose := by
    decide +kernel
  have h2 := metric_of_int (h i)
  rwa [Matrix.map_one _ Int.cast_zero Int.cast_one] at h2

theorem metric_D2_turned (i : Fin 4) : PreservesMetric latticeTurned (rotsD2 i) := by
  have := metric_D2 i
  unfold PreservesMetric at this ⊢
  rw [latticeTurned_gram]
  rwa [Matrix.transpose_one, Matrix.one_mul] at this

/-- **C107, the signs occur**: for the group 222 and the same eigen-solver a rotation of the crystal by 90 degrees
changes the factor system: the half turns around the first two axes commute up to a sign and exchange their roles. -/
theorem c107_signs_occur {eig : EigOracle} (he : SymmEigContract eig) {z z' : Fin 4 → Fin 4 → ℂ}
    {U U' : Fin 4 → Matrix (Fin 2) (Fin 2) ℂ} (hrun : getSpinorFactorSystem eig 1 rotsD2 = .ok (z, U))
    (hrun' : getSpinorFactorSystem eig latticeTurned rotsD2 = .ok (z', U')) : z' 1 2 = -z 1 2 := by
  have hL : (1 : R3).det ≠ 0 := by rw [Matrix.det_one]; exact one_ne_zero
  obtain ⟨w, W, hr, hW, hsign, hmul, -⟩ := c44_spinor_factor_system he hL rotsD2_group metric_D2
  obtain ⟨rfl, rfl⟩ := Prod.mk.inj (Except.ok.inj (hrun.symm.trans hr))
  obtain ⟨w, W, hr', hW', hsign', hmul', -⟩ :=
    c44_spinor_factor_system he latticeTurned_det rotsD2_group metric_D2_turned
  obtain ⟨rfl, rfl⟩ := Prod.mk.inj (Except.ok.inj (hrun'.symm.trans hr'))
  have hpp : ∀ i, properPart (rotsD2 i) = rotsD2 i := by
    have : ∀ i, (rotsD2 i).det = 1 := by decide +kernel
    intro i
    unfold properPart
    rw [this i]
    simp
  have half : ∀ {L : R3}, L.det ≠ 0 → ∀ {i : Fin 4} (hm : PreservesMetric L (rotsD2 i)) {X : Matrix (Fin 2) (Fin 2) ℂ}
      (_ : getSpinorUnitaryRotation eig L (rotsD2 i) = .ok X) (C : R3) (v : V3),
      C * L.transpose = L.transpose * realMat (rotsD2 i) → C.trace = -1 → C.mulVec v = v → ∑ a, v a ^ 2 = 1 →
      (∀ a, 0 ≤ v a) → X = spinorMatrix Real.pi v := by
    intro L hL i hm X hX C v h1 h2 h3 h4 h5
    have := half_turn_unitary he hL hm (C := C) (by rw [hpp]; exact h1) h2 h3 h4 (fixDirection_nonneg h5)
    exact Except.ok.inj (hX.symm.trans this)
  have hx : U 1 = spinorMatrix Real.pi ![1, 0, 0] := by
    refine half hL (metric_D2 1) (hW 1).2 (realMat (rotsD2 1)) _ (by simp) ?_ ?_ ?_ ?_
    · simp [Matrix.trace, Fin.sum_univ_three, realMat, rotsD2]
    · ext a; fin_cases a <;> simp [Matrix.mulVec, dotProduct, Fin.sum_univ_three, realMat, rotsD2]
    · simp [Fin.sum_univ_three]
    · intro a; fin_cases a <;> simp
  have hy : U 2 = spinorMatrix Real.pi ![0, 1, 0] := by
    refine half hL (metric_D2 2) (hW 2).2 (realMat (rotsD2 2)) _ (by simp) ?_ ?_ ?_ ?_
    · simp [Matrix.trace, Fin.sum_univ_three, realMat, rotsD2]
    · ext a; fin_cases a <;> simp [Matrix.mulVec, dotProduct, Fin.sum_univ_three, realMat, rotsD2]
    · simp [Fin.sum_univ_three]
    · intro a; fin_cases a <;> simp
  have hz : U 3 = spinorMatrix Real.pi ![0, 0, 1] := by
    refine half hL (metric_D2 3) (hW 3).2 (realMat (rotsD2 3)) _ (by simp) ?_ ?_ ?_ ?_
    · simp [Matrix.trace, Fin.sum_univ_three, realMat, rotsD2]
    · ext a; fin_cases a <;> simp [Matrix.mulVec, dotProduct, Fin.sum_univ_three, realMat, rotsD2]
    · simp [Fin.sum_univ_three]
    · intro a; fin_cases a <;> simp
  have hx' : U' 1 = spinorMatrix Real.pi ![0, 1, 0] := by
    refine half latticeTurned_det (metric_D2_turned 1) (hW' 1).2 (realMat (rotsD2 2)) _ ?_ ?_ ?_ ?_ ?_
    · ext a b; fin_cases a <;> fin_cases b <;> simp [Matrix.mul_apply, Fin.sum_univ_three, realMat, rotsD2, latticeTurned]
    · simp [Matrix.trace, Fin.sum_univ_three, realMat, rotsD2]
    · ext a; fin_cases a <;> simp [Matrix.mulVec, dotProduct, Fin.sum_univ_three, realMat, rotsD2]
    · simp [Fin.sum_univ_three]
    · intro a; fin_cases a <;> simp
  have hy' : U' 2 = spinorMatrix Real.pi ![1, 0, 0] := by
    refine half latticeTurned_det (metric_D2_turned 2) (hW' 2).2 (realMat (rotsD2 1)) _ ?_ ?_ ?_ ?_ ?_
    · ext a b; fin_cases a <;> fin_cases b <;> simp [Matrix.mul_apply, Fin.sum_univ_three, realMat, rotsD2, latticeTurned]
    · simp [Matrix.trace, Fin.sum_univ_three, realMat, rotsD2]
    · ext a; fin_cases a <;> simp [Matrix.mulVec, dotProduct, Fin.sum_univ_three, realMat, rotsD2]
    · simp [Fin.sum_univ_three]
    · intro a; fin_cases a <;> simp
  have hz' : U' 3 = spinorMatrix Real.pi ![0, 0, 1] := by
    refine half latticeTurned_det (metric_D2_turned 3) (hW' 3).2 (realMat (rotsD2 3)) _ ?_ ?_ ?_ ?_ ?_
    · ext a b; fin_cases a <;> fin_cases b <;> simp [Matrix.mul_apply, Fin.sum_univ_three, realMat, rotsD2, latticeTurned]
    · simp [Matrix.trace, Fin.sum_univ_three, realMat, rotsD2]
    · ext a; fin_cases a <;> simp [Matrix.mulVec, dotProduct, Fin.sum_univ_three, realMat, rotsD2]
    · simp [Fin.sum_univ_three]
    · intro a; fin_cases a <;> simp
  have e1 := hmul 1 2 3 (by decide)
  have e2 := hmul' 1 2 3 (by decide)
  rw [hx, hy, hz] at e1
  rw [hx', hy', hz'] at e2
  have f1 := congrFun (congrFun e1 0) 0
  have f2 := congrFun (congrFun e2 0) 0
  have hc : Real.cos (0.5 * Real.pi) = 0 := by rw [show (0.5 : ℝ) * Real.pi = Real.pi / 2 by ring]; exact Real.cos_pi_div_two
  have hs : Real.sin (0.5 * Real.pi) = 1 := by rw [show (0.5 : ℝ) * Real.pi = Real.pi / 2 by ring]; exact Real.sin_pi_div_two
  simp [spinorMatrix, Matrix.mul_apply, Fin.sum_univ_two, hc, hs] at f1 f2
  have : Complex.I * (z' 1 2 + z 1 2) = 0 := by linear_combination f2 + Complex.I * f1
  rcases mul_eq_zero.1 this with h | h
  · exact absurd h Complex.I_ne_zero
  · linear_combination h

/-- Both runs exist. -/
example : ∃ eig z z' U U', SymmEigContract eig ∧ getSpinorFactorSystem eig 1 rotsD2 = .ok (z, U) ∧
    getSpinorFactorSystem eig latticeTurned rotsD2 = .ok (z', U') ∧ z 1 2 ≠ z' 1 2 := by
  obtain ⟨eig, he⟩ := symmEigContract_exists
  obtain ⟨z, U, hr, -, hsign, -⟩ := c44_spinor_factor_system he (by rw [Matrix.det_one]; exact one_ne_zero) rotsD2_group metric_D2
  obtain ⟨z', U', hr', -⟩ := c44_spinor_factor_system he latticeTurned_det rotsD2_group metric_D2_turned
  refine ⟨eig, z, z', U, U', he, hr, hr', ?_⟩
  rw [c107_signs_occur he hr hr']
  rcases hsign 1 2 with h | h <;> rw [h] <;> norm_num

/-- The body-centred lattice turned by the angle with cosine 3/5 around the third axis. -/
noncomputable def latticeBccTurned : R3 := latticeBcc * !![3 / 5, -(4 / 5), 0; 4 / 5, 3 / 5, 0; 0, 0, 1]

/-- Two runs for the group 222 in a body-centred cell at the point W, in two orientations and with different solvers,
draws and tolerances. -/
example : ∃ (o o' : Oracles) (l l' : List (AnyRep 4)) (z z' : Fin 4 → Fin 4 → ℂ) (U U' : Fin 4 → Matrix (Fin 2) (Fin 2) ℂ),
    enumerateSpinorSmallReps o latticeBcc rotsI24 (fun _ _ => 0) kW .neto 1e-5 5e-10 4 = .ok ((l, z, U), false) ∧
    enumerateSpinorSmallReps o' latticeBccTurned rotsI24 (fun _ _ => 0) kW .neto 1e-5 1e-8 4 = .ok ((l', z', U'), false) ∧
    l.length = l'.length := by
  have h : IsSpaceGroup rotsI24 (fun _ _ => 0) := ⟨rotsI24_group, fun _ _ _ _ _ => ⟨0, by simp⟩⟩
  obtain ⟨eig, he⟩ := symmEigContract_exists
  have hq : (!![3 / 5, -(4 / 5), 0; 4 / 5, 3 / 5, 0; 0, 0, 1] : R3) * (!![3 / 5, -(4 / 5), 0; 4 / 5, 3 / 5, 0; 0, 0, 1] : R3).transpose = 1 := by
    ext i j
    fin_cases i <;> fin_cases j <;> simp [Matrix.mul_apply, Fin.sum_univ_three] <;> norm_num
  have hL' : latticeBccTurned.det ≠ 0 := by
    unfold latticeBccTurned
    rw [Matrix.det_mul]
    refine mul_ne_zero latticeBcc_det ?_
    rw [Matrix.det_fin_three]
    simp
    norm_num
  have hm' : ∀ i, PreservesMetric latticeBccTurned (rotsI24 i) := by
    intro i
    have hg : latticeBccTurned * latticeBccTurned.transpose = latticeBcc * latticeBcc.transpose := by
      unfold latticeBccTurned
      rw [Matrix.transpose_mul, Matrix.mul_assoc, ← Matrix.mul_assoc _ _ latticeBcc.transpose, hq, Matrix.one_mul]
    have := metric_I24 i
    unfold PreservesMetric at this ⊢
    rwa [hg]
  have run : ∀ {L : R3}, L.det ≠ 0 → (∀ i, PreservesMetric L (rotsI24 i)) → ∀ a : ℝ, 0 < a → a ≤ 1e-8 →
      ∃ (o : Oracles) (l : List (AnyRep 4)) (z : Fin 4 → Fin 4 → ℂ) (U : Fin 4 → Matrix (Fin 2) (Fin 2) ℂ),
        SymmEigContract o.eig ∧ MethodContract o .neto 1e-5 rotsI24 ∧
        enumerateSpinorSmallReps o L rotsI24 (fun _ _ => 0) kW .neto 1e-5 a 4 = .ok ((l, z, U), false) := by
    intro L hL hm a ha ha'
    obtain ⟨random, hr⟩ := exists_richDraws a 4 4 fun d hd => hd
    let o : Oracles := { random := random, eig := eig, eigh := fun d _ => (fun _ => 0, 0), qr := fun _ _ _ => 0,
                         pointgroup := (PgSymbol.pg_222, trafoI24.map fun x : ℤ => (x : ℝ)) }
    obtain ⟨irreps, z, U, hrun⟩ := c45_runs (o := o) (rtol := 1e-5) (atol := a) (maxGen := 4) h fixesK_I24 (fun i j => .inl (by
      unfold getFactorSystem
      have : dot3 (residual (rotsI24 i) kW) ((fun _ _ => 0 : Fin 4 → V3) j) = 0 := by unfold dot3; simp
      rw [this, expPhase_zero])) he hL hm pointgroup_I24 ha (by push_cast; linarith) hr
    exact ⟨o, irreps, z, U, he, pointgroup_I24, hrun⟩
  obtain ⟨o, l, z, U, ho1, ho2, hrun⟩ := run latticeBcc_det metric_I24 5e-10 (by norm_num) (by norm_num)
  obtain ⟨o', l', z', U', ho1', ho2', hrun'⟩ := run hL' hm' 1e-8 (by norm_num) (by norm_num)
  obtain ⟨V, s, -, -, σ, -⟩ := c107_runs_agree h fixesK_I24 (by norm_num) ho1 ho1' latticeBcc_det hL' metric_I24 hm' ho2 ho2'
    (by norm_num) (by norm_num) (by norm_num) (by norm_num) hrun hrun'
  exact ⟨o, o', l, l', z, z', U, U', hrun, hrun', by simpa using Fintype.card_congr σ⟩

end Spgrep
