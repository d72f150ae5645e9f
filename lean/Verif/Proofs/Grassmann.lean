/-
Lemmas about `grassmann_distance`.
-/
import Verif.Proofs.LinAlg
import Verif.Model.Utils
import Mathlib.LinearAlgebra.Matrix.NonsingularInverse
import Mathlib.LinearAlgebra.Matrix.ToLin

namespace Spgrep

open Spec

/-- Distance of ord `min` from canonical correlations. -/
noncomputable def gMin (c : ℝ) : ℝ := Real.sqrt (max (1 - c ^ 2) 0)

/-- Distance of ord `projection` from canonical correlations. -/
noncomputable def gProj {r : ℕ} (σ : Fin r → ℝ) : ℝ :=
  Real.sqrt ((∑ i, Real.arccos (min (max (σ i) (-1)) 1) ^ 2) / (r : ℝ))

theorem grassmannCore_eq {la : LinAlg} (hla : ∀ a b (A : Matrix (Fin a) (Fin b) ℂ), IsSVD A (la.svdvals A))
    {n a b k l : ℕ} (ha : a = k) (hb : b = l) (hk : 0 < k) (hl : 0 < l)
    (q1 : Matrix (Fin n) (Fin a) ℂ) (q2 : Matrix (Fin n) (Fin b) ℂ) :
    ∃ (r : ℕ) (hr : 0 < r) (σ : Fin r → ℝ), r = Nat.min a b ∧ IsSVD (q1.conjTranspose * q2) σ ∧
      grassmannCore la k l q1 q2 .min = .ok (gMin (σ ⟨r - 1, by omega⟩)) ∧
      grassmannCore la k l q1 q2 .projection = .ok (gProj σ) := by
  subst ha hb
  have hr : 0 < Nat.min a b := Nat.lt_min.2 ⟨hk, hl⟩
  refine ⟨Nat.min a b, hr, la.svdvals (q1.conjTranspose * q2), rfl, hla _ _ _, ?_, ?_⟩
  · unfold grassmannCore
    have h : min a b - 1 < Nat.min a b ∧ 0 < min a b := by
      have e : min a b = Nat.min a b := rfl
      rw [e]; omega
    simp only [h, and_self, dif_pos]
    rfl
  · unfold grassmannCore gProj
    have e1 : (Finset.univ.filter fun i : Fin (Nat.min a b) => (i : ℕ) < min a b) = Finset.univ := by
      apply Finset.filter_true_of_mem
      intro i _
      exact i.2
    have e2 : min (min a b) (Nat.min a b) = Nat.min a b := Nat.min_self _
    simp only [e1, e2]

/-- Defect of projecting onto an orthonormal frame. -/
theorem proj_defect {n a l : ℕ} {Q : Matrix (Fin n) (Fin l) ℂ} (hQ : Q.conjTranspose * Q = 1)
    (Y : Matrix (Fin n) (Fin a) ℂ) :
    (Y - Q * (Q.conjTranspose * Y)).conjTranspose * (Y - Q * (Q.conjTranspose * Y)) =
      Y.conjTranspose * Y - (Q.conjTranspose * Y).conjTranspose * (Q.conjTranspose * Y) := by
  have h1 : Q.conjTranspose * (Q * (Q.conjTranspose * Y)) = Q.conjTranspose * Y := by
    rw [← Matrix.mul_assoc, hQ, Matrix.one_mul]
  have h2 : (Y - Q * (Q.conjTranspose * Y)).conjTranspose * Q = 0 := by
    rw [Matrix.conjTranspose_sub, Matrix.sub_mul, Matrix.conjTranspose_mul Q,
      Matrix.conjTranspose_mul, Matrix.conjTranspose_conjTranspose, Matrix.mul_assoc, hQ, Matrix.mul_one,
      sub_self]
  rw [Matrix.mul_sub, ← Matrix.mul_assoc _ Q, h2, Matrix.zero_mul, sub_zero, Matrix.conjTranspose_sub,
    Matrix.sub_mul, Matrix.conjTranspose_mul Q, Matrix.mul_assoc]

theorem gram_diag_nonneg {n a : ℕ} (Z : Matrix (Fin n) (Fin a) ℂ) (i : Fin a) :
    ∃ x : ℝ, 0 ≤ x ∧ (Z.conjTranspose * Z) i i = x := by
  refine ⟨∑ j, ‖Z j i‖ ^ 2, Finset.sum_nonneg fun _ _ => by positivity, ?_⟩
  rw [Matrix.mul_apply]
  push_cast
  refine Finset.sum_congr rfl fun j _ => ?_
  rw [Matrix.conjTranspose_apply, RCLike.star_def, Complex.conj_mul']

theorem gram_eq_zero {n a : ℕ} {Z : Matrix (Fin n) (Fin a) ℂ} (h : Z.conjTranspose * Z = 0) : Z = 0 := by
  ext j i
  have h1 := congrFun (congrFun h i) i
  rw [Matrix.mul_apply] at h1
  have h2 : ∑ j, ‖Z j i‖ ^ 2 = 0 := by
    have : ((∑ j, ‖Z j i‖ ^ 2 : ℝ) : ℂ) = 0 := by
      rw [Matrix.zero_apply] at h1
      rw [← h1]
      push_cast
      refine Finset.sum_congr rfl fun j _ => ?_
      rw [Matrix.conjTranspose_apply, RCLike.star_def, Complex.conj_mul']
    exact_mod_cast this
  rw [Finset.sum_eq_zero_iff_of_nonneg (fun _ _ => by positivity)] at h2
  simpa using h2 j (Finset.mem_univ _)

/-- Canonical correlations of orthonormal frames with `k ≤ l`: at most one, and all one exactly when
the first frame is contained in the second. -/
theorem corr_le {n k l : ℕ} {Q1 : Matrix (Fin n) (Fin k) ℂ} {Q2 : Matrix (Fin n) (Fin l) ℂ}
    (h1 : Q1.conjTranspose * Q1 = 1) (h2 : Q2.conjTranspose * Q2 = 1) {σ : Fin k → ℝ}
    (hσ : IsSVD (Q1.conjTranspose * Q2) σ) :
    (∀ i, σ i ≤ 1) ∧ ((∀ i, σ i = 1) ↔ ∃ B, Q1 = Q2 * B) := by
  obtain ⟨s1, s2, U, V, hU, hV, hA⟩ := hσ
  have hg := IsSVD.gram hV hA
  have hUU : U * U.conjTranspose = 1 := mul_eq_one_comm.1 hU
  have hQ21 : Q2.conjTranspose * Q1 = (Q1.conjTranspose * Q2).conjTranspose := by
    rw [Matrix.conjTranspose_mul, Matrix.conjTranspose_conjTranspose]
  constructor
  · intro i
    have hd := proj_defect h2 (Q1 * U)
    obtain ⟨x, hx, hx2⟩ := gram_diag_nonneg (Q1 * U - Q2 * (Q2.conjTranspose * (Q1 * U))) i
    rw [hd] at hx2
    have e1 : (Q1 * U).conjTranspose * (Q1 * U) = 1 := by
      rw [Matrix.conjTranspose_mul, Matrix.mul_assoc, ← Matrix.mul_assoc Q1.conjTranspose, h1,
        Matrix.one_mul, hU]
    have e2 : (Q2.conjTranspose * (Q1 * U)).conjTranspose * (Q2.conjTranspose * (Q1 * U)) =
        Matrix.diagonal (fun i => ((σ i ^ 2 : ℝ) : ℂ)) := by
      rw [← Matrix.mul_assoc Q2.conjTranspose Q1 U, hQ21, Matrix.conjTranspose_mul,
        Matrix.conjTranspose_conjTranspose, Matrix.mul_assoc, ← Matrix.mul_assoc _ _ U, hg, Matrix.mul_assoc, hU, Matrix.mul_one,
        ← Matrix.mul_assoc, hU, Matrix.one_mul]
    rw [e1, e2, Matrix.sub_apply, Matrix.one_apply_eq, Matrix.diagonal_apply_eq] at hx2
    have hx3 : 1 - σ i ^ 2 = x := by exact_mod_cast hx2
    have := s2 i
    nlinarith
  · constructor
    · intro hs
      refine ⟨Q2.conjTranspose * Q1, ?_⟩
      have e : (Q2.conjTranspose * Q1).conjTranspose * (Q2.conjTranspose * Q1) = 1 := by
        rw [hQ21, Matrix.conjTranspose_conjTranspose, hg]
        simp only [hs, one_pow, Complex.ofReal_one]
        rw [show (Matrix.diagonal fun _ : Fin k => (1 : ℂ)) = 1 from Matrix.diagonal_one, Matrix.mul_one, hUU]
      have := proj_defect h2 Q1
      rw [e, h1, sub_self] at this
      exact sub_eq_zero.1 (gram_eq_zero this)
    · rintro ⟨B, hB⟩ i
      have e0 : Q1.conjTranspose * Q2 = B.conjTranspose := by
        rw [hB, Matrix.conjTranspose_mul, Matrix.mul_assoc, h2, Matrix.mul_one]
      have e1 : B.conjTranspose * B = 1 := by
        rw [← h1, hB, Matrix.conjTranspose_mul, Matrix.mul_assoc, ← Matrix.mul_assoc Q2.conjTranspose,
          h2, Matrix.one_mul]
      rw [e0, Matrix.conjTranspose_conjTranspose, e1] at hg
      have e2 : Matrix.diagonal (fun i => ((σ i ^ 2 : ℝ) : ℂ)) = 1 := by
        have := congrArg (fun M => U.conjTranspose * M * U) hg
        simp only [Matrix.mul_one, hU] at this
        rw [Matrix.mul_assoc, Matrix.mul_assoc, hU, Matrix.mul_one, ← Matrix.mul_assoc, hU,
          Matrix.one_mul] at this
        exact this.symm
      have e3 := congrFun (congrFun e2 i) i
      rw [Matrix.diagonal_apply_eq, Matrix.one_apply_eq] at e3
      have e4 : σ i ^ 2 = 1 := by exact_mod_cast e3
      have := s2 i
      nlinarith

theorem span_le_iff {n k l : ℕ} (b1 : Matrix (Fin k) (Fin n) ℂ) (b2 : Matrix (Fin l) (Fin n) ℂ) :
    Submodule.span ℂ (Set.range b1.row) ≤ Submodule.span ℂ (Set.range b2.row) ↔
      ∃ C : Matrix (Fin k) (Fin l) ℂ, b1 = C * b2 := by
  rw [Submodule.span_le]
  constructor
  · intro h
    have : ∀ i, ∃ c : Fin l → ℂ, ∑ j, c j • b2.row j = b1.row i := fun i =>
      (Submodule.mem_span_range_iff_exists_fun ℂ).1 (h ⟨i, rfl⟩)
    choose c hc using this
    refine ⟨Matrix.of c, ?_⟩
    ext i x
    rw [show b1 i x = b1.row i x from rfl, ← hc i, Matrix.mul_apply, Finset.sum_apply]
    rfl
  · rintro ⟨C, hC⟩ _ ⟨i, rfl⟩
    rw [SetLike.mem_coe, Submodule.mem_span_range_iff_exists_fun]
    refine ⟨C i, ?_⟩
    funext x
    rw [hC, show (C * b2).row i x = (C * b2) i x from rfl, Matrix.mul_apply, Finset.sum_apply]
    rfl

/-- QR of a basis: an orthonormal frame of the right size with an invertible triangular factor. -/
theorem qr_basis {n k a : ℕ} (ha : a = Nat.min n k) {b : Matrix (Fin k) (Fin n) ℂ}
    (hb : LinearIndependent ℂ b.row) {Q : Matrix (Fin n) (Fin a) ℂ} (hQ : IsQR b.transpose Q) :
    a = k ∧ ∃ (R : Matrix (Fin a) (Fin k) ℂ) (S : Matrix (Fin k) (Fin a) ℂ),
      b.transpose = Q * R ∧ Q = b.transpose * S := by
  have hkn : k ≤ n := by
    have := hb.fintype_card_le_finrank
    simpa using this
  have hak : a = k := ha.trans (Nat.min_eq_right hkn)
  refine ⟨hak, ?_⟩
  clear ha
  subst hak
  obtain ⟨_, R, hR⟩ := hQ
  have hinj : Function.Injective b.transpose.mulVec := by
    rw [Matrix.mulVec_injective_iff]
    exact hb
  have hRinj : Function.Injective R.mulVec := by
    intro x y hxy
    apply hinj
    rw [hR, ← Matrix.mulVec_mulVec, ← Matrix.mulVec_mulVec, hxy]
  have hRu : IsUnit R := Matrix.mulVec_injective_iff_isUnit.1 hRinj
  refine ⟨R, R⁻¹, hR, ?_⟩
  rw [hR, Matrix.mul_assoc, Matrix.mul_nonsing_inv _ ((Matrix.isUnit_iff_isUnit_det _).1 hRu),
    Matrix.mul_one]

/-- Frames and bases: containment. -/
theorem frame_contained_iff {n k l a b : ℕ} {b1 : Matrix (Fin k) (Fin n) ℂ}
    {b2 : Matrix (Fin l) (Fin n) ℂ} {Q1 : Matrix (Fin n) (Fin a) ℂ} {Q2 : Matrix (Fin n) (Fin b) ℂ}
    (h1 : ∃ (R : Matrix (Fin a) (Fin k) ℂ) (S : Matrix (Fin k) (Fin a) ℂ),
      b1.transpose = Q1 * R ∧ Q1 = b1.transpose * S)
    (h2 : ∃ (R : Matrix (Fin b) (Fin l) ℂ) (S : Matrix (Fin l) (Fin b) ℂ),
      b2.transpose = Q2 * R ∧ Q2 = b2.transpose * S) :
    (∃ B, Q1 = Q2 * B) ↔ Submodule.span ℂ (Set.range b1.row) ≤ Submodule.span ℂ (Set.range b2.row) := by
  rw [span_le_iff]
  obtain ⟨R1, S1, hR1, hS1⟩ := h1
  obtain ⟨R2, S2, hR2, hS2⟩ := h2
  constructor
  · rintro ⟨B, hB⟩
    refine ⟨(S2 * B * R1).transpose, ?_⟩
    have : b1.transpose = b2.transpose * (S2 * B * R1) := by
      rw [hR1, hB, Matrix.mul_assoc S2, ← Matrix.mul_assoc b2.transpose, ← hS2, Matrix.mul_assoc]
    rw [← Matrix.transpose_transpose b1, this, Matrix.transpose_mul, Matrix.transpose_transpose]
  · rintro ⟨C, hC⟩
    refine ⟨R2 * C.transpose * S1, ?_⟩
    rw [Matrix.mul_assoc, ← Matrix.mul_assoc Q2, ← hR2, ← Matrix.mul_assoc, ← Matrix.transpose_mul, ← hC]
    exact hS1

theorem min_lemma {k l r : ℕ} (hr : r = Nat.min k l) : (r = k ∧ k ≤ l) ∨ (r = l ∧ l ≤ k) := by
  rcases le_total k l with h | h
  · exact Or.inl ⟨hr.trans (Nat.min_eq_left h), h⟩
  · exact Or.inr ⟨hr.trans (Nat.min_eq_right h), h⟩

theorem frame_size_le {n k l : ℕ} {Q1 : Matrix (Fin n) (Fin k) ℂ} {Q2 : Matrix (Fin n) (Fin l) ℂ}
    (h1 : Q1.conjTranspose * Q1 = 1) (h : ∃ B, Q1 = Q2 * B) : k ≤ l := by
  obtain ⟨B, hB⟩ := h
  have hinj : Function.Injective B.mulVec := by
    intro x y hxy
    have : (Q1.conjTranspose * Q1).mulVec x = (Q1.conjTranspose * Q1).mulVec y := by
      rw [hB, ← Matrix.mul_assoc, ← Matrix.mulVec_mulVec, hxy, Matrix.mulVec_mulVec]
    rwa [h1, Matrix.one_mulVec, Matrix.one_mulVec] at this
  have := LinearMap.finrank_le_finrank_of_injective (f := B.mulVecLin) hinj
  simpa using this

/-- Canonical correlations of two orthonormal frames. -/
theorem corr_spec {n k l r : ℕ} (hr : r = Nat.min k l) {Q1 : Matrix (Fin n) (Fin k) ℂ}
    {Q2 : Matrix (Fin n) (Fin l) ℂ} (h1 : Q1.conjTranspose * Q1 = 1) (h2 : Q2.conjTranspose * Q2 = 1)
    {σ : Fin r → ℝ} (hσ : IsSVD (Q1.conjTranspose * Q2) σ) :
    (∀ i, 0 ≤ σ i ∧ σ i ≤ 1) ∧
    ((∀ i, σ i = 1) ↔ (∃ B, Q1 = Q2 * B) ∨ (∃ B, Q2 = Q1 * B)) := by
  have h0 := hσ.2.1
  rcases min_lemma hr with ⟨rfl, hkl⟩ | ⟨rfl, hkl⟩
  · obtain ⟨h3, h4⟩ := corr_le h1 h2 hσ
    refine ⟨fun i => ⟨h0 i, h3 i⟩, h4.trans ⟨Or.inl, ?_⟩⟩
    rintro (h | h)
    · exact h
    · have hle := frame_size_le h2 h
      obtain rfl : r = l := le_antisymm hkl hle
      obtain ⟨B, hB⟩ := h
      have hBB : B.conjTranspose * B = 1 := by
        rw [← h2, hB, Matrix.conjTranspose_mul, Matrix.mul_assoc, ← Matrix.mul_assoc Q1.conjTranspose,
          h1, Matrix.one_mul]
      exact ⟨B.conjTranspose, by rw [hB, Matrix.mul_assoc, mul_eq_one_comm.1 hBB, Matrix.mul_one]⟩
  · have hσ' : IsSVD (Q2.conjTranspose * Q1) σ := by
      have := IsSVD.symm hσ
      rwa [Matrix.conjTranspose_mul, Matrix.conjTranspose_conjTranspose] at this
    obtain ⟨h3, h4⟩ := corr_le h2 h1 hσ'
    refine ⟨fun i => ⟨h0 i, h3 i⟩, h4.trans ⟨Or.inr, ?_⟩⟩
    rintro (h | h)
    · have hle := frame_size_le h1 h
      obtain rfl : k = r := le_antisymm hle hkl
      obtain ⟨B, hB⟩ := h
      have hBB : B.conjTranspose * B = 1 := by
        rw [← h1, hB, Matrix.conjTranspose_mul, Matrix.mul_assoc, ← Matrix.mul_assoc Q2.conjTranspose,
          h2, Matrix.one_mul]
      exact ⟨B.conjTranspose, by rw [hB, Matrix.mul_assoc, mul_eq_one_comm.1 hBB, Matrix.mul_one]⟩
    · exact h

theorem gMin_bounds (c : ℝ) : 0 ≤ gMin c ∧ gMin c ≤ 1 := by
  refine ⟨Real.sqrt_nonneg _, ?_⟩
  unfold gMin
  rw [Real.sqrt_le_one, max_le_iff]
  constructor
  · nlinarith [sq_nonneg c]
  · norm_num

theorem gMin_eq_zero {c : ℝ} (h0 : 0 ≤ c) (h1 : c ≤ 1) : gMin c = 0 ↔ c = 1 := by
  unfold gMin
  rw [Real.sqrt_eq_zero (le_max_right _ _)]
  constructor
  · intro h
    have := le_max_left (1 - c ^ 2) 0
    nlinarith
  · rintro rfl; norm_num

theorem gMin_zero_iff {r : ℕ} (hr : 0 < r) {σ : Fin r → ℝ} (ha : Antitone σ)
    (h : ∀ i, 0 ≤ σ i ∧ σ i ≤ 1) : gMin (σ ⟨r - 1, by omega⟩) = 0 ↔ ∀ i, σ i = 1 := by
  rw [gMin_eq_zero (h _).1 (h _).2]
  constructor
  · intro h1 i
    apply le_antisymm (h i).2
    rw [← h1]
    apply ha
    rw [Fin.le_def]
    have := i.2
    simp only
    omega
  · intro h; exact h _

theorem gProj_zero_iff {r : ℕ} (hr : 0 < r) {σ : Fin r → ℝ} (h : ∀ i, 0 ≤ σ i ∧ σ i ≤ 1) :
    gProj σ = 0 ↔ ∀ i, σ i = 1 := by
  have hr' : (0 : ℝ) < r := by exact_mod_cast hr
  have hn : 0 ≤ ∑ i, Real.arccos (min (max (σ i) (-1)) 1) ^ 2 :=
    Finset.sum_nonneg fun _ _ => by positivity
  unfold gProj
  rw [Real.sqrt_eq_zero (by positivity), div_eq_zero_iff, or_iff_left hr'.ne',
    Finset.sum_eq_zero_iff_of_nonneg (fun _ _ => by positivity)]
  refine forall_congr' fun i => ?_
  have e : min (max (σ i) (-1)) 1 = σ i := by
    rw [max_eq_left (by linarith [(h i).1]), min_eq_left (h i).2]
  rw [e, sq_eq_zero_iff, Real.arccos_eq_zero]
  constructor
  · intro h1; exact le_antisymm (h i).2 (h1 (Finset.mem_univ _))
  · intro h1 _; exact h1.ge

/-- Two orthonormal frames of the same subspace differ by a unitary matrix. -/
theorem frame_unitary {n k : ℕ} {Q Q' : Matrix (Fin n) (Fin k) ℂ} (h : Q.conjTranspose * Q = 1)
    (h' : Q'.conjTranspose * Q' = 1) (hc : ∃ B, Q' = Q * B) :
    ∃ W : Matrix (Fin k) (Fin k) ℂ, W.conjTranspose * W = 1 ∧ Q' = Q * W := by
  obtain ⟨B, hB⟩ := hc
  refine ⟨B, ?_, hB⟩
  rw [← h', hB, Matrix.conjTranspose_mul, Matrix.mul_assoc, ← Matrix.mul_assoc Q.conjTranspose, h,
    Matrix.one_mul]

theorem corr_frame_indep {n k l r : ℕ} (hr : r = Nat.min k l) {Q1 Q1' : Matrix (Fin n) (Fin k) ℂ}
    {Q2 Q2' : Matrix (Fin n) (Fin l) ℂ} (h1 : Q1.conjTranspose * Q1 = 1)
    (h1' : Q1'.conjTranspose * Q1' = 1) (h2 : Q2.conjTranspose * Q2 = 1)
    (h2' : Q2'.conjTranspose * Q2' = 1) (hc1 : ∃ B, Q1' = Q1 * B) (hc2 : ∃ B, Q2' = Q2 * B)
    {σ τ : Fin r → ℝ} (hσ : IsSVD (Q1.conjTranspose * Q2) σ)
    (hτ : IsSVD (Q1'.conjTranspose * Q2') τ) : σ = τ := by
  obtain ⟨W, hW, e1⟩ := frame_unitary h1 h1' hc1
  obtain ⟨X, hX, e2⟩ := frame_unitary h2 h2' hc2
  have hW' : W.conjTranspose.conjTranspose * W.conjTranspose = 1 := by
    rw [Matrix.conjTranspose_conjTranspose]; exact mul_eq_one_comm.1 hW
  have hX' : X.conjTranspose.conjTranspose * X.conjTranspose = 1 := by
    rw [Matrix.conjTranspose_conjTranspose]; exact mul_eq_one_comm.1 hX
  have := IsSVD.unitary hσ hW' hX'
  have e : W.conjTranspose * (Q1.conjTranspose * Q2) * X.conjTranspose.conjTranspose =
      Q1'.conjTranspose * Q2' := by
    rw [e1, e2, Matrix.conjTranspose_mul, Matrix.conjTranspose_conjTranspose]
    simp only [Matrix.mul_assoc]
  rw [e] at this
  exact svd_unique hr this hτ

end Spgrep
