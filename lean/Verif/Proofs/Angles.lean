/-
Distances between vectors and subspaces given by orthonormal frames.
-/
import Verif.Props.Utils

namespace Spgrep

open Spec

/-- Gram entry of a column as a sum of squared norms. -/
theorem gram_col {n a : ℕ} (Z : Matrix (Fin n) (Fin a) ℂ) (i : Fin a) :
    (Z.conjTranspose * Z) i i = ((∑ j, ‖Z j i‖ ^ 2 : ℝ) : ℂ) := by
  rw [Matrix.mul_apply]; push_cast
  refine Finset.sum_congr rfl fun j _ => ?_
  rw [Matrix.conjTranspose_apply, RCLike.star_def, mul_comm, Complex.mul_conj']

/-- A frame with orthonormal columns keeps norms. -/
theorem norm_frame {n k : ℕ} {Q : Matrix (Fin n) (Fin k) ℂ} (hQ : Q.conjTranspose * Q = 1)
    (X : Matrix (Fin k) (Fin 1) ℂ) : ∑ m, ‖(Q * X) m 0‖ ^ 2 = ∑ j, ‖X j 0‖ ^ 2 := by
  have h : (Q * X).conjTranspose * (Q * X) = X.conjTranspose * X := by
    rw [Matrix.conjTranspose_mul, Matrix.mul_assoc, ← Matrix.mul_assoc Q.conjTranspose, hQ, Matrix.one_mul]
  have := congrFun (congrFun h 0) 0
  rw [gram_col, gram_col] at this
  exact_mod_cast this

/-- Squared distance to the projection on a frame. -/
theorem norm_defect {n l : ℕ} {Q : Matrix (Fin n) (Fin l) ℂ} (hQ : Q.conjTranspose * Q = 1)
    (Y : Matrix (Fin n) (Fin 1) ℂ) :
    ∑ m, ‖Y m 0 - (Q * (Q.conjTranspose * Y)) m 0‖ ^ 2 = ∑ m, ‖Y m 0‖ ^ 2 - ∑ j, ‖(Q.conjTranspose * Y) j 0‖ ^ 2 := by
  have := congrFun (congrFun (proj_defect hQ Y) 0) 0
  rw [Matrix.sub_apply, gram_col, gram_col, gram_col] at this
  simp only [Matrix.sub_apply] at this
  exact_mod_cast this

/-- The projection on a frame is the nearest vector of its span. -/
theorem norm_nearest {n l : ℕ} {Q : Matrix (Fin n) (Fin l) ℂ} (hQ : Q.conjTranspose * Q = 1)
    (Y : Matrix (Fin n) (Fin 1) ℂ) (C : Matrix (Fin l) (Fin 1) ℂ) :
    ∑ m, ‖Y m 0‖ ^ 2 - ∑ j, ‖(Q.conjTranspose * Y) j 0‖ ^ 2 ≤ ∑ m, ‖Y m 0 - (Q * C) m 0‖ ^ 2 := by
  have h1 := norm_defect hQ (Y - Q * C)
  have h2 : Q.conjTranspose * (Y - Q * C) = Q.conjTranspose * Y - C := by
    rw [Matrix.mul_sub, ← Matrix.mul_assoc, hQ, Matrix.one_mul]
  have h3 : ∀ m, (Y - Q * C) m 0 - (Q * (Q.conjTranspose * (Y - Q * C))) m 0 =
      Y m 0 - (Q * (Q.conjTranspose * Y)) m 0 := by
    intro m
    rw [h2, Matrix.mul_sub, Matrix.sub_apply, Matrix.sub_apply]; ring
  simp only [h3] at h1
  rw [norm_defect hQ Y] at h1
  simp only [Matrix.sub_apply] at h1
  have h4 : 0 ≤ ∑ j, ‖(Q.conjTranspose * (Y - Q * C)) j 0‖ ^ 2 := Finset.sum_nonneg fun _ _ => by positivity
  linarith

/-- Membership in the span of the rows of a basis, by a frame. -/
theorem mem_rowSpan_frame {n k : ℕ} {b : Matrix (Fin k) (Fin n) ℂ} {Q : Matrix (Fin n) (Fin k) ℂ}
    (h : ∃ R S, b.transpose = Q * R ∧ Q = b.transpose * S) (v : Fin n → ℂ) :
    v ∈ rowSpan b ↔ ∃ X : Matrix (Fin k) (Fin 1) ℂ, ∀ m, v m = (Q * X) m 0 := by
  obtain ⟨R, S, h1, h2⟩ := h
  rw [Submodule.mem_span_range_iff_exists_fun]
  have key : ∀ c : Fin k → ℂ, ∑ i, c i • b.row i = fun m => (b.transpose * Matrix.of fun i _ => c i : Matrix _ (Fin 1) ℂ) m 0 := by
    intro c
    funext m
    simp [Matrix.mul_apply, mul_comm]
  constructor
  · rintro ⟨c, rfl⟩
    refine ⟨R * Matrix.of fun i _ => c i, fun m => ?_⟩
    rw [key, ← Matrix.mul_assoc, ← h1]
  · rintro ⟨X, hX⟩
    refine ⟨fun i => (S * X) i 0, ?_⟩
    rw [key]
    funext m
    rw [hX, h2, Matrix.mul_assoc]
    congr 1

/-- Correlation matrix with all of its singular values: norms of the image of a vector. -/
theorem norm_corr {k l : ℕ} {A : Matrix (Fin k) (Fin l) ℂ} {σ : Fin k → ℝ} (h : IsSVD A σ) :
    ∃ U : Matrix (Fin k) (Fin k) ℂ, U.conjTranspose * U = 1 ∧ ∀ X : Matrix (Fin k) (Fin 1) ℂ,
      ∑ j, ‖(A.conjTranspose * X) j 0‖ ^ 2 = ∑ i, σ i ^ 2 * ‖(U.conjTranspose * X) i 0‖ ^ 2 := by
  obtain ⟨_, h0, U, V, hU, hV, hA⟩ := h
  refine ⟨U, hU, fun X => ?_⟩
  have e : A.conjTranspose * X = V * (Matrix.diagonal (fun i => (σ i : ℂ)) * (U.conjTranspose * X)) := by
    have hd : (Matrix.diagonal (fun i => (σ i : ℂ))).conjTranspose = Matrix.diagonal (fun i => (σ i : ℂ)) := by
      rw [Matrix.diagonal_conjTranspose]; congr 1; funext i; simp
    rw [hA]
    simp only [Matrix.conjTranspose_mul, Matrix.conjTranspose_conjTranspose, hd, Matrix.mul_assoc]
  rw [e, norm_frame hV]
  refine Finset.sum_congr rfl fun i _ => ?_
  rw [Matrix.diagonal_mul, norm_mul, mul_pow]
  congr 2
  rw [Complex.norm_real, Real.norm_of_nonneg (h0 i)]

/-- Correlations of orthonormal frames are at most one. -/
theorem corr_le_one {n k l r : ℕ} {Q1 : Matrix (Fin n) (Fin k) ℂ} {Q2 : Matrix (Fin n) (Fin l) ℂ}
    (h1 : Q1.conjTranspose * Q1 = 1) (h2 : Q2.conjTranspose * Q2 = 1) {σ : Fin r → ℝ}
    (h : IsSVD (Q1.conjTranspose * Q2) σ) (i : Fin r) : σ i ≤ 1 := by
  obtain ⟨_, h0, U, V, hU, hV, hA⟩ := h
  let X : Matrix (Fin r) (Fin 1) ℂ := Matrix.of fun j _ => if j = i then 1 else 0
  have hX : ∑ j, ‖X j 0‖ ^ 2 = 1 := by
    rw [Finset.sum_eq_single i (fun j _ hj => by simp [X, hj]) (fun h => absurd (Finset.mem_univ i) h)]
    simp [X]
  have e : Q1.conjTranspose * (Q2 * (V * X)) = U * (Matrix.diagonal (fun i => (σ i : ℂ)) * X) := by
    rw [← Matrix.mul_assoc, hA, Matrix.mul_assoc (U * _), ← Matrix.mul_assoc V.conjTranspose, hV, Matrix.one_mul,
      Matrix.mul_assoc]
  have h3 := norm_defect h1 (Q2 * (V * X))
  have h4 : 0 ≤ ∑ m, ‖(Q2 * (V * X)) m 0 - (Q1 * (Q1.conjTranspose * (Q2 * (V * X)))) m 0‖ ^ 2 :=
    Finset.sum_nonneg fun _ _ => by positivity
  rw [h3, norm_frame h2, norm_frame hV, hX, e, norm_frame hU] at h4
  have h5 : ∑ j, ‖(Matrix.diagonal (fun i => (σ i : ℂ)) * X) j 0‖ ^ 2 = σ i ^ 2 := by
    rw [Finset.sum_eq_single i (fun j _ hj => by simp [X, Matrix.diagonal_mul, hj])
      (fun h => absurd (Finset.mem_univ i) h)]
    simp [X, Matrix.diagonal_mul]
  rw [h5] at h4
  nlinarith [h0 i]

end Spgrep
