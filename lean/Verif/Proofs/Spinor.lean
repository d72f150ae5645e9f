/-
Lemmas about SU(2) matrices and rotations.
-/
import Verif.Model.Spinor
import Verif.Spec.Spinor
import Mathlib.Tactic.LinearCombination
import Mathlib.LinearAlgebra.Matrix.Adjugate
import Mathlib.Algebra.BigOperators.Field

namespace Spgrep

open Matrix Spec

/-- Rodrigues' formula for the rotation by `θ` around the unit vector `v`. -/
noncomputable def rodrigues (θ : ℝ) (v : V3) : R3 :=
  !![Real.cos θ + (1 - Real.cos θ) * (v 0 * v 0), (1 - Real.cos θ) * (v 0 * v 1) - Real.sin θ * v 2,
      (1 - Real.cos θ) * (v 0 * v 2) + Real.sin θ * v 1;
    (1 - Real.cos θ) * (v 1 * v 0) + Real.sin θ * v 2, Real.cos θ + (1 - Real.cos θ) * (v 1 * v 1),
      (1 - Real.cos θ) * (v 1 * v 2) - Real.sin θ * v 0;
    (1 - Real.cos θ) * (v 2 * v 0) - Real.sin θ * v 1, (1 - Real.cos θ) * (v 2 * v 1) + Real.sin θ * v 0,
      Real.cos θ + (1 - Real.cos θ) * (v 2 * v 2)]

theorem spinorMatrix_conjTranspose (θ : ℝ) (v : V3) :
    (spinorMatrix θ v).conjTranspose =
      !![(Real.cos (0.5 * θ) : ℂ) + Complex.I * v 2 * Real.sin (0.5 * θ),
          Real.sin (0.5 * θ) * (Complex.I * v 0 + v 1);
        Real.sin (0.5 * θ) * (Complex.I * v 0 - v 1),
          (Real.cos (0.5 * θ) : ℂ) - Complex.I * v 2 * Real.sin (0.5 * θ)] := by
  unfold spinorMatrix
  ext i j
  fin_cases i <;> fin_cases j <;>
    simp [Matrix.conjTranspose_apply, -Complex.ofReal_cos, -Complex.ofReal_sin] <;> ring

theorem half_angles (θ : ℝ) :
    ((Real.cos θ : ℝ) : ℂ) = (Real.cos (0.5 * θ) : ℂ) ^ 2 - (Real.sin (0.5 * θ) : ℂ) ^ 2 ∧
    ((Real.sin θ : ℝ) : ℂ) = 2 * (Real.sin (0.5 * θ) : ℂ) * (Real.cos (0.5 * θ) : ℂ) ∧
    (Real.cos (0.5 * θ) : ℂ) ^ 2 + (Real.sin (0.5 * θ) : ℂ) ^ 2 = 1 := by
  have h : θ = 2 * (0.5 * θ) := by ring
  refine ⟨?_, ?_, ?_⟩
  · rw [← Complex.ofReal_pow, ← Complex.ofReal_pow, ← Complex.ofReal_sub]
    congr 1
    conv_lhs => rw [h, Real.cos_two_mul']
  · have h2 : Real.sin θ = 2 * Real.sin (0.5 * θ) * Real.cos (0.5 * θ) := by
      conv_lhs => rw [h, Real.sin_two_mul]
    rw [h2]
    push_cast
    ring
  · rw [← Complex.ofReal_pow, ← Complex.ofReal_pow, ← Complex.ofReal_add, Real.cos_sq_add_sin_sq]
    simp

theorem spinorMatrix_su2 (θ : ℝ) {v : V3} (hv : ∑ a, v a ^ 2 = 1) : IsSU2 (spinorMatrix θ v) := by
  obtain ⟨-, -, h3⟩ := half_angles θ
  have hv' : ((v 0 : ℝ) : ℂ) ^ 2 + (v 1 : ℂ) ^ 2 + (v 2 : ℂ) ^ 2 = 1 := by
    rw [Fin.sum_univ_three] at hv
    exact_mod_cast hv
  have hI : Complex.I ^ 2 = -1 := Complex.I_sq
  constructor
  · rw [spinorMatrix_conjTranspose]
    unfold spinorMatrix
    generalize (Real.cos (0.5 * θ) : ℂ) = c at *
    generalize (Real.sin (0.5 * θ) : ℂ) = s at *
    generalize (v 0 : ℂ) = x at *
    generalize (v 1 : ℂ) = y at *
    generalize (v 2 : ℂ) = z at *
    ext i j
    fin_cases i <;> fin_cases j <;> simp [Matrix.mul_apply, Fin.sum_univ_two]
    · linear_combination h3 + s ^ 2 * hv' - (s ^ 2 * (x ^ 2 + z ^ 2)) * hI
    · ring
    · ring
    · linear_combination h3 + s ^ 2 * hv' - (s ^ 2 * (x ^ 2 + z ^ 2)) * hI
  · unfold spinorMatrix
    rw [Matrix.det_fin_two]
    simp only [Matrix.of_apply, Matrix.cons_val', Matrix.cons_val_zero, Matrix.cons_val_one, Matrix.cons_val_fin_one]
    generalize (Real.cos (0.5 * θ) : ℂ) = c at *
    generalize (Real.sin (0.5 * θ) : ℂ) = s at *
    generalize (v 0 : ℂ) = x at *
    generalize (v 1 : ℂ) = y at *
    generalize (v 2 : ℂ) = z at *
    linear_combination h3 + s ^ 2 * hv' - (s ^ 2 * (x ^ 2 + z ^ 2)) * hI

theorem spinorMatrix_induces (θ : ℝ) {v : V3} (hv : ∑ a, v a ^ 2 = 1) :
    InducesRotation (spinorMatrix θ v) (rodrigues θ v) := by
  obtain ⟨h1, h2, h3⟩ := half_angles θ
  have hv' : ((v 0 : ℝ) : ℂ) ^ 2 + (v 1 : ℂ) ^ 2 + (v 2 : ℂ) ^ 2 = 1 := by
    rw [Fin.sum_univ_three] at hv
    exact_mod_cast hv
  have hI : Complex.I ^ 2 = -1 := Complex.I_sq
  intro b
  rw [spinorMatrix_conjTranspose]
  unfold spinorMatrix rodrigues
  have e : ∀ x y : ℂ, x * (x * y) = x ^ 2 * y := fun x y => by ring
  fin_cases b <;> ext i j <;> fin_cases i <;> fin_cases j <;>
    simp [Matrix.mul_apply, Fin.sum_univ_two, Fin.sum_univ_three, pauli, -Complex.ofReal_cos, -Complex.ofReal_sin, Matrix.sum_apply] <;>
    rw [h1] <;> try rw [h2]
  all_goals
    generalize (Real.cos (0.5 * θ) : ℂ) = c at *
    generalize (Real.sin (0.5 * θ) : ℂ) = s at *
    generalize (v 0 : ℂ) = x at *
    generalize (v 1 : ℂ) = y at *
    generalize (v 2 : ℂ) = z at *
  · linear_combination ((1)*x*z) * h3 + (0) * hv' + ((-2)*s^2*x*z) * hI
  · linear_combination ((1)*x^2 + (-1)*Complex.I*x*y) * h3 + ((-1)*s^2) * hv' + ((-1)*s^2*x^2 + (1)*s^2*z^2) * hI
  · linear_combination ((1)*x^2 + (1)*Complex.I*x*y) * h3 + ((-1)*s^2) * hv' + ((1)*s^2*z^2 + (-1)*s^2*x^2) * hI
  · linear_combination ((-1)*x*z) * h3 + (0) * hv' + ((2)*s^2*x*z) * hI
  · linear_combination ((1)*y*z) * h3 + (0) * hv' + ((-2)*c*s*x + (-2)*s^2*y*z) * hI
  · linear_combination ((1)*x*y + (-1)*Complex.I*y^2) * h3 + ((1)*Complex.I*s^2) * hv' + ((-1)*Complex.I*s^2*x^2 + (-2)*s^2*x*y + (2)*c*s*z + (-1)*Complex.I*s^2*z^2) * hI
  · linear_combination ((1)*x*y + (1)*Complex.I*y^2) * h3 + ((-1)*Complex.I*s^2) * hv' + ((2)*c*s*z + (1)*Complex.I*s^2*z^2 + (1)*Complex.I*s^2*x^2 + (-2)*s^2*x*y) * hI
  · linear_combination ((-1)*y*z) * h3 + (0) * hv' + ((2)*c*s*x + (2)*s^2*y*z) * hI
  · linear_combination ((1)*z^2) * h3 + ((-1)*s^2) * hv' + ((-1)*s^2*z^2 + (1)*s^2*x^2) * hI
  · linear_combination ((1)*x*z + (-1)*Complex.I*y*z) * h3 + (0) * hv' + ((-2)*s^2*x*z) * hI
  · linear_combination ((1)*x*z + (1)*Complex.I*y*z) * h3 + (0) * hv' + ((-2)*s^2*x*z) * hI
  · linear_combination ((-1)*z^2) * h3 + ((1)*s^2) * hv' + ((-1)*s^2*x^2 + (1)*s^2*z^2) * hI

/-- Entries of a proper rotation: rows and columns are orthonormal, and every entry is its cofactor. -/
structure SO3Facts (R : R3) : Prop where
  row : ∀ i j, R i 0 * R j 0 + R i 1 * R j 1 + R i 2 * R j 2 = if i = j then 1 else 0
  col : ∀ i j, R 0 i * R 0 j + R 1 i * R 1 j + R 2 i * R 2 j = if i = j then 1 else 0
  c00 : R 0 0 = R 1 1 * R 2 2 - R 1 2 * R 2 1
  c01 : R 0 1 = R 1 2 * R 2 0 - R 1 0 * R 2 2
  c02 : R 0 2 = R 1 0 * R 2 1 - R 1 1 * R 2 0
  c10 : R 1 0 = R 0 2 * R 2 1 - R 0 1 * R 2 2
  c11 : R 1 1 = R 0 0 * R 2 2 - R 0 2 * R 2 0
  c12 : R 1 2 = R 0 1 * R 2 0 - R 0 0 * R 2 1
  c20 : R 2 0 = R 0 1 * R 1 2 - R 0 2 * R 1 1
  c21 : R 2 1 = R 0 2 * R 1 0 - R 0 0 * R 1 2
  c22 : R 2 2 = R 0 0 * R 1 1 - R 0 1 * R 1 0

theorem so3Facts {R : R3} (h : R * R.transpose = 1) (hd : R.det = 1) : SO3Facts R := by
  have h' : R.transpose * R = 1 := mul_eq_one_comm.1 h
  have hadj : R.adjugate = R.transpose := by
    have h1 : R.adjugate * R = 1 := by rw [Matrix.adjugate_mul, hd, one_smul]
    calc R.adjugate = R.adjugate * (R * R.transpose) := by rw [h, Matrix.mul_one]
      _ = R.transpose := by rw [← Matrix.mul_assoc, h1, Matrix.one_mul]
  have he : ∀ i j, R.adjugate j i = R i j := fun i j => by rw [hadj, Matrix.transpose_apply]
  rw [Matrix.adjugate_fin_three] at he
  refine ⟨fun i j => ?_, fun i j => ?_, ?_, ?_, ?_, ?_, ?_, ?_, ?_, ?_, ?_⟩
  · have := congrFun (congrFun h i) j
    rw [Matrix.mul_apply, Fin.sum_univ_three, Matrix.one_apply] at this
    exact this
  · have := congrFun (congrFun h' i) j
    rw [Matrix.mul_apply, Fin.sum_univ_three, Matrix.one_apply] at this
    exact this
  · have := he 0 0; simp at this; linarith
  · have := he 0 1; simp at this; linarith
  · have := he 0 2; simp at this; linarith
  · have := he 1 0; simp at this; linarith
  · have := he 1 1; simp at this; linarith
  · have := he 1 2; simp at this; linarith
  · have := he 2 0; simp at this; linarith
  · have := he 2 1; simp at this; linarith
  · have := he 2 2; simp at this; linarith

/-- `nondiag` of spinor.py:205-211. -/
def nondiag (R : R3) : V3 := ![R 1 2 - R 2 1, R 2 0 - R 0 2, R 0 1 - R 1 0]

/-- Products of the components of `nondiag`. -/
theorem nondiag_mul {R : R3} (h : SO3Facts R) (i j : Fin 3) :
    nondiag R i * nondiag R j =
      (1 + R.trace) * (R i j + R j i - (R.trace - 1) * if i = j then 1 else 0) := by
  have r01 := h.row 0 1; have r02 := h.row 0 2; have r12 := h.row 1 2
  have k01 := h.col 0 1; have k02 := h.col 0 2; have k12 := h.col 1 2
  have r00 := h.row 0 0; have r11 := h.row 1 1; have r22 := h.row 2 2
  have k00 := h.col 0 0; have k11 := h.col 1 1; have k22 := h.col 2 2
  simp at r01 r02 r12 k01 k02 k12 r00 r11 r22 k00 k11 k22
  obtain ⟨-, -, c00, c01, c02, c10, c11, c12, c20, c21, c22⟩ := h
  unfold nondiag
  rw [Matrix.trace, Fin.sum_univ_three]
  fin_cases i <;> fin_cases j <;> simp
  · linear_combination r11 + r22 - k00 - 2 * c00
  · linear_combination - c01 - c10 - r01 - k01
  · linear_combination - c02 - c20 - r02 - k02
  · linear_combination - c01 - c10 - r01 - k01
  · linear_combination r00 + r22 - k11 - 2 * c11
  · linear_combination - c12 - c21 - r12 - k12
  · linear_combination - c02 - c20 - r02 - k02
  · linear_combination - c12 - c21 - r12 - k12
  · linear_combination r00 + r11 - k22 - 2 * c22

theorem nondiag_norm {R : R3} (h : SO3Facts R) :
    ∑ a, nondiag R a ^ 2 = (1 + R.trace) * (3 - R.trace) := by
  have h0 := nondiag_mul h 0 0
  have h1 := nondiag_mul h 1 1
  have h2 := nondiag_mul h 2 2
  simp at h0 h1 h2
  rw [Fin.sum_univ_three]
  have ht : R.trace = R 0 0 + R 1 1 + R 2 2 := by rw [Matrix.trace, Fin.sum_univ_three]; rfl
  linear_combination h0 + h1 + h2 - 2 * (1 + R.trace) * ht

theorem entry_le_one {R : R3} (h : SO3Facts R) (i j : Fin 3) : R i j ≤ 1 := by
  have := h.row i i
  simp at this
  fin_cases j <;> simp <;> nlinarith [mul_self_nonneg (R i 0), mul_self_nonneg (R i 1), mul_self_nonneg (R i 2)]

theorem trace_le {R : R3} (h : SO3Facts R) : R.trace ≤ 3 := by
  have ht : R.trace = R 0 0 + R 1 1 + R 2 2 := by rw [Matrix.trace, Fin.sum_univ_three]; rfl
  linarith [entry_le_one h 0 0, entry_le_one h 1 1, entry_le_one h 2 2]

theorem eq_one_of_trace {R : R3} (h : SO3Facts R) (ht3 : R.trace = 3) : R = 1 := by
  have ht : R.trace = R 0 0 + R 1 1 + R 2 2 := by rw [Matrix.trace, Fin.sum_univ_three]; rfl
  have h0 := entry_le_one h 0 0
  have h1 := entry_le_one h 1 1
  have h2 := entry_le_one h 2 2
  have e0 : R 0 0 = 1 := by linarith
  have e1 : R 1 1 = 1 := by linarith
  have e2 : R 2 2 = 1 := by linarith
  have r0 := h.row 0 0; have r1 := h.row 1 1; have r2 := h.row 2 2
  simp [e0, e1, e2] at r0 r1 r2
  have z : ∀ x y : ℝ, x * x + y * y = 0 → x = 0 ∧ y = 0 := fun x y hxy =>
    ⟨by nlinarith [mul_self_nonneg x, mul_self_nonneg y], by nlinarith [mul_self_nonneg x, mul_self_nonneg y]⟩
  obtain ⟨a1, a2⟩ := z (R 0 1) (R 0 2) (by linarith)
  obtain ⟨b1, b2⟩ := z (R 1 0) (R 1 2) (by linarith)
  obtain ⟨d1, d2⟩ := z (R 2 0) (R 2 1) (by linarith)
  ext i j
  fin_cases i <;> fin_cases j <;> simp [*]

theorem trace_ge {R : R3} (h : SO3Facts R) : -1 ≤ R.trace := by
  have h1 := nondiag_norm h
  have h2 : 0 ≤ ∑ a, nondiag R a ^ 2 := Finset.sum_nonneg fun a _ => sq_nonneg _
  rw [h1] at h2
  have h3 := trace_le h
  by_contra hc
  push Not at hc
  nlinarith

/-- The generic branch: angle and axis reproduce the rotation. -/
theorem generic_branch {R : R3} (h : SO3Facts R) (h1 : R.trace ≠ 3) (h2 : R.trace ≠ -1) :
    let c := (R.trace - 1) / 2
    let s := Real.sqrt (∑ a, nondiag R a ^ 2) / 2
    s ≠ 0 ∧ 0 < Complex.arg ⟨c, s⟩ ∧ Complex.arg ⟨c, s⟩ < Real.pi ∧
      ∑ a, (nondiag R a / (-2 * s)) ^ 2 = 1 ∧
      rodrigues (Complex.arg ⟨c, s⟩) (fun a => nondiag R a / (-2 * s)) = R := by
  intro c s
  have ht3 := trace_le h
  have ht1 := trace_ge h
  have hpos : 0 < ∑ a, nondiag R a ^ 2 := by
    rw [nondiag_norm h]
    have : R.trace < 3 := lt_of_le_of_ne ht3 h1
    have : -1 < R.trace := lt_of_le_of_ne ht1 (Ne.symm h2)
    nlinarith
  have hs : 0 < s := by
    have := Real.sqrt_pos.2 hpos
    simp only [s]
    linarith
  have hs2 : s ^ 2 = (1 + R.trace) * (3 - R.trace) / 4 := by
    simp only [s]
    rw [div_pow, Real.sq_sqrt hpos.le, nondiag_norm h]
    norm_num
  have hcs : c ^ 2 + s ^ 2 = 1 := by
    rw [hs2]
    simp only [c]
    ring
  have habs : ‖(⟨c, s⟩ : ℂ)‖ = 1 := by
    rw [Complex.norm_def, Complex.normSq_mk]
    rw [show c * c + s * s = 1 by linarith, Real.sqrt_one]
  have hne : (⟨c, s⟩ : ℂ) ≠ 0 := by
    intro h0
    rw [h0] at habs
    simp at habs
  have hcos : Real.cos (Complex.arg ⟨c, s⟩) = c := by rw [Complex.cos_arg hne, habs, div_one]
  have hsin : Real.sin (Complex.arg ⟨c, s⟩) = s := by rw [Complex.sin_arg, habs, div_one]
  have harg1 : 0 ≤ Complex.arg ⟨c, s⟩ := Complex.arg_nonneg_iff.2 hs.le
  have harg2 := Complex.arg_le_pi ⟨c, s⟩
  have ht : R.trace = R 0 0 + R 1 1 + R 2 2 := by rw [Matrix.trace, Fin.sum_univ_three]; rfl
  refine ⟨hs.ne', lt_of_le_of_ne harg1 ?_, lt_of_le_of_ne harg2 ?_, ?_, ?_⟩
  · intro h0
    rw [← h0, Real.sin_zero] at hsin
    exact hs.ne hsin
  · intro h0
    rw [h0, Real.sin_pi] at hsin
    exact hs.ne hsin
  · simp only [div_pow]
    rw [← Finset.sum_div, nondiag_norm h]
    rw [show (-2 * s) ^ 2 = 4 * s ^ 2 by ring, hs2]
    rw [div_eq_one_iff_eq (by rw [nondiag_norm h] at hpos; nlinarith)]
    ring
  · obtain ⟨v, hv⟩ : ∃ v : V3, v = fun a => nondiag R a / (-2 * s) := ⟨_, rfl⟩
    have key : ∀ i j, (1 - c) * (v i * v j) =
        (R i j + R j i - (R.trace - 1) * if i = j then 1 else 0) / 2 := by
      intro i j
      rw [hv]
      dsimp only
      rw [div_mul_div_comm, nondiag_mul h i j]
      rw [show -2 * s * (-2 * s) = 4 * s ^ 2 by ring, hs2]
      have e1 : 1 + R.trace ≠ 0 := fun h0 => h2 (by linarith)
      have e2 : 3 - R.trace ≠ 0 := fun h0 => h1 (by linarith)
      simp only [c]
      generalize (R i j + R j i - (R.trace - 1) * if i = j then 1 else 0) = X
      field_simp
      ring
    have key2 : ∀ i, s * v i = - nondiag R i / 2 := by
      intro i
      rw [hv]
      dsimp only
      field_simp
    rw [← hv]
    unfold rodrigues
    rw [hcos, hsin]
    ext i j
    fin_cases i <;> fin_cases j <;> simp [key, key2] <;> simp [nondiag, c] <;> ring

/-- The half-turn branch. -/
theorem half_turn_symm {R : R3} (h : SO3Facts R) (h2 : R.trace = -1) : R.transpose = R := by
  have h1 := nondiag_norm h
  rw [h2] at h1
  norm_num at h1
  have h0 : ∀ a, nondiag R a = 0 := by
    intro a
    have := (Finset.sum_eq_zero_iff_of_nonneg fun a _ => sq_nonneg (nondiag R a)).1 h1 a (Finset.mem_univ a)
    exact pow_eq_zero_iff (two_ne_zero) |>.1 this
  have e0 := h0 0; have e1 := h0 1; have e2 := h0 2
  simp [nondiag] at e0 e1 e2
  ext i j
  fin_cases i <;> fin_cases j <;> simp <;> linarith

theorem half_turn_formula {R : R3} (h : SO3Facts R) (h2 : R.trace = -1) {v : V3} (hv : R.mulVec v = v)
    (hn : ∑ a, v a ^ 2 = 1) : rodrigues Real.pi v = R := by
  have hs := half_turn_symm h h2
  have e01 : R 1 0 = R 0 1 := congrFun (congrFun hs 0) 1
  have e02 : R 2 0 = R 0 2 := congrFun (congrFun hs 0) 2
  have e12 : R 2 1 = R 1 2 := congrFun (congrFun hs 1) 2
  have ht : R.trace = R 0 0 + R 1 1 + R 2 2 := by rw [Matrix.trace, Fin.sum_univ_three]; rfl
  rw [h2] at ht
  have v0 := congrFun hv 0
  have v1 := congrFun hv 1
  have v2 := congrFun hv 2
  simp only [Matrix.mulVec, dotProduct, Fin.sum_univ_three, e01, e02, e12] at v0 v1 v2
  rw [Fin.sum_univ_three] at hn
  obtain ⟨-, -, c00, c01, c02, c10, c11, c12, c20, c21, c22⟩ := h
  simp only [e01, e02, e12] at c00 c01 c02 c10 c11 c12 c20 c21 c22
  -- the projection `(R + 1) / 2` has rank one
  let Q : Fin 3 → Fin 3 → ℝ := fun i j => (R i j + if i = j then 1 else 0) / 2
  have hQv : ∀ i, ∑ j, Q i j * v j = v i := by
    intro i
    fin_cases i <;> simp [Q, Fin.sum_univ_three, e01, e02, e12] <;> linarith
  have hQ : ∀ i j k l, Q i j * Q k l = Q i k * Q j l := by
    have m00 : Q 0 0 * Q 1 1 = Q 0 1 * Q 0 1 := by simp [Q]; linarith
    have m11 : Q 0 0 * Q 2 2 = Q 0 2 * Q 0 2 := by simp [Q]; linarith
    have m22 : Q 1 1 * Q 2 2 = Q 1 2 * Q 1 2 := by simp [Q]; linarith
    have m01 : Q 0 0 * Q 1 2 = Q 0 1 * Q 0 2 := by simp [Q]; linarith
    have m02 : Q 1 1 * Q 0 2 = Q 0 1 * Q 1 2 := by simp [Q]; linarith
    have m12 : Q 2 2 * Q 0 1 = Q 0 2 * Q 1 2 := by simp [Q]; linarith
    have q01 : Q 1 0 = Q 0 1 := by simp [Q, e01]
    have q02 : Q 2 0 = Q 0 2 := by simp [Q, e02]
    have q12 : Q 2 1 = Q 1 2 := by simp [Q, e12]
    intro i j k l
    fin_cases i <;> fin_cases j <;> fin_cases k <;> fin_cases l <;> simp only [Fin.zero_eta, Fin.mk_one, Fin.reduceFinMk, q01, q02, q12] <;> linarith
  have hQe : ∀ i k, v i * v k = Q i k := by
    intro i k
    calc v i * v k = (∑ j, Q i j * v j) * ∑ l, Q k l * v l := by rw [hQv, hQv]
      _ = ∑ j, ∑ l, Q i k * (v j * (Q j l * v l)) := by
        rw [Finset.sum_mul_sum]
        refine Finset.sum_congr rfl fun j _ => Finset.sum_congr rfl fun l _ => ?_
        linear_combination (v j * v l) * hQ i j k l
      _ = Q i k * ∑ j, v j * ∑ l, Q j l * v l := by
        simp only [Finset.mul_sum]
      _ = Q i k := by
        simp only [hQv, Fin.sum_univ_three]
        rw [show v 0 * v 0 + v 1 * v 1 + v 2 * v 2 = 1 by linarith, mul_one]
  unfold rodrigues
  rw [Real.cos_pi, Real.sin_pi]
  ext i j
  fin_cases i <;> fin_cases j <;> simp [hQe] <;> simp [Q] <;> linarith

/-- What `np.linalg.eig` is assumed to return for a real symmetric matrix: a basis of real eigenvectors (not
necessarily orthogonal). -/
def SymmEigContract (eig : EigOracle) : Prop :=
  ∀ A : R3, A.transpose = A →
    A.map Complex.ofReal * (eig 3 (A.map Complex.ofReal)).2 =
      (eig 3 (A.map Complex.ofReal)).2 * Matrix.diagonal (eig 3 (A.map Complex.ofReal)).1 ∧
    IsUnit (eig 3 (A.map Complex.ofReal)).2 ∧
    ∀ a i, ((eig 3 (A.map Complex.ofReal)).2 a i).im = 0

theorem fixDirection_eq (v : V3) : fixDirection v = v ∨ fixDirection v = fun a => -v a := by
  unfold fixDirection
  split
  · split
    · exact Or.inr rfl
    · exact Or.inl rfl
  · exact Or.inl rfl

theorem isCloseC_real {rtol atol a b : ℝ} : IsCloseC rtol atol (a : ℂ) (b : ℂ) ↔ IsClose rtol atol a b := by
  unfold IsCloseC IsClose
  rw [← Complex.ofReal_sub, Complex.norm_real, Complex.norm_real]
  rfl

theorem half_turn_sq {R : R3} (h : SO3Facts R) (h2 : R.trace = -1) : R * R = 1 := by
  have hs := half_turn_symm h h2
  ext i j
  have h1 := h.row i j
  have hs' : ∀ k, R k j = R j k := fun k => congrFun (congrFun hs j) k
  rw [Matrix.mul_apply, Fin.sum_univ_three, Matrix.one_apply, hs', hs', hs']
  exact h1

theorem halfTurnAxis_spec {eig : EigOracle} (he : SymmEigContract eig) {R : R3} (h : SO3Facts R) (hd : R.det = 1)
    (h2 : R.trace = -1) :
    ∃ v : V3, halfTurnAxis eig R = .ok (some v) ∧ R.mulVec v = v ∧ ∑ a, v a ^ 2 = 1 := by
  classical
  obtain ⟨h3, h4, h5⟩ := he R (half_turn_symm h h2)
  unfold halfTurnAxis
  generalize eig 3 (R.map Complex.ofReal) = wV at *
  obtain ⟨w, V⟩ := wV
  dsimp only at h3 h4 h5 ⊢
  -- real form of the eigenvector equation
  have hcol : ∀ i a, ∑ b, (R a b : ℂ) * V b i = V a i * w i := by
    intro i a
    have := congrFun (congrFun h3 a) i
    rw [Matrix.mul_apply, Matrix.mul_diagonal] at this
    simpa using this
  have hne : ∀ i, ∃ a, V a i ≠ 0 := by
    intro i
    by_contra hc
    push Not at hc
    have hdet : V.det = 0 := Matrix.det_eq_zero_of_column_eq_zero i hc
    rw [Matrix.isUnit_iff_isUnit_det, hdet] at h4
    exact not_isUnit_zero h4
  have hre : ∀ a i, V a i = ((V a i).re : ℂ) := fun a i => Complex.ext (by simp) (by simp [h5])
  have hwr : ∀ i, ∃ r : ℝ, w i = r := by
    intro i
    obtain ⟨a, ha⟩ := hne i
    refine ⟨(∑ b, R a b * (V b i).re) / (V a i).re, ?_⟩
    have h6 := hcol i a
    rw [Complex.ofReal_div, Complex.ofReal_sum]
    rw [← hre a i]
    field_simp
    rw [mul_comm, ← h6]
    refine Finset.sum_congr rfl fun b _ => ?_
    rw [Complex.ofReal_mul, ← hre]
  choose r hr using hwr
  have hcolr : ∀ i a, ∑ b, R a b * (V b i).re = (V a i).re * r i := by
    intro i a
    have h6 := hcol i a
    rw [hr i, hre a i] at h6
    have h7 : ∀ b, (R a b : ℂ) * V b i = ((R a b * (V b i).re : ℝ) : ℂ) := fun b => by
      rw [Complex.ofReal_mul, ← hre]
    simp only [h7] at h6
    rw [← Complex.ofReal_sum] at h6
    exact_mod_cast h6
  have hner : ∀ i, ∃ a, (V a i).re ≠ 0 := by
    intro i
    obtain ⟨a, ha⟩ := hne i
    refine ⟨a, fun h0 => ha ?_⟩
    rw [hre, h0, Complex.ofReal_zero]
  have hsq : ∀ i, r i = 1 ∨ r i = -1 := by
    intro i
    obtain ⟨a, ha⟩ := hner i
    have h8 : ∑ b, R a b * (∑ c, R b c * (V c i).re) = (V a i).re := by
      have h9 : R.mulVec (R.mulVec fun c => (V c i).re) = fun c => (V c i).re := by
        rw [Matrix.mulVec_mulVec, half_turn_sq h h2, Matrix.one_mulVec]
      exact congrFun h9 a
    simp only [hcolr, ← mul_assoc] at h8
    rw [← Finset.sum_mul, hcolr] at h8
    have h10 : (V a i).re * (r i * r i - 1) = 0 := by linear_combination h8
    rcases mul_eq_zero.1 h10 with h11 | h11
    · exact absurd h11 ha
    · exact mul_self_eq_one_iff.1 (by linarith)
  have hclose : ∀ i, IsCloseC 1e-5 1e-8 (w i) 1 ↔ r i = 1 := by
    intro i
    rw [hr i, show (1 : ℂ) = ((1 : ℝ) : ℂ) by simp, isCloseC_real]
    unfold IsClose
    rcases hsq i with h6 | h6 <;> rw [h6] <;> norm_num
  have hone : ∃ i, r i = 1 := by
    by_contra hc
    push Not at hc
    have hm : ∀ i, w i = -1 := fun i => by rw [hr i, (hsq i).resolve_left (hc i)]; simp
    have h6 : R.map Complex.ofReal * V = -1 * V := by
      rw [h3]
      have : Matrix.diagonal w = -1 := by
        ext a b
        rw [Matrix.diagonal_apply, Matrix.neg_apply, Matrix.one_apply]
        split <;> simp [hm]
      rw [this]
      simp
    have h7 : R.map Complex.ofReal = -1 := h4.mul_right_cancel h6
    have h8 : R = -1 := by
      ext a b
      have := congrFun (congrFun h7 a) b
      rw [Matrix.map_apply, Matrix.neg_apply, Matrix.one_apply] at this
      rw [Matrix.neg_apply, Matrix.one_apply]
      by_cases hab : a = b
      · rw [if_pos hab] at this ⊢
        exact_mod_cast this
      · rw [if_neg hab] at this ⊢
        exact_mod_cast this
    rw [h8, Matrix.det_neg] at hd
    norm_num at hd
  -- one step of the loop
  have hstep : ∀ i, r i = 1 → Real.sqrt (∑ a, (V a i).re ^ 2) ≠ 0 ∧
      ∀ u : V3, u = fixDirection (fun a => (V a i).re / Real.sqrt (∑ a, (V a i).re ^ 2)) →
        R.mulVec u = u ∧ ∑ a, u a ^ 2 = 1 := by
    intro i hi
    have hpos : 0 < ∑ a, (V a i).re ^ 2 := by
      obtain ⟨a, ha⟩ := hner i
      exact Finset.sum_pos' (fun a _ => sq_nonneg _) ⟨a, Finset.mem_univ a, by positivity⟩
    have hsp := Real.sqrt_pos.2 hpos
    refine ⟨hsp.ne', fun u hu => ?_⟩
    have hb : R.mulVec (fun a => (V a i).re / Real.sqrt (∑ a, (V a i).re ^ 2)) =
        fun a => (V a i).re / Real.sqrt (∑ a, (V a i).re ^ 2) := by
      funext a
      have := hcolr i a
      rw [hi, mul_one] at this
      simp only [Matrix.mulVec, dotProduct]
      rw [← this, Finset.sum_div]
      refine Finset.sum_congr rfl fun b _ => ?_
      ring
    have hb2 : ∑ a, ((V a i).re / Real.sqrt (∑ a, (V a i).re ^ 2)) ^ 2 = 1 := by
      simp only [div_pow]
      rw [← Finset.sum_div, Real.sq_sqrt hpos.le, div_self hpos.ne']
    rcases fixDirection_eq (fun a => (V a i).re / Real.sqrt (∑ a, (V a i).re ^ 2)) with h6 | h6
    · rw [hu, h6]
      exact ⟨hb, hb2⟩
    · rw [hu, h6]
      refine ⟨?_, by simpa using hb2⟩
      have : R.mulVec (-(fun a => (V a i).re / Real.sqrt (∑ a, (V a i).re ^ 2))) =
        -(fun a => (V a i).re / Real.sqrt (∑ a, (V a i).re ^ 2)) := by rw [Matrix.mulVec_neg, hb]
      exact this
  have hfold : ∀ (l : List (Fin 3)) (acc : Option V3), (∀ u, acc = some u → R.mulVec u = u ∧ ∑ a, u a ^ 2 = 1) →
      (acc ≠ none ∨ ∃ i ∈ l, r i = 1) → ∃ v : V3,
      l.foldlM (fun axis i =>
        if ¬ IsCloseC 1e-5 1e-8 (w i) 1 then (.ok axis : Except PyErr (Option V3))
        else if Real.sqrt (∑ a, (V a i).re ^ 2) = 0 then .error .nan
          else .ok (some (fixDirection fun a => (V a i).re / Real.sqrt (∑ a, (V a i).re ^ 2)))) acc = .ok (some v) ∧
        R.mulVec v = v ∧ ∑ a, v a ^ 2 = 1 := by
    intro l
    induction l with
    | nil =>
      intro acc hacc hor
      rcases hor with h6 | ⟨i, hi, -⟩
      · obtain ⟨u, rfl⟩ := Option.ne_none_iff_exists'.1 h6
        exact ⟨u, rfl, hacc u rfl⟩
      · simp at hi
    | cons i l ih =>
      intro acc hacc hor
      rw [List.foldlM_cons]
      by_cases hi : r i = 1
      · rw [if_neg (by rw [not_not]; exact (hclose i).2 hi), if_neg (hstep i hi).1]
        exact ih _ (fun u hu => (hstep i hi).2 u (Option.some.inj hu).symm) (Or.inl (by simp))
      · rw [if_pos (fun hc => hi ((hclose i).1 hc))]
        refine ih acc hacc ?_
        rcases hor with h6 | ⟨j, hj, hj1⟩
        · exact Or.inl h6
        · rcases List.mem_cons.1 hj with rfl | hj
          · exact absurd hj1 hi
          · exact Or.inr ⟨j, hj, hj1⟩
  obtain ⟨i, hi⟩ := hone
  exact hfold (List.finRange 3) none (fun u hu => by cases hu) (Or.inr ⟨i, List.mem_finRange i, hi⟩)

/-- The tolerances decide as exact comparisons would. -/
def SharpAngle (R : R3) : Prop :=
  (AllClose (ι := Fin 3 × Fin 3) 1e-5 1e-8 (fun p => R p.1 p.2) (fun p => if p.1 = p.2 then 1 else 0) → R.trace = 3) ∧
  (IsClose 1e-5 1e-8 ((R.trace - 1) / 2) (-1) → R.trace = -1)

theorem sharp_of_int {R : R3} (h : SO3Facts R) {t : ℤ} (ht : R.trace = t) : SharpAngle R := by
  have hsum : R.trace = R 0 0 + R 1 1 + R 2 2 := by rw [Matrix.trace, Fin.sum_univ_three]; rfl
  constructor
  · intro hc
    have h0 := abs_le.1 (hc (0, 0))
    have h1 := abs_le.1 (hc (1, 1))
    have h2 := abs_le.1 (hc (2, 2))
    norm_num at h0 h1 h2
    have h3 : (2 : ℝ) < t := by rw [← ht, hsum]; linarith [h0.1, h1.1, h2.1]
    have h4 : (t : ℝ) ≤ 3 := by rw [← ht]; exact trace_le h
    have h5 : t = 3 := le_antisymm (by exact_mod_cast h4) (by exact_mod_cast h3)
    rw [ht, h5]
    norm_num
  · intro hc
    unfold IsClose at hc
    have h0 := (abs_le.1 hc).2
    norm_num at h0
    have h3 : (t : ℝ) < 0 := by rw [← ht]; linarith
    have h4 : (-1 : ℝ) ≤ t := by rw [← ht]; exact trace_ge h
    have h3' : t < 0 := by exact_mod_cast h3
    have h4' : -1 ≤ t := by exact_mod_cast h4
    have h5 : t = -1 := by omega
    rw [ht, h5]
    norm_num

theorem rodrigues_zero (v : V3) : rodrigues 0 v = 1 := by
  unfold rodrigues
  ext i j
  fin_cases i <;> fin_cases j <;> simp

theorem getRotationAngleAndAxis_spec {eig : EigOracle} (he : SymmEigContract eig) {R : R3} (hR : R * R.transpose = 1)
    (hd : R.det = 1) (hs : SharpAngle R) :
    ∃ θ v, getRotationAngleAndAxis eig R = .ok (θ, some v) ∧ 0 ≤ θ ∧ θ ≤ Real.pi ∧ ∑ a, v a ^ 2 = 1 ∧
      rodrigues θ v = R ∧ (R = 1 → θ = 0 ∧ v = ![0, 0, 1]) := by
  have h := so3Facts hR hd
  unfold getRotationAngleAndAxis
  split
  · rename_i hc
    have h1 := eq_one_of_trace h (hs.1 hc)
    refine ⟨0, _, rfl, le_refl _, Real.pi_pos.le, ?_, ?_, fun _ => ⟨rfl, rfl⟩⟩
    · simp [Fin.sum_univ_three]
    · rw [rodrigues_zero, h1]
  · rename_i hc
    have hne : R ≠ 1 := by
      intro h1
      refine hc fun p => ?_
      have h2 : R p.1 p.2 = if p.1 = p.2 then 1 else 0 := by rw [h1, Matrix.one_apply]
      unfold IsClose
      dsimp only
      rw [h2, sub_self, abs_zero]
      positivity
    have ht3 : R.trace ≠ 3 := fun h0 => hne (eq_one_of_trace h h0)
    dsimp only
    split
    · rename_i hc2
      have ht := hs.2 hc2
      obtain ⟨v, hv1, hv2, hv3⟩ := halfTurnAxis_spec he h hd ht
      rw [hv1]
      exact ⟨Real.pi, v, rfl, Real.pi_pos.le, le_refl _, hv3, half_turn_formula h ht hv2 hv3, fun h0 => absurd h0 hne⟩
    · rename_i hc2
      have ht : R.trace ≠ -1 := by
        intro h0
        refine hc2 ?_
        rw [h0]
        unfold IsClose
        norm_num
      obtain ⟨h1, h2, h3, h4, h5⟩ := generic_branch h ht3 ht
      have hnd : ![R 1 2 - R 2 1, R 2 0 - R 0 2, R 0 1 - R 1 0] = nondiag R := rfl
      rw [hnd, if_neg h1]
      exact ⟨_, _, rfl, h2.le, h3.le, h4, h5, fun h0 => absurd h0 hne⟩

theorem spinorMatrix_zero (v : V3) : spinorMatrix 0 v = 1 := by
  unfold spinorMatrix
  ext i j
  fin_cases i <;> fin_cases j <;> simp

/-- Cartesian form of an integer isometry. -/
theorem cartesian_orthogonal {L : R3} (hL : L.det ≠ 0) {S : M3} (hS : PreservesMetric L S) :
    let C := L.transpose * realMat S * (L.transpose)⁻¹
    C * C.transpose = 1 ∧ C.det = S.det ∧ C.trace = S.trace ∧ IsCartesianOf L S C := by
  intro C
  have hLt : IsUnit (L.transpose).det := by rw [Matrix.det_transpose]; exact hL.isUnit
  have hL' : IsUnit L.det := hL.isUnit
  have hS' : (realMat S).transpose * (L * L.transpose) * realMat S = L * L.transpose := hS
  refine ⟨?_, ?_, ?_, ?_⟩
  · rw [mul_eq_one_comm]
    simp only [C]
    rw [Matrix.transpose_mul, Matrix.transpose_mul, Matrix.transpose_nonsing_inv, Matrix.transpose_transpose]
    calc L⁻¹ * ((realMat S).transpose * L) * (L.transpose * realMat S * (L.transpose)⁻¹)
        = L⁻¹ * ((realMat S).transpose * (L * L.transpose) * realMat S) * (L.transpose)⁻¹ := by
          simp only [Matrix.mul_assoc]
      _ = (L⁻¹ * L) * (L.transpose * (L.transpose)⁻¹) := by rw [hS']; simp only [Matrix.mul_assoc]
      _ = 1 := by rw [Matrix.nonsing_inv_mul _ hL', Matrix.mul_nonsing_inv _ hLt, Matrix.one_mul]
  · simp only [C]
    rw [Matrix.det_mul, Matrix.det_mul, mul_right_comm, ← Matrix.det_mul, Matrix.mul_nonsing_inv _ hLt, Matrix.det_one,
      one_mul]
    exact (Int.cast_det S).symm
  · simp only [C]
    rw [Matrix.trace_mul_comm, ← Matrix.mul_assoc, Matrix.nonsing_inv_mul _ hLt, Matrix.one_mul]
    simp [Matrix.trace, realMat]
  · unfold IsCartesianOf
    simp only [C]
    rw [Matrix.mul_assoc, Matrix.nonsing_inv_mul _ hLt, Matrix.mul_one]
    rfl

theorem det_sign {L : R3} (hL : L.det ≠ 0) {S : M3} (hS : PreservesMetric L S) : S.det = 1 ∨ S.det = -1 := by
  have h1 := congrArg Matrix.det hS
  rw [Matrix.det_mul, Matrix.det_mul, Matrix.det_transpose] at h1
  have h2 : ((S.map fun x => (x : ℝ))).det = (S.det : ℝ) := (Int.cast_det S).symm
  have h3 : (L * L.transpose).det ≠ 0 := by
    rw [Matrix.det_mul, Matrix.det_transpose]
    exact mul_ne_zero hL hL
  rw [h2] at h1
  have h4 : ((S.det : ℝ)) * S.det = 1 := by
    have : (L * L.transpose).det * ((S.det : ℝ) * S.det - 1) = 0 := by linear_combination h1
    rcases mul_eq_zero.1 this with h | h
    · exact absurd h h3
    · linarith
  have h5 : S.det * S.det = 1 := by exact_mod_cast h4
  exact mul_self_eq_one_iff.1 h5

/-- `rotation * sign` (spinor.py:151-155). -/
def properPart (S : M3) : M3 := (if 0 < S.det then (1 : ℤ) else -1) • S

theorem properPart_eq (S : M3) : properPart S = S ∨ properPart S = -S := by
  unfold properPart
  split
  · exact Or.inl (one_smul _ _)
  · exact Or.inr (by simp)

theorem properPart_metric {L : R3} {S : M3} (hS : PreservesMetric L S) : PreservesMetric L (properPart S) := by
  rcases properPart_eq S with h | h
  · rw [h]; exact hS
  · rw [h]
    unfold PreservesMetric at hS ⊢
    have : ((-S).map fun x => (x : ℝ)) = -(S.map fun x => (x : ℝ)) := by
      ext i j
      simp
    rw [this, Matrix.transpose_neg, Matrix.neg_mul, Matrix.neg_mul, Matrix.mul_neg, neg_neg]
    exact hS

theorem properPart_det {S : M3} (h : S.det = 1 ∨ S.det = -1) : (properPart S).det = 1 := by
  unfold properPart
  rcases h with h | h
  · rw [h]; simp [h]
  · rw [h]
    norm_num
    rw [Matrix.det_neg]
    simp [h]

theorem properPart_neg {S : M3} (h : S.det ≠ 0) : properPart (-S) = properPart S := by
  unfold properPart
  have h1 : (-S).det = -S.det := by rw [Matrix.det_neg]; norm_num
  rw [h1]
  rcases lt_or_gt_of_ne h with h2 | h2
  · rw [if_pos (by omega), if_neg (by omega)]
    simp
  · rw [if_neg (by omega), if_pos h2]
    simp

theorem properPart_mul {S S' : M3} (h : S.det = 1 ∨ S.det = -1) (h' : S'.det = 1 ∨ S'.det = -1) :
    properPart (S * S') = properPart S * properPart S' := by
  unfold properPart
  rw [Matrix.det_mul]
  rcases h with h | h <;> rcases h' with h' | h' <;> simp [h, h']

theorem getSpinorUnitaryRotation_spec {eig : EigOracle} (he : SymmEigContract eig) {L : R3} (hL : L.det ≠ 0) {S : M3}
    (hS : PreservesMetric L S) :
    ∃ U, getSpinorUnitaryRotation eig L S = .ok U ∧ IsSU2 U ∧
      InducesRotation U (L.transpose * realMat (properPart S) * (L.transpose)⁻¹) ∧ (properPart S = 1 → U = 1) := by
  have hm := properPart_metric hS
  obtain ⟨h1, h2, h3, -⟩ := cartesian_orthogonal hL hm
  have hdet : (L.transpose * realMat (properPart S) * (L.transpose)⁻¹).det = 1 := by
    rw [h2, properPart_det (det_sign hL hS)]
    norm_num
  obtain ⟨θ, v, k1, k2, k3, k4, k5, k6⟩ := getRotationAngleAndAxis_spec he h1 hdet (sharp_of_int (so3Facts h1 hdet) h3)
  refine ⟨spinorMatrix θ v, ?_, spinorMatrix_su2 θ k4, ?_, ?_⟩
  · have hinv : linInv L.transpose = .ok (L.transpose)⁻¹ := by
      unfold linInv
      rw [if_neg (by rw [Matrix.det_transpose]; exact hL)]
    unfold getSpinorUnitaryRotation
    have hp : (if 0 < S.det then (1 : ℤ) else -1) • S = properPart S := rfl
    simp only [bind, Except.bind, hp, hinv, k1]
    rfl
  · have := spinorMatrix_induces θ k4
    rwa [k5] at this
  · intro h
    have hLt : IsUnit (L.transpose).det := by rw [Matrix.det_transpose]; exact hL.isUnit
    have h7 : L.transpose * realMat (properPart S) * (L.transpose)⁻¹ = 1 := by
      have : realMat (1 : M3) = 1 := by
        unfold realMat
        ext i j
        rw [Matrix.map_apply, Matrix.one_apply, Matrix.one_apply]
        split <;> simp
      rw [h, this, Matrix.mul_one, Matrix.mul_nonsing_inv _ hLt]
    rw [(k6 h7).1]
    exact spinorMatrix_zero v

theorem getSpinorUnitaryRotation_neg (eig : EigOracle) (L : R3) {S : M3} (h : S.det ≠ 0) :
    getSpinorUnitaryRotation eig L (-S) = getSpinorUnitaryRotation eig L S := by
  have := properPart_neg h
  unfold properPart at this
  unfold getSpinorUnitaryRotation
  simp only [this]

/-- Two SU(2) matrices inducing the same rotation agree up to a sign. -/
theorem su2_sign {U V : Matrix (Fin 2) (Fin 2) ℂ} (hU : IsSU2 U) (hV : IsSU2 V) {R : R3} (hU' : InducesRotation U R)
    (hV' : InducesRotation V R) : U = V ∨ U = -V := by
  have hV1 : V.conjTranspose * V = 1 := mul_eq_one_comm.1 hV.1
  have hU1 : U.conjTranspose * U = 1 := mul_eq_one_comm.1 hU.1
  -- W = V† U commutes with the Pauli matrices
  have hc : ∀ b, (V.conjTranspose * U) * pauli b = pauli b * (V.conjTranspose * U) := by
    intro b
    have h1 : U * pauli b * U.conjTranspose = V * pauli b * V.conjTranspose := by rw [hU' b, hV' b]
    calc V.conjTranspose * U * pauli b
        = V.conjTranspose * (U * pauli b * U.conjTranspose) * U := by
          rw [Matrix.mul_assoc, Matrix.mul_assoc, Matrix.mul_assoc, Matrix.mul_assoc, hU1, Matrix.mul_one]
      _ = (V.conjTranspose * V) * pauli b * (V.conjTranspose * U) := by rw [h1]; simp only [Matrix.mul_assoc]
      _ = pauli b * (V.conjTranspose * U) := by rw [hV1, Matrix.one_mul]
  have hdet : (V.conjTranspose * U).det = 1 := by
    rw [Matrix.det_mul, Matrix.det_conjTranspose, hU.2, hV.2]
    simp
  have hUV : U = V * (V.conjTranspose * U) := by rw [← Matrix.mul_assoc, hV.1, Matrix.one_mul]
  generalize V.conjTranspose * U = W at *
  have x0 := congrFun (congrFun (hc 0) 0) 0
  have x1 := congrFun (congrFun (hc 0) 0) 1
  have z1 := congrFun (congrFun (hc 2) 0) 1
  have z2 := congrFun (congrFun (hc 2) 1) 0
  simp [Matrix.mul_apply, Fin.sum_univ_two, pauli] at x0 x1 z1 z2
  have w01 : W 0 1 = 0 := by linear_combination (-1 / 2 : ℂ) * z1
  have w10 : W 1 0 = 0 := by linear_combination (1 / 2 : ℂ) * z2
  rw [Matrix.det_fin_two, w01, ← x1] at hdet
  have h2 : W 0 0 * W 0 0 = 1 := by linear_combination hdet
  have hW : W = W 0 0 • (1 : Matrix (Fin 2) (Fin 2) ℂ) := by
    ext i j
    fin_cases i <;> fin_cases j <;> simp [w01, w10, x1]
  rcases mul_self_eq_one_iff.1 h2 with h3 | h3
  · left
    rw [hUV, hW, h3, one_smul, Matrix.mul_one]
  · right
    rw [hUV, hW, h3]
    simp

theorem su2_mul {U V : Matrix (Fin 2) (Fin 2) ℂ} (hU : IsSU2 U) (hV : IsSU2 V) : IsSU2 (U * V) := by
  refine ⟨?_, by rw [Matrix.det_mul, hU.2, hV.2, one_mul]⟩
  rw [Matrix.conjTranspose_mul, Matrix.mul_assoc, ← Matrix.mul_assoc V, hV.1, Matrix.one_mul, hU.1]

theorem induces_mul {U V : Matrix (Fin 2) (Fin 2) ℂ} {R S : R3} (hU : InducesRotation U R) (hV : InducesRotation V S) :
    InducesRotation (U * V) (R * S) := by
  intro b
  rw [Matrix.conjTranspose_mul]
  calc U * V * pauli b * (V.conjTranspose * U.conjTranspose)
      = U * (V * pauli b * V.conjTranspose) * U.conjTranspose := by simp only [Matrix.mul_assoc]
    _ = ∑ c, (S c b : ℂ) • (U * pauli c * U.conjTranspose) := by
        rw [hV b, Matrix.mul_sum, Matrix.sum_mul]
        refine Finset.sum_congr rfl fun c _ => ?_
        rw [Matrix.mul_smul, Matrix.smul_mul]
    _ = ∑ c, ∑ a, ((S c b : ℂ) * (R a c : ℂ)) • pauli a := by
        refine Finset.sum_congr rfl fun c _ => ?_
        rw [hU c, Finset.smul_sum]
        refine Finset.sum_congr rfl fun a _ => ?_
        rw [smul_smul]
    _ = _ := by
        rw [Finset.sum_comm]
        refine Finset.sum_congr rfl fun a _ => ?_
        rw [← Finset.sum_smul, Matrix.mul_apply, Complex.ofReal_sum]
        congr 1
        refine Finset.sum_congr rfl fun c _ => ?_
        rw [Complex.ofReal_mul, mul_comm]

/-- The closeness tests find the sign. -/
theorem multiplierOf_spec {X V : Matrix (Fin 2) (Fin 2) ℂ} (hV : V * V.conjTranspose = 1) (h : X = V ∨ X = -V) :
    (X = V ∧ multiplierOf X V = 1) ∨ (X = -V ∧ multiplierOf X V = -1) := by
  have hpos : ∀ x : ℂ, (0 : ℝ) ≤ 1e-8 + 1e-5 * ‖x‖ := fun x => by positivity
  rcases h with rfl | rfl
  · left
    refine ⟨rfl, ?_⟩
    unfold multiplierOf
    rw [if_neg, if_pos]
    · intro a b
      unfold IsCloseC
      rw [one_mul, sub_self, norm_zero]
      exact hpos _
    · intro hc
      have hsmall : ∀ a b, ‖X a b‖ ≤ 1e-2 := by
        intro a b
        have h1 := hc a b
        unfold IsCloseC at h1
        rw [show X a b - -1 * X a b = 2 * X a b by ring, norm_mul, norm_mul] at h1
        norm_num at h1 ⊢
        linarith
      have h2 := congrFun (congrFun hV 0) 0
      rw [Matrix.mul_apply, Fin.sum_univ_two, Matrix.one_apply_eq, Matrix.conjTranspose_apply, Matrix.conjTranspose_apply] at h2
      have h3 : ‖X 0 0 * star (X 0 0) + X 0 1 * star (X 0 1)‖ ≤ 1e-2 * 1e-2 + 1e-2 * 1e-2 := by
        refine (norm_add_le _ _).trans (add_le_add ?_ ?_)
        · rw [norm_mul, norm_star]
          exact mul_le_mul (hsmall 0 0) (hsmall 0 0) (norm_nonneg _) (by norm_num)
        · rw [norm_mul, norm_star]
          exact mul_le_mul (hsmall 0 1) (hsmall 0 1) (norm_nonneg _) (by norm_num)
      rw [h2] at h3
      norm_num at h3
  · right
    refine ⟨rfl, ?_⟩
    unfold multiplierOf
    rw [if_pos]
    intro a b
    unfold IsCloseC
    rw [Matrix.neg_apply, neg_one_mul, sub_self, norm_zero]
    exact hpos _

/-- Filling an array element by element. -/
theorem arrayM_ok {α : Type*} {n : ℕ} {f : Fin n → Except PyErr α} {g : Fin n → α} (h : ∀ i, f i = .ok (g i)) (x : α) :
    arrayM f x = .ok g := by
  have h1 : ∀ l : List (Fin n), l.mapM f = .ok (l.map g) := by
    intro l
    induction l with
    | nil => rfl
    | cons a l ih => rw [List.mapM_cons, h a, ih]; rfl
  unfold arrayM
  rw [h1]
  simp only [bind, Except.bind, pure, Except.pure]
  congr 1
  funext i
  simp

end Spgrep
