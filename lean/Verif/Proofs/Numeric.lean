/-
Helper lemmas: rounding and phase factors.
-/
import Verif.Model.Group
import Mathlib.Analysis.SpecialFunctions.Complex.Circle

namespace Spgrep

theorem abs_sub_rint_le (x : ℝ) : |x - rint x| ≤ 1 / 2 := by
  have h1 := Int.floor_le x
  have h2 := Int.lt_floor_add_one x
  unfold rint
  split_ifs <;> rw [abs_le] <;> push_cast <;> constructor <;> linarith

theorem rint_eq_of_abs_lt {x : ℝ} {m : ℤ} (h : |x - m| < 1 / 2) : rint x = m := by
  have h1 := abs_sub_rint_le x
  have h2 : |(m : ℝ) - rint x| < 1 := by
    have : (m : ℝ) - rint x = (x - rint x) - (x - m) := by ring
    rw [this]
    have := abs_sub (x - rint x) (x - m)
    linarith
  have h3 : |m - rint x| < 1 := by exact_mod_cast h2
  rw [Int.abs_lt_one_iff] at h3
  omega

@[simp] theorem rint_intCast (m : ℤ) : rint (m : ℝ) = m := rint_eq_of_abs_lt (by simp)

@[simp] theorem rint_natCast (m : ℕ) : rint (m : ℝ) = m := by
  have := rint_intCast (m : ℤ)
  simpa using this

/-- `rint` is a nearest integer. -/
theorem abs_sub_rint_le_abs_sub (x : ℝ) (m : ℤ) : |x - rint x| ≤ |x - m| := by
  by_cases h : |x - m| < 1 / 2
  · rw [rint_eq_of_abs_lt h]
  · have := abs_sub_rint_le x
    linarith

theorem expPhase_add (x y : ℝ) : expPhase (x + y) = expPhase x * expPhase y := by
  unfold expPhase
  rw [← Complex.exp_add]
  push_cast
  ring_nf

@[simp] theorem expPhase_zero : expPhase 0 = 1 := by simp [expPhase]

@[simp] theorem expPhase_int (m : ℤ) : expPhase m = 1 := by
  unfold expPhase
  rw [Complex.exp_eq_one_iff]
  exact ⟨-m, by push_cast; ring⟩

theorem expPhase_eq_of_sub_int {x y : ℝ} (h : ∃ m : ℤ, x - y = m) : expPhase x = expPhase y := by
  obtain ⟨m, hm⟩ := h
  have : x = y + m := by linarith
  rw [this, expPhase_add, expPhase_int, mul_one]

@[simp] theorem norm_expPhase (x : ℝ) : ‖expPhase x‖ = 1 := by
  unfold expPhase
  have : (-2 * Real.pi * x * Complex.I : ℂ) = ((-2 * Real.pi * x : ℝ) : ℂ) * Complex.I := by
    push_cast; ring
  rw [this, Complex.norm_exp_ofReal_mul_I]

theorem expPhase_ne_zero (x : ℝ) : expPhase x ≠ 0 := by
  unfold expPhase; exact Complex.exp_ne_zero _

theorem conj_expPhase (x : ℝ) : (starRingEnd ℂ) (expPhase x) = expPhase (-x) := by
  unfold expPhase
  rw [← Complex.exp_conj]
  simp [Complex.conj_ofNat]

theorem expPhase_mul_neg (x : ℝ) : expPhase x * expPhase (-x) = 1 := by
  rw [← expPhase_add]; simp

theorem expPhase_neg (x : ℝ) : expPhase (-x) = (expPhase x)⁻¹ :=
  eq_inv_of_mul_eq_one_right (expPhase_mul_neg x)

end Spgrep
