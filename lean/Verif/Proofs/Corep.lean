/-
Helper lemmas for co-representations.
-/
import Verif.Model.Corep
import Verif.Spec.Corep
import Verif.Props.Spinor

namespace Spgrep

open Spec

variable {n : ℕ}

/-- Time reversal commutes with spin rotations. -/
theorem su2_conj {V : Matrix (Fin 2) (Fin 2) ℂ} (h : IsSU2 V) :
    timeReversalMatrix * V.map star = V * timeReversalMatrix := by
  have h1 : V.conjTranspose = V.adjugate := by
    have h2 : V * V.adjugate = 1 := by rw [Matrix.mul_adjugate, h.2, one_smul]
    calc V.conjTranspose = V.conjTranspose * (V * V.adjugate) := by rw [h2, Matrix.mul_one]
      _ = V.adjugate := by rw [← Matrix.mul_assoc, mul_eq_one_comm.1 h.1, Matrix.one_mul]
  rw [Matrix.adjugate_fin_two] at h1
  have e := fun i j => congrFun (congrFun h1 i) j
  have e00 := e 0 0
  have e01 := e 0 1
  have e10 := e 1 0
  have e11 := e 1 1
  simp only [Matrix.conjTranspose_apply, Matrix.of_apply, Matrix.cons_val', Matrix.cons_val_zero, Matrix.cons_val_one,
    Matrix.cons_val_fin_one] at e00 e01 e10 e11
  ext i j
  fin_cases i <;> fin_cases j <;>
    simp [timeReversalMatrix, Matrix.mul_apply, Fin.sum_univ_two, e00, e01, e10, e11] <;>
    simp_all

theorem timeReversal_sq : timeReversalMatrix * timeReversalMatrix = -1 := by
  ext i j
  fin_cases i <;> fin_cases j <;> simp [timeReversalMatrix, Matrix.mul_apply, Fin.sum_univ_two]

theorem timeReversal_map : timeReversalMatrix.map star = timeReversalMatrix := by
  ext i j
  fin_cases i <;> fin_cases j <;> simp [timeReversalMatrix]

theorem timeReversal_unitary : timeReversalMatrix * timeReversalMatrix.conjTranspose = 1 := by
  ext i j
  fin_cases i <;> fin_cases j <;> simp [timeReversalMatrix, Matrix.mul_apply, Fin.sum_univ_two]

theorem map_star_mul {ι : Type*} [Fintype ι] (A B : Matrix ι ι ℂ) : (A * B).map star = A.map star * B.map star := by
  ext i j
  simp [Matrix.mul_apply]

theorem map_star_smul {ι : Type*} (c : ℂ) (A : Matrix ι ι ℂ) : (c • A).map star = star c • A.map star := by
  ext i j
  simp

theorem map_star_map_star {ι : Type*} (A : Matrix ι ι ℂ) : (A.map star).map star = A := by
  ext i j
  simp

theorem map_star_one {ι : Type*} [DecidableEq ι] : (1 : Matrix ι ι ℂ).map star = 1 := by
  ext i j
  by_cases h : i = j <;> simp [h, Matrix.one_apply]

theorem conjIfM_mul {ι : Type*} [Fintype ι] (a : Bool) (A B : Matrix ι ι ℂ) :
    conjIfM a (A * B) = conjIfM a A * conjIfM a B := by
  cases a
  · rfl
  · exact map_star_mul A B

theorem conjIfM_smul {ι : Type*} (a : Bool) (c : ℂ) (A : Matrix ι ι ℂ) :
    conjIfM a (c • A) = conjIf a c • conjIfM a A := by
  cases a
  · rfl
  · exact map_star_smul c A

theorem conjIfM_conjIfM {ι : Type*} (a b : Bool) (A : Matrix ι ι ℂ) :
    conjIfM a (conjIfM b A) = conjIfM (a ^^ b) A := by
  cases a <;> cases b
  · rfl
  · rfl
  · rfl
  · exact map_star_map_star A

/-- The factors of non-zero operators form an anti-linear cocycle. -/
theorem antiCocycle_of_law {ι : Type*} [Fintype ι] {T : Fin n → Fin n → Fin n} {a : Fin n → Bool}
    {ω : Fin n → Fin n → ℂ} {D : Fin n → Matrix ι ι ℂ} (ha : ∀ i j, a (T i j) = (a i ^^ a j))
    (hT : ∀ i j k, T (T i j) k = T i (T j k)) (h : CorepLaw T a ω D) (h0 : ∀ i, D i ≠ 0) : IsAntiCocycle T a ω := by
  intro i j k
  have h1 : D i * conjIfM (a i) (D j * conjIfM (a j) (D k)) =
      (ω i (T j k) * conjIf (a i) (ω j k)) • D (T i (T j k)) := by
    rw [h j k, conjIfM_smul, Matrix.mul_smul, h, smul_smul, mul_comm]
  have h2 : D i * conjIfM (a i) (D j) * conjIfM (a (T i j)) (D k) = (ω (T i j) k * ω i j) • D (T i (T j k)) := by
    rw [h i j, Matrix.smul_mul, h, smul_smul, hT, mul_comm]
  rw [conjIfM_mul, conjIfM_conjIfM, ← ha, ← Matrix.mul_assoc, h2] at h1
  exact (smul_left_injective ℂ (h0 _) h1).symm

/-- A criterion for magnetic groups which can be decided for a concrete list. -/
theorem enumeratesMagnetic_of_closed {rots : Fin n → M3} {trs : Fin n → ℤ}
    (h1 : ∀ i j, rots i = rots j → trs i = trs j → i = j) (h2 : ∀ i, trs i = 0 ∨ trs i = 1)
    (h3 : ∀ i j, ∃ l, rots i * rots j = rots l ∧ trs l = if trs i = trs j then 0 else 1)
    (h4 : ∃ e, rots e = 1 ∧ trs e = 0) (h5 : ∀ i, ∃ j, rots i * rots j = 1 ∧ trs i = trs j) :
    EnumeratesMagneticGroup rots trs := by
  have hz : ∀ i j l, (trs l = if trs i = trs j then 0 else 1) →
      ((trs l : ℤ) : ZMod 2) = ((trs i : ℤ) : ZMod 2) + ((trs j : ℤ) : ZMod 2) := by
    intro i j l hl
    rw [hl]
    rcases h2 i with hi | hi <;> rcases h2 j with hj | hj <;> rw [hi, hj] <;> decide
  refine ⟨fun i j hij => h1 i j (Prod.ext_iff.1 hij).1 (Prod.ext_iff.1 hij).2, h2,
    ⟨⟨⟨{g | ∃ i, rots i = (g.1 : M3) ∧ ((trs i : ℤ) : ZMod 2) = g.2.toAdd}, ?_⟩, ?_⟩, ?_⟩, ?_⟩
  · rintro a b ⟨i, hi, hi'⟩ ⟨j, hj, hj'⟩
    obtain ⟨l, hl, hl'⟩ := h3 i j
    refine ⟨l, ?_, ?_⟩
    · rw [← hl, hi, hj]
      rfl
    · rw [hz i j l hl', hi', hj']
      rfl
  · obtain ⟨e, he, he'⟩ := h4
    exact ⟨e, by rw [he]; rfl, by rw [he']; rfl⟩
  · rintro a ⟨i, hi, hi'⟩
    obtain ⟨j, hj, hj'⟩ := h5 i
    refine ⟨j, ?_, ?_⟩
    · rw [hi] at hj
      have h6 : (a⁻¹ : GL (Fin 3) ℤ × Multiplicative (ZMod 2)).1.val * (a.1.val * rots j) =
          (a⁻¹ : GL (Fin 3) ℤ × Multiplicative (ZMod 2)).1.val := by
        rw [hj, Matrix.mul_one]
      rw [← Matrix.mul_assoc, ← Units.val_mul] at h6
      simpa using h6
    · rw [← hj', hi']
      have : ∀ x : ZMod 2, x = -x := by decide
      exact this _
  · ext y
    constructor
    · rintro ⟨i, rfl⟩
      obtain ⟨j, hj, hj'⟩ := h5 i
      exact ⟨(⟨rots i, rots j, hj, mul_eq_one_comm.1 hj⟩, Multiplicative.ofAdd ((trs i : ℤ) : ZMod 2)),
        ⟨i, rfl, rfl⟩, rfl⟩
    · rintro ⟨g, ⟨i, hi, hi'⟩, rfl⟩
      exact ⟨i, Prod.ext hi hi'⟩

/-- The cocycle relation of the nonsymmorphic factors for three operations. -/
theorem factor_cocycle_of {rots : Fin n → M3} {trans : Fin n → V3} {k : V3} {i j l jl il : Fin n}
    (hk : FixesK (rots i) k) (hij : rots i * rots j = rots il)
    (hm : ∀ a, ∃ m : ℤ, (∑ b, (rots j a b : ℝ) * trans l b) + trans j a - trans jl a = m) :
    getFactorSystem rots trans k i jl * getFactorSystem rots trans k j l =
      getFactorSystem rots trans k il l * getFactorSystem rots trans k i j := by
  unfold getFactorSystem
  rw [← expPhase_add, ← expPhase_add]
  apply expPhase_eq_of_sub_int
  choose m hm using hm
  obtain ⟨q, hq⟩ := dot3_int (x := residual (rots i) k) (y := fun a => -(m a : ℝ)) hk
    (fun a => ⟨-m a, by simp⟩)
  refine ⟨q, ?_⟩
  rw [← hq]
  have h1 : ∀ a, residual (rots il) k a =
      (∑ b, (rots j b a : ℝ) * residual (rots i) k b) + residual (rots j) k a := by
    intro a; rw [← hij, residual_mul]
  have h2 : ∀ a, (m a : ℝ) = (∑ b, (rots j a b : ℝ) * trans l b) + trans j a - trans jl a :=
    fun a => (hm a).symm
  unfold dot3
  simp only [h1, h2, Fin.sum_univ_three]
  ring

end Spgrep
