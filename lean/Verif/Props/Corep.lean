/-
Properties of /repo/src/spgrep/corep.py (C46, C48-C51) and of the coset decomposition of magnetic groups (C47).
-/
import Verif.Proofs.Corep
import Verif.Proofs.Wigner

namespace Spgrep

open Spec

variable {n : ℕ}

/-! ### C46 -/

/-- C46: for every magnetic point group acting by isometries of a non-degenerate lattice, `get_corep_spinor_factor_system`
returns flags equal to the time reversals, the SU(2) matrices (times `-iσ_y` for anti-linear operations) and factors `±1`
with `U_i U_j = ω(i,j) U_ij`, conjugating `U_j` when `i` is anti-linear; the factors form an anti-linear cocycle, they are 1
when one argument is the identity, and time reversal alone or with the inversion squares to `-1`. -/
theorem c46_corep_spinor_factor_system {eig : EigOracle} (he : SymmEigContract eig) {L : R3} (hL : L.det ≠ 0)
    {rots : Fin n → M3} {trs : Fin n → ℤ} (h : EnumeratesMagneticGroup rots trs) (hm : ∀ i, PreservesMetric L (rots i)) :
    ∃ ω U a, getCorepSpinorFactorSystem eig L rots trs = .ok (ω, U, a) ∧
      (∀ i, a i = true ↔ trs i = 1) ∧
      (∀ i, ∃ V, getSpinorUnitaryRotation eig L (rots i) = .ok V ∧ IsSU2 V ∧
        (trs i = 0 → U i = V) ∧ (trs i = 1 → U i = V * !![0, -1; 1, 0])) ∧
      (∀ i j, ω i j = 1 ∨ ω i j = -1) ∧
      (∀ i j l, IsProduct rots trs i j l → U i * conjIfM (a i) (U j) = ω i j • U l) ∧
      (∀ T, getCayleyTable rots (some trs) = .ok T → IsAntiCocycle T a ω) ∧
      (∀ e, rots e = 1 → trs e = 0 → U e = 1 ∧ ∀ i, ω e i = 1 ∧ ω i e = 1) ∧
      (∀ t, (rots t = 1 ∨ rots t = -1) → trs t = 1 → ω t t = -1) := by
  obtain ⟨T, hT, hTs, hTg, -, -⟩ := c01_cayley_table h
  have hrot : ∀ i j, rots i * rots j = rots (T i j) := fun i j => ((hTs i j _).1 rfl).1
  have htr : ∀ i j, trs (T i j) = 1 ↔ ¬ trs i = trs j := fun i j => ((hTs i j _).1 rfl).2
  choose V hV1 hV2 hV3 hV4 using fun i => getSpinorUnitaryRotation_spec he hL (hm i)
  have hLt : IsUnit (L.transpose).det := by rw [Matrix.det_transpose]; exact hL.isUnit
  have hsign : ∀ i, (rots i).det = 1 ∨ (rots i).det = -1 := fun i => det_sign hL (hm i)
  have hVV : ∀ i j, V i * V j = V (T i j) ∨ V i * V j = -V (T i j) := by
    intro i j
    refine su2_sign (su2_mul (hV2 i) (hV2 j)) (hV2 _) (induces_mul (hV3 i) (hV3 j)) ?_
    have h1 : (L.transpose * realMat (properPart (rots i)) * (L.transpose)⁻¹) *
        (L.transpose * realMat (properPart (rots j)) * (L.transpose)⁻¹) =
        L.transpose * realMat (properPart (rots (T i j))) * (L.transpose)⁻¹ := by
      rw [← hrot, properPart_mul (hsign i) (hsign j), realMat_mul]
      calc _ = L.transpose * realMat (properPart (rots i)) * ((L.transpose)⁻¹ * L.transpose) *
            (realMat (properPart (rots j)) * (L.transpose)⁻¹) := by simp only [Matrix.mul_assoc]
        _ = _ := by rw [Matrix.nonsing_inv_mul _ hLt, Matrix.mul_one]; simp only [Matrix.mul_assoc]
    rw [h1]
    exact hV3 _
  let Θ := timeReversalMatrix
  let U : Fin n → Matrix (Fin 2) (Fin 2) ℂ := fun i => if trs i = 1 then V i * Θ else V i
  let a : Fin n → Bool := fun i => decide (trs i = 1)
  let ω : Fin n → Fin n → ℂ := fun i j => multiplierOf (if a i then U i * (U j).map star else U i * U j) (U (T i j))
  have hU0 : ∀ i, ¬ trs i = 1 → U i = V i := fun i hi => if_neg hi
  have hU1 : ∀ i, trs i = 1 → U i = V i * Θ := fun i hi => if_pos hi
  have ha0 : ∀ i, ¬ trs i = 1 → a i = false := fun i hi => decide_eq_false hi
  have ha1 : ∀ i, trs i = 1 → a i = true := fun i hi => decide_eq_true hi
  have hUu : ∀ i, U i * (U i).conjTranspose = 1 := by
    intro i
    by_cases hi : trs i = 1
    · rw [hU1 i hi, Matrix.conjTranspose_mul, Matrix.mul_assoc, ← Matrix.mul_assoc Θ, timeReversal_unitary, Matrix.one_mul,
        (hV2 i).1]
    · rw [hU0 i hi]
      exact (hV2 i).1
  have hne : ∀ i, U i ≠ 0 := by
    intro i h0
    have := hUu i
    rw [h0, Matrix.zero_mul] at this
    exact zero_ne_one this
  have hpm : ∀ i j, U i * conjIfM (a i) (U j) = U (T i j) ∨ U i * conjIfM (a i) (U j) = -U (T i j) := by
    intro i j
    by_cases hi : trs i = 1
    · rw [ha1 i hi]
      show U i * (U j).map star = _ ∨ U i * (U j).map star = _
      by_cases hj : trs j = 1
      · have hl : ¬ trs (T i j) = 1 := fun hh => (htr i j).1 hh (hi.trans hj.symm)
        have h1 : U i * (U j).map star = -(V i * V j) := by
          rw [hU1 i hi, hU1 j hj, map_star_mul, timeReversal_map, ← Matrix.mul_assoc, Matrix.mul_assoc (V i), su2_conj (hV2 j),
            Matrix.mul_assoc, Matrix.mul_assoc, timeReversal_sq, Matrix.mul_neg, Matrix.mul_one, Matrix.mul_neg]
        rw [h1, hU0 _ hl]
        rcases hVV i j with h2 | h2 <;> rw [h2]
        · exact Or.inr rfl
        · exact Or.inl (neg_neg _)
      · have hl : trs (T i j) = 1 := (htr i j).2 fun hh => hj (hh.symm.trans hi)
        have h1 : U i * (U j).map star = V i * V j * Θ := by
          rw [hU1 i hi, hU0 j hj, Matrix.mul_assoc, su2_conj (hV2 j), Matrix.mul_assoc]
        rw [h1, hU1 _ hl]
        rcases hVV i j with h2 | h2 <;> rw [h2]
        · exact Or.inl rfl
        · exact Or.inr (Matrix.neg_mul _ _)
    · rw [ha0 i hi]
      show U i * U j = _ ∨ U i * U j = _
      rw [hU0 i hi]
      by_cases hj : trs j = 1
      · have hl : trs (T i j) = 1 := (htr i j).2 fun hh => hi (hh.trans hj)
        rw [hU1 j hj, hU1 _ hl, ← Matrix.mul_assoc]
        rcases hVV i j with h2 | h2 <;> rw [h2]
        · exact Or.inl rfl
        · exact Or.inr (Matrix.neg_mul _ _)
      · have hl : ¬ trs (T i j) = 1 := by
          intro hh
          refine (htr i j).1 hh ?_
          rcases h.2.1 i with h1 | h1
          · rcases h.2.1 j with h2 | h2
            · rw [h1, h2]
            · exact absurd h2 hj
          · exact absurd h1 hi
        rw [hU0 j hj, hU0 _ hl]
        exact hVV i j
  have hif : ∀ i j, (if a i then U i * (U j).map star else U i * U j) = U i * conjIfM (a i) (U j) := by
    intro i j
    unfold conjIfM
    cases a i <;> rfl
  have hcase : ∀ i j, (U i * conjIfM (a i) (U j) = U (T i j) ∧ ω i j = 1) ∨
      (U i * conjIfM (a i) (U j) = -U (T i j) ∧ ω i j = -1) := by
    intro i j
    have := multiplierOf_spec (hUu (T i j)) (hpm i j)
    show (_ ∧ multiplierOf _ _ = 1) ∨ (_ ∧ multiplierOf _ _ = -1)
    rw [hif]
    exact this
  have hlaw : CorepLaw T a ω U := by
    intro i j
    rcases hcase i j with ⟨h1, h2⟩ | ⟨h1, h2⟩ <;> rw [h1, h2] <;> simp
  have hrun : getCorepSpinorFactorSystem eig L rots trs = .ok (ω, U, a) := by
    unfold getCorepSpinorFactorSystem
    rw [arrayM_ok (g := U)]
    · simp only [bind, Except.bind, hT]
      rfl
    · intro i
      rw [hV1]
      rfl
  have haT : ∀ i j, a (T i j) = (a i ^^ a j) := by
    intro i j
    have h1 := htr i j
    show decide _ = (decide _ ^^ decide _)
    rcases h.2.1 i with hi | hi <;> rcases h.2.1 j with hj | hj <;> simp only [hi, hj] at h1 ⊢ <;> simp [h1]
  have hprod : ∀ i j l, IsProduct rots trs i j l → l = T i j := by
    intro i j l hl
    exact ((hTs i j l).2 ⟨hl.1, hl.2⟩).symm
  refine ⟨ω, U, a, hrun, fun i => decide_eq_true_iff, fun i => ⟨V i, hV1 i, hV2 i, fun hi => ?_, hU1 i⟩,
    fun i j => (hcase i j).imp And.right And.right, ?_, ?_, ?_, ?_⟩
  · exact hU0 i (by rw [hi]; decide)
  · intro i j l hl
    rw [hprod i j l hl]
    exact hlaw i j
  · intro T' hT'
    obtain rfl : T = T' := by rw [hT] at hT'; exact Except.ok.inj hT'
    exact antiCocycle_of_law haT hTg.assoc hlaw hne
  · intro e he1 he0
    have hU : U e = 1 := by
      rw [hU0 e (by rw [he0]; decide)]
      exact hV4 e (proper_unique (.inl he1.symm) Matrix.det_one)
    refine ⟨hU, fun i => ⟨?_, ?_⟩⟩
    · have h1 := hlaw e i
      have h2 : T e i = i := (hprod e i i ⟨by rw [he1, Matrix.one_mul], by
        rcases h.2.1 i with hi | hi <;> rw [hi, he0] <;> decide⟩).symm
      rw [hU, h2, ha0 e (by rw [he0]; decide), Matrix.one_mul] at h1
      exact smul_left_injective ℂ (hne i) (h1.symm.trans (one_smul _ _).symm)
    · have h1 := hlaw i e
      have h2 : T i e = i := (hprod i e i ⟨by rw [he1, Matrix.mul_one], by
        rcases h.2.1 i with hi | hi <;> rw [hi, he0] <;> decide⟩).symm
      have h3 : conjIfM (a i) (U e) = 1 := by
        rw [hU]
        unfold conjIfM
        cases a i
        · rfl
        · exact map_star_one
      rw [h3, h2, Matrix.mul_one] at h1
      exact smul_left_injective ℂ (hne i) (h1.symm.trans (one_smul _ _).symm)
  · intro t ht1 ht2
    have hV : V t = 1 := hV4 t (proper_unique (by
      rcases ht1 with h1 | h1
      · exact .inl h1.symm
      · exact .inr (by rw [h1, neg_neg])) Matrix.det_one)
    have hl : ¬ trs (T t t) = 1 := fun hh => (htr t t).1 hh rfl
    have hVl : V (T t t) = 1 := hV4 _ (proper_unique (.inl (by
      rw [← hrot]; rcases ht1 with h1 | h1 <;> rw [h1] <;> simp)) Matrix.det_one)
    have h1 := hlaw t t
    rw [hU0 _ hl, hVl, hU1 t ht2, hV, Matrix.one_mul, ha1 t ht2] at h1
    have h2 : Θ * Θ.map star = -1 := by rw [timeReversal_map, timeReversal_sq]
    have h3 : (-1 : ℂ) • (1 : Matrix (Fin 2) (Fin 2) ℂ) = ω t t • 1 := by
      rw [← h1, neg_one_smul, ← h2]
      rfl
    exact (smul_left_injective ℂ (one_ne_zero : (1 : Matrix (Fin 2) (Fin 2) ℂ) ≠ 0) h3).symm

/-- The grey group 21': the rotations. -/
def rotsGrey2 : Fin 4 → M3 :=
  ![1, !![-1, 0, 0; 0, -1, 0; 0, 0, 1], 1, !![-1, 0, 0; 0, -1, 0; 0, 0, 1]]

/-- The grey group 21': the time reversals. -/
def trsGrey2 : Fin 4 → ℤ := ![0, 0, 1, 1]

theorem grey2_group : EnumeratesMagneticGroup rotsGrey2 trsGrey2 :=
  enumeratesMagnetic_of_closed (by decide +kernel) (by decide) (by decide +kernel) ⟨0, by decide +kernel, rfl⟩
    (by decide +kernel)

theorem grey2_metric (i : Fin 4) : PreservesMetric 1 (rotsGrey2 i) := by
  have h : ∀ i, (rotsGrey2 i).transpose * ((1 : M3) * (1 : M3).transpose) * rotsGrey2 i = (1 : M3) * (1 : M3).transpose := by
    decide +kernel
  have := metric_of_int (h i)
  rwa [show (1 : M3).map (fun x => (x : ℝ)) = 1 from Matrix.map_one _ Int.cast_zero Int.cast_one] at this

/-- Non-vacuity of C46: the grey group 21' in the primitive cubic lattice. -/
example : ∃ eig : EigOracle, SymmEigContract eig ∧ (1 : R3).det ≠ 0 ∧ EnumeratesMagneticGroup rotsGrey2 trsGrey2 ∧
    ∀ i, PreservesMetric 1 (rotsGrey2 i) := by
  obtain ⟨eig, h⟩ := symmEigContract_exists
  exact ⟨eig, h, by rw [Matrix.det_one]; exact one_ne_zero, grey2_group, grey2_metric⟩

/-! ### C51 -/

/-- C51, for which groups: for a magnetic space group all of whose rotations fix `k`, and the spinor factors `ω` and the
nonsymmorphic factors `μ` computed by the code, the products `ω μ` have modulus one and satisfy the cocycle relation whenever the
first operation is linear; if there is an anti-linear operation, they form an anti-linear cocycle if and only if all
nonsymmorphic factors are `±1`; this is so when all translations vanish or are halves of integers.

Missing: the relation is false when some nonsymmorphic factor is not real, see `c51_refuted`. -/
theorem c51_magnetic_factor_system_partial {eig : EigOracle} (he : SymmEigContract eig) {L : R3} (hL : L.det ≠ 0)
    {rots : Fin n → M3} {trans : Fin n → V3} {trs : Fin n → ℤ} {k : V3} (h : IsMagneticSpaceGroup rots trans trs)
    (hm : ∀ i, PreservesMetric L (rots i)) (hk : ∀ i, FixesK (rots i) k) :
    ∃ ω U a T, getCorepSpinorFactorSystem eig L rots trs = .ok (ω, U, a) ∧ getCayleyTable rots (some trs) = .ok T ∧
      (∀ i j, ‖ω i j * getFactorSystem rots trans k i j‖ = 1) ∧
      (∀ i j l, trs i = 0 →
        ω i (T j l) * getFactorSystem rots trans k i (T j l) * (ω j l * getFactorSystem rots trans k j l) =
        ω (T i j) l * getFactorSystem rots trans k (T i j) l * (ω i j * getFactorSystem rots trans k i j)) ∧
      ((∃ i, trs i = 1) →
        (IsAntiCocycle T a (fun i j => ω i j * getFactorSystem rots trans k i j) ↔
          ∀ i j, getFactorSystem rots trans k i j = 1 ∨ getFactorSystem rots trans k i j = -1)) ∧
      ((∀ i a, ∃ m : ℤ, 2 * trans i a = m) →
        IsAntiCocycle T a (fun i j => ω i j * getFactorSystem rots trans k i j)) := by
  obtain ⟨ω, U, a, hrun, ha, -, hω, -, hcoc, -, -⟩ := c46_corep_spinor_factor_system he hL h.1 hm
  obtain ⟨T, hT, hTs, hTg, -, -⟩ := c01_cayley_table h.1
  have hω' := hcoc T hT
  have hωc : ∀ i j b, conjIf b (ω i j) = ω i j := by
    intro i j b
    unfold conjIf
    rcases hω i j with h1 | h1 <;> rw [h1] <;> cases b <;> simp
  have hprod : ∀ i j, IsProduct rots trs i j (T i j) := fun i j => (hTs i j _).1 rfl
  have hμ : ∀ i j l, getFactorSystem rots trans k i (T j l) * getFactorSystem rots trans k j l =
      getFactorSystem rots trans k (T i j) l * getFactorSystem rots trans k i j := fun i j l =>
    factor_cocycle_of (hk i) (hprod i j).1 (h.2 j l _ (hprod j l))
  have hnorm : ∀ i j, ‖getFactorSystem rots trans k i j‖ = 1 := fun i j => norm_expPhase _
  have hne : ∀ i j, getFactorSystem rots trans k i j ≠ 0 := fun i j => ne_zero_of_norm_one hnorm i j
  have hωne : ∀ i j, ω i j ≠ 0 := by
    intro i j
    rcases hω i j with h1 | h1 <;> rw [h1] <;> norm_num
  -- real factors suffice
  have hsuff : (∀ i j, getFactorSystem rots trans k i j = 1 ∨ getFactorSystem rots trans k i j = -1) →
      IsAntiCocycle T a (fun i j => ω i j * getFactorSystem rots trans k i j) := by
    intro hr i j l
    have h1 : conjIf (a i) (ω j l * getFactorSystem rots trans k j l) = ω j l * getFactorSystem rots trans k j l := by
      unfold conjIf
      rcases hω j l with h1 | h1 <;> rcases hr j l with h2 | h2 <;> rw [h1, h2] <;> cases a i <;> simp
    have h2 := hω' i j l
    rw [hωc] at h2
    dsimp only
    rw [h1]
    linear_combination (getFactorSystem rots trans k i (T j l) * getFactorSystem rots trans k j l) * h2 +
      (ω (T i j) l * ω i j) * hμ i j l
  refine ⟨ω, U, a, T, hrun, hT, ?_, ?_, ?_, ?_⟩
  · intro i j
    rw [norm_mul, hnorm, mul_one]
    rcases hω i j with h1 | h1 <;> rw [h1] <;> simp
  · intro i j l _
    have h2 := hω' i j l
    rw [hωc] at h2
    linear_combination (getFactorSystem rots trans k i (T j l) * getFactorSystem rots trans k j l) * h2 +
      (ω (T i j) l * ω i j) * hμ i j l
  · rintro ⟨t, ht⟩
    refine ⟨fun hF i j => ?_, hsuff⟩
    have h1 := hF t i j
    have hat : a t = true := (ha t).2 ht
    have h2 := hω' t i j
    rw [hωc] at h2
    dsimp only at h1
    have h3 : conjIf (a t) (ω i j * getFactorSystem rots trans k i j) = ω i j * star (getFactorSystem rots trans k i j) := by
      have := hωc i j true
      rw [hat]
      unfold conjIf at this ⊢
      rw [if_pos rfl] at this ⊢
      rw [star_mul', this]
    rw [h3] at h1
    have h4 : ω t (T i j) * ω i j * getFactorSystem rots trans k t (T i j) *
        (star (getFactorSystem rots trans k i j) - getFactorSystem rots trans k i j) = 0 := by
      linear_combination h1 - (getFactorSystem rots trans k t (T i j) * getFactorSystem rots trans k i j) * h2 -
        (ω (T t i) j * ω t i) * hμ t i j
    have h5 : star (getFactorSystem rots trans k i j) = getFactorSystem rots trans k i j := by
      rcases mul_eq_zero.1 h4 with h6 | h6
      · exact absurd h6 (mul_ne_zero (mul_ne_zero (hωne _ _) (hωne _ _)) (hne _ _))
      · exact sub_eq_zero.1 h6
    have h6 : getFactorSystem rots trans k i j * getFactorSystem rots trans k i j = 1 := by
      nth_rewrite 1 [← h5]
      rw [Complex.star_def, ← Complex.normSq_eq_conj_mul_self, Complex.normSq_eq_norm_sq, hnorm]
      simp
    exact mul_self_eq_one_iff.1 h6
  · intro h2w
    refine hsuff fun i j => expPhase_sign ?_
    obtain ⟨m, hm⟩ := dot3_int (x := residual (rots i) k) (y := fun a => 2 * trans j a) (hk i) (h2w j)
    refine ⟨m, ?_⟩
    rw [← hm]
    unfold dot3
    simp only [Fin.sum_univ_three]
    ring

/-- The rotations of P4₁22: powers of the fourfold rotation about z, then their products with the twofold rotation about x. -/
def rotsP4122 : Fin 8 → M3 :=
  ![1, !![0, -1, 0; 1, 0, 0; 0, 0, 1], !![-1, 0, 0; 0, -1, 0; 0, 0, 1], !![0, 1, 0; -1, 0, 0; 0, 0, 1],
    !![1, 0, 0; 0, -1, 0; 0, 0, -1], !![0, 1, 0; 1, 0, 0; 0, 0, -1], !![-1, 0, 0; 0, 1, 0; 0, 0, -1],
    !![0, -1, 0; -1, 0, 0; 0, 0, -1]]

/-- The time reversals of P4₁2'2'. -/
def trsP4122 : Fin 8 → ℤ := ![0, 0, 0, 0, 1, 1, 1, 1]

/-- Four times the translations of P4₁22. -/
def trans4P4122 : Fin 8 → Fin 3 → ℤ := fun i a => if a.val = 2 then ((i.val % 4 : ℕ) : ℤ) else 0

/-- The translations of P4₁22. -/
noncomputable def transP4122 (i : Fin 8) (a : Fin 3) : ℝ := trans4P4122 i a / 4

theorem p4122_group : IsMagneticSpaceGroup rotsP4122 transP4122 trsP4122 := by
  refine ⟨enumeratesMagnetic_of_closed (by decide +kernel) (by decide) (by decide +kernel) ⟨0, by decide +kernel, rfl⟩
    (by decide +kernel), ?_⟩
  have key : ∀ i j l, (rotsP4122 i * rotsP4122 j = rotsP4122 l) →
      ∀ a, ((∑ b, rotsP4122 i a b * trans4P4122 j b) + trans4P4122 i a - trans4P4122 l a) % 4 = 0 := by
    decide +kernel
  intro i j l hl a
  obtain ⟨m, hm⟩ := Int.dvd_of_emod_eq_zero (key i j l hl.1 a)
  refine ⟨m, ?_⟩
  have h3 : (((∑ b, rotsP4122 i a b * trans4P4122 j b) + trans4P4122 i a - trans4P4122 l a : ℤ) : ℝ) =
      ((4 * m : ℤ) : ℝ) := by
    rw [hm]
  unfold transP4122
  push_cast at h3
  have h4 : ∑ b, (rotsP4122 i a b : ℝ) * ((trans4P4122 j b : ℝ) / 4) =
      (∑ b, (rotsP4122 i a b : ℝ) * (trans4P4122 j b : ℝ)) / 4 := by
    simp only [Fin.sum_univ_three]
    ring
  rw [h4]
  linarith

theorem p4122_metric (i : Fin 8) : PreservesMetric 1 (rotsP4122 i) := by
  have h : ∀ i, (rotsP4122 i).transpose * ((1 : M3) * (1 : M3).transpose) * rotsP4122 i = (1 : M3) * (1 : M3).transpose := by
    decide +kernel
  have := metric_of_int (h i)
  rwa [show (1 : M3).map (fun x => (x : ℝ)) = 1 from Matrix.map_one _ Int.cast_zero Int.cast_one] at this

/-- The point Z. -/
noncomputable def kZ : V3 := ![0, 0, 1 / 2]

theorem p4122_fixes (i : Fin 8) : FixesK (rotsP4122 i) kZ := by
  have key : ∀ i a, rotsP4122 i 2 a = (if a.val = 2 then 1 else 0) ∨ rotsP4122 i 2 a = if a.val = 2 then -1 else 0 := by
    decide +kernel
  intro a
  rw [Fin.sum_univ_three]
  rcases key i a with h | h
  · refine ⟨0, ?_⟩
    rw [h]
    fin_cases a <;> simp [kZ]
  · refine ⟨if a.val = 2 then -1 else 0, ?_⟩
    rw [h]
    fin_cases a <;> simp [kZ]
    norm_num

/-- C51 is false: for the magnetic space group P4₁2'2' at `k = (0,0,1/2)`, which all operations fix, the products of the spinor
and the nonsymmorphic factors are not an anti-linear cocycle. -/
theorem c51_refuted {eig : EigOracle} (he : SymmEigContract eig) :
    IsMagneticSpaceGroup rotsP4122 transP4122 trsP4122 ∧ (∀ i, FixesK (rotsP4122 i) kZ) ∧
    ∃ ω U a T, getCorepSpinorFactorSystem eig 1 rotsP4122 trsP4122 = .ok (ω, U, a) ∧
      getCayleyTable rotsP4122 (some trsP4122) = .ok T ∧
      ¬ IsAntiCocycle T a (fun i j => ω i j * getFactorSystem rotsP4122 transP4122 kZ i j) := by
  refine ⟨p4122_group, p4122_fixes, ?_⟩
  obtain ⟨ω, U, a, T, h1, h2, -, -, h3, -⟩ := c51_magnetic_factor_system_partial he
    (by rw [Matrix.det_one]; exact one_ne_zero) p4122_group p4122_metric p4122_fixes
  refine ⟨ω, U, a, T, h1, h2, fun hc => ?_⟩
  have h4 := (h3 ⟨4, rfl⟩).1 hc 4 1
  have h5 : getFactorSystem rotsP4122 transP4122 kZ 4 1 = Complex.I := by
    unfold getFactorSystem
    have : dot3 (residual (rotsP4122 4) kZ) (transP4122 1) = -1 / 4 := by
      unfold dot3 residual transP4122
      simp only [Fin.sum_univ_three]
      simp [rotsP4122, trans4P4122, kZ]
      norm_num
    rw [this]
    unfold expPhase
    have h6 : (-2 * Real.pi * ((-1 / 4 : ℝ) : ℂ) * Complex.I : ℂ) = (Real.pi / 2 : ℝ) * Complex.I := by
      push_cast
      ring
    rw [h6, Complex.exp_mul_I, ← Complex.ofReal_cos, ← Complex.ofReal_sin, Real.cos_pi_div_two, Real.sin_pi_div_two]
    simp
  rw [h5] at h4
  rcases h4 with h4 | h4 <;> simpa using congrArg Complex.re h4

/-! ### C50 -/

theorem rint_int_re {z : ℂ} {m : ℤ} (h : z = m) : rint z.re = m := by
  rw [h, Complex.intCast_re, rint_intCast]

/-- C50 (Wigner): take any group table with a homomorphism `a` marking the anti-linear elements and any anti-linear cocycle of
modulus one; let `xsg` list the linear elements, `a0` be anti-linear and `D` be a unitary irrep of the linear elements with the
restricted factor system.  Then the irrep conjugated by `a0` as in the code is a unitary irrep with the same factor
system, two representations are equivalent if and only if their conjugates are, and the sum computed by the code is `|xsg|`
times an indicator 1, -1 or 0, which is 0 if and only if the irrep is inequivalent to its conjugate. -/
theorem c50_wigner {m d : ℕ} {T : Fin n → Fin n → Fin n} (hT : IsGroupTable T) {a : Fin n → Bool}
    (ha : ∀ i j, a (T i j) = (a i ^^ a j)) {F : Fin n → Fin n → ℂ} (hF : IsAntiCocycle T a F) (hn : ∀ i j, ‖F i j‖ = 1)
    {xsg : Fin m → Fin n} (hinj : Function.Injective xsg) (hmem : ∀ i, (∃ u, xsg u = i) ↔ a i = false)
    {T' : Fin m → Fin m → Fin m} (hsub : ∀ u v, xsg (T' u v) = T (xsg u) (xsg v))
    {a0 inv : Fin n} (ha0 : a a0 = true) (hinv : getInverseIndex T a0 = .ok inv)
    {conjMap : Fin m → Fin m} (hconj : ∀ u, xsg (conjMap u) = T inv (T (xsg u) a0))
    {sq : Fin m → Fin m} (hsq : ∀ u, xsg (sq u) = T (T a0 (xsg u)) (T a0 (xsg u)))
    {D : RepArr m d} (hD : IsProjRep T' (fun u v => F (xsg u) (xsg v)) D) (hDu : IsUnitaryRep D)
    (hDi : Spec.IsIrreducible D) :
    IsProjRep T' (fun u v => F (xsg u) (xsg v)) (conjIrrep F a0 xsg (fun u => T inv (T (xsg u) a0)) conjMap D) ∧
    IsUnitaryRep (conjIrrep F a0 xsg (fun u => T inv (T (xsg u) a0)) conjMap D) ∧
    Spec.IsIrreducible (conjIrrep F a0 xsg (fun u => T inv (T (xsg u) a0)) conjMap D) ∧
    (∀ (e : ℕ) (E : RepArr m e), IsProjRep T' (fun u v => F (xsg u) (xsg v)) E → IsUnitaryRep E →
      (AreEquivalent (conjIrrep F a0 xsg (fun u => T inv (T (xsg u) a0)) conjMap D)
        (conjIrrep F a0 xsg (fun u => T inv (T (xsg u) a0)) conjMap E) ↔ AreEquivalent D E)) ∧
    ∃ ε : ℤ, (ε = 1 ∨ ε = -1 ∨ ε = 0) ∧
      (ε = 0 ↔ ¬ AreEquivalent D (conjIrrep F a0 xsg (fun u => T inv (T (xsg u) a0)) conjMap D)) ∧
      ∑ u, F (T a0 (xsg u)) (T a0 (xsg u)) * (D (sq u)).trace = ((ε * m : ℤ) : ℂ) ∧
      corepIndicatorSum F (fun u => T a0 (xsg u)) sq D = ε * m := by
  obtain ⟨inv', hinv', hcancel⟩ := inverse_of_table hT a0
  obtain rfl : inv' = inv := by rw [hinv] at hinv'; exact (Except.ok.inj hinv').symm
  have hsa : a (T a0 a0) = false := by rw [ha, ha0]; rfl
  obtain ⟨s, hs⟩ := (hmem _).2 hsa
  have A : AntiGroup T a F xsg T' a0 conjMap s :=
    ⟨hT, ha, hF, hn, hinj, hmem, hsub, ha0, fun u => by rw [hconj, hcancel], hs⟩
  have hbar : ∀ {e : ℕ} (E : RepArr m e), conjIrrep F a0 xsg (fun u => T inv' (T (xsg u) a0)) conjMap E =
      bar F xsg a0 conjMap E := by
    intro e E
    funext u
    unfold conjIrrep bar conjFactor
    rw [hconj]
  have hm : 0 < m := table_pos A.sub_table
  simp only [hbar]
  refine ⟨A.bar_projRep hD, A.bar_unitary hDu, A.bar_irreducible hDi, fun e E hE hEu => A.bar_equiv_iff hD hDu hE hEu, ?_⟩
  have hfin : ∀ ε : ℤ, ∑ u, F (T a0 (xsg u)) (T a0 (xsg u)) * (D (sq u)).trace = ((ε * m : ℤ) : ℂ) →
      corepIndicatorSum F (fun u => T a0 (xsg u)) sq D = ε * m := fun ε hε => rint_int_re hε
  by_cases heq : AreEquivalent D (bar F xsg a0 conjMap D)
  · obtain ⟨W, hW, hWD⟩ := AntiGroup.exists_unitary (A.bar_unitary hDu) hDu hDi (AreEquivalent.symm heq)
    obtain ⟨σ, hσ, -, hsum⟩ := A.wigner_equiv hD hDu hDi hW hWD
    rcases hσ with rfl | rfl
    · have h1 := hsum sq hsq
      refine ⟨1, .inl rfl, ⟨fun h => absurd h (by decide), fun h => absurd heq h⟩, ?_, hfin 1 ?_⟩ <;> rw [h1] <;> simp
    · have h1 := hsum sq hsq
      refine ⟨-1, .inr (.inl rfl), ⟨fun h => absurd h (by decide), fun h => absurd heq h⟩, ?_, hfin (-1) ?_⟩ <;>
        rw [h1] <;> simp
  · have h1 := A.wigner_inequiv hD hDu hDi heq sq hsq
    refine ⟨0, .inr (.inr rfl), ⟨fun _ => heq, fun _ => rfl⟩, ?_, hfin 0 ?_⟩ <;> rw [h1] <;> simp

/-- Non-vacuity of C50: time reversal of a spin one half (a group of two elements, `F(1',1') = -1`). -/
example : ∃ (T : Fin 2 → Fin 2 → Fin 2) (a : Fin 2 → Bool) (F : Fin 2 → Fin 2 → ℂ) (xsg : Fin 1 → Fin 2)
    (T' : Fin 1 → Fin 1 → Fin 1) (D : RepArr 1 1), IsGroupTable T ∧ (∀ i j, a (T i j) = (a i ^^ a j)) ∧
    IsAntiCocycle T a F ∧ (∀ i j, ‖F i j‖ = 1) ∧ F 1 1 = -1 ∧ Function.Injective xsg ∧
    (∀ i, (∃ u, xsg u = i) ↔ a i = false) ∧ (∀ u v, xsg (T' u v) = T (xsg u) (xsg v)) ∧ a 1 = true ∧
    getInverseIndex T 1 = .ok 1 ∧ (∀ u, xsg u = T 1 (T (xsg u) 1)) ∧ (∀ u, xsg u = T (T 1 (xsg u)) (T 1 (xsg u))) ∧
    IsProjRep T' (fun u v => F (xsg u) (xsg v)) D ∧ IsUnitaryRep D ∧ Spec.IsIrreducible D := by
  refine ⟨fun i j => i + j, fun i => decide (i = 1), fun i j => if i = 1 ∧ j = 1 then -1 else 1, fun _ => 0, fun _ _ => 0,
    fun _ => 1, ⟨by decide, 0, by decide⟩, by decide, ?_, ?_, ?_, fun u v _ => Subsingleton.elim u v, by decide, by decide,
    by decide, by decide, by decide, by decide, ?_, ?_, ?_⟩
  · intro i j k
    fin_cases i <;> fin_cases j <;> fin_cases k <;> simp [conjIf]
  · intro i j
    fin_cases i <;> fin_cases j <;> simp
  · simp
  · intro u v
    simp
  · intro u
    simp
  · refine ⟨inferInstance, fun W _ => ?_⟩
    by_cases hW : W = ⊥
    · exact .inl hW
    · right
      obtain ⟨v, hv, hv0⟩ := W.exists_mem_ne_zero_of_ne_bot hW
      rw [Submodule.eq_top_iff']
      intro x
      have h0 : v 0 ≠ 0 := by
        intro h
        apply hv0
        funext i
        rw [Subsingleton.elim i 0]
        exact h
      have : x = (x 0 / v 0) • v := by
        funext i
        rw [Subsingleton.elim i 0]
        simp [h0]
      rw [this]
      exact W.smul_mem _ hv

end Spgrep
