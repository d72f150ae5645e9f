/-
C49 is false when the factors among the operations without time reversal are complex: the grey group P21' with a shifted
origin.
-/
import Verif.Props.CorepLaw
import Mathlib.Analysis.SpecialFunctions.Trigonometric.Bounds

namespace Spgrep

open Spec

/-- The translations of the grey group 21' with the axis of rotation through `(1/32, 0, 0)`. -/
noncomputable def trGrey2 : Fin 4 → V3 := ![0, ![1 / 16, 0, 0], 0, ![1 / 16, 0, 0]]

/-- A point on the boundary of the Brillouin zone which the twofold rotation changes by a reciprocal lattice vector. -/
noncomputable def kGrey2 : V3 := ![1 / 2, 0, 0]

theorem trGrey2_int (i : Fin 4) (a : Fin 3) : trGrey2 i a = ((if (i = 1 ∨ i = 3) ∧ a = 0 then 1 else 0 : ℤ) : ℝ) / 16 := by
  fin_cases i <;> fin_cases a <;> simp [trGrey2]

theorem kGrey2_int (a : Fin 3) : kGrey2 a = ((if a = 0 then 1 else 0 : ℤ) : ℝ) / 2 := by
  fin_cases a <;> simp [kGrey2]

theorem grey2s_magnetic : IsMagneticSpaceGroup rotsGrey2 trGrey2 trsGrey2 := by
  refine ⟨grey2_group, ?_⟩
  intro i j l h a
  refine ⟨0, ?_⟩
  have h1 : ∀ i j l : Fin 4, rotsGrey2 i * rotsGrey2 j = rotsGrey2 l → ∀ a : Fin 3,
      (∑ b, rotsGrey2 i a b * (if (j = 1 ∨ j = 3) ∧ b = 0 then 1 else 0)) + (if (i = 1 ∨ i = 3) ∧ a = 0 then 1 else 0) -
        (if (l = 1 ∨ l = 3) ∧ a = 0 then 1 else 0) = 0 := by decide +kernel
  have h2 := congrArg (fun x : ℤ => (x : ℝ) / 16) (h1 i j l h.1 a)
  simp only [trGrey2_int]
  push_cast at h2 ⊢
  rw [zero_div, sub_div, add_div, Finset.sum_div] at h2
  simpa only [mul_div_assoc] using h2

theorem grey2s_residual (i : Fin 4) (a : Fin 3) : (∑ b, (rotsGrey2 i b a : ℝ) * kGrey2 b) - kGrey2 a =
    ((if (i = 1 ∨ i = 3) ∧ a = 0 then -1 else 0 : ℤ) : ℝ) := by
  have h1 : ∀ (i : Fin 4) (a : Fin 3), (∑ b, rotsGrey2 i b a * (if b = 0 then 1 else 0)) - (if a = 0 then 1 else 0) =
      2 * (if (i = 1 ∨ i = 3) ∧ a = 0 then -1 else 0) := by decide +kernel
  have h2 := congrArg (fun x : ℤ => (x : ℝ) / 2) (h1 i a)
  simp only [kGrey2_int]
  push_cast at h2 ⊢
  rw [mul_div_cancel_left₀ _ (two_ne_zero)] at h2
  rw [← h2, sub_div, Finset.sum_div]
  simp only [mul_div_assoc]

theorem grey2s_fixes (i : Fin 4) : FixesK (rotsGrey2 i) kGrey2 := fun a => ⟨_, grey2s_residual i a⟩

/-- The only factor which is not one. -/
noncomputable def muGrey2 : ℂ := ⟨Real.cos (Real.pi / 8), Real.sin (Real.pi / 8)⟩

theorem expPhase_re_im (x : ℝ) : expPhase x = ⟨Real.cos (2 * Real.pi * x), -Real.sin (2 * Real.pi * x)⟩ := by
  unfold expPhase
  rw [show (-2 * Real.pi * x * Complex.I : ℂ) = ((-(2 * Real.pi * x) : ℝ) : ℂ) * Complex.I by push_cast; ring]
  apply Complex.ext
  · rw [Complex.exp_ofReal_mul_I_re, Real.cos_neg]
  · rw [Complex.exp_ofReal_mul_I_im, Real.sin_neg]

theorem grey2s_mu (i j : Fin 4) : getFactorSystem rotsGrey2 trGrey2 kGrey2 i j =
    if (i = 1 ∨ i = 3) ∧ (j = 1 ∨ j = 3) then muGrey2 else 1 := by
  have h : dot3 (residual (rotsGrey2 i) kGrey2) (trGrey2 j) =
      if (i = 1 ∨ i = 3) ∧ (j = 1 ∨ j = 3) then -1 / 16 else 0 := by
    have h1 : dot3 (residual (rotsGrey2 i) kGrey2) (trGrey2 j) =
        ((if i = 1 ∨ i = 3 then -1 else 0 : ℤ) : ℝ) * (((if j = 1 ∨ j = 3 then 1 else 0 : ℤ) : ℝ) / 16) := by
      unfold dot3 residual
      rw [Finset.sum_congr rfl fun a _ => congrArg (· * trGrey2 j a) (grey2s_residual i a)]
      simp only [trGrey2_int, Fin.sum_univ_three]
      simp
    rw [h1]
    by_cases hi : i = 1 ∨ i = 3 <;> by_cases hj : j = 1 ∨ j = 3 <;> simp [hi, hj] <;> norm_num
  unfold getFactorSystem
  rw [h]
  split
  · rw [expPhase_re_im, muGrey2, show 2 * Real.pi * (-1 / 16) = -(Real.pi / 8) by ring, Real.cos_neg, Real.sin_neg, neg_neg]
  · exact expPhase_zero

theorem grey2s_phase : expPhase (dot3 kGrey2 (trGrey2 0)) = 1 ∧
    expPhase (dot3 kGrey2 (trGrey2 1)) * expPhase (dot3 kGrey2 (trGrey2 1)) = star muGrey2 := by
  have h0 : dot3 kGrey2 (trGrey2 0) = 0 := by simp [dot3, kGrey2, trGrey2]
  have h1 : dot3 kGrey2 (trGrey2 1) = 1 / 32 := by simp [dot3, kGrey2, trGrey2, Fin.sum_univ_three]; norm_num
  rw [h0, h1, ← expPhase_add]
  refine ⟨expPhase_zero, ?_⟩
  rw [expPhase_re_im, show 2 * Real.pi * (1 / 32 + 1 / 32) = Real.pi / 8 by ring]
  rfl

theorem muGrey2_bounds : 0.92 < muGrey2.re ∧ muGrey2.re < 0.93 ∧ 0.38 < muGrey2.im ∧ muGrey2.im < 0.39 ∧ ‖muGrey2‖ = 1 := by
  have h2 : (1.414 : ℝ) < Real.sqrt 2 := Real.lt_sqrt_of_sq_lt (by norm_num)
  have h3 : Real.sqrt 2 < 1.415 := (Real.sqrt_lt' (by norm_num)).2 (by norm_num)
  have hc : muGrey2.re = Real.sqrt (2 + Real.sqrt 2) / 2 := Real.cos_pi_div_eight
  have hs : muGrey2.im = Real.sqrt (2 - Real.sqrt 2) / 2 := Real.sin_pi_div_eight
  rw [hc, hs]
  refine ⟨?_, ?_, ?_, ?_, ?_⟩
  · rw [lt_div_iff₀ two_pos]
    exact Real.lt_sqrt_of_sq_lt (by norm_num; linarith)
  · rw [div_lt_iff₀ two_pos]
    exact (Real.sqrt_lt' (by norm_num)).2 (by norm_num; linarith)
  · rw [lt_div_iff₀ two_pos]
    exact Real.lt_sqrt_of_sq_lt (by norm_num; linarith)
  · rw [div_lt_iff₀ two_pos]
    exact (Real.sqrt_lt' (by norm_num)).2 (by norm_num; linarith)
  · rw [Complex.norm_def, Complex.normSq_apply]
    rw [Real.sqrt_eq_one]
    have := Real.sin_sq_add_cos_sq (Real.pi / 8)
    change Real.cos (Real.pi / 8) * Real.cos (Real.pi / 8) + Real.sin (Real.pi / 8) * Real.sin (Real.pi / 8) = 1
    nlinarith

/-- More spinor factors of the grey group 21'. -/
theorem grey2_factors' {eig : EigOracle} (he : SymmEigContract eig) {ω : Fin 4 → Fin 4 → ℂ}
    {U : Fin 4 → Matrix (Fin 2) (Fin 2) ℂ} {a : Fin 4 → Bool}
    (hω : getCorepSpinorFactorSystem eig 1 rotsGrey2 trsGrey2 = .ok (ω, U, a)) :
    ω 1 2 = ω 2 1 ∧ ω 0 2 = 1 ∧ ω 2 0 = 1 := by
  obtain ⟨ω', U', a', hω', ha, hV, hω1, hlaw, -, hone, htr⟩ := c46_corep_spinor_factor_system he
    (by rw [Matrix.det_one]; exact one_ne_zero) grey2_group grey2_metric
  obtain ⟨rfl, h1⟩ := Prod.mk.inj (Except.ok.inj (hω.symm.trans hω'))
  obtain ⟨rfl, rfl⟩ := Prod.mk.inj h1
  obtain ⟨hU0, h0⟩ := hone 0 (by decide +kernel) rfl
  refine ⟨?_, (h0 2).1, (h0 2).2⟩
  obtain ⟨V0, k0, -, k1, -⟩ := hV 0
  obtain ⟨V1, m0, mS, m1, -⟩ := hV 1
  obtain ⟨V2, n0, -, -, n1⟩ := hV 2
  obtain ⟨V3, q0, -, -, q1⟩ := hV 3
  rw [show rotsGrey2 2 = rotsGrey2 0 by decide +kernel] at n0
  obtain rfl := Except.ok.inj (k0.symm.trans n0)
  rw [show rotsGrey2 3 = rotsGrey2 1 by decide +kernel] at q0
  obtain rfl := Except.ok.inj (m0.symm.trans q0)
  have ha1 : a 1 = false := by
    cases h : a 1 with
    | false => rfl
    | true => exact absurd ((ha 1).1 h) (by decide)
  have ha2 : a 2 = true := (ha 2).2 rfl
  have l12 := hlaw 1 2 3 ⟨by decide +kernel, by decide⟩
  have l21 := hlaw 2 1 3 ⟨by decide +kernel, by decide⟩
  rw [k1 rfl] at hU0
  rw [n1 rfl, m1 rfl, ha1, hU0, Matrix.one_mul] at l12
  rw [n1 rfl, m1 rfl, ha2, hU0, Matrix.one_mul] at l21
  change V1 * timeReversalMatrix = _ at l12
  change timeReversalMatrix * V1.map star = _ at l21
  rw [su2_conj mS, l12] at l21
  have hne : U 3 ≠ 0 := by
    rw [q1 rfl]
    intro h
    have h2 := congrArg Matrix.det h
    rw [Matrix.det_mul, mS.2, Matrix.det_zero] at h2
    simp [Matrix.det_fin_two] at h2
  exact smul_left_injective ℂ hne l21

/-! ### One-dimensional matrices are numbers -/

theorem trace_mul_one {d : ℕ} (hd : d = 1) (A B : Matrix (Fin d) (Fin d) ℂ) : (A * B).trace = A.trace * B.trace := by
  subst hd
  simp [Matrix.trace, Matrix.mul_apply]

theorem near_trace_one {m d : ℕ} (hd : d = 1) {D D' : RepArr m d} {t : ℝ} (h : Near t D D') (g : Fin m) :
    ‖(D g).trace - (D' g).trace‖ ≤ t := by
  subst hd
  simpa [Matrix.trace] using h g 0 0

theorem eq_of_trace_one {d : ℕ} (hd : d = 1) {A B : Matrix (Fin d) (Fin d) ℂ} (h : A.trace = B.trace) : A = B := by
  subst hd
  ext i j
  rw [Subsingleton.elim i 0, Subsingleton.elim j 0]
  simpa [Matrix.trace] using h

theorem equiv_of_trace_one {m d e : ℕ} (hd : d = 1) (he : e = 1) {D : RepArr m d} {E : RepArr m e}
    (h : ∀ g, (D g).trace = (E g).trace) : AreEquivalent D E := by
  subst hd he
  refine ⟨1, 1, Matrix.one_mul _, Matrix.one_mul _, fun g => ?_⟩
  rw [Matrix.mul_one, Matrix.one_mul]
  exact eq_of_trace_one rfl (h g)

theorem fs_one {d : ℕ} (hd : d = 1) (D : RepArr 2 d) :
    ∑ k, ∑ i, ∑ j, D k i j * D k j i = (D 0).trace * (D 0).trace + (D 1).trace * (D 1).trace := by
  subst hd
  simp [Matrix.trace]

theorem fs_zero {d : ℕ} {D : RepArr 2 d} (h : rint ((∑ k, ∑ a, ∑ b, D k a b * D k b a) / (2 : ℕ)).re = 0) :
    frobeniusSchur D = .ok 0 := by
  unfold frobeniusSchur
  dsimp only
  rw [h, if_neg (by decide)]

/-- The entry of the second block. -/
theorem blocks_entry_one {d : ℕ} (hd : d = 1) (z w : ℂ) (P Q P' Q' : Matrix (Fin d) (Fin d) ℂ) :
    ∃ i j, ((z • blocks P 0 0 Q) * (z • blocks P 0 0 Q) - w • blocks P' 0 0 Q') i j =
      z * z * (Q.trace * Q.trace) - w * Q'.trace := by
  subst hd
  refine ⟨finSumFinEquiv (.inr 0), finSumFinEquiv (.inr 0), ?_⟩
  rw [Matrix.smul_mul, Matrix.mul_smul, blocks_mul, smul_smul]
  simp [blocks, Matrix.trace, Matrix.mul_apply, -finSumFinEquiv_apply_right]

/-- Products of numbers close to given ones of modulus one. -/
theorem mul_near_one {a b a' b' : ℂ} {t : ℝ} (ht : t = 1e-8) (ha : ‖a‖ = 1) (hb : ‖b‖ = 1) (h1 : ‖a - a'‖ ≤ t) (h2 : ‖b - b'‖ ≤ t) :
    ‖a * b - a' * b'‖ ≤ 1e-7 := by
  have h3 : ‖a'‖ ≤ 1 + t := by
    calc ‖a'‖ = ‖a - (a - a')‖ := by rw [sub_sub_cancel]
      _ ≤ ‖a‖ + ‖a - a'‖ := norm_sub_le _ _
      _ ≤ 1 + t := by rw [ha]; linarith
  have h4 : a * b - a' * b' = (a - a') * b + a' * (b - b') := by ring
  have h5 : ‖a' * (b - b')‖ ≤ (1 + t) * t := by
    rw [norm_mul]
    exact mul_le_mul h3 h2 (norm_nonneg _) (by rw [ht]; norm_num)
  rw [h4]
  refine (norm_add_le _ _).trans ?_
  rw [norm_mul, hb, mul_one]
  rw [ht] at *
  norm_num at *
  linarith

theorem re_im_near {a b : ℂ} {t : ℝ} (h : ‖a - b‖ ≤ t) : |a.re - b.re| ≤ t ∧ |a.im - b.im| ≤ t :=
  ⟨by rw [← Complex.sub_re]; exact (Complex.abs_re_le_norm _).trans h,
   by rw [← Complex.sub_im]; exact (Complex.abs_im_le_norm _).trans h⟩

theorem far_from_zero {q x : ℂ} (h0 : -1e-8 ≤ 0 - x.im ∧ 0 - x.im ≤ 1e-8) (h1 : -1e-7 ≤ -muGrey2.re - q.re ∧ -muGrey2.re - q.re ≤ 1e-7)
    (h2 : -1e-7 ≤ -muGrey2.im - q.im ∧ -muGrey2.im - q.im ≤ 1e-7) : 1 / 2 < ‖muGrey2 * q + x‖ := by
  obtain ⟨b1, b2, b3, b4, -⟩ := muGrey2_bounds
  refine lt_of_lt_of_le ?_ (Complex.abs_im_le_norm _)
  rw [Complex.add_im, Complex.mul_im, lt_abs]
  right
  obtain ⟨g1, g2⟩ := h1
  obtain ⟨g3, g4⟩ := h2
  obtain ⟨g5, g6⟩ := h0
  norm_num at b1 b2 b3 b4 g1 g2 g3 g4 g5 g6 ⊢
  have k1 : muGrey2.re * q.im ≤ muGrey2.re * (-(37 / 100)) := mul_le_mul_of_nonneg_left (by linarith) (by linarith)
  have k2 : muGrey2.im * q.re ≤ muGrey2.im * (-(91 / 100)) := mul_le_mul_of_nonneg_left (by linarith) (by linarith)
  linarith

/-- C49 is false: for the grey group 21' with the axis through `(1/32, 0, 0)` and `k = (1/2, 0, 0)`, with every choice of oracles
obeying their contracts and of random numbers for which the enumeration of irreps succeeds,
`enumerate_spinor_small_corepresentations` returns without warning at least one co-representation, and for none of those it
returns the matrix of the twofold rotation (operation 1, whose square is exactly operation 0) squares to the spinor factor times
the matrix of operation 0: the difference has an entry of modulus above one half. -/
theorem c49_refuted {o : Oracles} (he : SymmEigContract o.eig)
    (ho : o.pointgroup = (PgSymbol.pg_2, (1 : M3).map fun x : ℤ => (x : ℝ))) (hr : RichDraws 4 o.random 1e-8 4)
    (randomI : ∀ d, ℕ → Matrix (Fin d) (Fin d) ℂ) (rtol : ℝ) :
    ∃ out, enumerateSpinorSmallCoreps o randomI 1 rotsGrey2 trGrey2 trsGrey2 kGrey2 .neto rtol 1e-8 4 = .ok (out, false) ∧
      out.coreps ≠ [] ∧
      ∀ x ∈ out.coreps, ∃ i j, 1 / 2 < ‖(x.2 1 * x.2 1 - out.spinorFactor 1 1 • x.2 0) i j‖ := by
  obtain ⟨xsg, tr, a0, ω, U, a, T, T', c, s, e, hdec, hω, hT, hT', hl, haf, hω1, hnorm, hcoc, hsg, he1, he2, hF1, -⟩ :=
    corep_setup grey2s_magnetic ⟨2, rfl⟩ (by decide +kernel) grey2s_fixes he
      (by rw [Matrix.det_one]; exact one_ne_zero) grey2_metric
  obtain ⟨w11, w22, w33⟩ := grey2_factors he hω
  obtain ⟨w12, w02, w20⟩ := grey2_factors' he hω
  -- the decomposition
  have hxa : xsg = [0, 1] ∧ a0 = 2 := by
    unfold decomposeByXSG at hdec
    rw [if_neg (by decide)] at hdec
    have hf : ((List.finRange 4).find? fun i => decide (trsGrey2 i ≠ 0)) = some 2 := by decide
    dsimp only at hdec
    rw [hf] at hdec
    obtain ⟨h1, h2⟩ := Prod.mk.inj (Option.some.inj (Except.ok.inj hdec))
    exact ⟨by rw [← h1]; decide, (Prod.mk.inj h2).2.symm⟩
  obtain ⟨rfl, rfl⟩ := hxa
  obtain ⟨T1, hT1, hTs, hTg, -⟩ := c01_cayley_table grey2_group
  obtain rfl := Except.ok.inj (hT1.symm.trans hT)
  have t00 : ∀ i, T1 i i = 0 := by
    intro i
    refine (hTs i i 0).2 ⟨?_, ?_⟩ <;> revert i <;> decide +kernel
  have t0 : ∀ i, T1 0 i = i ∧ T1 i 0 = i := by
    intro i
    constructor <;> refine (hTs _ _ i).2 ⟨?_, ?_⟩ <;> revert i <;> decide +kernel
  have t21 : T1 2 1 = 3 := (hTs 2 1 3).2 ⟨by decide +kernel, by decide +kernel⟩
  have t12 : T1 1 2 = 3 := (hTs 1 2 3).2 ⟨by decide +kernel, by decide +kernel⟩
  set F : Fin 4 → Fin 4 → ℂ := fun i j => ω i j * getFactorSystem rotsGrey2 trGrey2 kGrey2 i j with hF
  have f11 : F 1 1 = -muGrey2 := by rw [hF]; dsimp only; rw [w11, grey2s_mu, if_pos (by decide), neg_one_mul]
  have f22 : F 2 2 = -1 := by rw [hF]; dsimp only; rw [w22, grey2s_mu, if_neg (by decide), mul_one]
  have f33 : F 3 3 = muGrey2 := by rw [hF]; dsimp only; rw [w33, grey2s_mu, if_pos (by decide), one_mul]
  have f00 : F 0 0 = 1 := hF1 0 fun i => (t0 i).1
  have f12 : F 1 2 / F 2 1 = 1 := by
    have : F 2 1 ≠ 0 := fun h => by have := hnorm 2 1; rw [show _ * _ = F 2 1 from rfl, h, norm_zero] at this; norm_num at this
    rw [div_eq_one_iff_eq this, hF]
    dsimp only
    rw [w12, grey2s_mu, grey2s_mu, if_neg (by decide), if_neg (by decide)]
  have f02 : F 0 2 / F 2 0 = 1 := by
    rw [hF]
    dsimp only
    rw [w02, w20, grey2s_mu, grey2s_mu, if_neg (by decide), if_neg (by decide)]
    simp
  have hc0 : c 0 = 0 := by
    have h1 := hl.conj 0
    have h2 : ∀ u : Fin 2, T1 2 (([0, 1] : List (Fin 4)).get u) = T1 0 2 → u = 0 := by
      intro u
      rw [(t0 2).1]
      fin_cases u
      · intro _; rfl
      · intro h
        change T1 2 1 = 2 at h
        rw [t21] at h
        exact absurd h (by decide)
    exact h2 _ h1
  have hc1 : c 1 = 1 := by
    have h1 := hl.conj 1
    have h2 : ∀ u : Fin 2, T1 2 (([0, 1] : List (Fin 4)).get u) = T1 1 2 → u = 1 := by
      intro u
      rw [t12]
      fin_cases u
      · intro h
        change T1 2 0 = 3 at h
        rw [(t0 2).2] at h
        exact absurd h (by decide)
      · intro _; rfl
    exact h2 _ h1
  have hinj := List.nodup_iff_injective_get.1 hl.nodup
  have hsub : IsGroupTable T' := (c01_cayley_table_ordinary hsg.1).elim fun T'' h => by
    obtain rfl := Except.ok.inj (h.1.symm.trans hT')
    exact h.2.2
  have T'00 : T' 0 0 = 0 := hinj (by rw [hl.sub]; exact t00 0)
  have T'11 : T' 1 1 = 0 := hinj (by rw [hl.sub]; exact t00 1)
  have hsubc : IsCocycle T' fun u v => F (([0, 1] : List (Fin 4)).get u) (([0, 1] : List (Fin 4)).get v) := by
    intro u v w
    dsimp only
    rw [hl.sub, hl.sub]
    exact hcoc _ _ _
  -- irreps
  obtain ⟨R, wR, hraw, hw, hr'⟩ := neto_raw hsg.1 hT' hsub hsubc (fun u v => hnorm _ _) he1 (hF1 _ he2) o
    (by rw [ho]; exact grey2_contract _ (by decide) (by decide)) rtol (atol := 1e-8) (by norm_num) 4
  obtain rfl := hr' (RichDraws.mono (by decide) hr)
  have hR := hw rfl
  obtain ⟨irreps, hir, E, hE⟩ : ∃ irreps : List (AnyRep ([0, 1] : List (Fin 4)).length),
      irreps = R.map (fun D => ⟨D.1, purifyIrrepValue D.2 1e-8⟩) ∧ ∃ E, ApproxIrreps T'
        (fun u v => F (([0, 1] : List (Fin 4)).get u) (([0, 1] : List (Fin 4)).get v)) 1e-8 irreps E := by
    obtain ⟨E, hE, -⟩ := approx_of_complete hsub (fun u v => hnorm _ _) hsubc hR (atol := 1e-8) (by norm_num) (by norm_num)
    exact ⟨_, rfl, E, hE⟩
  have hRl : R.length = 2 := by
    have h1 := IsCompleteIrreps.sum_sq hsub (ne_zero_of_norm_one fun u v => hnorm _ _) hsubc hR
    have h2 : ∀ D ∈ R, D.1 ^ 2 = 1 := by
      intro D hD
      have h3 : D.1 ^ 2 ≤ 2 := IsCompleteIrreps.dim_le hsub (ne_zero_of_norm_one fun u v => hnorm _ _) hsubc hR hD
      have h4 : 0 < D.1 := Fin.pos_iff_nonempty.2 (hR.irred D hD).1
      have h5 : D.1 = 1 := by nlinarith
      rw [h5, one_pow]
    rw [List.map_congr_left h2] at h1
    simpa using h1
  have hlen : irreps.length = 2 := by rw [hir, List.length_map, hRl]
  have hd : ∀ i, (irreps.get i).1 = 1 := by
    intro i
    have h1 : (irreps.get i).1 ^ 2 ≤ 2 := hE.dim i
    have h2 : 0 < (irreps.get i).1 := Fin.pos_iff_nonempty.2 (hE.irred i).1
    nlinarith
  have x0 : ∀ i, (E i 0).trace = 1 := by
    intro i
    have h1 : E i 0 * E i 0 = F 0 0 • E i (T' 0 0) := hE.rep i 0 0
    rw [T'00, f00, one_smul] at h1
    have h2 : IsUnit (E i 0) := IsUnitaryRep.isUnit (hE.unitary i) 0
    rw [h2.mul_left_cancel (by rw [h1, Matrix.mul_one] : E i 0 * E i 0 = E i 0 * 1), Matrix.trace_one, Fintype.card_fin, hd i]
    simp
  have y0 : ∀ i, (E i 1).trace * (E i 1).trace = -muGrey2 := by
    intro i
    have h1 : E i 1 * E i 1 = F 1 1 • E i (T' 1 1) := hE.rep i 1 1
    have h2 := congrArg Matrix.trace h1
    rwa [T'11, f11, Matrix.trace_smul, x0, trace_mul_one (hd i), smul_eq_mul, mul_one] at h2
  obtain ⟨b1, b2, b3, b4, b5⟩ := muGrey2_bounds
  have yn : ∀ i, ‖(E i 1).trace‖ = 1 := by
    intro i
    have h1 := congrArg norm (y0 i)
    rw [norm_mul, norm_neg, b5] at h1
    nlinarith [norm_nonneg (E i 1).trace]
  have yij : ∀ i j, i ≠ j → (E i 1).trace * (E j 1).trace = muGrey2 := by
    intro i j hij
    have h1 : ((E i 1).trace - (E j 1).trace) * ((E i 1).trace + (E j 1).trace) = 0 := by
      linear_combination y0 i - y0 j
    rcases mul_eq_zero.1 h1 with h2 | h2
    · refine absurd (hE.inequiv i j (equiv_of_trace_one (hd i) (hd j) fun g => ?_)) hij
      have hg : g = (0 : Fin 2) ∨ g = (1 : Fin 2) := by
        change Fin 2 at g
        fin_cases g
        · exact .inl rfl
        · exact .inr rfl
      rcases hg with rfl | rfl
      · exact (x0 i).trans (x0 j).symm
      · exact sub_eq_zero.1 h2
    · linear_combination (E i 1).trace * h2 - y0 i
  have n0 : ∀ i, ‖(1 : ℂ) - ((irreps.get i).2 0).trace‖ ≤ 1e-8 := fun i => by rw [← x0 i]; exact near_trace_one (hd i) (hE.near i) 0
  have n1 : ∀ i, ‖(E i 1).trace - ((irreps.get i).2 1).trace‖ ≤ 1e-8 := fun i => near_trace_one (hd i) (hE.near i) 1
  -- the rounded sums vanish
  have hq : ∀ u : Fin ([0, 1] : List (Fin 4)).length, ([0, 1] : List (Fin 4)).get ((fun _ => 0) u) =
      T1 (T1 2 (([0, 1] : List (Fin 4)).get u)) (T1 2 (([0, 1] : List (Fin 4)).get u)) := fun u => (t00 _).symm
  have hsum : ∀ i, corepIndicatorSum F (fun u => T1 2 (([0, 1] : List (Fin 4)).get u)) (fun _ => 0) (irreps.get i).2 =
      (fun _ => 0 : Fin irreps.length → ℤ) i * ([0, 1] : List (Fin 4)).length := by
    intro i
    have h1 : ∑ u : Fin 2, F (T1 2 (([0, 1] : List (Fin 4)).get u)) (T1 2 (([0, 1] : List (Fin 4)).get u)) *
        getCharacter (irreps.get i).2 0 = (-1 + muGrey2) * ((irreps.get i).2 0).trace := by
      rw [Fin.sum_univ_two]
      change F (T1 2 0) (T1 2 0) * _ + F (T1 2 1) (T1 2 1) * _ = _
      rw [(t0 2).2, t21, f22, f33, add_mul]
      rfl
    unfold corepIndicatorSum
    refine (congrArg (fun z : ℂ => rint z.re) h1).trans ?_
    rw [zero_mul]
    have h2 := re_im_near (n0 i)
    rw [Complex.one_re, Complex.one_im, abs_le, abs_le] at h2
    apply rint_eq_of_abs_lt
    rw [Complex.mul_re, Complex.add_re, Complex.add_im, Complex.neg_re, Complex.neg_im, Complex.one_re, Complex.one_im, abs_lt]
    push_cast
    constructor <;> nlinarith
  have hb : ∀ i, ∀ u : Fin 2, conjFactor F (fun u => ([0, 1] : List (Fin 4)).get u) 2 c u = 1 → c u = u →
      star (getCharacter (bar F (fun u => ([0, 1] : List (Fin 4)).get u) 2 c (irreps.get i).2) u) =
        ((irreps.get i).2 u).trace := by
    intro i u h1 h2
    unfold bar
    change star (Matrix.trace (_ • _)) = _
    rw [h1, h2, one_smul]
    change star (∑ _, star _) = _
    rw [star_sum]
    simp only [star_star]
    rfl
  have hb0 := fun i => hb i 0 (by unfold conjFactor; rw [hc0]; exact f02) hc0
  have hb1 := fun i => hb i 1 (by unfold conjFactor; rw [hc1]; exact f12) hc1
  -- the equivalence test
  have htestsum : ∀ i j, (List.zipWith (fun a b => star a * b)
      (List.ofFn (getCharacter (bar F (fun u => ([0, 1] : List (Fin 4)).get u) 2 c (irreps.get i).2)))
      (List.ofFn (getCharacter (irreps.get j).2))).sum =
      ((irreps.get i).2 0).trace * ((irreps.get j).2 0).trace + ((irreps.get i).2 1).trace * ((irreps.get j).2 1).trace := by
    intro i j
    have hof : ∀ f : Fin 2 → ℂ, List.ofFn f = [f 0, f 1] := fun f => by simp [List.ofFn_succ]
    refine (congrArg₂ (fun l l' => (List.zipWith (fun a b : ℂ => star a * b) l l').sum) (hof _) (hof _)).trans ?_
    simp only [List.zipWith_cons_cons, List.zipWith_nil_left, List.sum_cons, List.sum_nil, add_zero]
    rw [hb0, hb1]
    rfl
  have m0 : ∀ i j, ‖(1 : ℂ) - ((irreps.get i).2 0).trace * ((irreps.get j).2 0).trace‖ ≤ 1e-7 := by
    intro i j
    have := mul_near_one (t := 1e-8) rfl norm_one norm_one (n0 i) (n0 j)
    rwa [mul_one] at this
  have m1 : ∀ i j, ‖(E i 1).trace * (E j 1).trace - ((irreps.get i).2 1).trace * ((irreps.get j).2 1).trace‖ ≤ 1e-7 :=
    fun i j => mul_near_one (t := 1e-8) rfl (yn i) (yn j) (n1 i) (n1 j)
  have htest1 : ∀ i j, IsEquivalentIrrep
      (List.ofFn (getCharacter (bar F (fun u => ([0, 1] : List (Fin 4)).get u) 2 c (irreps.get i).2)))
      (List.ofFn (getCharacter (irreps.get j).2)) ↔ j ≠ i := by
    intro i j
    unfold IsEquivalentIrrep
    rw [htestsum, List.length_ofFn]
    have h0 := re_im_near (m0 i j)
    have h1 := re_im_near (m1 i j)
    rw [Complex.one_re, Complex.one_im, abs_le, abs_le] at h0
    rw [abs_le, abs_le] at h1
    constructor
    · rintro h rfl
      have h2 := congrArg Complex.re h
      rw [y0, Complex.neg_re, Complex.neg_im] at h1
      have h3 : rint (((irreps.get j).2 0).trace * ((irreps.get j).2 0).trace +
          ((irreps.get j).2 1).trace * ((irreps.get j).2 1).trace).re = 0 := by
        apply rint_eq_of_abs_lt
        rw [Complex.add_re, abs_lt]
        push_cast
        constructor <;> linarith
      change ((rint (((irreps.get j).2 0).trace * ((irreps.get j).2 0).trace +
          ((irreps.get j).2 1).trace * ((irreps.get j).2 1).trace).re : ℤ) : ℝ) = _ at h2
      rw [h3] at h2
      norm_num at h2
    · intro hij
      rw [yij i j hij.symm] at h1
      have h3 : rint (((irreps.get i).2 0).trace * ((irreps.get j).2 0).trace +
          ((irreps.get i).2 1).trace * ((irreps.get j).2 1).trace).re = 2 := by
        apply rint_eq_of_abs_lt
        rw [Complex.add_re, abs_lt]
        push_cast
        constructor <;> linarith
      have h4 : rint (((irreps.get i).2 0).trace * ((irreps.get j).2 0).trace +
          ((irreps.get i).2 1).trace * ((irreps.get j).2 1).trace).im = 0 := by
        apply rint_eq_of_abs_lt
        rw [Complex.add_im, abs_lt]
        push_cast
        constructor <;> linarith
      unfold rintC
      rw [h3, h4]
      apply Complex.ext <;> simp
  -- the partner is the other irrep
  have hl0 : 0 < irreps.length := by omega
  have hl1 : 1 < irreps.length := by omega
  let p : Fin irreps.length → Fin irreps.length := fun i => if i.val = 0 then ⟨1, hl1⟩ else ⟨0, hl0⟩
  have hpne : ∀ i j, j ≠ i ↔ j = p i := by
    intro i j
    rw [Ne, Fin.ext_iff, Fin.ext_iff]
    have := i.isLt
    have := j.isLt
    by_cases hi : i.val = 0
    · simp only [p, hi, if_true]
      omega
    · simp only [p, hi, if_false]
      omega
  have hp2 : ∀ i, p (p i) = i := fun i => ((hpne (p i) i).1 ((hpne i (p i)).2 rfl).symm).symm
  obtain ⟨out, w, hrun, hfor, hwarn⟩ := corepsFromIrreps_core hl (by decide) (ne_zero_of_norm_one hnorm) hq hsum hp2
    (fun _ => .inr (.inr rfl)) (fun i => ⟨fun _ => (hpne i (p i)).2 rfl, fun _ => rfl⟩)
    (fun i j => (htest1 i j).trans (hpne i j)) randomI trGrey2 kGrey2 1e-8 4
  have hw : w = false := by
    cases hw : w with
    | false => rfl
    | true =>
      obtain ⟨i, Y, hY, hY2⟩ := hwarn hw
      unfold buildCorep at hY
      rw [if_neg (by decide), if_neg (by decide), if_pos rfl] at hY
      obtain rfl := Except.ok.inj hY
      cases hY2
  subst hw
  -- indicators of the irreps
  have hf : ∀ D ∈ irreps, ∃ c : ℤ, (c = 1 ∨ c = -1 ∨ c = 0) ∧ frobeniusSchur D.2 = .ok c := by
    intro D hD
    obtain ⟨i, rfl⟩ := List.mem_iff_get.1 hD
    have h0 := re_im_near (m0 i i)
    have h1 := re_im_near (m1 i i)
    rw [Complex.one_re, Complex.one_im, abs_le, abs_le] at h0
    rw [y0, Complex.neg_re, Complex.neg_im, abs_le, abs_le] at h1
    refine ⟨0, .inr (.inr rfl), fs_zero ?_⟩
    rw [fs_one (hd i)]
    apply rint_eq_of_abs_lt
    rw [← Complex.ofReal_natCast, Complex.div_ofReal_re, Complex.add_re, abs_lt]
    push_cast
    constructor <;> linarith
  obtain ⟨l, hwi, -⟩ := withIndicators_ok hf
  obtain ⟨inds, hrun'⟩ : ∃ inds, corepsFromIrreps randomI F T1 trGrey2 kGrey2 [0, 1] 2 irreps 1e-8 4 = .ok (out, inds, false) :=
    ⟨_, hrun⟩
  refine ⟨⟨out, inds, ω, U, a⟩, (coreps_ok ⟨2, rfl⟩ hdec hω hT).2
    ⟨rfl, rfl, rfl, R, false, false, l, hraw, by rw [← hir]; exact hwi, by rw [← hir]; exact hrun', rfl⟩, ?_, ?_⟩
  · dsimp only
    rintro rfl
    have h1 := List.forall₂_nil_right_iff.1 hfor
    have h2 : (⟨0, hl0⟩ : Fin _) ∈ (List.finRange _).filter fun i => decide (i ≤ p i) := by
      rw [List.mem_filter]
      exact ⟨List.mem_finRange _, by simp [Fin.le_def]⟩
    rw [h1] at h2
    cases h2
  · intro x hx
    dsimp only at hx ⊢
    obtain ⟨i, -, Y, hY, rfl, -⟩ := forall₂_right hfor hx
    unfold buildCorep at hY
    rw [if_neg (by decide), if_neg (by decide), if_pos rfl] at hY
    obtain rfl := Except.ok.inj hY
    have hA0 := fun X Y => hl.trivial.assemble_lin (d := (irreps.get i).1 + (irreps.get i).1) X Y 0
    have hA1 := fun X Y => hl.trivial.assemble_lin (d := (irreps.get i).1 + (irreps.get i).1) X Y 1
    change ∀ X Y, assemble (fun u => ([0, 1] : List (Fin 4)).get u) (fun u => T1 2 (([0, 1] : List (Fin 4)).get u)) X Y 0 = X 0 at hA0
    change ∀ X Y, assemble (fun u => ([0, 1] : List (Fin 4)).get u) (fun u => T1 2 (([0, 1] : List (Fin 4)).get u)) X Y 1 = X 1 at hA1
    dsimp only [phaseMul]
    rw [hA0, hA1, grey2s_phase.1, one_smul]
    obtain ⟨r, r', hval⟩ := blocks_entry_one (hd i) (expPhase (dot3 kGrey2 (trGrey2 1))) (ω 1 1) ((irreps.get i).2 1)
      (bar F (fun u => ([0, 1] : List (Fin 4)).get u) 2 c (irreps.get i).2 1) ((irreps.get i).2 0)
      (bar F (fun u => ([0, 1] : List (Fin 4)).get u) 2 c (irreps.get i).2 0)
    refine ⟨r, r', ?_⟩
    rw [hval, grey2s_phase.2, w11]
    have e0 : (bar F (fun u => ([0, 1] : List (Fin 4)).get u) 2 c (irreps.get i).2 0).trace =
        star ((irreps.get i).2 0).trace := by rw [← hb0, star_star]; rfl
    have e1 : (bar F (fun u => ([0, 1] : List (Fin 4)).get u) 2 c (irreps.get i).2 1).trace =
        star ((irreps.get i).2 1).trace := by rw [← hb1, star_star]; rfl
    rw [e0, e1]
    have h0 := re_im_near (n0 i)
    have h1 := re_im_near (m1 i i)
    rw [Complex.one_re, Complex.one_im, abs_le, abs_le] at h0
    rw [y0, Complex.neg_re, Complex.neg_im, abs_le, abs_le] at h1
    generalize ((irreps.get i).2 0).trace = x at h0 ⊢
    rw [← star_mul', ← star_mul', neg_one_mul, sub_neg_eq_add, ← star_add, norm_star]
    generalize ((irreps.get i).2 1).trace * ((irreps.get i).2 1).trace = q at h1 ⊢
    exact far_from_zero h0.2 h1.1 h1.2

/-- Non-vacuity: the oracles exist. -/
example : ∃ (o : Oracles) (out : CorepOut 4), out.coreps ≠ [] ∧
    enumerateSpinorSmallCoreps o (fun _ _ => 1) 1 rotsGrey2 trGrey2 trsGrey2 kGrey2 .neto 1e-5 1e-8 4 = .ok (out, false) := by
  obtain ⟨o, he, ho, hr⟩ := grey2_oracles
  obtain ⟨out, h1, h2, -⟩ := c49_refuted he ho hr (fun _ _ => 1) 1e-5
  exact ⟨o, out, h2, h1⟩

end Spgrep
