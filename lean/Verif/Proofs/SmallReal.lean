/-
Helper lemmas about the small representations contained in the real representations of
`enumerate_small_representations(real=True)`.
-/
import Verif.Proofs.SmallReps
import Verif.Spec.PhysIrrep
import Mathlib.Data.Matrix.ColumnRowPartitioned

namespace Spgrep

open Spec Matrix

variable {n : ℕ} {d e : ℕ} {T : Fin n → Fin n → Fin n} {μ : Fin n → Fin n → ℂ} {k : V3}

/-- Angle of a lattice translation. -/
noncomputable def angle (k : V3) (t : Fin 3 → ℤ) : ℝ := 2 * Real.pi * ∑ x, k x * (t x : ℝ)

theorem phase_eq (k : V3) (t : Fin 3 → ℤ) :
    Complex.exp (-2 * Real.pi * Complex.I * ((∑ x, k x * (t x : ℝ) : ℝ) : ℂ)) =
      (Real.cos (angle k t) : ℂ) - Complex.I * Real.sin (angle k t) := by
  have h1 : -2 * Real.pi * Complex.I * ((∑ x, k x * (t x : ℝ) : ℝ) : ℂ) =
      ((-angle k t : ℝ) : ℂ) * Complex.I := by
    unfold angle; push_cast; ring
  rw [h1, Complex.exp_mul_I, ← Complex.ofReal_cos, ← Complex.ofReal_sin, Real.cos_neg, Real.sin_neg]
  push_cast; ring

theorem map_physDouble (Γ : RepArr n d) (g : Fin n) : (physDouble Γ g).map Complex.ofReal =
    Matrix.fromBlocks (((Γ g).map Complex.re).map Complex.ofReal) (((Γ g).map Complex.im).map Complex.ofReal)
      (-((Γ g).map Complex.im).map Complex.ofReal) (((Γ g).map Complex.re).map Complex.ofReal) := by
  unfold physDouble
  rw [Matrix.fromBlocks_map]
  congr 1
  ext i j; simp

theorem map_translationBlock (k : V3) (t : Fin 3 → ℤ) :
    (translationBlock (Fin d) k fun x => (t x : ℝ)).map Complex.ofReal =
    Matrix.fromBlocks ((Real.cos (angle k t) : ℂ) • (1 : Matrix (Fin d) (Fin d) ℂ)) (-(Real.sin (angle k t) : ℂ) • 1)
      ((Real.sin (angle k t) : ℂ) • 1) ((Real.cos (angle k t) : ℂ) • 1) := by
  unfold translationBlock angle
  rw [Matrix.fromBlocks_map]
  congr 1 <;> (ext i j; by_cases h : i = j <;> simp [h])

theorem re_add_im (M : Matrix (Fin d) (Fin d) ℂ) :
    (M.map Complex.re).map Complex.ofReal + Complex.I • (M.map Complex.im).map Complex.ofReal = M := by
  ext i j
  simp only [Matrix.add_apply, Matrix.smul_apply, Matrix.map_apply, smul_eq_mul]
  rw [mul_comm]; exact Complex.re_add_im _

theorem re_sub_im (M : Matrix (Fin d) (Fin d) ℂ) :
    (M.map Complex.re).map Complex.ofReal - Complex.I • (M.map Complex.im).map Complex.ofReal = M.map star := by
  ext i j
  simp only [Matrix.sub_apply, Matrix.smul_apply, Matrix.map_apply, smul_eq_mul]
  apply Complex.ext <;> simp

/-- The double of `Γ` contains `Γ`. -/
theorem double_contains (hd : 0 < d) (Γ : RepArr n d) (k : V3) : ContainsSmall k (physDouble Γ) Γ := by
  refine ⟨Matrix.fromRows 1 (Complex.I • 1), ?_, fun g => ?_, fun t => ?_⟩
  · intro h
    have := congrFun (congrFun h (Sum.inl ⟨0, hd⟩)) ⟨0, hd⟩
    simp at this
  · rw [map_physDouble, Matrix.fromBlocks_mul_fromRows, Matrix.fromRows_mul]
    have h1 := re_add_im (Γ g)
    congr 1
    · rw [Matrix.mul_one, Matrix.mul_smul, Matrix.mul_one, h1, Matrix.one_mul]
    · rw [Matrix.mul_one, Matrix.mul_smul, Matrix.mul_one, Matrix.smul_mul, Matrix.one_mul]
      conv_rhs => rw [← h1]
      rw [smul_add, smul_smul, Complex.I_mul_I, neg_one_smul, add_comm]
  · rw [map_translationBlock, Matrix.fromBlocks_mul_fromRows, phase_eq]
    ext (i | i) j
    · by_cases h : i = j <;> simp [h]
      ring
    · by_cases h : i = j <;> simp [h]
      linear_combination (Complex.sin (angle k t : ℂ)) * Complex.I_mul_I

/-- If `2k` is a reciprocal lattice vector, the double of `Γ` contains the conjugate of `Γ`. -/
theorem double_contains_conj (hd : 0 < d) (Γ : RepArr n d) {k : V3} (hk : ∀ a, ∃ m : ℤ, 2 * k a = m) :
    ContainsSmall k (physDouble Γ) fun g => (Γ g).map star := by
  refine ⟨Matrix.fromRows 1 (-Complex.I • 1), ?_, fun g => ?_, fun t => ?_⟩
  · intro h
    have := congrFun (congrFun h (Sum.inl ⟨0, hd⟩)) ⟨0, hd⟩
    simp at this
  · rw [map_physDouble, Matrix.fromBlocks_mul_fromRows, Matrix.fromRows_mul]
    have h1 := re_sub_im (Γ g)
    congr 1
    · rw [Matrix.mul_one, Matrix.mul_smul, Matrix.mul_one, Matrix.one_mul, neg_smul, ← sub_eq_add_neg, h1]
    · rw [Matrix.mul_one, Matrix.mul_smul, Matrix.mul_one, Matrix.smul_mul, Matrix.one_mul]
      beta_reduce
      conv_rhs => rw [← h1]
      rw [smul_sub, smul_smul, neg_mul, Complex.I_mul_I, neg_neg, one_smul, neg_smul]
      abel
  · have hs : Real.sin (angle k t) = 0 := by
      choose m hm using hk
      have : angle k t = ((∑ x, m x * t x : ℤ) : ℝ) * Real.pi := by
        unfold angle
        push_cast
        rw [Finset.mul_sum, Finset.sum_mul]
        exact Finset.sum_congr rfl fun x _ => by rw [← hm x]; ring
      rw [this]
      exact Real.sin_int_mul_pi _
    rw [map_translationBlock, Matrix.fromBlocks_mul_fromRows, phase_eq, hs]
    ext (i | i) j <;> by_cases h : i = j <;> simp [h]
    ring

theorem ContainsSmall.equiv {R : Fin n → Matrix (Fin e ⊕ Fin e) (Fin e ⊕ Fin e) ℝ} {d' : ℕ} {Γ : RepArr n d}
    {Γ' : RepArr n d'} (h : ContainsSmall k R Γ) (hE : AreEquivalent Γ Γ') : ContainsSmall k R Γ' := by
  obtain ⟨X, h1, h2, h3⟩ := h
  obtain ⟨S, S', e1, e2, e3⟩ := hE
  refine ⟨X * S, fun h => h1 ?_, fun g => ?_, fun t => ?_⟩
  · rw [← Matrix.mul_one X, ← e1, ← Matrix.mul_assoc, h, Matrix.zero_mul]
  · rw [← Matrix.mul_assoc, h2 g, Matrix.mul_assoc, e3 g, Matrix.mul_assoc]
  · rw [← Matrix.mul_assoc, h3 t, Matrix.smul_mul]

/-- If `2k` is not a reciprocal lattice vector, the double of `Γ` contains at `k` only `Γ`. -/
theorem double_contains_only {Γ : RepArr n d} {Γ' : RepArr n e} (hk : ¬ ∀ a, ∃ m : ℤ, 2 * k a = m)
    (hΓ : IsIrreducible Γ) (hΓ' : IsIrreducible Γ') (h : ContainsSmall k (physDouble Γ) Γ') :
    AreEquivalent Γ Γ' := by
  classical
  obtain ⟨a, ha⟩ := not_forall.1 hk
  obtain ⟨X, h1, h2, h3⟩ := h
  have hX : X = Matrix.fromRows X.toRows₁ X.toRows₂ := (Matrix.fromRows_toRows X).symm
  generalize X.toRows₁ = A at hX
  generalize X.toRows₂ = B at hX
  subst hX
  have hs : Real.sin (angle k (Pi.single a 1)) ≠ 0 := by
    intro hs
    obtain ⟨m, hm⟩ := Real.sin_eq_zero_iff.1 hs
    refine ha ⟨m, ?_⟩
    have : angle k (Pi.single a 1) = 2 * k a * Real.pi := by
      unfold angle
      rw [Finset.sum_eq_single a]
      · simp; ring
      · intro b _ hb; simp [hb]
      · simp
    rw [this] at hm
    exact (mul_right_cancel₀ Real.pi_ne_zero hm).symm
  have h4 := h3 (Pi.single a 1)
  rw [map_translationBlock, Matrix.fromBlocks_mul_fromRows, phase_eq] at h4
  generalize Real.sin (angle k (Pi.single a 1)) = s at hs h4
  generalize Real.cos (angle k (Pi.single a 1)) = c at h4
  have hB : B = Complex.I • A := by
    ext i j
    have h5 := congrFun (congrFun h4 (Sum.inl i)) j
    simp [Matrix.smul_mul] at h5
    have h6 : (s : ℂ) ≠ 0 := by exact_mod_cast hs
    apply mul_left_cancel₀ h6
    rw [Matrix.smul_apply, smul_eq_mul]
    linear_combination -h5
  have hA : A ≠ 0 := by
    rintro rfl
    exact h1 (by rw [hB, smul_zero]; ext (i | i) j <;> simp)
  have h7 : ∀ g, Γ g * A = A * Γ' g := by
    intro g
    have h8 := h2 g
    rw [map_physDouble, Matrix.fromBlocks_mul_fromRows, Matrix.fromRows_mul] at h8
    have h9 := (Matrix.fromRows_inj h8).1
    rw [hB, Matrix.mul_smul, ← Matrix.smul_mul, ← Matrix.add_mul, re_add_im] at h9
    exact h9
  obtain ⟨S', e1, e2⟩ := schur_equiv hΓ hΓ' h7 hA
  exact ⟨A, S', e1, e2, h7⟩

/-- The equivalence test accepts perturbed characters only if the exact representations are equivalent. -/
theorem equiv_of_near_test (hT : IsGroupTable T) (hμ : ∀ g h, μ g h = 1 ∨ μ g h = -1) {D D' : RepArr n d}
    {E E' : RepArr n e} (hD : IsProjRep T μ D) (hE : IsProjRep T μ E) (hDu : IsUnitaryRep D)
    (hEu : IsUnitaryRep E) (hDi : IsIrreducible D) (hEi : IsIrreducible E) (hd : d ^ 2 ≤ n) (he : e ^ 2 ≤ n)
    {ε : ℝ} (hε0 : 0 ≤ ε) (hε : (n : ℝ) ^ 2 * ε ≤ 1 / 5) (h1 : Near ε D D') (h2 : Near ε E E')
    (h : IsEquivalentIrrep ((charList D').map star) (charList E')) :
    AreEquivalent (fun g => (D g).map star) E := by
  have hμ1 : ∀ g h, ‖μ g h‖ = 1 := by
    intro g h; rcases hμ g h with h | h <;> rw [h] <;> simp
  have hμr : ∀ g h, star (μ g h) = μ g h := by
    intro g h; rcases hμ g h with h | h <;> rw [h] <;> simp
  have hn := table_pos hT
  have hn1 : (1 : ℝ) ≤ n := by exact_mod_cast hn
  by_contra hne
  have h0 := (table_char_orthogonality hT (ne_zero_of_norm_one hμ1) hE (conj_projRep hμr hD) hEu hEi
    (conj_irreducible hDi) (conj_unitary hDu)).2 fun h => hne (AreEquivalent.symm h)
  have h0' : ∑ g, ∑ i, ∑ j, D g i i * E g j j = 0 := by
    rw [← h0]
    refine Finset.sum_congr rfl fun g _ => ?_
    simp only [Matrix.trace, Matrix.diag_apply, Matrix.map_apply, star_sum, star_star]
    rw [mul_comm, Finset.sum_mul_sum]
  have hde : (d : ℝ) * e ≤ n := by
    have : d * e ≤ n := by nlinarith [sq_nonneg ((d : ℤ) - e)]
    exact_mod_cast this
  have h3 : ‖∑ g, ∑ i, ∑ j, D g i i * E g j j - ∑ g, ∑ i, ∑ j, D' g i i * E' g j j‖ ≤
      n * (d * (e * (2 * ε + ε ^ 2))) := by
    have := sum_near (ε := d * (e * (2 * ε + ε ^ 2))) (fun k => ∑ i, ∑ j, D k i i * E k j j)
      (fun k => ∑ i, ∑ j, D' k i i * E' k j j) fun k => by
        have := sum_near (ε := e * (2 * ε + ε ^ 2)) (fun i => ∑ j, D k i i * E k j j)
          (fun i => ∑ j, D' k i i * E' k j j) fun i => by
            have := sum_near (ε := 2 * ε + ε ^ 2) (fun j => D k i i * E k j j)
              (fun j => D' k i i * E' k j j) fun j =>
                mul_near (unitary_entry_le hDu k i i) (unitary_entry_le hEu k j j) (h1 k i i) (h2 k j j)
            simpa using this
        simpa using this
    simpa using this
  rw [h0', zero_sub, norm_neg] at h3
  have h4 : (n : ℝ) * (d * (e * (2 * ε + ε ^ 2))) < 1 / 2 := by
    have h5 : (n : ℝ) * (d * (e * (2 * ε + ε ^ 2))) ≤ n ^ 2 * (2 * ε + ε ^ 2) := by
      have h6 : (0 : ℝ) ≤ 2 * ε + ε ^ 2 := by positivity
      calc _ = n * ((d * e) * (2 * ε + ε ^ 2)) := by ring
        _ ≤ n * (n * (2 * ε + ε ^ 2)) := by gcongr
        _ = _ := by ring
    have h6 : (1 : ℝ) ≤ n ^ 2 := by nlinarith
    have h7 : ε ≤ 1 / 5 := by nlinarith
    have h8 : (n : ℝ) ^ 2 * ε * ε ≤ 1 / 5 * (1 / 5) := mul_le_mul hε h7 hε0 (by norm_num)
    nlinarith
  have h8 : (charList D').map star = List.ofFn fun g => star (getCharacter D' g) := by
    unfold charList; rw [List.map_ofFn]; rfl
  rw [h8] at h
  unfold charList at h
  rw [isEquivalentIrrep_ofFn] at h
  have h9 : ∑ g, star (star (getCharacter D' g)) * getCharacter E' g = ∑ g, ∑ i, ∑ j, D' g i i * E' g j j := by
    refine Finset.sum_congr rfl fun g _ => ?_
    rw [star_star]
    exact Finset.sum_mul_sum _ _ _ _
  rw [h9] at h
  have h10 : rint (∑ g, ∑ i, ∑ j, D' g i i * E' g j j).re = 0 :=
    rint_eq_of_abs_lt (by
      have := (Complex.abs_re_le_norm _).trans h3
      simpa using lt_of_le_of_lt this h4)
  have h11 := congrArg Complex.re h
  unfold rintC at h11
  rw [h10] at h11
  simp at h11
  have : (n : ℝ) ≠ 0 := by positivity
  exact this h11.symm

end Spgrep
