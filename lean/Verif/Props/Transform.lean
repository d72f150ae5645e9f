/-
Properties of transform.py: C37, C38, C39, C40.
-/
import Verif.Model.Transform
import Verif.Spec.Lattice
import Verif.Spec.SpaceGroup
import Verif.Proofs.Transform

namespace Spgrep

open Spec Matrix

variable {n : ℕ}

/-! ### C40 -/

/-- C40: a Hall number has a crystal system exactly in the documented range, the ranges do not overlap, every
other integer is a `ValueError`. -/
theorem c40_crystal_system (h : ℤ) :
    (getCrystalSystem h = .ok .triclinic ↔ 1 ≤ h ∧ h ≤ 2) ∧
    (getCrystalSystem h = .ok .monoclinic ↔ 3 ≤ h ∧ h ≤ 107) ∧
    (getCrystalSystem h = .ok .orthorhombic ↔ 108 ≤ h ∧ h ≤ 348) ∧
    (getCrystalSystem h = .ok .tetragonal ↔ 349 ≤ h ∧ h ≤ 429) ∧
    (getCrystalSystem h = .ok .trigonal ↔ 430 ≤ h ∧ h ≤ 461) ∧
    (getCrystalSystem h = .ok .hexagonal ↔ 462 ≤ h ∧ h ≤ 488) ∧
    (getCrystalSystem h = .ok .cubic ↔ 489 ≤ h ∧ h ≤ 530) ∧
    ((∃ s, getCrystalSystem h = .ok s) ↔ 1 ≤ h ∧ h ≤ 530) ∧
    (¬ (1 ≤ h ∧ h ≤ 530) → getCrystalSystem h = .error .valueError) := by
  have key : getCrystalSystem h = if 1 ≤ h ∧ h ≤ 2 then .ok .triclinic else if 3 ≤ h ∧ h ≤ 107 then
      .ok .monoclinic else if 108 ≤ h ∧ h ≤ 348 then .ok .orthorhombic else if 349 ≤ h ∧ h ≤ 429 then
      .ok .tetragonal else if 430 ≤ h ∧ h ≤ 461 then .ok .trigonal else if 462 ≤ h ∧ h ≤ 488 then
      .ok .hexagonal else if 489 ≤ h ∧ h ≤ 530 then .ok .cubic else .error .valueError := by
    unfold getCrystalSystem crystalSystemRange
    simp only [List.find?_cons, List.find?_nil]
    split_ifs <;> simp only [*, and_self, decide_true, decide_false]
  rw [key]
  refine ⟨?_, ?_, ?_, ?_, ?_, ?_, ?_, ?_, ?_⟩ <;> (split_ifs <;> simp <;> omega)

example : getCrystalSystem 525 = .ok .cubic := ((c40_crystal_system 525).2.2.2.2.2.2.1).2 (by norm_num)
example : getCrystalSystem (-3) = .error .valueError := ((c40_crystal_system (-3)).2.2.2.2.2.2.2.2) (by norm_num)

/-! ### C37 -/

/-- The matrix `P⁻¹ R P` has integer entries. -/
def IntegralIn (P : R3) (R : M3) : Prop :=
  ∃ S : M3, P⁻¹ * R.map (fun x => (x : ℝ)) * P = S.map (fun x => (x : ℝ))

/-- C37: for invertible `P` the function succeeds; `k·t` is preserved for every operation; a rotation with
integral `P⁻¹ R P` is transformed exactly, `Rᵀk - k` is transformed like a k-point, so that the phase factors
are the same; composition of operations is preserved; transforming back with `P⁻¹` returns the input. -/
theorem c37_transform (P : R3) (hP : P.det ≠ 0) (rots : Fin n → M3) (trans : Fin n → V3) (k : V3) :
    ∃ rots' trans' k', transformSymmetryAndKpoint P rots trans k = .ok (rots', trans', k') ∧
      (∀ i, dot3 k' (trans' i) = dot3 k (trans i)) ∧
      (∀ i, IntegralIn P (rots i) →
        P * (rots' i).map (fun x => (x : ℝ)) = (rots i).map (fun x => (x : ℝ)) * P ∧
        (∀ a, residual (rots' i) k' a = ∑ b, P b a * residual (rots i) k b) ∧
        (∀ j, getFactorSystem rots' trans' k' i j = getFactorSystem rots trans k i j) ∧
        (∀ j a, ∑ b, P a b * (rotVec (rots' i) (trans' j) b + trans' i b) =
          rotVec (rots i) (trans j) a + trans i a)) ∧
      (∀ i j l, IntegralIn P (rots i) → IntegralIn P (rots j) → rots i * rots j = rots l →
        rots' i * rots' j = rots' l) ∧
      ((∀ i, IntegralIn P (rots i)) → transformSymmetryAndKpoint P⁻¹ rots' trans' k' = .ok (rots, trans, k)) := by
  have hu : IsUnit P.det := isUnit_iff_ne_zero.2 hP
  have hPi : P * P⁻¹ = 1 := Matrix.mul_nonsing_inv P hu
  have hiP : P⁻¹ * P = 1 := Matrix.nonsing_inv_mul P hu
  have hex : ∀ i, IntegralIn P (rots i) → realMat ((P⁻¹ * realMat (rots i) * P).map rint) =
      P⁻¹ * realMat (rots i) * P := by
    rintro i ⟨S, hS⟩
    have hS' : P⁻¹ * realMat (rots i) * P = realMat S := hS
    rw [hS', map_rint_realMat]
  have hres : ∀ i, IntegralIn P (rots i) →
      residual ((P⁻¹ * realMat (rots i) * P).map rint) (Pᵀ *ᵥ k) = Pᵀ *ᵥ residual (rots i) k := by
    intro i hi
    rw [residual_eq, residual_eq, hex i hi, Matrix.mulVec_transpose, Matrix.mulVec_transpose,
      Matrix.vecMul_vecMul, Matrix.sub_vecMul, Matrix.vecMul_vecMul, ← mul_assoc, ← mul_assoc, hPi, one_mul]
  have hdot : ∀ x t : V3, (Pᵀ *ᵥ x) ⬝ᵥ (P⁻¹ *ᵥ t) = x ⬝ᵥ t := by
    intro x t
    rw [Matrix.mulVec_transpose, ← Matrix.dotProduct_mulVec, Matrix.mulVec_mulVec, hPi, Matrix.one_mulVec]
  refine ⟨_, _, _, transform_ok hP rots trans k, fun i => hdot k (trans i), fun i hi => ⟨?_, ?_, ?_, ?_⟩, ?_, ?_⟩
  · change P * realMat _ = realMat _ * P
    rw [hex i hi, ← mul_assoc, ← mul_assoc, hPi, one_mul]
  · intro a
    rw [hres i hi]
    rfl
  · intro j
    unfold getFactorSystem
    rw [hres i hi, dot3_eq, dot3_eq, hdot]
  · intro j a
    have h : P *ᵥ (realMat ((P⁻¹ * realMat (rots i) * P).map rint) *ᵥ (P⁻¹ *ᵥ trans j) + P⁻¹ *ᵥ trans i) =
        realMat (rots i) *ᵥ trans j + trans i := by
      rw [hex i hi, Matrix.mulVec_add, Matrix.mulVec_mulVec, Matrix.mulVec_mulVec, Matrix.mulVec_mulVec, hPi,
        Matrix.one_mulVec]
      congr 2
      calc _ = (P * P⁻¹) * realMat (rots i) * (P * P⁻¹) := by
            simp only [mul_assoc]
        _ = _ := by rw [hPi, one_mul, mul_one]
    exact congrFun h a
  · intro i j l hi hj hl
    have hli : IntegralIn P (rots l) := by
      obtain ⟨S, hS⟩ := hi
      obtain ⟨S', hS'⟩ := hj
      refine ⟨S * S', ?_⟩
      change P⁻¹ * realMat _ * P = realMat _
      rw [realMat_mul, ← hl, realMat_mul]
      change _ = realMat S at hS
      change _ = realMat S' at hS'
      rw [← hS, ← hS']
      change _ = (P⁻¹ * realMat _ * P) * (P⁻¹ * realMat _ * P)
      calc P⁻¹ * (realMat (rots i) * realMat (rots j)) * P
          = P⁻¹ * realMat (rots i) * 1 * realMat (rots j) * P := by simp only [mul_assoc, one_mul]
        _ = _ := by rw [← hPi]; simp only [mul_assoc]
    apply realMat_injective
    rw [realMat_mul, hex i hi, hex j hj, hex l hli, ← hl, realMat_mul]
    calc _ = P⁻¹ * realMat (rots i) * (P * P⁻¹) * realMat (rots j) * P := by simp only [mul_assoc]
      _ = _ := by rw [hPi, mul_one]; simp only [mul_assoc]
  · intro hall
    have hd : (P⁻¹).det ≠ 0 := by
      exact (Matrix.isUnit_nonsing_inv_det P hu).ne_zero
    rw [transform_ok hd]
    have e1 : ∀ i, ((P⁻¹)⁻¹ * realMat ((P⁻¹ * realMat (rots i) * P).map rint) * P⁻¹).map rint = rots i := by
      intro i
      rw [hex i (hall i), Matrix.nonsing_inv_nonsing_inv P hu]
      have : P * (P⁻¹ * realMat (rots i) * P) * P⁻¹ = realMat (rots i) := by
        calc _ = (P * P⁻¹) * realMat (rots i) * (P * P⁻¹) := by simp only [mul_assoc]
          _ = _ := by rw [hPi, one_mul, mul_one]
      rw [this, map_rint_realMat]
    have e2 : ∀ i, (P⁻¹)⁻¹ *ᵥ (P⁻¹ *ᵥ trans i) = trans i := by
      intro i
      rw [Matrix.nonsing_inv_nonsing_inv P hu, Matrix.mulVec_mulVec, hPi, Matrix.one_mulVec]
    have e3 : (P⁻¹)ᵀ *ᵥ (Pᵀ *ᵥ k) = k := by
      rw [Matrix.mulVec_mulVec, ← Matrix.transpose_mul, hPi, Matrix.transpose_one, Matrix.one_mulVec]
    simp only [e1, e2, e3]

/-- Non-vacuity of C37: the twofold rotation of C2 is integral in the primitive basis. -/
example : (!![1 / 2, 1 / 2, 0; -1 / 2, 1 / 2, 0; 0, 0, 1] : R3).det ≠ 0 ∧
    IntegralIn !![1 / 2, 1 / 2, 0; -1 / 2, 1 / 2, 0; 0, 0, 1] !![-1, 0, 0; 0, 1, 0; 0, 0, -1] := by
  have hd : (!![1 / 2, 1 / 2, 0; -1 / 2, 1 / 2, 0; 0, 0, 1] : R3).det ≠ 0 := centred_C.1
  refine ⟨hd, !![0, -1, 0; -1, 0, 0; 0, 0, -1], ?_⟩
  have h : realMat !![-1, 0, 0; 0, 1, 0; 0, 0, -1] * (!![1 / 2, 1 / 2, 0; -1 / 2, 1 / 2, 0; 0, 0, 1] : R3) =
      !![1 / 2, 1 / 2, 0; -1 / 2, 1 / 2, 0; 0, 0, 1] * realMat !![0, -1, 0; -1, 0, 0; 0, 0, -1] := by
    ext a b
    fin_cases a <;> fin_cases b <;> simp [realMat, Matrix.mul_apply, Fin.sum_univ_three] <;> norm_num
  change _⁻¹ * realMat _ * _ = realMat _
  rw [mul_assoc, h, ← mul_assoc, Matrix.nonsing_inv_mul _ (isUnit_iff_ne_zero.2 hd), one_mul]

/-! ### C39 -/

/-- C39: for every Hall number from 1 to 530 whose type names a centring, the returned matrix is invertible, its
columns generate exactly the centred lattice and its inverse is integral; in all other cases the function
raises. -/
theorem c39_primitive_matrix (hallType : ℤ → SpacegroupType) (hall : ℤ) :
    (∀ c, 1 ≤ hall → hall ≤ 530 → DescribesCentring hall (hallType hall).choice (hallType hall).hallSymbol c →
      ∃ P, getPrimitiveTransformationMatrix hallType hall = .ok P ∧ P.det ≠ 0 ∧
        columnLattice P = centredLattice c ∧ ∃ Q : M3, P⁻¹ = Q.map (fun x => (x : ℝ))) ∧
    ((¬ (1 ≤ hall ∧ hall ≤ 530) ∨
        ¬ ∃ c, DescribesCentring hall (hallType hall).choice (hallType hall).hallSymbol c) →
      ∃ e, getPrimitiveTransformationMatrix hallType hall = .error e) := by
  constructor
  · intro c h1 h2 h
    obtain ⟨s, hs⟩ := ((c40_crystal_system hall).2.2.2.2.2.2.2.1).2 ⟨h1, h2⟩
    have htri : s = .trigonal ↔ 430 ≤ hall ∧ hall ≤ 461 := by
      rw [← (c40_crystal_system hall).2.2.2.2.1, hs]
      simp
    unfold getPrimitiveTransformationMatrix
    rw [hs]
    dsimp only [bind, Except.bind, pure, Except.pure]
    unfold DescribesCentring at h
    by_cases ht : 430 ≤ hall ∧ hall ≤ 461
    · rw [if_pos (htri.2 ht)]
      rw [if_pos ht] at h
      obtain ⟨rfl, hc⟩ | ⟨rfl, hc⟩ := h
      · rw [if_pos hc]
        exact ⟨_, rfl, centred_R⟩
      · have hne : (hallType hall).choice ≠ ['H'] := by
          rcases hc with hc | hc <;> rw [hc] <;> decide
        rw [if_neg hne, if_pos hc]
        exact ⟨_, rfl, centred_P⟩
    · rw [if_neg fun h => ht (htri.1 h)]
      rw [if_neg ht] at h
      rw [getCentering_of_has h.2]
      cases c with
      | P => exact ⟨_, rfl, centred_P⟩
      | A => exact ⟨_, rfl, centred_A⟩
      | B => exact ⟨_, rfl, centred_B⟩
      | C => exact ⟨_, rfl, centred_C⟩
      | I => exact ⟨_, rfl, centred_I⟩
      | F => exact ⟨_, rfl, centred_F⟩
      | R => exact absurd rfl h.1
  · intro h
    by_contra hne
    cases hget : getPrimitiveTransformationMatrix hallType hall with
    | error e => exact hne ⟨e, hget⟩
    | ok P =>
      unfold getPrimitiveTransformationMatrix at hget
      cases hs : getCrystalSystem hall with
      | error e => rw [hs] at hget; simp [bind, Except.bind] at hget
      | ok s =>
        have hr := ((c40_crystal_system hall).2.2.2.2.2.2.2.1).1 ⟨s, hs⟩
        have htri : s = .trigonal ↔ 430 ≤ hall ∧ hall ≤ 461 := by
          rw [← (c40_crystal_system hall).2.2.2.2.1, hs]
          simp
        rcases h with h | h
        · exact h hr
        · apply h
          rw [hs] at hget
          dsimp only [bind, Except.bind, pure, Except.pure] at hget
          unfold DescribesCentring
          by_cases ht : 430 ≤ hall ∧ hall ≤ 461
          · rw [if_pos (htri.2 ht)] at hget
            simp only [if_pos ht]
            by_cases hH : (hallType hall).choice = ['H']
            · exact ⟨.R, .inl ⟨rfl, hH⟩⟩
            · rw [if_neg hH] at hget
              by_cases hR : (hallType hall).choice = [] ∨ (hallType hall).choice = ['R']
              · exact ⟨.P, .inr ⟨rfl, hR⟩⟩
              · rw [if_neg hR] at hget
                cases hget
          · rw [if_neg fun h => ht (htri.1 h)] at hget
            simp only [if_neg ht]
            cases hc : getCentering (hallType hall).hallSymbol with
            | error e => rw [hc] at hget; cases hget
            | ok c =>
              have hhas := has_of_getCentering hc
              rw [hc] at hget
              dsimp only at hget
              by_cases h1 : c = 'P'
              · exact ⟨.P, by decide, by subst h1; exact hhas⟩
              rw [if_neg h1] at hget
              by_cases h2 : c = 'A'
              · exact ⟨.A, by decide, by subst h2; exact hhas⟩
              rw [if_neg h2] at hget
              by_cases h3 : c = 'B'
              · exact ⟨.B, by decide, by subst h3; exact hhas⟩
              rw [if_neg h3] at hget
              by_cases h4 : c = 'C'
              · exact ⟨.C, by decide, by subst h4; exact hhas⟩
              rw [if_neg h4] at hget
              by_cases h5 : c = 'I'
              · exact ⟨.I, by decide, by subst h5; exact hhas⟩
              rw [if_neg h5] at hget
              by_cases h6 : c = 'F'
              · exact ⟨.F, by decide, by subst h6; exact hhas⟩
              rw [if_neg h6] at hget
              cases hget

/-- Fd-3m (Hall number 525, symbol `F 4d 2 3 -1d`). -/
example : ∃ P, getPrimitiveTransformationMatrix (fun _ => ⟨['1'], ['F', ' ', '4', 'd']⟩) 525 = .ok P ∧ P.det ≠ 0 ∧
    columnLattice P = centredLattice .F ∧ ∃ Q : M3, P⁻¹ = Q.map (fun x => (x : ℝ)) :=
  (c39_primitive_matrix _ 525).1 .F (by norm_num) (by norm_num)
    (by unfold DescribesCentring; rw [if_neg (by norm_num)]; exact ⟨by decide, .inl ⟨_, rfl, by decide⟩⟩)

/-- R-3m on hexagonal axes (Hall number 458). -/
example : ∃ P, getPrimitiveTransformationMatrix (fun _ => ⟨['H'], ['-', 'R', ' ', '3']⟩) 458 = .ok P ∧ P.det ≠ 0 ∧
    columnLattice P = centredLattice .R ∧ ∃ Q : M3, P⁻¹ = Q.map (fun x => (x : ℝ)) :=
  (c39_primitive_matrix _ 458).1 .R (by norm_num) (by norm_num)
    (by unfold DescribesCentring; rw [if_pos (by norm_num)]; exact .inl ⟨rfl, rfl⟩)

/-! ### C38 -/

/-- The rotation at position `i` has not occurred before. -/
def FirstOcc (rots : Fin n → M3) (i : Fin n) : Prop := ∀ j < i, rots j ≠ rots i

/-- C38, the part that holds: the unique rotations are distinct and are all the rotations of the input; each comes
with the translation of its first occurrence reduced to `[0, 1)`.  The map is correct **exactly when** all first
occurrences precede all repetitions.  Missing: correctness of the map for other orders, which fails
(`c38_unique_refuted`). -/
theorem c38_unique_partial (rots : Fin n → M3) (trans : Fin n → V3) :
    (uniquePrimitiveSymmetry rots trans).1.Nodup ∧
    (∀ R, R ∈ (uniquePrimitiveSymmetry rots trans).1 ↔ ∃ i, rots i = R) ∧
    (uniquePrimitiveSymmetry rots trans).2.1.length = (uniquePrimitiveSymmetry rots trans).1.length ∧
    (∀ (p : ℕ) (R : M3) (v : V3), (uniquePrimitiveSymmetry rots trans).1[p]? = some R →
      (uniquePrimitiveSymmetry rots trans).2.1[p]? = some v →
      ∃ i, FirstOcc rots i ∧ rots i = R ∧ ∀ a, 0 ≤ v a ∧ v a < 1 ∧ ∃ m : ℤ, trans i a - v a = m) ∧
    ((∀ i, ∃ p : ℕ, (uniquePrimitiveSymmetry rots trans).2.2 i = p ∧
        (uniquePrimitiveSymmetry rots trans).1[p]? = some (rots i)) ↔
      ∀ i j, i ≤ j → FirstOcc rots j → FirstOcc rots i) := by
  classical
  obtain ⟨h1, h2, h3, h4, h5, h6⟩ := uniqueInv_all rots trans
  refine ⟨h1, fun R => ?_, h3, ?_, ?_⟩
  · rw [h2]
    exact ⟨fun ⟨i, _, h⟩ => ⟨i, h⟩, fun ⟨i, h⟩ => ⟨i, i.2, h⟩⟩
  · intro p R v hR hv
    obtain ⟨i, hi, hf, hr, ht⟩ := h4 p R v hR hv
    refine ⟨i, hf, hr, fun a => ?_⟩
    rw [ht]
    exact ⟨Int.fract_nonneg _, Int.fract_lt_one _, ⌊trans i a⌋, Int.self_sub_fract _⟩
  · constructor
    · intro h i j hij hj
      obtain ⟨p, hp1, hp2⟩ := h j
      obtain ⟨hm, hc⟩ := h5 j j.2 hj
      have hpj : p = (j : ℕ) := by
        have := hp1.symm.trans hm
        exact_mod_cast this
      subst hpj
      have hcard := (List.getElem?_inj (List.getElem?_eq_some_iff.1 hp2).1 h1).1 (hp2.trans hc.symm)
      have hsub : (Finset.univ.filter fun l : Fin n => l < j ∧ ∀ l' < l, rots l' ≠ rots l) ⊆
          Finset.univ.filter fun l : Fin n => l < j := by
        intro l
        simp only [Finset.mem_filter, Finset.mem_univ, true_and]
        exact fun h => h.1
      have hcj : (Finset.univ.filter fun l : Fin n => l < j).card = j := by
        rw [← Fin.card_Iio j]
        congr 1
        ext l
        simp
      have heq := Finset.eq_of_subset_of_card_le hsub (by rw [hcj]; exact hcard.le)
      rcases eq_or_lt_of_le hij with rfl | hlt
      · exact hj
      · have : i ∈ Finset.univ.filter fun l : Fin n => l < j := by simpa using hlt
        rw [← heq] at this
        exact (Finset.mem_filter.1 this).2.2
    · intro h i
      by_cases hf : FirstOcc rots i
      · obtain ⟨hm, hc⟩ := h5 i i.2 hf
        refine ⟨i, hm, ?_⟩
        rw [← hc]
        congr 1
        calc (i : ℕ) = (Finset.univ.filter fun l : Fin n => l < i).card := by
              rw [← Fin.card_Iio i]
              congr 1
              ext l
              simp
          _ = _ := by
              congr 1
              ext l
              simp only [Finset.mem_filter, Finset.mem_univ, true_and]
              exact ⟨fun hl => ⟨hl, h l i hl.le hf⟩, fun h => h.1⟩
      · exact h6 i i.2 hf

/-- Non-vacuity of C38: the order `E, R, E', R'` used by spglib. -/
example : ∀ i j : Fin 4, i ≤ j →
    FirstOcc ![(1 : M3), !![-1, 0, 0; 0, 1, 0; 0, 0, -1], 1, !![-1, 0, 0; 0, 1, 0; 0, 0, -1]] j →
    FirstOcc ![(1 : M3), !![-1, 0, 0; 0, 1, 0; 0, 0, -1], 1, !![-1, 0, 0; 0, 1, 0; 0, 0, -1]] i := by
  unfold FirstOcc
  decide +kernel

end Spgrep
