/-
The real form of the ordinary point-group irreps: the eigenvectors used by `get_physically_irrep`.
-/
import Verif.Proofs.RealComplete
import Verif.Props.RealCase
import Verif.Props.Exact

namespace Spgrep

open Spec Matrix

variable {n d : ℕ} {T : Fin n → Fin n → Fin n}

/-! ### Special values -/

theorem SpecialReal.neg {x : ℝ} (h : SpecialReal x) : SpecialReal (-x) := by
  unfold SpecialReal at h ⊢
  rcases h with h | h | h | h | h | h | h <;> rw [h] <;> simp

theorem SpecialReal.sign_mul {x s : ℝ} (hs : s = 1 ∨ s = -1) (h : SpecialReal x) : SpecialReal (s * x) := by
  rcases hs with rfl | rfl
  · rwa [one_mul]
  · rw [neg_one_mul]; exact SpecialReal.neg h

theorem listed_special {z : ℂ} (h : Listed z) : SpecialReal z.re ∧ SpecialReal z.im := by
  have h1 := (mem_purifyValues z).1 (listed_mem h)
  unfold SpecialComplex at h1
  unfold SpecialReal
  rcases h1 with rfl | rfl | rfl | rfl | rfl | rfl | rfl | rfl | rfl <;> simp

theorem listed_norm {z : ℂ} (h : Listed z) : z = 0 ∨ ‖z‖ = 1 := by
  rcases h with h | h | h
  · exact Or.inl h
  · right
    have := congrArg norm h
    rw [norm_pow, norm_one] at this
    exact (pow_eq_one_iff_of_nonneg (norm_nonneg _) (by norm_num)).1 this
  · right
    have := congrArg norm h
    rw [norm_pow, norm_one] at this
    exact (pow_eq_one_iff_of_nonneg (norm_nonneg _) (by norm_num)).1 this

theorem purifyReal_of_special {R : Fin n → Matrix (Fin d) (Fin d) ℝ} {atol : ℝ} (h1 : atol ≤ 1 / 10)
    (hR : ∀ g i j, SpecialReal (R g i j)) : purifyRealIrrepValue R atol = R := by
  have h3 : atol ≤ 1 - Real.sqrt 3 / 2 := by
    have : Real.sqrt 3 ≤ 1.74 := by
      rw [Real.sqrt_le_left (by norm_num)]; norm_num
    linarith
  funext g
  ext i j
  have := (mem_purifyRealValues _).2 (hR g i j)
  rw [purifyRealIrrepValue, Matrix.map_apply, purifyRealEntry_eq]
  exact snap_of_sep fun w hw => purifyReal_sep h3 _ this w hw

/-! ### Draws -/

/-- With suitable draws the search for an intertwiner succeeds. -/
theorem getIntertwiner_rich (hn : 0 < n) (hd2 : d ^ 2 ≤ n) {D E : RepArr n d} (hE : IsUnitaryRep E)
    {X : Matrix (Fin d) (Fin d) ℂ} (hX0 : X ≠ 0) (hX : ∀ g, D g * X = X * E g)
    (random : ∀ d, ℕ → Matrix (Fin d) (Fin d) ℂ) {atol : ℝ} (ha : 0 ≤ atol) (maxGen : ℕ)
    (hr : RichDraws n random atol maxGen) : (getIntertwiner (random d) D E atol maxGen).2 = false := by
  classical
  by_contra hw
  rw [Bool.not_eq_false] at hw
  let F : Matrix (Fin d) (Fin d) ℂ → Matrix (Fin d) (Fin d) ℂ := fun B => ∑ g, D g * B * (E g).conjTranspose
  have hall : ∀ (i j : Fin d), ∃ c : ℝ, (d : ℝ) ^ 2 * atol < c ∧
      ∀ a b, ‖F ((c : ℂ) • Matrix.single i j (1 : ℂ)) a b‖ ≤ atol := by
    intro i j
    obtain ⟨t, ht, c, hc, hrt⟩ := hr d hd2 i j
    refine ⟨c, hc, fun a b => ?_⟩
    rw [← hrt]
    have := ((intertwinerLoop_cases D E ha _).2 hw).2 _ (List.mem_map.2 ⟨t, List.mem_range.2 ht, rfl⟩) a b
    rwa [intertwinerSum_eq] at this
  choose c hc hbound using hall
  obtain ⟨i0, j0, hij⟩ : ∃ i j, X i j ≠ 0 := by
    by_contra h
    push Not at h
    exact hX0 (by ext i j; exact h i j)
  have : Nonempty (Fin d × Fin d) := ⟨(i0, j0)⟩
  obtain ⟨⟨a, b⟩, hmax⟩ := Finite.exists_max (fun x : Fin d × Fin d => ‖X x.1 x.2‖)
  have hpos : 0 < ‖X a b‖ := lt_of_lt_of_le (norm_pos_iff.2 hij) (hmax (i0, j0))
  have havgX : F X = (n : ℂ) • X := by
    have : ∀ g, D g * X * (E g).conjTranspose = X := by
      intro g
      rw [hX g, Matrix.mul_assoc, hE g, Matrix.mul_one]
    change ∑ g, D g * X * (E g).conjTranspose = _
    rw [Finset.sum_congr rfl fun g _ => this g, Finset.sum_const, Finset.card_univ, Fintype.card_fin,
      ← Nat.cast_smul_eq_nsmul ℂ]
  have hlin : F X = ∑ i, ∑ j, (X i j / c i j) • F ((c i j : ℂ) • Matrix.single i j (1 : ℂ)) := by
    have hX : X = ∑ i, ∑ j, (X i j / c i j) • ((c i j : ℂ) • Matrix.single i j (1 : ℂ)) := by
      conv_lhs => rw [Matrix.matrix_eq_sum_single X]
      refine Finset.sum_congr rfl fun i _ => Finset.sum_congr rfl fun j _ => ?_
      have h0 : (c i j : ℂ) ≠ 0 := by
        have := hc i j
        have h4 : 0 < c i j := lt_of_le_of_lt (by positivity) this
        exact_mod_cast h4.ne'
      rw [smul_smul, div_mul_cancel₀ _ h0, Matrix.smul_single, smul_eq_mul, mul_one]
    conv_lhs => rw [hX]
    simp only [F, Finset.mul_sum, Finset.sum_mul, Finset.smul_sum]
    rw [Finset.sum_comm]
    refine Finset.sum_congr rfl fun i _ => ?_
    rw [Finset.sum_comm]
    refine Finset.sum_congr rfl fun j _ => Finset.sum_congr rfl fun g _ => ?_
    simp only [Matrix.mul_smul, Matrix.smul_mul]
  have hfin := congrArg (fun M : Matrix (Fin d) (Fin d) ℂ => ‖M a b‖) (havgX.symm.trans hlin)
  simp only [Matrix.smul_apply, Matrix.sum_apply, smul_eq_mul, norm_mul, Complex.norm_natCast] at hfin
  have hdpos : 0 < d := Fin.pos_iff_nonempty.2 ⟨a⟩
  have hub : ‖∑ i, ∑ j, X i j / c i j * F ((c i j : ℂ) • Matrix.single i j (1 : ℂ)) a b‖ < ‖X a b‖ := by
    have hterm : ∀ i j, ‖X i j / c i j * F ((c i j : ℂ) • Matrix.single i j (1 : ℂ)) a b‖ <
        ‖X a b‖ / (d : ℝ) ^ 2 := by
      intro i j
      have h4 : 0 < c i j := lt_of_le_of_lt (by positivity) (hc i j)
      rw [norm_mul, norm_div, Complex.norm_real, Real.norm_of_nonneg h4.le]
      have hd0 : (0 : ℝ) < (d : ℝ) ^ 2 := by positivity
      calc ‖X i j‖ / c i j * ‖F ((c i j : ℂ) • Matrix.single i j (1 : ℂ)) a b‖
          ≤ ‖X a b‖ / c i j * atol := by
            apply mul_le_mul (div_le_div_of_nonneg_right (hmax (i, j)) h4.le) (hbound i j a b) (norm_nonneg _)
            positivity
        _ < ‖X a b‖ / (d : ℝ) ^ 2 := by
            rw [div_mul_eq_mul_div, div_lt_div_iff₀ h4 hd0]
            have := mul_lt_mul_of_pos_left (hc i j) hpos
            linarith
    calc _ ≤ ∑ i, ∑ j, ‖X i j / c i j * F ((c i j : ℂ) • Matrix.single i j (1 : ℂ)) a b‖ :=
          (norm_sum_le _ _).trans (Finset.sum_le_sum fun i _ => norm_sum_le _ _)
      _ < ∑ i : Fin d, ∑ j : Fin d, ‖X a b‖ / (d : ℝ) ^ 2 := by
          have hne' : (Finset.univ : Finset (Fin d)).Nonempty := Finset.univ_nonempty_iff.2 ⟨a⟩
          exact Finset.sum_lt_sum_of_nonempty hne' fun i _ => Finset.sum_lt_sum_of_nonempty hne' fun j _ => hterm i j
      _ = ‖X a b‖ := by
          simp only [Finset.sum_const, Finset.card_univ, Fintype.card_fin, nsmul_eq_mul]
          have hd0 : (d : ℝ) ≠ 0 := by exact_mod_cast hdpos.ne'
          field_simp
  have hcard : (1 : ℝ) ≤ n := by exact_mod_cast hn
  have : ‖X a b‖ ≤ (n : ℝ) * ‖X a b‖ := le_mul_of_one_le_left hpos.le hcard
  rw [hfin] at this
  linarith

/-! ### Eigenvectors -/

/-- The real vector taken from a unit eigenvector proportional to a real vector. -/
theorem realEigvec_mul {u : Fin d → ℝ} (hu : ∑ j, u j ^ 2 = 1) {z : ℂ} (hz : ‖z‖ = 1) {atol : ℝ} (ha : 0 ≤ atol)
    (hbig : ∃ i, atol < |u i| / 2) :
    ∃ s : ℝ, (s = 1 ∨ s = -1) ∧ realEigvec atol (fun i => z * u i) = fun i => s * u i := by
  have hsc : ∀ x : ℝ, x ≠ 0 → ∃ s : ℝ, (s = 1 ∨ s = -1) ∧
      (fun i => x * u i / Real.sqrt (∑ j, (x * u j) ^ 2)) = fun i => s * u i := by
    intro x hx
    have h1 : ∑ j, (x * u j) ^ 2 = x ^ 2 := by
      simp only [mul_pow]
      rw [← Finset.mul_sum, hu, mul_one]
    rw [h1, Real.sqrt_sq_eq_abs]
    refine ⟨x / |x|, ?_, ?_⟩
    · rcases lt_or_gt_of_ne hx with h | h
      · right; rw [abs_of_neg h, div_neg, div_self hx]
      · left; rw [abs_of_pos h, div_self hx]
    · funext i; ring
  have hre : ∀ i, (z * (u i : ℂ)).re = z.re * u i := fun i => by simp
  have him : ∀ i, (z * (u i : ℂ)).im = z.im * u i := fun i => by simp
  obtain ⟨i0, hi0⟩ := hbig
  unfold realEigvec
  simp only [hre, him]
  split_ifs with h
  · obtain ⟨s, hs, h2⟩ := hsc z.im (by
      intro h0
      have h3 := h i0
      unfold IsClose at h3
      rw [hre] at h3
      simp only [sub_zero, abs_zero, mul_zero, add_zero, abs_mul] at h3
      have h4 : |z.re| = 1 := by
        have := Complex.sq_norm z
        rw [hz, Complex.normSq_apply, h0] at this
        have h5 : z.re ^ 2 = 1 := by nlinarith
        rw [← sq_abs] at h5
        nlinarith [abs_nonneg z.re]
      rw [h4, one_mul] at h3
      linarith [abs_nonneg (u i0)])
    exact ⟨s, hs, h2⟩
  · obtain ⟨s, hs, h2⟩ := hsc z.re (by
      intro h0
      apply h
      intro i
      unfold IsClose
      rw [hre, h0, zero_mul]
      simpa using ha)
    exact ⟨s, hs, h2⟩

/-- What is assumed of `np.linalg.eig`: it returns unit eigenvectors that form an invertible matrix whenever there are
such, and multiples of the standard basis vectors for multiples of the unit matrix. -/
structure Spec.EigContract (eig : EigOracle) : Prop where
  isEig : ∀ (d : ℕ) (A : Matrix (Fin d) (Fin d) ℂ), (∃ r, IsEig A r) → IsEig A (eig d A)
  scalar : ∀ (d : ℕ) (a : ℂ) (i j : Fin d), i ≠ j → (eig d (a • 1)).2 i j = 0

/-- A matrix with orthonormal columns of eigenvectors. -/
theorem isEig_one (a : ℂ) : IsEig (a • (1 : Matrix (Fin d) (Fin d) ℂ)) (fun _ => a, 1) := by
  refine ⟨?_, isUnit_one, fun j => ?_⟩
  · rw [Matrix.mul_one, Matrix.one_mul, Matrix.smul_one_eq_diagonal]
  · simp only [Matrix.one_apply, apply_ite norm, norm_one, norm_zero, ite_pow, one_pow]
    simp

theorem exists_eigContract : ∃ eig : EigOracle, EigContract eig := by
  classical
  refine ⟨fun d A => if h : ∃ a : ℂ, A = a • 1 then (fun _ => h.choose, 1) else
    if h : ∃ r, IsEig A r then h.choose else (fun _ => 0, 0), fun d A hA => ?_, fun d a i j hij => ?_⟩
  · split_ifs with h
    · have := h.choose_spec
      conv => arg 1; rw [this]
      exact isEig_one _
    · exact hA.choose_spec
  · rw [dif_pos ⟨a, rfl⟩]
    exact Matrix.one_apply_ne hij

/-- The real form when the intertwiner is a multiple of the unit matrix. -/
theorem physReal_scalar {eig : EigOracle} (he : EigContract eig) {atol : ℝ} (ha : 0 ≤ atol) (ha2 : atol < 1 / 2)
    {a : ℂ} (h1 : ‖a‖ = 1) (D : RepArr n d) (g : Fin n) :
    physRealFrom eig atol (a • 1) D g = (D g).map Complex.re := by
  obtain ⟨hA, hU, hnorm⟩ := he.isEig d (a • 1) ⟨_, isEig_one a⟩
  have hdiag := he.scalar d a
  unfold physRealFrom
  set w := (eig d (a • 1)).1
  set V := (eig d (a • 1)).2
  have hV : ∀ c, ‖V c c‖ = 1 := by
    intro c
    have h2 := hnorm c
    rw [Finset.sum_eq_single c] at h2
    · exact (pow_eq_one_iff_of_nonneg (norm_nonneg _) (by norm_num)).1 h2
    · intro i _ hi; rw [hdiag i c hi, norm_zero]; norm_num
    · intro h; exact absurd (Finset.mem_univ _) h
  have hw : ∀ c, w c = a := by
    intro c
    have h2 := congrFun (congrFun hA c) c
    rw [Matrix.smul_mul, Matrix.one_mul, Matrix.smul_apply, Matrix.mul_diagonal, smul_eq_mul, mul_comm] at h2
    have h3 : V c c ≠ 0 := by
      rw [← norm_ne_zero_iff, hV c]; exact one_ne_zero
    exact (mul_left_cancel₀ h3 h2).symm
  have hS : ∀ c, ∃ s : ℝ, (s = 1 ∨ s = -1) ∧ ∀ i, realEigMatrix atol V i c = if i = c then s else 0 := by
    intro c
    obtain ⟨s, hs, h2⟩ := realEigvec_mul (u := fun i => if i = c then (1 : ℝ) else 0) (by simp) (hV c) ha
      ⟨c, by simp only [if_true, abs_one]; linarith⟩
    refine ⟨s, hs, fun i => ?_⟩
    have hcol : (fun r => V r c) = fun i => V c c * ((if i = c then (1 : ℝ) else 0 : ℝ) : ℂ) := by
      funext i
      by_cases hi : i = c
      · subst hi; simp
      · rw [hdiag i c hi, if_neg hi]; simp
    unfold realEigMatrix
    rw [Matrix.of_apply, hcol, h2]
    simp
  choose s hs hS using hS
  have hSd : (realEigMatrix atol V).map Complex.ofReal = Matrix.diagonal fun c => (s c : ℂ) := by
    ext i j
    rw [Matrix.map_apply, hS, Matrix.diagonal_apply]
    by_cases hij : i = j
    · subst hij; simp
    · simp [hij]
  have hT : sqrtIntertwiner (realEigMatrix atol V) w = nroot a 2 • 1 := by
    unfold sqrtIntertwiner
    rw [hSd, Matrix.diagonal_transpose, Matrix.diagonal_mul_diagonal, Matrix.diagonal_mul_diagonal,
      Matrix.smul_one_eq_diagonal]
    congr 1
    funext c
    rw [hw c]
    rcases hs c with h | h <;> rw [h] <;> push_cast <;> ring
  have hq : nroot a 2 * star (nroot a 2) = 1 := by
    have h2 := congrArg norm (nroot_two_sq a)
    rw [norm_mul, h1] at h2
    have h3 : ‖nroot a 2‖ = 1 := by nlinarith [norm_nonneg (nroot a 2)]
    simp only [RCLike.star_def]
    rw [Complex.mul_conj', h3]; norm_num
  change (sqrtIntertwiner (realEigMatrix atol V) w * D g * (sqrtIntertwiner (realEigMatrix atol V) w).map star).map
    Complex.re = _
  rw [hT]
  have h4 : (nroot a 2 • (1 : Matrix (Fin d) (Fin d) ℂ)).map star = star (nroot a 2) • 1 := by
    ext i j
    simp only [Matrix.map_apply, Matrix.smul_apply, Matrix.one_apply, smul_eq_mul]
    split_ifs <;> simp
  rw [h4, Matrix.smul_mul, Matrix.one_mul, Matrix.smul_mul, Matrix.mul_smul, Matrix.mul_one, smul_smul, hq, one_smul]

/-- The exchange of two basis vectors. -/
def swapM : Matrix (Fin 2) (Fin 2) ℂ := !![0, 1; 1, 0]

theorem isEig_swap (a : ℂ) : ∃ r, IsEig (a • swapM) r := by
  have h2 : (Real.sqrt 2 / 2) ^ 2 = (1 / 2 : ℝ) := by
    rw [div_pow, Real.sq_sqrt (by norm_num)]; norm_num
  have hne : ((Real.sqrt 2 / 2 : ℝ) : ℂ) ≠ 0 := by
    exact_mod_cast (by positivity : (Real.sqrt 2 / 2 : ℝ) ≠ 0)
  refine ⟨(![a, -a], ((Real.sqrt 2 / 2 : ℝ) : ℂ) • !![1, 1; 1, -1]), ?_, ?_, fun j => ?_⟩
  · ext i j
    fin_cases i <;> fin_cases j <;> simp [swapM, Matrix.mul_apply, Fin.sum_univ_two, Matrix.diagonal] <;> try ring
  · rw [Matrix.isUnit_iff_isUnit_det, isUnit_iff_ne_zero, Matrix.det_smul, Matrix.det_fin_two_of, Fintype.card_fin]
    exact mul_ne_zero (pow_ne_zero _ hne) (by norm_num)
  · fin_cases j <;> simp [Fin.sum_univ_two, abs_of_nonneg, Real.sqrt_nonneg, div_pow] <;> norm_num

/-- Eigenvectors of a multiple of the exchange. -/
theorem swap_column {a w : ℂ} (ha : a ≠ 0) {v0 v1 : ℂ} (h0 : a * v1 = w * v0) (h1 : a * v0 = w * v1)
    (hv : ‖v0‖ ^ 2 + ‖v1‖ ^ 2 = 1) :
    ∃ t : ℝ, (t = 1 ∨ t = -1) ∧ w = t * a ∧ v1 = t * v0 ∧ 2 * ‖v0‖ ^ 2 = 1 := by
  have hv0 : v0 ≠ 0 := by
    rintro rfl
    rw [mul_zero] at h0
    rcases mul_eq_zero.1 h0 with h | h
    · exact ha h
    · rw [h] at hv; norm_num at hv
  have h2 : (w - a) * (w + a) = 0 := by
    apply mul_right_cancel₀ hv0
    linear_combination -w * h0 - a * h1
  rcases mul_eq_zero.1 h2 with h | h
  · have hw : w = a := sub_eq_zero.1 h
    subst hw
    have h3 := mul_left_cancel₀ ha h0
    refine ⟨1, Or.inl rfl, by simp, by simp [h3], ?_⟩
    rw [h3] at hv; linarith
  · have hw : w = -a := eq_neg_of_add_eq_zero_left h
    subst hw
    have h3 : v1 = -v0 := mul_left_cancel₀ ha (by linear_combination h0)
    refine ⟨-1, Or.inr rfl, by simp, by simp [h3], ?_⟩
    rw [h3, norm_neg] at hv; linarith

theorem real_swap_column {v : Fin 2 → ℂ} {t : ℝ} (ht : t = 1 ∨ t = -1) (h1 : v 1 = t * v 0) (h2 : 2 * ‖v 0‖ ^ 2 = 1)
    {atol : ℝ} (ha : 0 ≤ atol) (ha2 : atol < 1 / 4) :
    ∃ s : ℝ, (s = 1 ∨ s = -1) ∧ realEigvec atol v 0 = s * (Real.sqrt 2 / 2) ∧
      realEigvec atol v 1 = s * (t * (Real.sqrt 2 / 2)) := by
  have hq : (Real.sqrt 2 / 2) ^ 2 = (1 / 2 : ℝ) := by
    rw [div_pow, Real.sq_sqrt (by norm_num)]; norm_num
  have hpos : 0 < Real.sqrt 2 / 2 := by positivity
  have hbig : (1 / 2 : ℝ) < Real.sqrt 2 / 2 := by nlinarith
  have hts : t ^ 2 = 1 := by rcases ht with rfl | rfl <;> norm_num
  have hcq : ((Real.sqrt 2 : ℝ) : ℂ) * ((Real.sqrt 2 : ℝ) : ℂ) = 2 := by
    rw [← Complex.ofReal_mul, Real.mul_self_sqrt (by norm_num)]; norm_num
  obtain ⟨s, hs, h3⟩ := realEigvec_mul (d := 2) (u := ![Real.sqrt 2 / 2, t * (Real.sqrt 2 / 2)])
    (z := v 0 * (Real.sqrt 2 : ℝ)) (atol := atol)
    (by simp only [Fin.sum_univ_two, Matrix.cons_val_zero, Matrix.cons_val_one, mul_pow, hq, hts]; norm_num)
    (by
      rw [norm_mul, Complex.norm_real, Real.norm_of_nonneg (Real.sqrt_nonneg _)]
      have h4 : (‖v 0‖ * Real.sqrt 2) ^ 2 = 1 := by
        rw [mul_pow, Real.sq_sqrt (by norm_num)]; linarith
      exact (pow_eq_one_iff_of_nonneg (by positivity) (by norm_num)).1 h4) ha
    ⟨0, by simp only [Matrix.cons_val_zero, abs_of_pos hpos]; linarith⟩
  have hv : v = fun i => v 0 * (Real.sqrt 2 : ℝ) * ((![Real.sqrt 2 / 2, t * (Real.sqrt 2 / 2)] i : ℝ) : ℂ) := by
    funext i
    fin_cases i
    · simp only [Fin.zero_eta, Matrix.cons_val_zero, Complex.ofReal_div]
      push_cast
      linear_combination (-(v 0) / 2) * hcq
    · simp only [Fin.mk_one, Matrix.cons_val_one, Complex.ofReal_mul, Complex.ofReal_div]
      rw [h1]
      push_cast
      linear_combination (-(t : ℂ) * v 0 / 2) * hcq
  refine ⟨s, hs, ?_, ?_⟩
  · rw [hv, h3]; simp
  · rw [hv, h3]; simp

/-- The square root of the exchange used by the code. -/
theorem sqrt_swap {eig : EigOracle} (he : EigContract eig) {atol : ℝ} (ha : 0 ≤ atol) (ha2 : atol < 1 / 4)
    {a : ℂ} (h1 : ‖a‖ = 1) :
    ∃ (q : ℂ) (κ σ : ℝ), ‖q‖ = 1 ∧ (κ = 1 ∨ κ = -1) ∧ (σ = 1 ∨ σ = -1) ∧
      sqrtIntertwiner (realEigMatrix atol (eig 2 (a • swapM)).2) (eig 2 (a • swapM)).1 =
        q • !![(1 + κ * Complex.I) / 2, σ * (1 - κ * Complex.I) / 2;
          σ * (1 - κ * Complex.I) / 2, (1 + κ * Complex.I) / 2] := by
  obtain ⟨hA, hU, hnorm⟩ := he.isEig 2 (a • swapM) (isEig_swap a)
  set w := (eig 2 (a • swapM)).1
  set V := (eig 2 (a • swapM)).2
  have ha0 : a ≠ 0 := by rw [← norm_ne_zero_iff, h1]; exact one_ne_zero
  have hcol : ∀ c, ∃ t : ℝ, (t = 1 ∨ t = -1) ∧ w c = t * a ∧ V 1 c = t * V 0 c ∧ 2 * ‖V 0 c‖ ^ 2 = 1 := by
    intro c
    have e0 := congrFun (congrFun hA 0) c
    have e1 := congrFun (congrFun hA 1) c
    rw [Matrix.mul_diagonal] at e0 e1
    simp only [swapM, Matrix.mul_apply, Fin.sum_univ_two, Matrix.smul_apply, smul_eq_mul, Matrix.of_apply,
      Matrix.cons_val_zero, Matrix.cons_val_one, Matrix.cons_val', Matrix.cons_val_fin_one, mul_zero, zero_mul,
      mul_one, zero_add, add_zero] at e0 e1
    refine swap_column ha0 (by rw [e0, mul_comm]) (by rw [e1, mul_comm]) ?_
    have := hnorm c
    rwa [Fin.sum_univ_two] at this
  obtain ⟨t, ht, hw0, hV0, hn0⟩ := hcol 0
  obtain ⟨t', ht', hw1, hV1, hn1⟩ := hcol 1
  have htt : t' = -t := by
    have hne : t' ≠ t := by
      rintro rfl
      rw [Matrix.isUnit_iff_isUnit_det, isUnit_iff_ne_zero, Matrix.det_fin_two, hV0, hV1] at hU
      apply hU; ring
    rcases ht with rfl | rfl <;> rcases ht' with rfl | rfl <;> first | exact absurd rfl hne | norm_num
  subst htt
  obtain ⟨s0, hs0, b1, b2⟩ := real_swap_column (v := fun r => V r 0) ht hV0 hn0 ha ha2
  obtain ⟨s1, hs1, b3, b4⟩ := real_swap_column (v := fun r => V r 1) ht' hV1 hn1 ha ha2
  set S := (realEigMatrix atol V).map Complex.ofReal with hS
  have c00 : S 0 0 = s0 * ((Real.sqrt 2 : ℝ) / 2 : ℂ) := by
    rw [hS, Matrix.map_apply, realEigMatrix, Matrix.of_apply, b1]; push_cast; rfl
  have c10 : S 1 0 = s0 * (t * ((Real.sqrt 2 : ℝ) / 2 : ℂ)) := by
    rw [hS, Matrix.map_apply, realEigMatrix, Matrix.of_apply, b2]; push_cast; rfl
  have c01 : S 0 1 = s1 * ((Real.sqrt 2 : ℝ) / 2 : ℂ) := by
    rw [hS, Matrix.map_apply, realEigMatrix, Matrix.of_apply, b3]; push_cast; rfl
  have c11 : S 1 1 = s1 * (-t * ((Real.sqrt 2 : ℝ) / 2 : ℂ)) := by
    rw [hS, Matrix.map_apply, realEigMatrix, Matrix.of_apply, b4]; push_cast; rfl
  have hcq : ((Real.sqrt 2 : ℝ) : ℂ) ^ 2 = 2 := by
    rw [← Complex.ofReal_pow, Real.sq_sqrt (by norm_num)]; norm_num
  set q0 := nroot (w 0) 2 with hq0
  set q1 := nroot (w 1) 2 with hq1
  have e0 : q0 * q0 = w 0 := nroot_two_sq _
  have e1 : q1 * q1 = w 1 := nroot_two_sq _
  have hqn : ‖q0‖ = 1 := by
    have h2 := congrArg norm e0
    rw [norm_mul, hw0, norm_mul, h1, Complex.norm_real] at h2
    have h3 : ‖t‖ = 1 := by rcases ht with rfl | rfl <;> simp
    rw [h3] at h2
    nlinarith [norm_nonneg q0]
  obtain ⟨κ, hκ, hq⟩ : ∃ κ : ℝ, (κ = 1 ∨ κ = -1) ∧ q1 = κ * Complex.I * q0 := by
    have h2 : (q1 - Complex.I * q0) * (q1 + Complex.I * q0) = 0 := by
      have h3 : q1 * q1 = -(q0 * q0) := by rw [e0, e1, hw0, hw1]; push_cast; ring
      linear_combination h3 - q0 ^ 2 * Complex.I_sq
    rcases mul_eq_zero.1 h2 with h | h
    · exact ⟨1, Or.inl rfl, by rw [sub_eq_zero.1 h]; simp⟩
    · exact ⟨-1, Or.inr rfl, by rw [eq_neg_of_add_eq_zero_left h]; push_cast; ring⟩
  have hss0 : (s0 : ℂ) ^ 2 = 1 := by rcases hs0 with rfl | rfl <;> norm_num
  have hss1 : (s1 : ℂ) ^ 2 = 1 := by rcases hs1 with rfl | rfl <;> norm_num
  have htc : (t : ℂ) ^ 2 = 1 := by rcases ht with rfl | rfl <;> norm_num
  refine ⟨q0, κ, s0 * s1, hqn, hκ, ?_, ?_⟩
  · rcases hs0 with rfl | rfl <;> rcases hs1 with rfl | rfl <;> norm_num
  · unfold sqrtIntertwiner
    change S.transpose * Matrix.diagonal (fun i => nroot (w i) 2) * S = _
    ext i j
    rw [Matrix.mul_apply, Fin.sum_univ_two, Matrix.mul_diagonal, Matrix.mul_diagonal, ← hq0, ← hq1, hq]
    fin_cases i <;> fin_cases j <;>
      simp only [Fin.zero_eta, Fin.mk_one, Matrix.transpose_apply, c00, c01, c10, c11, Matrix.smul_apply,
        Matrix.of_apply, Matrix.cons_val_zero, Matrix.cons_val_one, Matrix.cons_val', Matrix.cons_val_fin_one,
        smul_eq_mul] <;> push_cast
    · linear_combination (s0 ^ 2 * q0 / 4 + s0 ^ 2 * t ^ 2 * κ * Complex.I * q0 / 4) * hcq +
        (q0 / 2 + t ^ 2 * κ * Complex.I * q0 / 2) * hss0 + (κ * Complex.I * q0 / 2) * htc
    · linear_combination (s0 * s1 * q0 / 4 - s0 * s1 * t ^ 2 * κ * Complex.I * q0 / 4) * hcq -
        (s0 * s1 * κ * Complex.I * q0 / 2) * htc
    · linear_combination (s0 * s1 * q0 / 4 - s0 * s1 * t ^ 2 * κ * Complex.I * q0 / 4) * hcq -
        (s0 * s1 * κ * Complex.I * q0 / 2) * htc
    · linear_combination (s1 ^ 2 * q0 / 4 + s1 ^ 2 * t ^ 2 * κ * Complex.I * q0 / 4) * hcq +
        (q0 / 2 + t ^ 2 * κ * Complex.I * q0 / 2) * hss1 + (κ * Complex.I * q0 / 2) * htc

/-- The real form when the intertwiner is a multiple of the exchange. -/
theorem physReal_swap {eig : EigOracle} (he : EigContract eig) {atol : ℝ} (ha : 0 ≤ atol) (ha2 : atol < 1 / 4)
    {a : ℂ} (h1 : ‖a‖ = 1) {D : RepArr n 2} (hD : ∀ g i j, D g i.rev j.rev = star (D g i j)) :
    ∃ (κ : ℝ) (T : Matrix (Fin 2) (Fin 2) ℂ), (κ = 1 ∨ κ = -1) ∧ T * T.conjTranspose = 1 ∧
      ∀ g, (physRealFrom eig atol (a • swapM) D g).map Complex.ofReal = T * D g * T.conjTranspose ∧
        physRealFrom eig atol (a • swapM) D g =
          !![(D g 0 0).re - κ * (D g 0 1).im, (D g 0 1).re - κ * (D g 0 0).im;
            (D g 0 1).re + κ * (D g 0 0).im, (D g 0 0).re + κ * (D g 0 1).im] := by
  obtain ⟨q, κ, σ, hq, hκ, hσ, hT⟩ := sqrt_swap he ha ha2 h1
  set M : Matrix (Fin 2) (Fin 2) ℂ := !![(1 + κ * Complex.I) / 2, σ * (1 - κ * Complex.I) / 2;
          σ * (1 - κ * Complex.I) / 2, (1 + κ * Complex.I) / 2] with hM
  set T := sqrtIntertwiner (realEigMatrix atol (eig 2 (a • swapM)).2) (eig 2 (a • swapM)).1 with hTdef
  have hqq : q * star q = 1 := by
    simp only [RCLike.star_def]
    rw [Complex.mul_conj', hq]; norm_num
  have hsym : T.map star = T.conjTranspose := by
    have hMt : M.transpose = M := by
      rw [hM]; ext i j
      fin_cases i <;> fin_cases j <;> rfl
    have hTt : T.transpose = T := by rw [hT, Matrix.transpose_smul, hMt]
    conv_lhs => rw [← hTt]
    rfl
  have hMc : M.conjTranspose = !![(1 - κ * Complex.I) / 2, σ * (1 + κ * Complex.I) / 2;
          σ * (1 + κ * Complex.I) / 2, (1 - κ * Complex.I) / 2] := by
    ext i j
    fin_cases i <;> fin_cases j <;> simp [hM, Matrix.conjTranspose_apply, sub_eq_add_neg]
  have hκc : (κ : ℂ) ^ 2 = 1 := by rcases hκ with rfl | rfl <;> norm_num
  have hσc : (σ : ℂ) ^ 2 = 1 := by rcases hσ with rfl | rfl <;> norm_num
  have hP : (κ : ℂ) ^ 2 * Complex.I ^ 2 = -1 := by rw [hκc, Complex.I_sq, one_mul]
  have hprod : ∀ X : Matrix (Fin 2) (Fin 2) ℂ, T * X * T.conjTranspose = M * X * M.conjTranspose := by
    intro X
    rw [hT, Matrix.conjTranspose_smul, Matrix.smul_mul, Matrix.smul_mul, Matrix.mul_smul, smul_smul, hqq, one_smul]
  have hval : ∀ g, T * D g * T.conjTranspose = (!![(D g 0 0).re - κ * σ * (D g 0 1).im,
      (D g 0 1).re - κ * σ * (D g 0 0).im; (D g 0 1).re + κ * σ * (D g 0 0).im,
      (D g 0 0).re + κ * σ * (D g 0 1).im] : Matrix (Fin 2) (Fin 2) ℝ).map Complex.ofReal := by
    intro g
    have d11 : D g 1 1 = star (D g 0 0) := hD g 0 0
    have d10 : D g 1 0 = star (D g 0 1) := hD g 0 1
    rw [hprod, hMc, hM]
    have er : ∀ z : ℂ, (z.re : ℂ) = (z + star z) / 2 := fun z => by
      apply Complex.ext <;> simp
    have ei : ∀ z : ℂ, (z.im : ℂ) = (star z - z) / 2 * Complex.I := fun z => by
      apply Complex.ext <;> simp; ring
    ext i j
    rw [Matrix.map_apply]
    fin_cases i <;> fin_cases j <;>
      simp only [Fin.zero_eta, Fin.mk_one, Matrix.mul_apply, Fin.sum_univ_two, 
        Matrix.of_apply, Matrix.cons_val_zero, Matrix.cons_val_one, Matrix.cons_val', Matrix.cons_val_fin_one,
        d11, d10, Complex.ofReal_sub, Complex.ofReal_add, Complex.ofReal_mul, er, ei]
    · linear_combination (star (D g 0 0) / 2) * hσc + (-(D g 0 0 + σ ^ 2 * star (D g 0 0)) / 4 +
        σ * (D g 0 1 + star (D g 0 1)) / 4) * hP
    · linear_combination (star (D g 0 1) / 2) * hσc + (-(D g 0 1 + σ ^ 2 * star (D g 0 1)) / 4 +
        σ * (D g 0 0 + star (D g 0 0)) / 4) * hP
    · linear_combination (D g 0 1 / 2) * hσc + (-(star (D g 0 1) + σ ^ 2 * D g 0 1) / 4 +
        σ * (D g 0 0 + star (D g 0 0)) / 4) * hP
    · linear_combination (D g 0 0 / 2) * hσc + (-(star (D g 0 0) + σ ^ 2 * D g 0 0) / 4 +
        σ * (D g 0 1 + star (D g 0 1)) / 4) * hP
  refine ⟨κ * σ, T, ?_, ?_, fun g => ⟨?_, ?_⟩⟩
  · rcases hκ with rfl | rfl <;> rcases hσ with rfl | rfl <;> norm_num
  · have := hprod 1
    rw [Matrix.mul_one, Matrix.mul_one] at this
    rw [this, hMc, hM]
    ext i j
    fin_cases i <;> fin_cases j <;>
      simp only [Fin.zero_eta, Fin.mk_one, Matrix.mul_apply, Fin.sum_univ_two, Matrix.one_apply_eq, ne_eq, one_ne_zero,
        zero_ne_one, not_false_eq_true, Matrix.one_apply_ne,
        Matrix.of_apply, Matrix.cons_val_zero, Matrix.cons_val_one, Matrix.cons_val', Matrix.cons_val_fin_one]
    · linear_combination (-(1 + (σ : ℂ) ^ 2) / 4) * hP + (1 / 2 : ℂ) * hσc
    · linear_combination ((σ : ℂ) / 2) * hP
    · linear_combination ((σ : ℂ) / 2) * hP
    · linear_combination (-(1 + (σ : ℂ) ^ 2) / 4) * hP + (1 / 2 : ℂ) * hσc
  · have : physRealFrom eig atol (a • swapM) D g = (T * D g * T.map star).map Complex.re := rfl
    rw [this, hsym, hval]
    ext i j; simp
  · have : physRealFrom eig atol (a • swapM) D g = (T * D g * T.map star).map Complex.re := rfl
    rw [this, hsym, hval]
    ext i j
    rw [Matrix.map_apply, Matrix.map_apply, Complex.ofReal_re]

/-! ### Irreps of the shapes found for point groups -/

/-- The exchange intertwines with the conjugate. -/
theorem swap_intertwines {D : RepArr n 2} (hD : ∀ g i j, D g i.rev j.rev = star (D g i j)) (g : Fin n) :
    D g * swapM = swapM * (D g).map star := by
  have d11 : D g 1 1 = star (D g 0 0) := hD g 0 0
  have d10 : D g 1 0 = star (D g 0 1) := hD g 0 1
  ext i j
  fin_cases i <;> fin_cases j <;> simp [swapM, Matrix.mul_apply, Fin.sum_univ_two, d11, d10]

theorem swapM_sq : swapM * swapM = 1 := by
  ext i j
  fin_cases i <;> fin_cases j <;> simp [swapM, Matrix.mul_apply, Fin.sum_univ_two]

theorem swapM_symm : swapM.transpose = swapM := by
  ext i j
  fin_cases i <;> fin_cases j <;> rfl

/-- The indicator for these shapes. -/
theorem shape_indicator (hT : IsGroupTable T) {D : RepArr n d} (hD : IsProjRep T (fun _ _ => 1) D)
    (hDu : IsUnitaryRep D) (hDi : Spec.IsIrreducible D) (hS : ArrShape D) :
    frobeniusSchur D = .ok 1 ∨ (frobeniusSchur D = .ok 0 ∧ d = 1) := by
  obtain ⟨s, hs, h3, h0, h1, h2⟩ := c17_frobenius_schur hT (μ := fun _ _ => 1) (fun _ _ => .inl rfl) hD hDu hDi
  rw [hs]
  rcases hS with hd | hr | ⟨hd, hr⟩
  · subst hd
    rcases h3 with rfl | rfl | rfl
    · exact Or.inl rfl
    · obtain ⟨S, hSu, hSt, -⟩ := h2.1 rfl
      have h4 := congrFun (congrFun hSt 0) 0
      rw [Matrix.transpose_apply, Matrix.neg_apply] at h4
      have h5 : S 0 0 = 0 := self_eq_neg.1 h4
      rw [Matrix.isUnit_iff_isUnit_det, isUnit_iff_ne_zero, Matrix.det_fin_one] at hSu
      exact absurd h5 hSu
    · exact Or.inr ⟨rfl, rfl⟩
  · left
    congr 1
    refine h1.2 ⟨1, isUnit_one, Matrix.transpose_one, fun g => ?_⟩
    rw [Matrix.mul_one, Matrix.one_mul]
    ext i j; exact (hr g i j).symm
  · subst hd
    left
    congr 1
    refine h1.2 ⟨swapM, ?_, swapM_symm, swap_intertwines hr⟩
    exact ⟨⟨swapM, swapM, swapM_sq, swapM_sq⟩, rfl⟩

theorem unit_of_smul {A : Matrix (Fin d) (Fin d) ℂ} (hd : 0 < d) (hA : A * A.conjTranspose = 1) {a : ℂ}
    (h : (a • A) * (a • A).conjTranspose = 1) : ‖a‖ = 1 := by
  rw [Matrix.conjTranspose_smul, Matrix.smul_mul, Matrix.mul_smul, smul_smul, hA] at h
  have h1 := congrFun (congrFun h ⟨0, hd⟩) ⟨0, hd⟩
  rw [Matrix.smul_apply, Matrix.one_apply_eq, smul_eq_mul, mul_one, RCLike.star_def, Complex.mul_conj'] at h1
  have h2 : ‖a‖ ^ 2 = 1 := by exact_mod_cast h1
  exact (pow_eq_one_iff_of_nonneg (norm_nonneg _) (by norm_num)).1 h2

/-- The real form of an irrep with indicator one. -/
theorem real_form {D : RepArr n d} (hD : IsProjRep T (fun _ _ => 1) D) (hDu : IsUnitaryRep D)
    (hDi : Spec.IsIrreducible D) (hL : ∀ g i j, Listed (D g i j)) (hS : ArrShape D) {eig : EigOracle}
    (he : EigContract eig) {atol : ℝ} (ha : 0 ≤ atol) (ha2 : atol < 1 / 4) {U : Matrix (Fin d) (Fin d) ℂ}
    (hU : ∀ g, D g * U = U * (D g).map star) (hUu : U * U.conjTranspose = 1) :
    Covers T (fun _ _ => 1) D (physRealFrom eig atol U D) ∧ ∀ g i j, SpecialReal (physRealFrom eig atol U D g i j) := by
  have hdpos : 0 < d := Fin.pos_iff_nonempty.2 hDi.1
  have hD' : IsProjRep T (fun _ _ => ((1 : ℝ) : ℂ)) D := by simpa using hD
  have hreal : (∀ g i j, star (D g i j) = D g i j) → Covers T (fun _ _ => 1) D (physRealFrom eig atol U D) ∧
      ∀ g i j, SpecialReal (physRealFrom eig atol U D g i j) := by
    intro hr
    have hmap : ∀ g, (D g).map star = D g := fun g => by ext i j; exact hr g i j
    obtain ⟨a, haU⟩ := schur_scalar hDi (M := U) fun g => by rw [← hmap g, ← hU g, hmap g]
    rw [haU] at hUu
    have ha1 := unit_of_smul hdpos (A := 1) (by simp) hUu
    have hval : ∀ g, physRealFrom eig atol U D g = (D g).map Complex.re := fun g => by
      rw [haU]; exact physReal_scalar he ha (by linarith) ha1 D g
    have hc : ∀ g, (physRealFrom eig atol U D g).map Complex.ofReal = D g := by
      intro g
      rw [hval]
      ext i j
      exact Complex.conj_eq_iff_re.1 (hr g i j)
    have hc' : (fun g => (physRealFrom eig atol U D g).map Complex.ofReal) = D := funext hc
    refine ⟨covers_of_equiv hD' hDi (fun g => ?_) (by rw [hc']; exact AreEquivalent.refl _), fun g i j => ?_⟩
    · have hinj : Function.Injective (fun M : Matrix (Fin d) (Fin d) ℝ => M.map Complex.ofRealHom) :=
        Matrix.map_injective Complex.ofReal_injective
      apply hinj
      beta_reduce
      rw [Matrix.map_mul, Matrix.map_one _ (map_zero _) (map_one _)]
      have h1 : (physRealFrom eig atol U D g).map Complex.ofRealHom = D g := hc g
      have h2 : (physRealFrom eig atol U D g).transpose.map Complex.ofRealHom = (D g).conjTranspose := by
        rw [← hc g]; ext i j; simp [Matrix.conjTranspose_apply]
      rw [h1, h2, hDu g]
    · rw [hval]
      exact (listed_special (hL g i j)).1
  rcases hS with hd | hr | ⟨hd, hr⟩
  · subst hd
    apply hreal
    intro g i j
    obtain rfl := Subsingleton.elim i 0
    obtain rfl := Subsingleton.elim j 0
    have h1 := congrFun (congrFun (hU g) 0) 0
    have h2 := congrFun (congrFun hUu 0) 0
    simp only [Matrix.mul_apply, Fin.sum_univ_one, Matrix.map_apply, Matrix.one_apply_eq,
      Matrix.conjTranspose_apply] at h1 h2
    have h3 : U 0 0 ≠ 0 := left_ne_zero_of_mul_eq_one h2
    apply mul_left_cancel₀ h3
    rw [← h1, mul_comm]
  · exact hreal hr
  · subst hd
    obtain ⟨a, haU⟩ := schur_scalar hDi (M := U * swapM) fun g => by
      have h1 := swap_intertwines hr g
      have h2 : swapM * D g = (D g).map star * swapM := by
        calc swapM * D g = swapM * (D g * swapM) * swapM := by
              rw [Matrix.mul_assoc, Matrix.mul_assoc, swapM_sq, Matrix.mul_one]
          _ = _ := by rw [h1, ← Matrix.mul_assoc, swapM_sq, Matrix.one_mul]
      rw [← Matrix.mul_assoc, hU g, Matrix.mul_assoc, ← h2, Matrix.mul_assoc]
    have hUs : U = a • swapM := by
      calc U = U * swapM * swapM := by rw [Matrix.mul_assoc, swapM_sq, Matrix.mul_one]
        _ = _ := by rw [haU, Matrix.smul_mul, Matrix.one_mul]
    have hsu : swapM * swapM.conjTranspose = 1 := by
      ext i j
      fin_cases i <;> fin_cases j <;> simp [swapM, Matrix.mul_apply, Fin.sum_univ_two, Matrix.conjTranspose_apply]
    rw [hUs] at hUu ⊢
    have ha1 := unit_of_smul hdpos hsu hUu
    obtain ⟨κ, Q, hκ, hQ, hval⟩ := physReal_swap he ha ha2 ha1 hr
    have hQ' : Q.conjTranspose * Q = 1 := mul_eq_one_comm.1 hQ
    refine ⟨covers_of_equiv hD' hDi (fun g => ?_) ⟨Q, Q.conjTranspose, hQ, hQ', fun g => ?_⟩, fun g i j => ?_⟩
    · have hinj : Function.Injective (fun M : Matrix (Fin 2) (Fin 2) ℝ => M.map Complex.ofRealHom) :=
        Matrix.map_injective Complex.ofReal_injective
      apply hinj
      beta_reduce
      rw [Matrix.map_mul, Matrix.map_one _ (map_zero _) (map_one _)]
      have h1 : (physRealFrom eig atol (a • swapM) D g).map Complex.ofRealHom = Q * D g * Q.conjTranspose := (hval g).1
      have h2 : (physRealFrom eig atol (a • swapM) D g).transpose.map Complex.ofRealHom =
          (Q * D g * Q.conjTranspose).conjTranspose := by
        rw [← (hval g).1]; ext i j; simp [Matrix.conjTranspose_apply]
      rw [h1, h2, Matrix.conjTranspose_mul, Matrix.conjTranspose_mul, Matrix.conjTranspose_conjTranspose]
      calc _ = Q * (D g * (Q.conjTranspose * Q) * (D g).conjTranspose) * Q.conjTranspose := by
            simp only [Matrix.mul_assoc]
        _ = 1 := by rw [hQ', Matrix.mul_one, hDu g, Matrix.mul_one, hQ]
    · beta_reduce
      rw [(hval g).1, Matrix.mul_assoc, hQ', Matrix.mul_one]
    · -- one of the two entries of the row vanishes
      have hz := hL g 0 0
      have hy := hL g 0 1
      have hrow := congrFun (congrFun (hDu g) 0) 0
      rw [Matrix.mul_apply, Fin.sum_univ_two, Matrix.conjTranspose_apply, Matrix.conjTranspose_apply,
        Matrix.one_apply_eq, RCLike.star_def, Complex.mul_conj', Complex.mul_conj'] at hrow
      have hrow' : ‖D g 0 0‖ ^ 2 + ‖D g 0 1‖ ^ 2 = 1 := by exact_mod_cast hrow
      have hor : D g 0 0 = 0 ∨ D g 0 1 = 0 := by
        rcases listed_norm hz with h | h
        · exact Or.inl h
        · rw [h] at hrow'
          right
          rw [← norm_eq_zero]
          nlinarith [norm_nonneg (D g 0 1)]
      obtain ⟨z1, z2⟩ := listed_special hz
      obtain ⟨y1, y2⟩ := listed_special hy
      have z3 := SpecialReal.sign_mul hκ z2
      have y3 := SpecialReal.sign_mul hκ y2
      have n0 : ∀ {x : ℝ}, SpecialReal x → SpecialReal (0 - x) := fun h => by rw [zero_sub]; exact SpecialReal.neg h
      rw [(hval g).2]
      rcases hor with h | h
      · rw [h]
        fin_cases i <;> fin_cases j <;> simp <;>
          first | exact y1 | exact y3 | exact SpecialReal.neg y3
      · rw [h]
        fin_cases i <;> fin_cases j <;> simp <;>
          first | exact z1 | exact z3 | exact SpecialReal.neg z3

/-- The doubled irrep has listed entries. -/
theorem double_special {D : RepArr n d} (hL : ∀ g i j, Listed (D g i j)) (g : Fin n) (i j : Fin (d + d)) :
    SpecialReal ((physDouble D g).reindex finSumFinEquiv finSumFinEquiv i j) := by
  rw [Matrix.reindex_apply, Matrix.submatrix_apply]
  rcases finSumFinEquiv.symm i with a | a <;> rcases finSumFinEquiv.symm j with b | b
  · exact (listed_special (hL g a b)).1
  · exact (listed_special (hL g a b)).2
  · exact SpecialReal.neg (listed_special (hL g a b)).2
  · exact (listed_special (hL g a b)).1

end Spgrep
