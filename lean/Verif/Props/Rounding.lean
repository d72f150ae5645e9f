import Verif.Proofs.CorepPairs
import Verif.Proofs.MatrixGroup
import Verif.Proofs.Spinor
import Verif.Props.Examples
import Verif.Props.Conventional

/-!
C97: rounding errors do not change the discrete decisions.

The model computes with exact numbers.  The theorems of this file say that the tests on which the code branches give
the same answer when the numbers they read are only known up to an error, with explicit bounds for the error.
-/

namespace Spgrep

open Spec

variable {n m d e : ℕ}

/-- The sum over perturbed characters. -/
theorem char_sum_near {D : RepArr n d} {E : RepArr n e} (hDu : IsUnitaryRep D) (hEu : IsUnitaryRep E) {ε : ℝ}
    {c c' : Fin n → ℂ} (hc : ∀ g, ‖c g - (D g).trace‖ ≤ ε) (hc' : ∀ g, ‖c' g - (E g).trace‖ ≤ ε)
    (hε : (n : ℝ) * (ε * (d + e + ε)) < 1 / 2) :
    ‖∑ g, star (c g) * c' g - ∑ g, (E g).trace * star (D g).trace‖ < 1 / 2 := by
  have htr : ∀ {k : ℕ} {X : RepArr n k}, IsUnitaryRep X → ∀ g, ‖(X g).trace‖ ≤ k := by
    intro k X hX g
    calc _ ≤ ∑ i, ‖X g i i‖ := norm_sum_le _ _
      _ ≤ ∑ _i : Fin k, (1 : ℝ) := Finset.sum_le_sum fun i _ => unitary_entry_le hX g i i
      _ = _ := by simp
  refine lt_of_le_of_lt ?_ hε
  have := sum_near (fun g => star (c g) * c' g) (fun g => (E g).trace * star (D g).trace)
    (ε := ε * (d + e + ε)) fun g => by
      have h2 : star (c g) * c' g - (E g).trace * star (D g).trace = star (c g - (D g).trace) * (c' g - (E g).trace) +
          star (c g - (D g).trace) * (E g).trace + star (D g).trace * (c' g - (E g).trace) := by
        rw [star_sub]; ring
      have hε0 : 0 ≤ ε := (norm_nonneg _).trans (hc g)
      rw [h2]
      calc _ ≤ ‖star (c g - (D g).trace) * (c' g - (E g).trace)‖ + ‖star (c g - (D g).trace) * (E g).trace‖ +
            ‖star (D g).trace * (c' g - (E g).trace)‖ :=
            (norm_add_le _ _).trans (add_le_add_left (norm_add_le _ _) _)
        _ ≤ ε * ε + ε * e + d * ε := by
            simp only [norm_mul, norm_star]
            have h3 := hc g
            have h4 := hc' g
            have h5 := htr hEu g
            have h6 := htr hDu g
            gcongr
        _ = _ := by ring
  simpa using this

/-- The rounded sum of `is_equivalent_irrep` (irreps.py:627-633) for perturbed characters. -/
theorem c97_character_test {T : Fin n → Fin n → Fin n} {μ : Fin n → Fin n → ℂ} (hT : IsGroupTable T)
    (hμ : ∀ g h, ‖μ g h‖ = 1) {D : RepArr n d} {E : RepArr n e} (hD : IsProjRep T μ D) (hE : IsProjRep T μ E)
    (hDu : IsUnitaryRep D) (hEu : IsUnitaryRep E) (hDi : Spec.IsIrreducible D) (hEi : Spec.IsIrreducible E)
    {ε : ℝ} {c c' : Fin n → ℂ} (hc : ∀ g, ‖c g - (D g).trace‖ ≤ ε) (hc' : ∀ g, ‖c' g - (E g).trace‖ ≤ ε)
    (hε : (n : ℝ) * (ε * (d + e + ε)) < 1 / 2) :
    IsEquivalentIrrep (List.ofFn c) (List.ofFn c') ↔ AreEquivalent D E := by
  have hn := table_pos hT
  obtain ⟨o1, o2⟩ := table_char_orthogonality hT (ne_zero_of_norm_one hμ) hE hD hEu hEi hDi hDu
  have h1 := char_sum_near hDu hEu hc hc' hε
  rw [isEquivalentIrrep_ofFn]
  set S := ∑ g, star (c g) * c' g with hS
  have hround : ∀ z : ℤ, ‖S - (z : ℂ)‖ < 1 / 2 → rintC S = z := by
    intro z hz
    have hre : |S.re - z| < 1 / 2 := by
      have := Complex.abs_re_le_norm (S - z)
      simp only [Complex.sub_re, Complex.intCast_re] at this
      linarith
    have him : |S.im - (0 : ℤ)| < 1 / 2 := by
      have := Complex.abs_im_le_norm (S - z)
      simp only [Complex.sub_im, Complex.intCast_im] at this
      push_cast
      linarith
    apply Complex.ext
    · rw [rintC, rint_eq_of_abs_lt hre]; simp
    · rw [rintC, rint_eq_of_abs_lt him]; simp
  constructor
  · intro h
    by_contra hne
    have h3 : ¬ AreEquivalent E D := fun h => hne (AreEquivalent.symm h)
    rw [o2 h3] at h1
    have := hround 0 (by simpa using h1)
    rw [h] at this
    have h4 : (n : ℂ) ≠ 0 := by exact_mod_cast hn.ne'
    exact h4 (by simpa using this)
  · intro h
    rw [o1 (AreEquivalent.symm h)] at h1
    have := hround n (by simpa using h1)
    simpa using this

/-- The two-dimensional irrep of the Klein four-group with characters off by up to 1/100. -/
example (c c' : Fin 4 → ℂ) (hc : ∀ g, ‖c g - (repV4 g).trace‖ ≤ 1e-2) (hc' : ∀ g, ‖c' g - (repV4 g).trace‖ ≤ 1e-2) :
    IsEquivalentIrrep (List.ofFn c) (List.ofFn c') :=
  (c97_character_test tblV4_group μV4_norm repV4_proj repV4_proj repV4_unitary repV4_unitary repV4_irreducible
    repV4_irreducible hc hc' (by norm_num)).2 ⟨1, 1, by simp, by simp, by simp⟩

/-- The indicator of Frobenius and Schur for a perturbed array. -/
theorem c97_frobenius_schur {T : Fin n → Fin n → Fin n} {μ : Fin n → Fin n → ℂ} (hT : IsGroupTable T)
    (hμ : ∀ g h, μ g h = 1 ∨ μ g h = -1) {D D' : RepArr n d} (hD : IsProjRep T μ D) (hDu : IsUnitaryRep D)
    (hDi : Spec.IsIrreducible D) {ε : ℝ} (h : ∀ g i j, ‖D g i j - D' g i j‖ ≤ ε)
    (hε : (d : ℝ) * (d * (2 * ε + ε ^ 2)) < 1 / 2) :
    ∃ c : ℤ, frobeniusSchur D' = .ok c ∧ frobeniusSchur D = .ok c ∧
      (c = 0 ↔ ¬ AreEquivalent D fun g => (D g).map star) := by
  obtain ⟨c, hc, hs, hz⟩ := fs_exact hT hμ hD hDu hDi
  have hc1 : ¬ c > 1 := by omega
  have h1 := fs_of_near (table_pos hT) (unitary_entry_le hDu) h hs hε
  have h2 := fs_of_near (ε := 0) (table_pos hT) (unitary_entry_le hDu) (D' := D)
    (fun g i j => by simp) hs (by norm_num)
  rw [if_neg hc1] at h1 h2
  exact ⟨c, h1, h2, hz⟩

example (D' : RepArr 4 2) (h : ∀ g i j, ‖repV4 g i j - D' g i j‖ ≤ 1e-2) : ∃ c, frobeniusSchur D' = .ok c ∧ c ≠ 0 := by
  obtain ⟨c, h1, -, h2⟩ := c97_frobenius_schur tblV4_group μV4_real repV4_proj repV4_unitary repV4_irreducible h
    (by norm_num)
  refine ⟨c, h1, fun hc => h2.1 hc ⟨1, 1, by simp, by simp, fun g => ?_⟩⟩
  rw [mul_one, one_mul]
  ext i j
  simp [repV4]

/-- The sign of the spinor factor system for perturbed SU(2) matrices. -/
theorem c97_spinor_sign {X V X' V' : Matrix (Fin 2) (Fin 2) ℂ} (hV : IsSU2 V) {ε : ℝ}
    (hε : ε ≤ 5e-9) (hX : ∀ a b, ‖X a b - X' a b‖ ≤ ε) (hV' : ∀ a b, ‖V a b - V' a b‖ ≤ ε) :
    (X = V → multiplierOf X' V' = 1) ∧ (X = -V → multiplierOf X' V' = -1) := by
  have hnear : ∀ (s : ℂ), ‖s‖ = 1 → X = s • V → ∀ a b, IsCloseC 1e-5 1e-8 (X' a b) (s * V' a b) := by
    intro s hs hXV a b
    unfold IsCloseC
    have h1 : X' a b - s * V' a b = -(X a b - X' a b) + s * (V a b - V' a b) := by
      rw [hXV, Matrix.smul_apply, smul_eq_mul]; ring
    have h2 : ‖X' a b - s * V' a b‖ ≤ ε + ε := by
      rw [h1]
      refine (norm_add_le _ _).trans (add_le_add ?_ ?_)
      · rw [norm_neg]; exact hX a b
      · rw [norm_mul, hs, one_mul]; exact hV' a b
    have h3 : (0 : ℝ) ≤ 1e-5 * ‖s * V' a b‖ := by positivity
    have h4 : (5e-9 : ℝ) + 5e-9 = 1e-8 := by norm_num
    linarith
  constructor
  · intro hXV
    have hpos := hnear 1 (by simp) (by simpa using hXV)
    unfold multiplierOf
    rw [if_neg, if_pos hpos]
    intro hc
    have hsmall : ∀ a b, ‖V a b‖ ≤ 1e-2 := by
      intro a b
      have h1 := hc a b
      unfold IsCloseC at h1
      rw [norm_mul, norm_neg, norm_one, one_mul] at h1
      have h2 : (2 : ℂ) * V a b = (X' a b - -1 * V' a b) + (X a b - X' a b) + (V a b - V' a b) := by
        rw [hXV]; ring
      have h3 : 2 * ‖V a b‖ ≤ ‖X' a b - -1 * V' a b‖ + ‖X a b - X' a b‖ + ‖V a b - V' a b‖ := by
        calc 2 * ‖V a b‖ = ‖(2 : ℂ) * V a b‖ := by rw [norm_mul]; simp
          _ ≤ _ := by rw [h2]; exact (norm_add_le _ _).trans (add_le_add_left (norm_add_le _ _) _)
      have h4 : ‖V' a b‖ ≤ ‖V a b‖ + ε := by
        have : V' a b = V a b - (V a b - V' a b) := by ring
        rw [this]
        exact (norm_sub_le _ _).trans (add_le_add_right (hV' a b) _)
      have h5 := hX a b
      have h6 := hV' a b
      norm_num at h1 hε ⊢
      norm_num at h3
      linarith
    have h2 := congrFun (congrFun hV.1 0) 0
    rw [Matrix.mul_apply, Fin.sum_univ_two, Matrix.one_apply_eq, Matrix.conjTranspose_apply, Matrix.conjTranspose_apply] at h2
    have h3 : ‖V 0 0 * star (V 0 0) + V 0 1 * star (V 0 1)‖ ≤ 1e-2 * 1e-2 + 1e-2 * 1e-2 := by
      refine (norm_add_le _ _).trans (add_le_add ?_ ?_)
      · rw [norm_mul, norm_star]
        exact mul_le_mul (hsmall 0 0) (hsmall 0 0) (norm_nonneg _) (by norm_num)
      · rw [norm_mul, norm_star]
        exact mul_le_mul (hsmall 0 1) (hsmall 0 1) (norm_nonneg _) (by norm_num)
    rw [h2] at h3
    norm_num at h3
  · intro hXV
    have hneg := hnear (-1) (by simp) (by simpa using hXV)
    unfold multiplierOf
    rw [if_pos hneg]

/-- The sign found for perturbed SU(2) matrices whose product is computed with an error. -/
theorem c97_spinor_product {A B C A' B' C' P : Matrix (Fin 2) (Fin 2) ℂ} (hA : IsSU2 A) (hB : IsSU2 B) (hC : IsSU2 C)
    (hA' : ∀ a b, ‖A a b - A' a b‖ ≤ 1e-9) (hB' : ∀ a b, ‖B a b - B' a b‖ ≤ 1e-9)
    (hC' : ∀ a b, ‖C a b - C' a b‖ ≤ 1e-9) (hP : ∀ a b, ‖(A' * B') a b - P a b‖ ≤ 5e-10) :
    (A * B = C → multiplierOf P C' = 1) ∧ (A * B = -C → multiplierOf P C' = -1) := by
  have hle : ∀ {U : Matrix (Fin 2) (Fin 2) ℂ}, IsSU2 U → ∀ a b, ‖U a b‖ ≤ 1 := fun {U} hU a b =>
    unitary_entry_le (n := 1) (D := fun _ => U) (fun _ => hU.1) 0 a b
  refine c97_spinor_sign hC (ε := 5e-9) le_rfl (fun a b => ?_) fun a b => (hC' a b).trans (by norm_num)
  have h1 : ‖(A * B) a b - (A' * B') a b‖ ≤ 2 * (2 * 1e-9 + 1e-9 ^ 2) := by
    rw [Matrix.mul_apply, Matrix.mul_apply]
    have := sum_near (fun c => A a c * B c b) (fun c => A' a c * B' c b) fun c =>
      mul_near (hle hA a c) (hle hB c b) (hA' a c) (hB' c b)
    simpa using this
  have h2 : (A * B) a b - P a b = ((A * B) a b - (A' * B') a b) + ((A' * B') a b - P a b) := by ring
  rw [h2]
  refine (norm_add_le _ _).trans ((add_le_add h1 (hP a b)).trans (by norm_num))

/-- Two half-turns about the same axis compose to a turn by 2π, which is represented by -1. -/
example (A' C' P : Matrix (Fin 2) (Fin 2) ℂ) (hA' : ∀ a b, ‖!![-Complex.I, 0; 0, Complex.I] a b - A' a b‖ ≤ 1e-9)
    (hC' : ∀ a b, ‖(1 : Matrix (Fin 2) (Fin 2) ℂ) a b - C' a b‖ ≤ 1e-9)
    (hP : ∀ a b, ‖(A' * A') a b - P a b‖ ≤ 5e-10) : multiplierOf P C' = -1 := by
  have hA : IsSU2 !![-Complex.I, 0; 0, Complex.I] := by
    refine ⟨?_, by simp [Matrix.det_fin_two]⟩
    ext a b
    fin_cases a <;> fin_cases b <;> simp [Matrix.mul_apply, Matrix.conjTranspose_apply]
  refine (c97_spinor_product hA hA ⟨by simp, by simp⟩ hA' hA' hC' hP).2 ?_
  ext a b
  fin_cases a <;> fin_cases b <;> simp [Matrix.mul_apply]

/-- The little group for a perturbed k-point: it is the little group of the exact commensurate k-point. -/
theorem c97_little_group (rots : Fin n → M3) {k k' : V3} {atol ε : ℝ} {N : ℕ} (hN : 0 < N)
    (hk : ∀ a, ∃ c : ℤ, (N : ℝ) * k a = c) (hk' : ∀ a, |k' a - k a| ≤ ε) {B : ℝ}
    (hB : ∀ i a, ∑ b, |(rots i b a : ℝ)| ≤ B) (h1 : (B + 1) * ε ≤ atol) (h2 : atol + (B + 1) * ε < 1 / N) :
    littleMapping rots k' atol = littleMapping rots k atol ∧
      ∀ i, i ∈ littleMapping rots k' atol ↔ FixesK (rots i) k := by
  have hε0 : 0 ≤ ε := (abs_nonneg _).trans (hk' 0)
  have hres : ∀ i a, |residual (rots i) k' a - residual (rots i) k a| ≤ (B + 1) * ε := by
    intro i a
    have h3 : residual (rots i) k' a - residual (rots i) k a =
        ∑ b, (rots i b a : ℝ) * (k' b - k b) - (k' a - k a) := by
      unfold residual
      simp only [mul_sub, Finset.sum_sub_distrib]; ring
    rw [h3]
    calc _ ≤ |∑ b, (rots i b a : ℝ) * (k' b - k b)| + |k' a - k a| := abs_sub _ _
      _ ≤ B * ε + ε := by
          refine add_le_add ?_ (hk' a)
          calc _ ≤ ∑ b, |(rots i b a : ℝ) * (k' b - k b)| := Finset.abs_sum_le_sum_abs _ _
            _ ≤ ∑ b, |(rots i b a : ℝ)| * ε := Finset.sum_le_sum fun b _ => by
                rw [abs_mul]; exact mul_le_mul_of_nonneg_left (hk' b) (abs_nonneg _)
            _ = (∑ b, |(rots i b a : ℝ)|) * ε := by rw [Finset.sum_mul]
            _ ≤ _ := mul_le_mul_of_nonneg_right (hB i a) hε0
      _ = _ := by ring
  have hiff : ∀ i, InLittle (rots i) k' atol ↔ FixesK (rots i) k := by
    intro i
    have hBε : 0 ≤ (B + 1) * ε := (abs_nonneg _).trans (hres i 0)
    constructor
    · rw [inLittle_iff]
      rintro ⟨m, hm⟩
      rw [← inLittle_iff_fixesK (atol := atol + (B + 1) * ε) hN hk (by linarith) h2, inLittle_iff]
      refine ⟨m, fun a => ?_⟩
      have := abs_sub_abs_le_abs_sub (residual (rots i) k a - m a) (residual (rots i) k' a - m a)
      have h4 : residual (rots i) k a - m a - (residual (rots i) k' a - m a) =
        -(residual (rots i) k' a - residual (rots i) k a) := by ring
      rw [h4, abs_neg] at this
      linarith [hm a, hres i a]
    · intro hfix
      rw [inLittle_iff]
      choose m hm using hfix
      refine ⟨m, fun a => ?_⟩
      rw [← hm a]
      exact (hres i a).trans h1
  have hiff' : ∀ i, InLittle (rots i) k atol ↔ FixesK (rots i) k := by
    intro i
    have hBε : 0 ≤ (B + 1) * ε := (abs_nonneg _).trans (hres i 0)
    exact inLittle_iff_fixesK hN hk (by linarith) (by linarith)
  constructor
  · unfold littleMapping
    apply List.filter_congr
    intro i _
    exact decide_eq_decide.2 ((hiff i).trans (hiff' i).symm)
  · intro i
    rw [mem_littleMapping, hiff]

/-- C2 at the k-point (0, 1/2, 1/2) typed with nine digits: everything fixes it. -/
example {k' : V3} (hk' : ∀ a, |k' a - kC2 a| ≤ 1e-9) (i : Fin 4) : i ∈ littleMapping rotsC2 k' 1e-8 := by
  have hB : ∀ i a, ∑ b, |(rotsC2 i b a : ℝ)| ≤ 1 := by
    have h : ∀ i a, ∑ b, |rotsC2 i b a| ≤ 1 := by decide +kernel
    intro i a
    exact_mod_cast h i a
  have hk : ∀ a, ∃ c : ℤ, ((2 : ℕ) : ℝ) * kC2 a = c := by
    intro a
    fin_cases a
    · exact ⟨0, by simp [kC2]⟩
    · exact ⟨1, by simp [kC2]⟩
    · exact ⟨1, by simp [kC2]⟩
  have hfix : ∀ i, FixesK (rotsC2 i) kC2 := by
    have h : ∀ i a, ∑ b, rotsC2 i b a * ![0, 1, 1] b - ![0, 1, 1] a = 0 ∨
        ∑ b, rotsC2 i b a * ![0, 1, 1] b - ![0, 1, 1] a = -2 := by decide +kernel
    intro i a
    have hk2 : ∀ b, kC2 b = ((![0, 1, 1] : Fin 3 → ℤ) b : ℝ) / 2 := by
      intro b
      fin_cases b <;> simp [kC2]
    have h2 : residual (rotsC2 i) kC2 a = ((∑ b, rotsC2 i b a * ![0, 1, 1] b - ![0, 1, 1] a : ℤ) : ℝ) / 2 := by
      unfold residual
      simp only [hk2]
      push_cast
      rw [sub_div, Finset.sum_div]
      simp only [mul_div_assoc]
    rcases h i a with h | h
    · exact ⟨0, by show residual _ _ _ = _; rw [h2, h]; norm_num⟩
    · exact ⟨-1, by show residual _ _ _ = _; rw [h2, h]; norm_num⟩
  exact ((c97_little_group rotsC2 (N := 2) (by norm_num) hk hk' hB (by norm_num) (by norm_num)).2 i).2 (hfix i)

end Spgrep
