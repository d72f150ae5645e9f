/-
C98: what `is_unitary`, `is_representation` and `check_spacegroup_representation` accept.

The functions compare products of matrices entry by entry with a tolerance.  Every array near a unitary representation
is accepted, and every accepted array is near a genuine unitary representation.
-/
import Verif.Proofs.UlamUnitary
import Verif.Proofs.Enumerate
import Verif.Props.Representation
import Mathlib.Analysis.Matrix.Normed
import Mathlib.Analysis.Normed.Module.FiniteDimension

namespace Spgrep

open Spec

variable {n d : ℕ}

section norms

attribute [local instance] Matrix.linftyOpNormedRing Matrix.linftyOpNormedAlgebra

theorem entry_le_norm (A : Matrix (Fin d) (Fin d) ℂ) (i j : Fin d) : ‖A i j‖ ≤ ‖A‖ := by
  rw [Matrix.linfty_opNorm_def]
  have h1 : ‖A i j‖₊ ≤ ∑ j, ‖A i j‖₊ := Finset.single_le_sum (f := fun j => ‖A i j‖₊) (fun _ _ => bot_le) (Finset.mem_univ j)
  have h2 : ∑ j, ‖A i j‖₊ ≤ Finset.univ.sup fun i => ∑ j, ‖A i j‖₊ :=
    Finset.le_sup (f := fun i => ∑ j, ‖A i j‖₊) (Finset.mem_univ i)
  exact_mod_cast h1.trans h2

theorem norm_le_entries {A : Matrix (Fin d) (Fin d) ℂ} {B : ℝ} (hB : 0 ≤ B) (h : ∀ i j, ‖A i j‖ ≤ B) : ‖A‖ ≤ d * B := by
  rw [Matrix.linfty_opNorm_def]
  lift B to NNReal using hB
  have h1 : (Finset.univ.sup fun i => ∑ j, ‖A i j‖₊) ≤ (d : NNReal) * B := by
    apply Finset.sup_le
    intro i _
    calc _ ≤ ∑ _j : Fin d, B := Finset.sum_le_sum fun j _ => by exact_mod_cast h i j
      _ = _ := by simp
  exact_mod_cast h1

/-- Almost representations, entry by entry. -/
theorem almost_rep_table {T : Fin n → Fin n → Fin n} {μ : Fin n → Fin n → ℂ} (hT : IsGroupTable T)
    (hμ : IsCocycle T μ) {D J : RepArr n d} (hJ : ∀ g, D g * J g = 1) {K δ : ℝ} (hK0 : 0 ≤ K) (hδ0 : 0 ≤ δ)
    (hK : ∀ g i j, ‖J g i j‖ ≤ K) (hδ : ∀ g h i j, ‖(D g * D h) i j - μ g h * D (T g h) i j‖ ≤ δ)
    (hs : 32 * (d * K) ^ 2 * (d * δ) ≤ 1) :
    ∃ E : RepArr n d, IsProjRep T μ E ∧ (∀ g, IsUnit (E g)) ∧
      ∀ g i j, ‖D g i j - E g i j‖ ≤ 4 / 3 * (d * K * (d * δ)) := by
  let _ := TG.group hT
  have : CompleteSpace (Matrix (Fin d) (Fin d) ℂ) := FiniteDimensional.complete ℂ _
  have hu : ∀ g, IsUnit (D g) := fun g => IsUnit.of_mul_eq_one _ (hJ g)
  have hinv : ∀ g, Ring.inverse (D g) = J g := by
    intro g
    have h1 := Ring.inverse_mul_cancel _ (hu g)
    calc Ring.inverse (D g) = Ring.inverse (D g) * (D g * J g) := by rw [hJ, mul_one]
      _ = J g := by rw [← mul_assoc, h1, one_mul]
  obtain ⟨E, h1, h2, h3⟩ := almost_rep (G := TG T) (A := Matrix (Fin d) (Fin d) ℂ) (μ := μ) (f := D) (K := d * K)
    (δ := d * δ) (fun g h x => by
      have := hμ g h x
      change μ g h * μ (T g h) x = μ h x * μ g (T h x)
      rw [mul_comm, ← this, mul_comm])
    hu (fun g => (congrArg norm (hinv g)).trans_le (norm_le_entries hK0 (hK g)))
    (fun g h => norm_le_entries hδ0 fun i j => by
      rw [Matrix.sub_apply, Matrix.smul_apply, smul_eq_mul]; exact hδ g h i j) hs
  exact ⟨E, h1, h3, fun g i j => (entry_le_norm (D g - E g) i j).trans (h2 g)⟩

end norms

/-- **C98, completeness.** An array near a unitary projective representation is accepted by `is_representation`. -/
theorem c98_accepts {T : Fin n → Fin n → Fin n} {μ : Fin n → Fin n → ℂ} (hμ : ∀ g h, ‖μ g h‖ = 1) {D D' : RepArr n d}
    (hD : IsProjRep T μ D) (hDu : IsUnitaryRep D) {ε rtol atol : ℝ} (h : ∀ g i j, ‖D g i j - D' g i j‖ ≤ ε)
    (hr : 0 ≤ rtol) (hε : (d : ℝ) * (2 * ε + ε ^ 2) + ε ≤ atol) : IsRepresentationTest D' T (some μ) rtol atol := by
  intro g k a b
  unfold IsCloseC
  rw [Option.getD_some]
  have h1 : ‖(D g * D k) a b - (D' g * D' k) a b‖ ≤ d * (2 * ε + ε ^ 2) := by
    rw [Matrix.mul_apply, Matrix.mul_apply]
    have := sum_near (fun c => D g a c * D k c b) (fun c => D' g a c * D' k c b) fun c =>
      mul_near (unitary_entry_le hDu g a c) (unitary_entry_le hDu k c b) (h g a c) (h k c b)
    simpa using this
  have h2 : (D' g * D' k) a b - D' (T g k) a b * μ g k =
      -((D g * D k) a b - (D' g * D' k) a b) + μ g k * (D (T g k) a b - D' (T g k) a b) := by
    rw [hD g k, Matrix.smul_apply, smul_eq_mul]; ring
  rw [h2]
  have h3 : 0 ≤ rtol * ‖D' (T g k) a b * μ g k‖ := by positivity
  calc _ ≤ d * (2 * ε + ε ^ 2) + ε := by
        refine (norm_add_le _ _).trans (add_le_add ?_ ?_)
        · rw [norm_neg]; exact h1
        · rw [norm_mul, hμ, one_mul]; exact h _ _ _
    _ ≤ atol := hε
    _ ≤ _ := le_add_of_nonneg_right h3

/-- **C98, soundness.** An accepted array whose matrices have bounded entries and inverses is near an exact projective
representation with the same factor system. -/
theorem c98_accepted {T : Fin n → Fin n → Fin n} {μ : Fin n → Fin n → ℂ} (hT : IsGroupTable T) (hμc : IsCocycle T μ)
    (hμ : ∀ g h, ‖μ g h‖ = 1) {D J : RepArr n d} (hJ : ∀ g, D g * J g = 1) {K M rtol atol : ℝ} (hK0 : 0 ≤ K)
    (hK : ∀ g i j, ‖J g i j‖ ≤ K) (hM0 : 0 ≤ M) (hM : ∀ g i j, ‖D g i j‖ ≤ M) (hr : 0 ≤ rtol) (ha : 0 ≤ atol)
    (hs : 32 * (d * K) ^ 2 * (d * (atol + rtol * M)) ≤ 1) (h : IsRepresentationTest D T (some μ) rtol atol) :
    ∃ E : RepArr n d, IsProjRep T μ E ∧ (∀ g, IsUnit (E g)) ∧
      ∀ g i j, ‖D g i j - E g i j‖ ≤ 4 / 3 * (d * K * (d * (atol + rtol * M))) := by
  refine almost_rep_table hT hμc hJ hK0 (by positivity) hK (fun g k i j => ?_) hs
  have h1 := h g k i j
  unfold IsCloseC at h1
  rw [Option.getD_some] at h1
  rw [mul_comm (μ g k)]
  refine h1.trans (add_le_add le_rfl (mul_le_mul_of_nonneg_left ?_ hr))
  rw [norm_mul, hμ, mul_one]
  exact hM _ _ _

open scoped Matrix.Norms.L2Operator in
/-- What `is_unitary` accepts, in the operator norm. -/
theorem unitary_test_norm {D : RepArr n d} (h : IsUnitaryTest D) (g : Fin n) :
    ‖D g * (D g).conjTranspose - 1‖ ≤ d * (1e-8 + 1e-5) := by
  refine l2_le_entries (by norm_num) fun i j => ?_
  have h1 := h g i j
  unfold IsCloseC at h1
  rw [Matrix.sub_apply]
  refine h1.trans (add_le_add le_rfl ?_)
  by_cases hij : i = j
  · rw [hij, Matrix.one_apply_eq]; norm_num
  · rw [Matrix.one_apply_ne hij]; norm_num

open scoped Matrix.Norms.L2Operator in
theorem unitary_test_entry {D : RepArr n d} (h : IsUnitaryTest D) (hd : d ≤ 48) (g : Fin n) (i j : Fin d) :
    ‖D g i j‖ ≤ 1.01 := by
  have hd' : (d : ℝ) ≤ 48 := by exact_mod_cast hd
  have h1 := (almost_unitary_unit (unitary_test_norm h g) (by norm_num; linarith)).1
  refine (l2_entry_le _ i j).trans (h1.trans ?_)
  norm_num
  linarith

open scoped Matrix.Norms.L2Operator in
/-- Accepted arrays: the exact representation nearby, and its character. -/
theorem near_unitary {T : Fin n → Fin n → Fin n} {μ : Fin n → Fin n → ℂ} (hT : IsGroupTable T)
    (hμc : IsCocycle T μ) (hμ : ∀ g h, ‖μ g h‖ = 1) {D : RepArr n d} (hD : IsUnitaryTest D) (hd : d ≤ 48)
    (hδ : ∀ g h i j, ‖(D g * D h) i j - μ g h * D (T g h) i j‖ ≤ 1.02e-5) :
    ∃ F : RepArr n d, IsProjRep T μ F ∧ IsUnitaryRep F ∧ (∀ g i j, ‖D g i j - F g i j‖ ≤ 1.3e-4 * d) ∧
      ∀ g, ‖(D g).trace - (F g).trace‖ ≤ 1.53e-5 * d ^ 2 := by
  have hd' : (d : ℝ) ≤ 48 := by exact_mod_cast hd
  have hd0 : (0 : ℝ) ≤ d := Nat.cast_nonneg d
  have hθ : (d : ℝ) * (1e-8 + 1e-5) ≤ 1 / 100 := by norm_num; linarith
  obtain ⟨E, h1, h3⟩ := almost_unitary hT hμc (unitary_test_norm hD) hθ (by norm_num) hδ (by norm_num; linarith)
  obtain ⟨F, h4, h5, h6, h7⟩ := unitarise hT hμ (unitary_test_norm hD) hθ h1 h3 (by norm_num; linarith)
  refine ⟨F, h4, h5, fun g i j => ?_, fun g => ?_⟩
  · have h8 : D g i j - F g i j = (D g - E g) i j + (E g - F g) i j := by
      rw [Matrix.sub_apply, Matrix.sub_apply]; ring
    rw [h8]
    refine (norm_add_le _ _).trans ((add_le_add ((l2_entry_le _ i j).trans (h3 g)) ((l2_entry_le _ i j).trans (h7 g))).trans ?_)
    norm_num
    linarith
  · obtain ⟨S, S', s1, s2, hS⟩ := h6
    have h8 : (F g).trace = (E g).trace := by
      have : F g = S' * (E g * S) := by rw [hS, ← mul_assoc, s2, one_mul]
      rw [this, Matrix.trace_mul_comm, mul_assoc, s1, mul_one]
    rw [h8]
    have := sum_near (fun i => D g i i) (fun i => E g i i) fun i => (l2_entry_le (D g - E g) i i).trans (h3 g)
    rw [Fintype.card_fin] at this
    refine this.trans (le_of_eq ?_)
    ring

theorem test_error {T : Fin n → Fin n → Fin n} {μ : Fin n → Fin n → ℂ} (hμ : ∀ g h, ‖μ g h‖ = 1) {D : RepArr n d}
    (hD : IsUnitaryTest D) (hd : d ≤ 48) (h : IsRepresentationTest D T (some μ) 1e-5 1e-8) (g k : Fin n) (i j : Fin d) :
    ‖(D g * D k) i j - μ g k * D (T g k) i j‖ ≤ 1.02e-5 := by
  have h1 := h g k i j
  unfold IsCloseC at h1
  rw [Option.getD_some, norm_mul _ (μ g k), hμ, mul_one] at h1
  rw [mul_comm (μ g k)]
  have h2 : (1e-5 : ℝ) * ‖D (T g k) i j‖ ≤ 1e-5 * 1.01 :=
    mul_le_mul_of_nonneg_left (unitary_test_entry hD hd _ _ _) (by norm_num)
  refine h1.trans ((add_le_add le_rfl h2).trans (by norm_num))

/-- **C98, `is_unitary` and `is_representation` with the default tolerances.** An array accepted by both is near an exact
unitary projective representation with the same factor system. -/
theorem c98_accepted_unitary {T : Fin n → Fin n → Fin n} {μ : Fin n → Fin n → ℂ} (hT : IsGroupTable T)
    (hμc : IsCocycle T μ) (hμ : ∀ g h, ‖μ g h‖ = 1) {D : RepArr n d} (hD : IsUnitaryTest D) (hd : d ≤ 48)
    (h : IsRepresentationTest D T (some μ) 1e-5 1e-8) :
    ∃ F : RepArr n d, IsProjRep T μ F ∧ IsUnitaryRep F ∧ ∀ g i j, ‖D g i j - F g i j‖ ≤ 1.3e-4 * d := by
  obtain ⟨F, h1, h2, h3, -⟩ := near_unitary hT hμc hμ hD hd (test_error hμ hD hd h)
  exact ⟨F, h1, h2, h3⟩

/-- `is_unitary` accepts every array near unitary matrices. -/
theorem c98_accepts_unitary {D D' : RepArr n d} (hD : IsUnitaryRep D) {ε : ℝ} (h : ∀ g i j, ‖D g i j - D' g i j‖ ≤ ε)
    (hε : (d : ℝ) * (2 * ε + ε ^ 2) ≤ 1e-8) : IsUnitaryTest D' := by
  intro g a b
  unfold IsCloseC
  have h1 : ‖(D g * (D g).conjTranspose) a b - (D' g * (D' g).conjTranspose) a b‖ ≤ d * (2 * ε + ε ^ 2) := by
    rw [Matrix.mul_apply, Matrix.mul_apply]
    have := sum_near (fun c => D g a c * (D g).conjTranspose c b) (fun c => D' g a c * (D' g).conjTranspose c b) fun c =>
      mul_near (unitary_entry_le hD g a c) (by rw [Matrix.conjTranspose_apply, norm_star]; exact unitary_entry_le hD g b c)
        (h g a c) (by
          rw [Matrix.conjTranspose_apply, Matrix.conjTranspose_apply, ← star_sub, norm_star]; exact h g b c)
    simpa using this
  rw [hD g, norm_sub_rev] at h1
  have h2 : (0 : ℝ) ≤ 1e-5 * ‖(1 : Matrix (Fin d) (Fin d) ℂ) a b‖ := by positivity
  linarith

theorem isUnitaryTest_of_unitary {D : RepArr n d} (hD : IsUnitaryRep D) : IsUnitaryTest D :=
  c98_accepts_unitary hD (ε := 0) (fun g i j => by simp) (by norm_num)

/-- The factor system of a small representation, with the extra factor `z`, is a unit cocycle. -/
theorem spacegroup_factor {rots : Fin n → M3} {trans : Fin n → V3} {k : V3} (h : IsSpaceGroup rots trans)
    (hk : ∀ i, FixesK (rots i) k) {z : Fin n → Fin n → ℂ} (hz : ∀ i j, ‖z i j‖ = 1) {T : Fin n → Fin n → Fin n}
    (hT : getCayleyTable rots = .ok T) (hzc : IsCocycle T z) :
    IsGroupTable T ∧ IsCocycle T (fun i j => z i j * getFactorSystem rots trans k i j) ∧
      ∀ i j, ‖z i j * getFactorSystem rots trans k i j‖ = 1 := by
  obtain ⟨T', hT', -, hg⟩ := c01_cayley_table_ordinary h.1
  obtain rfl : T' = T := by rw [hT] at hT'; exact (Except.ok.inj hT').symm
  obtain ⟨hf1, hf2, -⟩ := c08_factor_system_cocycle h hk hT
  refine ⟨hg, fun i j l => ?_, fun i j => by rw [norm_mul, hz, hf1, mul_one]⟩
  have h1 := hzc i j l
  have h2 := hf2 i j l
  linear_combination (getFactorSystem rots trans k i (T' j l) * getFactorSystem rots trans k j l) * h1 +
    (z (T' i j) l * z i j) * h2

open scoped Matrix.Norms.L2Operator in
/-- What `check_spacegroup_representation` accepts, without the phases of the translations. -/
theorem spacegroup_test {rots : Fin n → M3} {trans : Fin n → V3} {k : V3} (h : EnumeratesGroup rots)
    {z : Fin n → Fin n → ℂ} {T : Fin n → Fin n → Fin n} (hT : getCayleyTable rots = .ok T) {Γ : RepArr n d}
    (hΓ : IsUnitaryTest Γ) (hd : d ≤ 48) (hacc : checkSpacegroupRep rots trans k Γ (some z) = .ok true) :
    ∃ D : RepArr n d, phaseMul trans k D = Γ ∧ IsUnitaryTest D ∧
      ∀ i j a b, ‖(D i * D j) a b - z i j * getFactorSystem rots trans k i j * D (T i j) a b‖ ≤ 1.02e-5 := by
  set F : Fin n → Fin n → ℂ := fun i j => z i j * getFactorSystem rots trans k i j with hF
  set p : Fin n → ℂ := fun i => expPhase (dot3 k (trans i)) with hp
  have hpn : ∀ i, ‖p i‖ = 1 := fun i => norm_expPhase _
  have hps : ∀ i, star (p i) * p i = 1 := by
    intro i
    rw [mul_comm, Complex.star_def, Complex.mul_conj, Complex.normSq_eq_norm_sq, hpn]; simp
  set D : RepArr n d := fun i => star (p i) • Γ i with hD
  have hDΓ : phaseMul trans k D = Γ := by
    funext i
    show p i • (star (p i) • Γ i) = Γ i
    rw [smul_smul, mul_comm, hps, one_smul]
  have hDu : IsUnitaryTest D := by
    intro i
    have h1 : D i * (D i).conjTranspose = Γ i * (Γ i).conjTranspose := by
      rw [hD, Matrix.conjTranspose_smul, Matrix.smul_mul, Matrix.mul_smul, smul_smul, star_star, hps, one_smul]
    rw [h1]
    exact hΓ i
  have hidx : ∀ i j, indexOf? rots (rots i * rots j) = some (T i j) := fun i j => by
    rw [indexOf?_eq_some_of_inj h.1]; exact (cayley_none_spec hT i j).1
  rw [checkSpacegroupRep_true_iff hidx] at hacc
  have hprod : ∀ i j a b, ‖(Γ i * Γ j) a b‖ ≤ 1.01 := by
    intro i j a b
    have hd' : (d : ℝ) ≤ 48 := by exact_mod_cast hd
    have hn : ∀ i, ‖Γ i‖ ≤ 1.001 := by
      intro i
      have h1 := (almost_unitary_unit (unitary_test_norm hΓ i) (by norm_num; linarith)).1
      refine h1.trans ?_
      norm_num
      linarith
    calc _ ≤ ‖Γ i * Γ j‖ := l2_entry_le _ a b
      _ ≤ ‖Γ i‖ * ‖Γ j‖ := norm_mul_le _ _
      _ ≤ 1.001 * 1.001 := mul_le_mul (hn i) (hn j) (norm_nonneg _) (by norm_num)
      _ ≤ _ := by norm_num
  have hδ : ∀ i j a b, ‖(D i * D j) a b - F i j * D (T i j) a b‖ ≤ 1.02e-5 := by
    intro i j a b
    have h1 := hacc i j a b
    unfold IsCloseC at h1
    have h2 : (D i * D j) a b - F i j * D (T i j) a b = -(star (p i) * star (p j)) * (z i j *
        expPhase (dot3 k fun x => rotVec (rots i) (trans j) x + trans i x - trans (T i j) x) * Γ (T i j) a b -
        (Γ i * Γ j) a b) := by
      have h3 := small_law_aux (rots := rots) (trans := trans) (k := k) (i := i) (j := j) (w := trans (T i j))
      have h4 := hps i
      have h5 := hps j
      have h6 := hps (T i j)
      simp only [hD, hF, Matrix.smul_mul, Matrix.mul_smul, Matrix.smul_apply, smul_eq_mul]
      change p i * p j * getFactorSystem rots trans k i j = _ * p (T i j) at h3
      linear_combination (z i j * Γ (T i j) a b) * (-(star (p i) * star (p j) * expPhase (dot3 k fun x =>
        rotVec (rots i) (trans j) x + trans i x - trans (T i j) x)) * h6 -
        (star (p i) * star (p j) * star (p (T i j))) * h3 +
        (getFactorSystem rots trans k i j * star (p (T i j)) * star (p j) * p j) * h4 +
        (getFactorSystem rots trans k i j * star (p (T i j))) * h5)
    rw [h2, norm_mul, norm_neg, norm_mul, norm_star, norm_star, hpn, hpn, one_mul, one_mul]
    have h3 : (1e-5 : ℝ) * ‖(Γ i * Γ j) a b‖ ≤ 1e-5 * 1.01 := mul_le_mul_of_nonneg_left (hprod i j a b) (by norm_num)
    exact h1.trans ((add_le_add le_rfl h3).trans (by norm_num))
  exact ⟨D, hDΓ, hDu, hδ⟩

theorem phaseMul_sub_norm (trans : Fin n → V3) (k : V3) (D E : RepArr n d) (i : Fin n) (a b : Fin d) :
    ‖phaseMul trans k D i a b - phaseMul trans k E i a b‖ = ‖D i a b - E i a b‖ := by
  have h4 : phaseMul trans k D i a b - phaseMul trans k E i a b = expPhase (dot3 k (trans i)) * (D i a b - E i a b) := by
    show expPhase (dot3 k (trans i)) * D i a b - expPhase (dot3 k (trans i)) * E i a b = _
    ring
  rw [h4, norm_mul, norm_expPhase, one_mul]

/-- **C98 for space groups.** What `check_spacegroup_representation` accepts is near matrices that obey the law of the
space group exactly. -/
theorem c98_spacegroup {rots : Fin n → M3} {trans : Fin n → V3} {k : V3} (h : IsSpaceGroup rots trans)
    (hk : ∀ i, FixesK (rots i) k) {z : Fin n → Fin n → ℂ} (hz : ∀ i j, ‖z i j‖ = 1) {T : Fin n → Fin n → Fin n}
    (hT : getCayleyTable rots = .ok T) (hzc : IsCocycle T z) {Γ : RepArr n d} (hΓ : IsUnitaryTest Γ) (hd : d ≤ 48)
    (hacc : checkSpacegroupRep rots trans k Γ (some z) = .ok true) :
    ∃ E : RepArr n d, SpaceGroupLaw rots trans k z E ∧ IsUnitaryRep E ∧ ∀ i a b, ‖Γ i a b - E i a b‖ ≤ 1.3e-4 * d := by
  obtain ⟨hg, hFc, hFn⟩ := spacegroup_factor h hk hz hT hzc
  obtain ⟨D, rfl, hDu, hδ⟩ := spacegroup_test h.1 hT hΓ hd hacc
  obtain ⟨E, h1, h2, h3, -⟩ := near_unitary hg hFc hFn hDu hd hδ
  refine ⟨phaseMul trans k E, (c10_small_representation h.1 hT trans k z E).1.1 h1,
    (c10_small_representation h.1 hT trans k z E).2.1.1 h2, fun i a b => ?_⟩
  rw [phaseMul_sub_norm]
  exact h3 i a b

/-- Matrices near a unitary small representation are accepted by `check_spacegroup_representation`. -/
theorem c98_spacegroup_accepts {rots : Fin n → M3} (h : EnumeratesGroup rots) {T : Fin n → Fin n → Fin n}
    (hT : getCayleyTable rots = .ok T) {trans : Fin n → V3} {k : V3} {z : Fin n → Fin n → ℂ} (hz : ∀ i j, ‖z i j‖ = 1)
    {Γ Γ' : RepArr n d} (hΓ : SpaceGroupLaw rots trans k z Γ) (hΓu : IsUnitaryRep Γ) {ε rtol : ℝ}
    (hnear : ∀ i a b, ‖Γ i a b - Γ' i a b‖ ≤ ε) (hr : 0 ≤ rtol) (hε : (d : ℝ) * (2 * ε + ε ^ 2) + ε ≤ 1e-8) :
    checkSpacegroupRep rots trans k Γ' (some z) rtol = .ok true := by
  have hidx : ∀ i j, indexOf? rots (rots i * rots j) = some (T i j) := fun i j => by
    rw [indexOf?_eq_some_of_inj h.1]; exact (cayley_none_spec hT i j).1
  rw [checkSpacegroupRep_true_iff hidx]
  intro i j a b
  have hlaw := hΓ i j (T i j) (cayley_none_spec hT i j).1.symm
  have h1 : ‖(Γ i * Γ j) a b - (Γ' i * Γ' j) a b‖ ≤ d * (2 * ε + ε ^ 2) := by
    rw [Matrix.mul_apply, Matrix.mul_apply]
    have := sum_near (fun c => Γ i a c * Γ j c b) (fun c => Γ' i a c * Γ' j c b) fun c =>
      mul_near (unitary_entry_le hΓu i a c) (unitary_entry_le hΓu j c b) (hnear i a c) (hnear j c b)
    simpa using this
  rw [IsCloseC]
  set w := expPhase (dot3 k fun x => rotVec (rots i) (trans j) x + trans i x - trans (T i j) x) with hw
  have hlaw' : (Γ i * Γ j) a b = z i j * w * Γ (T i j) a b := by
    rw [hlaw, Matrix.smul_apply, smul_eq_mul, hw, expPhase_spec]
    rfl
  have h2 : z i j * w * Γ' (T i j) a b - (Γ' i * Γ' j) a b =
      ((Γ i * Γ j) a b - (Γ' i * Γ' j) a b) - z i j * w * (Γ (T i j) a b - Γ' (T i j) a b) := by
    rw [hlaw']; ring
  have h3 : 0 ≤ rtol * ‖(Γ' i * Γ' j) a b‖ := by positivity
  rw [h2]
  calc _ ≤ d * (2 * ε + ε ^ 2) + ε := by
        refine (norm_sub_le _ _).trans (add_le_add h1 ?_)
        rw [norm_mul, norm_mul, hz, hw, norm_expPhase, one_mul, one_mul]
        exact hnear _ _ _
    _ ≤ 1e-8 := hε
    _ ≤ _ := le_add_of_nonneg_right h3

/-- The screw group 4_1 at (0,0,1/2): every accepted array is within `1.3·10⁻⁴` of a small
representation, and the phases of the translations are accepted. -/
example : (∀ Γ : RepArr 4 1, IsUnitaryTest Γ → checkSpacegroupRep rotsC4 trans41 ![0, 0, 1/2] Γ (some fun _ _ => 1) = .ok true →
      ∃ E : RepArr 4 1, SpaceGroupLaw rotsC4 trans41 ![0, 0, 1/2] (fun _ _ => 1) E ∧ ∀ i a b, ‖Γ i a b - E i a b‖ ≤ 1.3e-4) ∧
    ∃ Γ : RepArr 4 1, IsUnitaryTest Γ ∧
      checkSpacegroupRep rotsC4 trans41 ![0, 0, 1/2] Γ (some fun _ _ => 1) = .ok true := by
  obtain ⟨T, hT, -, -⟩ := c01_cayley_table_ordinary rotsC4_group
  have hk : ∀ i, FixesK (rotsC4 i) ![0, 0, 1/2] := by
    intro i a
    refine ⟨0, ?_⟩
    fin_cases i <;> fin_cases a <;> simp [rotsC4, Fin.sum_univ_three]
  refine ⟨fun Γ hu hacc => ?_, phaseMul trans41 ![0, 0, 1/2] fun _ => 1, ?_, ?_⟩
  · obtain ⟨E, h1, -, h2⟩ := c98_spacegroup space41 hk (by simp) hT (fun _ _ _ => rfl) hu (by norm_num) hacc
    exact ⟨E, h1, fun i a b => (h2 i a b).trans (by norm_num)⟩
  · exact isUnitaryTest_of_unitary
      ((c10_small_representation rotsC4_group hT trans41 _ (fun _ _ => 1) (fun _ => 1)).2.1.1 fun _ => by simp)
  · refine (c10_small_representation rotsC4_group hT trans41 _ (fun _ _ => 1) (fun _ => 1)).2.2 (fun i j => ?_) _ (by norm_num)
    have : getFactorSystem rotsC4 trans41 ![0, 0, 1/2] i j = 1 := by
      unfold getFactorSystem
      have h0 : dot3 (residual (rotsC4 i) ![0, 0, 1/2]) (trans41 j) = 0 := by
        fin_cases i <;> simp [dot3, residual, rotsC4, trans41, Fin.sum_univ_three]
      rw [h0, expPhase_zero]
    show _ = (1 * getFactorSystem rotsC4 trans41 ![0, 0, 1/2] i j) • _
    rw [this]
    simp

/-- The Pauli-like representation of the Klein four-group, off by up to `10⁻⁹`, is accepted. -/
example (D' : RepArr 4 2) (h : ∀ g i j, ‖repV4 g i j - D' g i j‖ ≤ 1e-9) :
    IsRepresentationTest D' tblV4 (some μV4) 1e-5 1e-8 :=
  c98_accepts μV4_norm repV4_proj repV4_unitary h (by norm_num) (by norm_num)

/-- The first converse for the same representation, with unitary inverses. -/
example (h : IsRepresentationTest repV4 tblV4 (some μV4) 1e-5 1e-8) :
    ∃ E : RepArr 4 2, IsProjRep tblV4 μV4 E ∧ (∀ g, IsUnit (E g)) ∧ ∀ g i j, ‖repV4 g i j - E g i j‖ ≤ 1e-4 := by
  obtain ⟨E, h1, h2, h3⟩ := c98_accepted tblV4_group μV4_cocycle μV4_norm (J := fun g => (repV4 g).conjTranspose)
    repV4_unitary (K := 1) (M := 1) (by norm_num)
    (fun g i j => by rw [Matrix.conjTranspose_apply, norm_star]; exact unitary_entry_le repV4_unitary g j i)
    (by norm_num) (unitary_entry_le repV4_unitary) (by norm_num) (by norm_num) (by norm_num) h
  exact ⟨E, h1, h2, fun g i j => (h3 g i j).trans (by norm_num)⟩

/-- An accepted array of unitary matrices need not be a representation: the second theorem speaks about more than
representations. -/
example : ∃ D : RepArr 2 1, IsUnitaryRep D ∧ IsRepresentationTest D ![![0, 1], ![1, 0]] (some fun _ _ => 1) 1e-5 1e-8 ∧
    ¬ IsProjRep ![![0, 1], ![1, 0]] (fun _ _ => 1) D ∧
    ∃ E : RepArr 2 1, IsProjRep ![![0, 1], ![1, 0]] (fun _ _ => 1) E ∧ ∀ g i j, ‖D g i j - E g i j‖ ≤ 1.3e-4 := by
  set t : ℂ := ((1e-6 : ℝ) : ℂ) * Complex.I with ht
  set w : ℂ := (1 + t) / (1 - t) with hw
  have hstar : star t = -t := by
    rw [ht, Complex.star_def, map_mul, Complex.conj_ofReal, Complex.conj_I]; ring
  have hne : 1 - t ≠ 0 := by
    intro h
    have := congrArg Complex.re h
    simp [ht] at this
  have hne' : 1 + t ≠ 0 := by
    intro h
    have := congrArg Complex.re h
    simp [ht] at this
  have hww : w * star w = 1 := by
    rw [hw, star_div₀, star_add, star_sub, star_one, hstar, sub_neg_eq_add]
    field_simp
    ring
  have hwn : ‖w‖ = 1 := by
    have := congrArg norm hww
    rw [norm_mul, norm_star, norm_one] at this
    nlinarith [norm_nonneg w]
  have hw2 : w * w - 1 = 4 * t / (1 - t) ^ 2 := by
    rw [hw]
    field_simp
    ring
  have hnt : ‖t‖ = 1e-6 := by
    rw [ht, norm_mul, Complex.norm_I, mul_one, Complex.norm_real, Real.norm_eq_abs, abs_of_pos (by norm_num)]
  have hden : 1 ≤ ‖(1 - t) ^ 2‖ := by
    have h1 : (1 : ℝ) ≤ ‖1 - t‖ := by
      have := Complex.abs_re_le_norm (1 - t)
      simpa [ht] using this
    rw [norm_pow]
    nlinarith
  have hw3 : ‖w * w - 1‖ ≤ 4e-6 := by
    rw [hw2, norm_div, norm_mul, hnt]
    rw [div_le_iff₀ (by linarith)]
    norm_num at hden ⊢
    linarith
  have hw4 : w * w ≠ 1 := by
    intro h
    rw [h, sub_self] at hw2
    have h1 : 4 * t ≠ 0 := by
      intro h2
      have := congrArg norm h2
      rw [norm_mul, hnt] at this
      norm_num at this
    exact div_ne_zero h1 (pow_ne_zero _ hne) hw2.symm
  set D : RepArr 2 1 := fun g => !![(![1, w] : Fin 2 → ℂ) g] with hD
  have hu : IsUnitaryRep D := by
    intro g
    ext i j
    obtain rfl : i = 0 := Subsingleton.elim _ _
    obtain rfl : j = 0 := Subsingleton.elim _ _
    fin_cases g
    · simp [hD, Matrix.mul_apply]
    · simpa [hD, Matrix.mul_apply] using hww
  have hT : IsGroupTable (![![0, 1], ![1, 0]] : Fin 2 → Fin 2 → Fin 2) :=
    ⟨by decide, 0, by decide, by decide, by decide⟩
  have htest : IsRepresentationTest D ![![0, 1], ![1, 0]] (some fun _ _ => 1) 1e-5 1e-8 := by
    intro g h i j
    obtain rfl : i = 0 := Subsingleton.elim _ _
    obtain rfl : j = 0 := Subsingleton.elim _ _
    unfold IsCloseC
    rw [Option.getD_some]
    fin_cases g <;> fin_cases h
    · simp [hD, Matrix.mul_apply]; norm_num
    · simp [hD, Matrix.mul_apply, hwn]; norm_num
    · simp [hD, Matrix.mul_apply, hwn]; norm_num
    · simp only [hD, Matrix.mul_apply, Fin.sum_univ_one]
      simp
      refine hw3.trans (by norm_num)
  refine ⟨D, hu, htest, fun h => ?_, ?_⟩
  · have := congrFun (congrFun (h 1 1) 0) 0
    simp [hD, Matrix.mul_apply] at this
    exact hw4 this
  · obtain ⟨E, h1, -, h2⟩ := c98_accepted_unitary hT (fun _ _ _ => rfl) (by simp) (isUnitaryTest_of_unitary hu) (by norm_num) htest
    exact ⟨E, h1, fun g i j => (h2 g i j).trans (by norm_num)⟩

end Spgrep
