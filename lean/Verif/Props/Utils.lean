/-
Properties C26-C29, C53, C54: utils.py and the purification functions of irreps.py.
-/
import Verif.Proofs.Utils
import Verif.Proofs.Purify
import Verif.Proofs.Grassmann
import Verif.Proofs.Numeric

set_option linter.style.setOption false

namespace Spgrep

open Spec

/-! ### C26 -/

/-- C26: `nroot z n` is an `n`-th root of `z` with angle in `(-π/n, π/n]`. -/
theorem c26_nroot (z : ℂ) (n : ℕ) (hn : 1 ≤ n) :
    nroot z n ^ n = z ∧ -(Real.pi / n) < Complex.arg (nroot z n) ∧
      Complex.arg (nroot z n) ≤ Real.pi / n := by
  obtain ⟨h1, h2⟩ := nroot_eq z hn
  have hn0 : (0 : ℝ) < n := by exact_mod_cast hn
  rw [h1, h2]
  refine ⟨?_, ?_, ?_⟩
  · rw [one_div]
    exact Complex.cpow_nat_inv_pow z (by omega)
  · rw [neg_div' (n : ℝ) Real.pi, div_lt_div_iff_of_pos_right hn0]
    exact Complex.neg_pi_lt_arg z
  · rw [div_le_div_iff_of_pos_right hn0]
    exact Complex.arg_le_pi z

/-- Case of C26: the cube root of `-8` chosen is not the real one. -/
example : nroot (-8) 3 ^ 3 = -8 ∧ nroot (-8) 3 ≠ -2 := by
  refine ⟨(c26_nroot (-8) 3 (by norm_num)).1, fun h => ?_⟩
  have := (c26_nroot (-8) 3 (by norm_num)).2.2
  rw [h, show (-2 : ℂ) = ((-2 : ℝ) : ℂ) by norm_num, Complex.arg_ofReal_of_neg (by norm_num)] at this
  have hp := Real.pi_pos
  norm_num at this
  linarith

/-! ### C27 -/

/-- The full statement of C27. -/
def C27 : Prop := ∀ n : ℤ, isPrime n = true ↔ 0 ≤ n ∧ Nat.Prime n.toNat

/-- C27 is false: `is_prime(1)` (also `0` and negative numbers) returns `True`. -/
theorem c27_is_prime_refuted : ¬ C27 := by
  intro h
  have := (h 1).1 (by decide)
  exact Nat.not_prime_one this.2

/-- What holds of C27: correct for every `n ≥ 2`; `True` for every `n < 2`. -/
theorem c27_is_prime_partial (n : ℤ) :
    (2 ≤ n → (isPrime n = true ↔ Nat.Prime n.toNat)) ∧ (n < 2 → isPrime n = true) := by
  refine ⟨isPrime_iff n, fun h => ?_⟩
  have : n.toNat - 2 = 0 := by omega
  simp [isPrime, this]

example : isPrime 7 = true ∧ isPrime 9 = false ∧ isPrime 2 = true := by decide

/-! ### C28 -/

/-- C28: for every rank `p`, every shape and every list of `p` matrices, `mode_dot` succeeds and is
the full multilinear contraction. -/
theorem c28_mode_dot {R : Type*} [CommSemiring R] {p : ℕ} (m n : Fin p → ℕ) (coeffs : NDArr R)
    (mats : Fin p → NDArr R) (hc : coeffs.shape = List.ofFn m)
    (hm : ∀ i, (mats i).shape = [m i, n i]) :
    ∃ r, modeDot coeffs (List.ofFn mats) = .ok r ∧ r.shape = List.ofFn n ∧
      ∀ a : ∀ i, Fin (n i), r.val (List.ofFn fun i => (a i : ℕ)) =
        ∑ I : (∀ i, Fin (m i)), coeffs.val (List.ofFn fun i => (I i : ℕ)) *
          ∏ i, (mats i).val [(I i : ℕ), (a i : ℕ)] := by
  obtain ⟨r, h1, h2, h3⟩ := modeDot_fold m n coeffs mats hc hm p le_rfl
  have hps : ∀ i : Fin p, partShape m n p i = n i := fun i => if_pos i.2
  refine ⟨r, ?_, ?_, fun a => ?_⟩
  · unfold modeDot
    rw [List.length_ofFn]
    exact h1
  · rw [h2]; congr 1; funext i; exact hps i
  · rw [h3 (fun i => (a i : ℕ)) (fun i => by rw [hps]; exact (a i).2)]
    refine Finset.sum_congr rfl fun I _ => ?_
    rw [if_pos (fun i hi => absurd i.2 (by omega))]
    congr 1
    refine Finset.prod_congr rfl fun i _ => ?_
    rw [if_pos i.2]

/-- Case of C28: a `2 × 3` tensor with matrices of shape `2 × 1` and `3 × 4`. -/
example : ∃ r, modeDot (R := ℤ) ⟨[2, 3], fun i => i.getD 0 0 + 2 * i.getD 1 0⟩
    (List.ofFn ![⟨[2, 1], fun i => i.getD 0 0 + 1⟩, ⟨[3, 4], fun i => i.getD 0 0 * i.getD 1 0⟩]) = .ok r ∧
    r.shape = [1, 4] := by
  obtain ⟨r, h1, h2, _⟩ := c28_mode_dot (R := ℤ) ![2, 3] ![1, 4]
    ⟨[2, 3], fun i => i.getD 0 0 + 2 * i.getD 1 0⟩
    ![⟨[2, 1], fun i => i.getD 0 0 + 1⟩, ⟨[3, 4], fun i => i.getD 0 0 * i.getD 1 0⟩] rfl
    (by intro i; fin_cases i <;> rfl)
  exact ⟨r, h1, h2.trans rfl⟩

/-! ### C29 -/

/-- The values to which complex entries are snapped: zero and the roots of unity at multiples
of 60 and 90 degrees listed in the code. -/
def Spec.SpecialComplex (z : ℂ) : Prop := z = 0 ∨ z = 1 ∨ z = -1 ∨ z = Complex.I ∨ z = -Complex.I ∨
  z = ⟨1 / 2, Real.sqrt 3 / 2⟩ ∨ z = ⟨1 / 2, -(Real.sqrt 3 / 2)⟩ ∨
  z = ⟨-(1 / 2), Real.sqrt 3 / 2⟩ ∨ z = ⟨-(1 / 2), -(Real.sqrt 3 / 2)⟩

/-- The values to which real entries are snapped. -/
def Spec.SpecialReal (x : ℝ) : Prop := x = 0 ∨ x = 1 ∨ x = -1 ∨ x = 1 / 2 ∨ x = -(1 / 2) ∨
  x = Real.sqrt 3 / 2 ∨ x = -(Real.sqrt 3 / 2)

theorem mem_purifyValues (z : ℂ) : z ∈ purifyValues ↔ SpecialComplex z := by
  have h0 : (⟨0, 0⟩ : ℂ) = 0 := rfl
  have h1 : (⟨1, 0⟩ : ℂ) = 1 := rfl
  have h2 : (⟨0, 1⟩ : ℂ) = Complex.I := rfl
  have h3 : (⟨-1, 0⟩ : ℂ) = -1 := by apply Complex.ext <;> simp
  have h4 : (⟨0, -1⟩ : ℂ) = -Complex.I := by apply Complex.ext <;> simp
  rw [purifyValues_coords, h0, h1, h2, h3, h4]
  simp only [List.mem_cons, List.not_mem_nil, or_false, SpecialComplex]
  tauto

theorem mem_purifyRealValues (x : ℝ) : x ∈ purifyRealValues ↔ SpecialReal x := by
  simp only [purifyRealValues, List.mem_cons, List.not_mem_nil, or_false, SpecialReal, neg_div]
  tauto

/-- C29: purification moves every entry by less than `atol`, keeps listed values, returns a listed
value when one is closer than `atol`, keeps everything farther from all listed values, and is
idempotent; for every array and every tolerance below the separation of the listed values
(`√(2-√3) ≈ 0.51` for complex values, `1-√3/2 ≈ 0.13` for real values). -/
theorem c29_purify :
    (∀ (n d : ℕ) (A : RepArr n d) (atol : ℝ), 0 < atol → atol ^ 2 ≤ 2 - Real.sqrt 3 →
      (∀ g i j, ‖A g i j - purifyIrrepValue A atol g i j‖ < atol ∧
        (SpecialComplex (A g i j) → purifyIrrepValue A atol g i j = A g i j) ∧
        ((∃ v, SpecialComplex v ∧ ‖A g i j - v‖ < atol) →
          SpecialComplex (purifyIrrepValue A atol g i j)) ∧
        ((∀ v, SpecialComplex v → atol ≤ ‖A g i j - v‖) →
          purifyIrrepValue A atol g i j = A g i j)) ∧
      purifyIrrepValue (purifyIrrepValue A atol) atol = purifyIrrepValue A atol) ∧
    (∀ (n d : ℕ) (A : Fin n → Matrix (Fin d) (Fin d) ℝ) (atol : ℝ), 0 < atol →
      atol ≤ 1 - Real.sqrt 3 / 2 →
      (∀ g i j, |A g i j - purifyRealIrrepValue A atol g i j| < atol ∧
        (SpecialReal (A g i j) → purifyRealIrrepValue A atol g i j = A g i j) ∧
        ((∃ v, SpecialReal v ∧ |A g i j - v| < atol) →
          SpecialReal (purifyRealIrrepValue A atol g i j)) ∧
        ((∀ v, SpecialReal v → atol ≤ |A g i j - v|) →
          purifyRealIrrepValue A atol g i j = A g i j)) ∧
      purifyRealIrrepValue (purifyRealIrrepValue A atol) atol = purifyRealIrrepValue A atol) := by
  constructor
  · intro n d A atol h0 h1
    have key := fun z => snap_spec (purify_sep h0.le h1) h0 z
    simp only [← purifyEntry_eq, mem_purifyValues, Complex.dist_eq] at key
    refine ⟨fun g i j => ?_, ?_⟩
    · obtain ⟨k1, k2, k3, k4, _⟩ := key (A g i j)
      have e : purifyIrrepValue A atol g i j = purifyEntry atol (A g i j) := rfl
      rw [e]
      exact ⟨k1, k2, k3, k4⟩
    · funext g; ext i j
      have e : ∀ A : RepArr n d, purifyIrrepValue A atol g i j = purifyEntry atol (A g i j) :=
        fun _ => rfl
      rw [e, e]
      exact (key (A g i j)).2.2.2.2
  · intro n d A atol h0 h1
    have key := fun z => snap_spec (purifyReal_sep h1) h0 z
    simp only [← purifyRealEntry_eq, mem_purifyRealValues, Real.dist_eq] at key
    refine ⟨fun g i j => ?_, ?_⟩
    · obtain ⟨k1, k2, k3, k4, _⟩ := key (A g i j)
      exact ⟨k1, k2, k3, k4⟩
    · funext g; ext i j
      exact (key (A g i j)).2.2.2.2

/-- Case of C29: the default tolerance is admissible in both cases. -/
example : (0 : ℝ) < 1e-8 ∧ (1e-8 : ℝ) ^ 2 ≤ 2 - Real.sqrt 3 ∧ (1e-8 : ℝ) ≤ 1 - Real.sqrt 3 / 2 := by
  obtain ⟨_, h1, h2⟩ := sqrt3_bounds
  refine ⟨by norm_num, ?_, ?_⟩ <;> norm_num at * <;> linarith

/-! ### C53 -/

/-- C53: conversion to integers. -/
theorem c53_integer_conversion :
    (∀ (m n : ℕ) (a : Matrix (Fin m) (Fin n) ℝ) (z : Matrix (Fin m) (Fin n) ℤ),
      (∀ i j, |a i j - z i j| < 1 / 2) → toIntegerTuple a = z) ∧
    (∀ (m n : ℕ) (z : Matrix (Fin m) (Fin n) ℤ), toIntegerTuple (z.map fun x => (x : ℝ)) = z) ∧
    (∀ (m n : ℕ) (a : Matrix (Fin m) (Fin n) ℝ) i j (z : ℤ),
      |a i j - toIntegerTuple a i j| ≤ |a i j - z|) ∧
    (∀ (ι : Type) (a : ι → ℝ) (rtol atol : ℝ),
      IsIntegerArray a rtol atol ↔ ∀ i, ∃ z : ℤ, |(z : ℝ) - a i| ≤ atol + rtol * |a i|) := by
  refine ⟨?_, ?_, ?_, ?_⟩
  · intro m n a z h
    ext i j
    exact rint_eq_of_abs_lt (h i j)
  · intro m n z
    ext i j
    apply rint_eq_of_abs_lt
    simp
  · intro m n a i j z
    exact abs_sub_rint_le_abs_sub _ _
  · intro ι a rtol atol
    constructor
    · intro h i
      exact ⟨rint (a i), h i⟩
    · intro h i
      obtain ⟨z, hz⟩ := h i
      have := abs_sub_rint_le_abs_sub (a i) z
      rw [abs_sub_comm, abs_sub_comm (a i)] at this
      exact this.trans hz

/-- Case of C53: a noisy rotation matrix. -/
example : toIntegerTuple !![(0.9 : ℝ), 0.1; -0.3, -1.2] = !![1, 0; 0, -1] := by
  apply c53_integer_conversion.1
  intro i j
  fin_cases i <;> fin_cases j <;> norm_num [abs_lt]

/-! ### C54 -/

/-- Contract of the numerical routines: QR factors and singular values. -/
def LinAlg.Contract (la : LinAlg) : Prop :=
  (∀ (n k : ℕ) (A : Matrix (Fin n) (Fin k) ℂ), IsQR A (la.qr A)) ∧
  (∀ (a b : ℕ) (A : Matrix (Fin a) (Fin b) ℂ), IsSVD A (la.svdvals A))

/-- Subspace spanned by the rows of a basis. -/
abbrev Spec.rowSpan {k n : ℕ} (b : Matrix (Fin k) (Fin n) ℂ) : Submodule ℂ (Fin n → ℂ) :=
  Submodule.span ℂ (Set.range b.row)

theorem grassmann_frames {la : LinAlg} (hla : la.Contract) {n k l : ℕ}
    {b1 : Matrix (Fin k) (Fin n) ℂ} {b2 : Matrix (Fin l) (Fin n) ℂ}
    (h1 : LinearIndependent ℂ b1.row) (h2 : LinearIndependent ℂ b2.row) (hk : 0 < k) (hl : 0 < l) :
    ∃ (Q1 : Matrix (Fin n) (Fin k) ℂ) (Q2 : Matrix (Fin n) (Fin l) ℂ),
      Q1.conjTranspose * Q1 = 1 ∧ Q2.conjTranspose * Q2 = 1 ∧
      (∃ R S, b1.transpose = Q1 * R ∧ Q1 = b1.transpose * S) ∧
      (∃ R S, b2.transpose = Q2 * R ∧ Q2 = b2.transpose * S) ∧
      ∃ (r : ℕ) (hr : 0 < r) (σ : Fin r → ℝ), r = Nat.min k l ∧ IsSVD (Q1.conjTranspose * Q2) σ ∧
        grassmannDistance la b1 b2 .min = .ok (gMin (σ ⟨r - 1, by omega⟩)) ∧
        grassmannDistance la b1 b2 .projection = .ok (gProj σ) := by
  have key : ∀ (a b : ℕ), a = Nat.min n k → b = Nat.min n l → ∀ (Q1 : Matrix (Fin n) (Fin a) ℂ)
      (Q2 : Matrix (Fin n) (Fin b) ℂ), IsQR b1.transpose Q1 → IsQR b2.transpose Q2 →
      ∃ (Q1' : Matrix (Fin n) (Fin k) ℂ) (Q2' : Matrix (Fin n) (Fin l) ℂ),
      Q1'.conjTranspose * Q1' = 1 ∧ Q2'.conjTranspose * Q2' = 1 ∧
      (∃ R S, b1.transpose = Q1' * R ∧ Q1' = b1.transpose * S) ∧
      (∃ R S, b2.transpose = Q2' * R ∧ Q2' = b2.transpose * S) ∧
      ∃ (r : ℕ) (hr : 0 < r) (σ : Fin r → ℝ), r = Nat.min k l ∧ IsSVD (Q1'.conjTranspose * Q2') σ ∧
        grassmannCore la k l Q1 Q2 .min = .ok (gMin (σ ⟨r - 1, by omega⟩)) ∧
        grassmannCore la k l Q1 Q2 .projection = .ok (gProj σ) := by
    intro a b ha hb Q1 Q2 hq1 hq2
    obtain ⟨e1, hf1⟩ := qr_basis ha h1 hq1
    obtain ⟨e2, hf2⟩ := qr_basis hb h2 hq2
    subst e1 e2
    exact ⟨Q1, Q2, hq1.1, hq2.1, hf1, hf2, grassmannCore_eq hla.2 rfl rfl hk hl Q1 Q2⟩
  exact key _ _ rfl rfl _ _ (hla.1 _ _ _) (hla.1 _ _ _)

/-- C54: for bases (linearly independent rows) of nonzero subspaces and any correct QR and SVD
routines, the Grassmann distance with `ord = "min"` lies in `[0, 1]`, with either `ord` it is
symmetric, zero exactly when one subspace contains the other, and depends only on the two subspaces
(not on the bases nor on the routines); any other `ord` raises `ValueError`. -/
theorem c54_grassmann (la : LinAlg) (hla : la.Contract) {n k l : ℕ} (b1 : Matrix (Fin k) (Fin n) ℂ)
    (b2 : Matrix (Fin l) (Fin n) ℂ) (h1 : LinearIndependent ℂ b1.row)
    (h2 : LinearIndependent ℂ b2.row) (hk : 0 < k) (hl : 0 < l) :
    (∃ d : ℝ, grassmannDistance la b1 b2 .min = .ok d ∧ 0 ≤ d ∧ d ≤ 1) ∧
    (∀ s skip, grassmannDistance la b1 b2 (.other s) skip = .error .valueError) ∧
    ∀ ord, ord = GrassmannOrd.min ∨ ord = GrassmannOrd.projection →
      ∃ d : ℝ, grassmannDistance la b1 b2 ord = .ok d ∧
        grassmannDistance la b2 b1 ord = .ok d ∧
        (d = 0 ↔ rowSpan b1 ≤ rowSpan b2 ∨ rowSpan b2 ≤ rowSpan b1) ∧
        ∀ (la' : LinAlg), la'.Contract → ∀ (b1' : Matrix (Fin k) (Fin n) ℂ)
          (b2' : Matrix (Fin l) (Fin n) ℂ), LinearIndependent ℂ b1'.row →
          LinearIndependent ℂ b2'.row → rowSpan b1' = rowSpan b1 → rowSpan b2' = rowSpan b2 →
          grassmannDistance la' b1' b2' ord = .ok d := by
  obtain ⟨Q1, Q2, hQ1, hQ2, hf1, hf2, r, hr, σ, er, hσ, hmin, hproj⟩ := grassmann_frames hla h1 h2 hk hl
  obtain ⟨hb, hone⟩ := corr_spec er hQ1 hQ2 hσ
  have hcont : (∀ i, σ i = 1) ↔ rowSpan b1 ≤ rowSpan b2 ∨ rowSpan b2 ≤ rowSpan b1 := by
    rw [hone, frame_contained_iff hf1 hf2, frame_contained_iff hf2 hf1]
  -- the same correlations for the exchanged arguments
  have hsymm : grassmannDistance la b2 b1 .min = .ok (gMin (σ ⟨r - 1, by omega⟩)) ∧
      grassmannDistance la b2 b1 .projection = .ok (gProj σ) := by
    obtain ⟨P2, P1, hP2, hP1, hg2, hg1, r', hr', τ, er', hτ, hmin', hproj'⟩ :=
      grassmann_frames hla h2 h1 hl hk
    obtain rfl : r' = r := by rw [er, er']; exact Nat.min_comm _ _
    have hτ' : IsSVD (P1.conjTranspose * P2) τ := by
      have := IsSVD.symm hτ
      rwa [Matrix.conjTranspose_mul, Matrix.conjTranspose_conjTranspose] at this
    have : σ = τ := corr_frame_indep er hQ1 hP1 hQ2 hP2
      ((frame_contained_iff hg1 hf1).2 le_rfl) ((frame_contained_iff hg2 hf2).2 le_rfl) hσ hτ'
    subst this
    exact ⟨hmin', hproj'⟩
  have hindep : ∀ (la' : LinAlg), la'.Contract → ∀ (b1' : Matrix (Fin k) (Fin n) ℂ)
      (b2' : Matrix (Fin l) (Fin n) ℂ), LinearIndependent ℂ b1'.row →
      LinearIndependent ℂ b2'.row → rowSpan b1' = rowSpan b1 → rowSpan b2' = rowSpan b2 →
      grassmannDistance la' b1' b2' .min = .ok (gMin (σ ⟨r - 1, by omega⟩)) ∧
      grassmannDistance la' b1' b2' .projection = .ok (gProj σ) := by
    intro la' hla' b1' b2' h1' h2' e1 e2
    obtain ⟨P1, P2, hP1, hP2, hg1, hg2, r', hr', τ, er', hτ, hmin', hproj'⟩ :=
      grassmann_frames hla' h1' h2' hk hl
    obtain rfl : r' = r := by rw [er, er']
    have : σ = τ := corr_frame_indep er hQ1 hP1 hQ2 hP2
      ((frame_contained_iff hg1 hf1).2 e1.le) ((frame_contained_iff hg2 hf2).2 e2.le) hσ hτ
    subst this
    exact ⟨hmin', hproj'⟩
  refine ⟨⟨_, hmin, gMin_bounds _⟩, ?_, ?_⟩
  · intro s skip
    cases skip <;> rfl
  · rintro ord (rfl | rfl)
    · refine ⟨_, hmin, hsymm.1, ?_, fun la' hla' b1' b2' h1' h2' e1 e2 =>
        (hindep la' hla' b1' b2' h1' h2' e1 e2).1⟩
      rw [gMin_zero_iff hr hσ.1 hb, hcont]
    · refine ⟨_, hproj, hsymm.2, ?_, fun la' hla' b1' b2' h1' h2' e1 e2 =>
        (hindep la' hla' b1' b2' h1' h2' e1 e2).2⟩
      rw [gProj_zero_iff hr hb, hcont]

/-- The contract of C54 is satisfiable: routines with it exist. -/
theorem exists_linAlg_contract : ∃ la : LinAlg, la.Contract := by
  classical
  exact ⟨{ qr := fun A => Classical.choose (exists_qr A),
           svdvals := fun A => Classical.choose (exists_svd A) },
    fun _ _ A => Classical.choose_spec (exists_qr A), fun _ _ A => Classical.choose_spec (exists_svd A)⟩

/-- Case of C54: a line inside a plane of `ℂ³` has distance zero, given by non-orthonormal bases. -/
example : ∃ la : LinAlg, la.Contract ∧
    grassmannDistance la (n := 3) !![1, 2, 0] !![1, 1, 0; 0, 1, 0] .min = .ok 0 := by
  obtain ⟨la, hla⟩ := exists_linAlg_contract
  refine ⟨la, hla, ?_⟩
  have h1 : LinearIndependent ℂ (!![1, 2, 0] : Matrix (Fin 1) (Fin 3) ℂ).row := by
    rw [Fintype.linearIndependent_iff]
    intro g hg i
    have := congrFun hg 0
    fin_cases i
    simpa [Matrix.row] using this
  have h2 : LinearIndependent ℂ (!![1, 1, 0; 0, 1, 0] : Matrix (Fin 2) (Fin 3) ℂ).row := by
    rw [Fintype.linearIndependent_iff]
    intro g hg i
    have e0 := congrFun hg 0
    have e1 := congrFun hg 1
    simp [Matrix.row, Fin.sum_univ_two] at e0 e1
    fin_cases i
    · exact e0
    · simpa [e0] using e1
  obtain ⟨d, hd, _, hz, _⟩ := (c54_grassmann la hla _ _ h1 h2 (by norm_num) (by norm_num)).2.2 .min
    (Or.inl rfl)
  rw [hd]
  congr 1
  rw [hz]
  left
  rw [rowSpan, rowSpan, span_le_iff]
  refine ⟨!![1, 1], ?_⟩
  ext i j
  fin_cases i; fin_cases j <;> simp [Matrix.mul_apply, Fin.sum_univ_two] <;> norm_num

end Spgrep
