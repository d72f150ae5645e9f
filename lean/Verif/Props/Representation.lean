/-
Property theorems C10-C17, C23 (representation.py).
-/
import Verif.Proofs.RepModel
import Verif.Props.Group
import Verif.Props.Examples
import Mathlib.LinearAlgebra.Matrix.Kronecker

namespace Spgrep

open Spec Matrix Module

variable {n : ℕ}

/-! ### C10: small representations -/

theorem allLoop_true_iff {α : Type*} {test : α → Except PyErr Bool} {l : List α} :
    allLoop test l = .ok true ↔ ∀ p ∈ l, test p = .ok true := by
  induction l with
  | nil => simp [allLoop]
  | cons p ps ih =>
    rw [allLoop, List.forall_mem_cons, ← ih]
    rcases hp : test p with e | b
    · simp [bind, Except.bind]
    · cases b <;> simp [bind, Except.bind, pure, Except.pure]

/-- When the loop does not return `True`, it stops with the outcome of the first test that is not `True`. -/
theorem allLoop_stop_iff {α : Type*} {test : α → Except PyErr Bool} {l : List α} {r : Except PyErr Bool} (hr : r ≠ .ok true) :
    allLoop test l = r ↔ ∃ l₁ p l₂, l = l₁ ++ p :: l₂ ∧ (∀ q ∈ l₁, test q = .ok true) ∧ test p = r := by
  induction l with
  | nil =>
    refine ⟨fun h => absurd h.symm hr, ?_⟩
    rintro ⟨l₁, p, l₂, h, -⟩
    simp at h
  | cons p ps ih =>
    by_cases hp : test p = .ok true
    · have h1 : allLoop test (p :: ps) = allLoop test ps := by
        rw [allLoop, hp]; rfl
      rw [h1, ih]
      constructor
      · rintro ⟨l₁, q, l₂, rfl, h2, h3⟩
        exact ⟨p :: l₁, q, l₂, rfl, by simpa [hp] using h2, h3⟩
      · rintro ⟨l₁, q, l₂, h2, h3, h4⟩
        cases l₁ with
        | nil =>
          obtain ⟨rfl, rfl⟩ := List.cons.inj h2
          exact absurd (h4.symm.trans hp) hr
        | cons x xs =>
          obtain ⟨rfl, rfl⟩ := List.cons.inj h2
          exact ⟨xs, q, l₂, rfl, fun y hy => h3 y (List.mem_cons_of_mem _ hy), h4⟩
    · have h1 : allLoop test (p :: ps) = test p := by
        rw [allLoop]
        rcases hq : test p with e | b
        · rfl
        · cases b
          · rfl
          · exact absurd hq hp
      rw [h1]
      constructor
      · rintro rfl
        exact ⟨[], p, ps, rfl, by simp, rfl⟩
      · rintro ⟨l₁, q, l₂, h2, h3, h4⟩
        cases l₁ with
        | nil =>
          obtain ⟨rfl, rfl⟩ := List.cons.inj h2
          exact h4
        | cons x xs =>
          obtain ⟨rfl, rfl⟩ := List.cons.inj h2
          exact absurd (h3 p List.mem_cons_self) hp

/-- On a group the check is the comparison of all products. -/
theorem checkSpacegroupRep_true_iff {rots : Fin n → M3} {trans : Fin n → V3} {k : V3} {d : ℕ} {rep : RepArr n d}
    {z : Fin n → Fin n → ℂ} {rtol : ℝ} {T : Fin n → Fin n → Fin n}
    (hidx : ∀ i j, indexOf? rots (rots i * rots j) = some (T i j)) :
    checkSpacegroupRep rots trans k rep (some z) rtol = .ok true ↔ ∀ i j a b, IsCloseC rtol 1e-8
      (z i j * expPhase (dot3 k fun x => rotVec (rots i) (trans j) x + trans i x - trans (T i j) x) * rep (T i j) a b)
      ((rep i * rep j) a b) := by
  unfold checkSpacegroupRep
  rw [allLoop_true_iff]
  simp [spacegroupPair, hidx]

/-- **C10.** For any space-group operations and any k (and any extra scalar factor `z`, e.g. the spinor
factor system), a family of matrices `D` is a projective representation with factor system `z·μ` if and
only if the phase-multiplied family satisfies the space group law; unitarity is preserved both ways; and
`check_spacegroup_representation` accepts it. -/
theorem c10_small_representation {rots : Fin n → M3} (h : EnumeratesGroup rots)
    {T : Fin n → Fin n → Fin n} (hT : getCayleyTable rots = .ok T) (trans : Fin n → V3) (k : V3)
    (z : Fin n → Fin n → ℂ) {d : ℕ} (D : RepArr n d) :
    (IsProjRep T (fun i j => z i j * getFactorSystem rots trans k i j) D ↔
      SpaceGroupLaw rots trans k z (phaseMul trans k D)) ∧
    (IsUnitaryRep D ↔ IsUnitaryRep (phaseMul trans k D)) ∧
    (IsProjRep T (fun i j => z i j * getFactorSystem rots trans k i j) D →
      ∀ rtol, 0 ≤ rtol →
      checkSpacegroupRep rots trans k (phaseMul trans k D) (some z) rtol = .ok true) := by
  have hTs : ∀ i j l, rots i * rots j = rots l ↔ l = T i j := by
    intro i j l
    have := (cayley_none_spec hT i j).1
    constructor
    · intro hl; exact h.1 (hl.symm.trans this.symm)
    · rintro rfl; exact this.symm
  have hlaw : IsProjRep T (fun i j => z i j * getFactorSystem rots trans k i j) D ↔
      SpaceGroupLaw rots trans k z (phaseMul trans k D) := by
    have hone : ∀ i j, (D i * D j = (z i j * getFactorSystem rots trans k i j) • D (T i j) ↔
        phaseMul trans k D i * phaseMul trans k D j =
          (z i j * expPhase (dot3 k fun x => rotVec (rots i) (trans j) x + trans i x -
            trans (T i j) x)) • phaseMul trans k D (T i j)) := by
      intro i j
      unfold phaseMul
      rw [Matrix.smul_mul, Matrix.mul_smul, smul_smul, smul_smul, mul_assoc, ← small_law_aux]
      have hne : expPhase (dot3 k (trans i)) * expPhase (dot3 k (trans j)) ≠ 0 :=
        mul_ne_zero (expPhase_ne_zero _) (expPhase_ne_zero _)
      rw [show z i j * (expPhase (dot3 k (trans i)) * expPhase (dot3 k (trans j)) *
          getFactorSystem rots trans k i j) = (expPhase (dot3 k (trans i)) *
          expPhase (dot3 k (trans j))) * (z i j * getFactorSystem rots trans k i j) by ring,
        ← smul_smul (expPhase (dot3 k (trans i)) * expPhase (dot3 k (trans j)))]
      constructor
      · intro hh; rw [hh]
      · intro hh; exact (smul_right_injective _ hne) hh
    constructor
    · intro hD i j l hl
      rw [hTs] at hl
      subst hl
      have := (hone i j).1 (hD i j)
      rw [this, expPhase_spec]
      rfl
    · intro hΓ i j
      rw [hone]
      have := hΓ i j (T i j) ((hTs i j _).2 rfl)
      rw [this, expPhase_spec]
      rfl
  refine ⟨hlaw, ?_, ?_⟩
  · have : ∀ i, phaseMul trans k D i * (phaseMul trans k D i).conjTranspose =
        D i * (D i).conjTranspose := by
      intro i
      unfold phaseMul
      rw [Matrix.conjTranspose_smul, Matrix.smul_mul, Matrix.mul_smul, smul_smul]
      have h1 : expPhase (dot3 k (trans i)) * star (expPhase (dot3 k (trans i))) = 1 := by
        rw [Complex.star_def, Complex.mul_conj, Complex.normSq_eq_norm_sq, norm_expPhase]; simp
      rw [h1, one_smul]
    constructor
    · intro hD i; rw [this]; exact hD i
    · intro hD i; rw [← this]; exact hD i
  · intro hD rtol hr
    have hidx : ∀ i j, indexOf? rots (rots i * rots j) = some (T i j) := fun i j => by
      rw [indexOf?_eq_some_of_inj h.1]; exact (cayley_none_spec hT i j).1
    rw [checkSpacegroupRep_true_iff hidx]
    intro i j a b
    have := hlaw.1 hD i j (T i j) ((hTs i j _).2 rfl)
    rw [this, IsCloseC, Matrix.smul_apply, smul_eq_mul, expPhase_spec]
    have h2 : ∀ x : ℂ, ‖x - x‖ ≤ 1e-8 + rtol * ‖x‖ := by
      intro x; rw [sub_self, norm_zero]; positivity
    exact h2 _

/-- Non-vacuity of C10: the screw group 4_1 at k=(0,0,1/2); its 1-dimensional projective
representations satisfy the hypothesis, e.g. `D(i) = exp(iπ i/4 ·…)` for the trivial label. -/
example : ∃ T, getCayleyTable rotsC4 = .ok T ∧
    IsProjRep T (fun i j => 1 * getFactorSystem rotsC4 trans41 ![0, 0, 1/2] i j)
      (fun _ => (1 : Matrix (Fin 1) (Fin 1) ℂ)) := by
  obtain ⟨T, hT, _⟩ := c01_cayley_table_ordinary rotsC4_group
  refine ⟨T, hT, fun i j => ?_⟩
  have : getFactorSystem rotsC4 trans41 ![0, 0, 1/2] i j = 1 := by
    unfold getFactorSystem
    have h0 : dot3 (residual (rotsC4 i) ![0, 0, 1/2]) (trans41 j) = 0 := by
      fin_cases i <;> simp [dot3, residual, rotsC4, trans41, Fin.sum_univ_three]
    rw [h0, expPhase_zero]
  show _ = (1 * getFactorSystem rotsC4 trans41 ![0, 0, 1/2] i j) • _
  rw [this]
  simp

/-! ### C11, C12: regular representations -/

/-- **C11.** On a group, `get_regular_representation` returns 0/1 matrices whose entry `(i,j)` of matrix
`k` is 1 exactly when `R_k R_j = R_i`; they multiply like the group, each is a permutation matrix
(orthogonal), and the character is `|G|` at the identity and 0 elsewhere. -/
theorem c11_regular_representation {rots : Fin n → M3} (h : EnumeratesGroup rots) :
    ∃ reg, getRegularRepresentation rots = .ok reg ∧
      (∀ k i j, (reg k i j = 1 ↔ rots k * rots j = rots i) ∧ (reg k i j = 0 ∨ reg k i j = 1)) ∧
      (∀ k l m, rots k * rots l = rots m → reg k * reg l = reg m) ∧
      (∀ k, reg k * (reg k).transpose = 1 ∧ (reg k).transpose * reg k = 1) ∧
      (∀ k, (reg k).trace = if rots k = 1 then (n : ℤ) else 0) := by
  obtain ⟨T, hT, hspec, hg⟩ := c01_cayley_table_ordinary h
  refine ⟨fun k => Matrix.of fun i j => if i = T k j then 1 else 0, ?_, ?_, ?_, ?_, ?_⟩
  · unfold getRegularRepresentation; rw [hT]; rfl
  · intro k i j
    simp only [Matrix.of_apply]
    by_cases hi : i = T k j
    · rw [if_pos hi, ← hspec]; simp [hi]
    · rw [if_neg hi, ← hspec]; simp [Ne.symm hi]
  · intro k l m hm
    have hm' := (hspec k l m).2 hm
    have := regular_mul (R := ℤ) hg (μ := fun _ _ => 1) (by simp) k l
    simp only [one_smul] at this
    rw [this, hm']
  · intro k
    have h1 : (Matrix.of fun i j => if i = T k j then (1 : ℤ) else 0).transpose *
        (Matrix.of fun i j => if i = T k j then (1 : ℤ) else 0) = 1 := by
      ext i j
      simp only [Matrix.mul_apply, Matrix.transpose_apply, Matrix.of_apply, Matrix.one_apply]
      by_cases hij : i = j
      · subst hij; simp
      · rw [if_neg hij]
        apply Finset.sum_eq_zero
        intro x _
        by_cases hx : x = T k i
        · have : ¬ x = T k j := fun h2 => hij (table_left_cancel hg (hx.symm.trans h2))
          simp [this]
        · simp [hx]
    exact ⟨mul_eq_one_comm.1 h1, h1⟩
  · intro k
    simp only [Matrix.trace, Matrix.diag_apply, Matrix.of_apply]
    by_cases hk : rots k = 1
    · rw [if_pos hk]
      have : ∀ i, i = T k i := fun i => ((hspec k i i).2 (by rw [hk, Matrix.one_mul])).symm
      simp [← this]
    · rw [if_neg hk]
      apply Finset.sum_eq_zero
      intro i _
      rw [if_neg]
      intro hi
      apply hk
      have h3 := (hspec k i i).1 hi.symm
      obtain ⟨_, H, hH⟩ := h
      obtain ⟨g, _, hgi⟩ : rots i ∈ (fun g : GL (Fin 3) ℤ => (g : M3)) '' H := hH ▸ ⟨i, rfl⟩
      have h4 : rots k * (g : M3) = g := by simpa [hgi] using h3
      calc rots k = rots k * ((g : M3) * ((g⁻¹ : GL (Fin 3) ℤ) : M3)) := by
            rw [← Units.val_mul, mul_inv_cancel, Units.val_one, mul_one]
        _ = 1 := by
            rw [← Matrix.mul_assoc, h4, ← Units.val_mul, mul_inv_cancel, Units.val_one]

/-- Non-vacuity of C11. -/
example : EnumeratesGroup rotsC4 := rotsC4_group

/-- **C12.** For a group and a unimodular cocycle `μ`, `get_projective_regular_representation` returns
unitary matrices with `reg(k) reg(l) = μ(k,l) reg(kl)`, entry `(i,j)` of matrix `k` being `μ(k,j)` when
`R_k R_j = R_i` and 0 otherwise; the character vanishes off the identity, and equals `|G|` there when `μ`
is normalised. -/
theorem c12_projective_regular {rots : Fin n → M3} (h : EnumeratesGroup rots)
    {T : Fin n → Fin n → Fin n} (hT : getCayleyTable rots = .ok T) {μ : Fin n → Fin n → ℂ}
    (hμ : ∀ i j, ‖μ i j‖ = 1) (hc : IsCocycle T μ) :
    ∃ reg, getProjectiveRegularRepresentation rots μ = .ok reg ∧
      (∀ k i j, reg k i j = if rots k * rots j = rots i then μ k j else 0) ∧
      IsProjRep T μ reg ∧ IsUnitaryRep reg ∧
      (∀ k, rots k ≠ 1 → getCharacter reg k = 0) ∧
      (∀ k, rots k = 1 → (∀ j, μ k j = 1) → getCharacter reg k = n) := by
  obtain ⟨T', hT', hspec, hg⟩ := c01_cayley_table_ordinary h
  obtain rfl : T' = T := by rw [hT] at hT'; exact (Except.ok.inj hT').symm
  obtain ⟨reg0, hreg0, hentry0, _, _, htrace0⟩ := c11_regular_representation h
  refine ⟨fun k => Matrix.of fun i j => if i = T' k j then μ k j else 0, ?_, ?_, ?_, ?_, ?_, ?_⟩
  · unfold getProjectiveRegularRepresentation; rw [hT']; rfl
  · intro k i j
    simp only [Matrix.of_apply]
    by_cases hi : i = T' k j
    · rw [if_pos hi, if_pos ((hspec k j i).1 hi.symm)]
    · rw [if_neg hi, if_neg (fun h2 => hi ((hspec k j i).2 h2).symm)]
  · intro k l
    exact regular_mul hg hc k l
  · intro k
    rw [mul_eq_one_comm]
    ext i j
    simp only [Matrix.mul_apply, Matrix.conjTranspose_apply, Matrix.of_apply, Matrix.one_apply]
    by_cases hij : i = j
    · subst hij
      rw [if_pos rfl, Finset.sum_eq_single (T' k i)]
      · simp only [if_true]
        rw [mul_comm, Complex.star_def, Complex.mul_conj, Complex.normSq_eq_norm_sq, hμ]; simp
      · intro x _ hx; simp [hx]
      · intro hx; exact absurd (Finset.mem_univ _) hx
    · rw [if_neg hij]
      apply Finset.sum_eq_zero
      intro x _
      by_cases hx : x = T' k i
      · have : ¬ x = T' k j := fun h2 => hij (table_left_cancel hg (hx.symm.trans h2))
        simp [this]
      · simp [hx]
  · intro k hk
    have h0 := htrace0 k
    rw [if_neg hk, Matrix.trace] at h0
    unfold getCharacter
    apply Finset.sum_eq_zero
    intro i _
    simp only [Matrix.of_apply]
    rw [if_neg]
    intro hi
    have hall : ∀ i ∈ Finset.univ, (0 : ℤ) ≤ (reg0 k).diag i := by
      intro i _
      rcases (hentry0 k i i).2 with h2 | h2 <;> simp [Matrix.diag, h2]
    have h5 := (Finset.sum_eq_zero_iff_of_nonneg hall).1 h0 i (Finset.mem_univ _)
    rw [Matrix.diag_apply, (hentry0 k i i).1.2 ((hspec k i i).1 hi.symm)] at h5
    exact one_ne_zero h5
  · intro k hk hn
    unfold getCharacter
    have : ∀ i, i = T' k i := fun i => ((hspec k i i).2 (by rw [hk, Matrix.one_mul])).symm
    simp [← this, hn]

/-- Non-vacuity of C12: the factor system of the screw group 4_1. -/
example : ∃ T, getCayleyTable rotsC4 = .ok T ∧
    (∀ i j, ‖getFactorSystem rotsC4 trans41 ![1/2, 1/2, 1/2] i j‖ = 1) ∧
    IsCocycle T (getFactorSystem rotsC4 trans41 ![1/2, 1/2, 1/2]) := by
  obtain ⟨T, hT, _⟩ := c01_cayley_table_ordinary rotsC4_group
  have hk : ∀ i, FixesK (rotsC4 i) ![1/2, 1/2, 1/2] := by
    intro i a
    fin_cases i <;> fin_cases a <;> simp [rotsC4, Fin.sum_univ_three] <;>
      first
      | (refine ⟨0, ?_⟩; norm_num; done)
      | (refine ⟨-1, ?_⟩; norm_num)
  exact ⟨T, hT, (c08_factor_system_cocycle space41 hk hT).1,
    (c08_factor_system_cocycle space41 hk hT).2.1⟩

/-! ### C13: intertwiner -/

/-- **C13.** For unitary irreps with one factor system and any sequence of random matrices: if
`get_intertwiner` does not warn, the returned matrix intertwines, has determinant one and is unitary;
if it warns, it returns zero and every generated candidate was zero within `atol`. -/
theorem c13_intertwiner {T : Fin n → Fin n → Fin n} (hT : IsGroupTable T) {μ : Fin n → Fin n → ℂ}
    (hμ : ∀ g h, ‖μ g h‖ = 1) {d : ℕ} {D E : RepArr n d} (hD : IsProjRep T μ D) (hE : IsProjRep T μ E)
    (hDu : IsUnitaryRep D) (hEu : IsUnitaryRep E) (hDi : IsIrreducible D) (hEi : IsIrreducible E)
    (random : ℕ → Matrix (Fin d) (Fin d) ℂ) {atol : ℝ} (ha : 0 ≤ atol) (maxGen : ℕ) :
    ((getIntertwiner random D E atol maxGen).2 = false →
      (∀ g, D g * (getIntertwiner random D E atol maxGen).1 =
        (getIntertwiner random D E atol maxGen).1 * E g) ∧
      (getIntertwiner random D E atol maxGen).1.det = 1 ∧
      (getIntertwiner random D E atol maxGen).1 *
        (getIntertwiner random D E atol maxGen).1.conjTranspose = 1) ∧
    ((getIntertwiner random D E atol maxGen).2 = true →
      (getIntertwiner random D E atol maxGen).1 = 0 ∧
      ∀ t < maxGen, ∀ i j, ‖∑ g, (D g * random t * (E g).conjTranspose) i j‖ ≤ atol) := by
  have hcases := intertwinerLoop_cases D E ha ((List.range maxGen).map random)
  constructor
  · intro hw
    obtain ⟨B, _, hne, heq⟩ := hcases.1 hw
    have hint : ∀ g, D g * intertwinerSum D E B = intertwinerSum D E B * E g := by
      intro g
      rw [intertwinerSum_eq]
      exact table_avg_intertwines hT (ne_zero_of_norm_one hμ) hD hE hEu B g
    obtain ⟨S', h1, _⟩ := schur_equiv hDi hEi hint hne
    have hdet : (intertwinerSum D E B).det ≠ 0 := by
      have := congrArg Matrix.det h1
      rw [Matrix.det_mul, Matrix.det_one] at this
      exact left_ne_zero_of_mul_eq_one this
    obtain ⟨i0⟩ := hDi.1
    have hd : 0 < d := Nat.lt_of_le_of_lt (Nat.zero_le _) i0.2
    have hU : ∀ g, D g * (getIntertwiner random D E atol maxGen).1 =
        (getIntertwiner random D E atol maxGen).1 * E g := by
      intro g
      unfold getIntertwiner
      rw [heq, Matrix.mul_smul, Matrix.smul_mul, hint]
    have hdet1 : (getIntertwiner random D E atol maxGen).1.det = 1 := by
      unfold getIntertwiner
      rw [heq, det_scaled hd _ hdet]
    exact ⟨hU, hdet1, unitary_of_intertwines hDu hEu hEi hU (by rw [hdet1]; simp)⟩
  · intro hw
    obtain ⟨h0, hall⟩ := hcases.2 hw
    refine ⟨h0, fun t ht i j => ?_⟩
    have := hall (random t) (List.mem_map.2 ⟨t, List.mem_range.2 ht, rfl⟩) i j
    rwa [intertwinerSum_eq, Matrix.sum_apply] at this

/-- Non-vacuity of C13: the two-dimensional projective irrep of the Klein four-group. -/
example : IsGroupTable tblV4 ∧ (∀ g h, ‖μV4 g h‖ = 1) ∧ IsProjRep tblV4 μV4 repV4 ∧
    IsUnitaryRep repV4 ∧ IsIrreducible repV4 :=
  ⟨tblV4_group, μV4_norm, repV4_proj, repV4_unitary, repV4_irreducible⟩

/-! ### C14: character test -/

/-- **C14.** For unitary projective irreps of one factor system, of any dimensions,
`is_equivalent_irrep` applied to their characters is true exactly when they are equivalent. -/
theorem c14_equivalence_test {T : Fin n → Fin n → Fin n} (hT : IsGroupTable T)
    {μ : Fin n → Fin n → ℂ} (hμ : ∀ g h, ‖μ g h‖ = 1) {d e : ℕ} {D : RepArr n d} {E : RepArr n e}
    (hD : IsProjRep T μ D) (hE : IsProjRep T μ E) (hDu : IsUnitaryRep D) (hEu : IsUnitaryRep E)
    (hDi : IsIrreducible D) (hEi : IsIrreducible E) :
    IsEquivalentIrrep (charList D) (charList E) ↔ AreEquivalent D E := by
  unfold charList
  rw [isEquivalentIrrep_ofFn]
  have hsum : ∑ k, star (getCharacter D k) * getCharacter E k =
      ∑ g, (E g).trace * star (D g).trace :=
    Finset.sum_congr rfl fun g _ => mul_comm _ _
  rw [hsum]
  obtain ⟨h1, h2⟩ := table_char_orthogonality hT (ne_zero_of_norm_one hμ) hE hD hEu hEi hDi hDu
  constructor
  · intro h
    by_contra hne
    rw [h2 (fun h3 => hne (AreEquivalent.symm h3)), rintC_zero] at h
    have := table_pos hT
    exact absurd h.symm (by exact_mod_cast this.ne')
  · intro h
    rw [h1 (AreEquivalent.symm h), rintC_natCast]

/-- Non-vacuity of C14: see C13's example; here two inequivalent irreps of the Klein group's trivial
factor system. -/
example : ¬ AreEquivalent (fun _ : Fin 4 => (1 : Matrix (Fin 1) (Fin 1) ℂ))
    (fun g : Fin 4 => if g = 1 ∨ g = 2 then (-1 : Matrix (Fin 1) (Fin 1) ℂ) else 1) := by
  rintro h
  have := AreEquivalent.trace h 1
  norm_num [Matrix.trace] at this

/-! ### C17: Frobenius-Schur -/

/-- **C17.** For a unitary irrep of a finite group (more generally with any factor system of signs, the
ordinary case being all ones) `frobenius_schur_indicator` never raises, returns 1, -1 or 0; the value is
0 exactly when the irrep is inequivalent to its complex conjugate, 1 exactly when an invertible
symmetric intertwiner to the conjugate exists, -1 exactly when an invertible antisymmetric one exists. -/
theorem c17_frobenius_schur {T : Fin n → Fin n → Fin n} (hT : IsGroupTable T)
    {μ : Fin n → Fin n → ℂ} (hμ : ∀ g h, μ g h = 1 ∨ μ g h = -1) {d : ℕ} {D : RepArr n d}
    (hD : IsProjRep T μ D) (hDu : IsUnitaryRep D) (hDi : IsIrreducible D) :
    ∃ s : ℤ, frobeniusSchur D = .ok s ∧ (s = 1 ∨ s = -1 ∨ s = 0) ∧
      (s = 0 ↔ ¬ AreEquivalent D fun g => (D g).map star) ∧
      (s = 1 ↔ ∃ S : Matrix (Fin d) (Fin d) ℂ, IsUnit S ∧ S.transpose = S ∧
        ∀ g, D g * S = S * (D g).map star) ∧
      (s = -1 ↔ ∃ S : Matrix (Fin d) (Fin d) ℂ, IsUnit S ∧ S.transpose = -S ∧
        ∀ g, D g * S = S * (D g).map star) := by
  have hμ0 : ∀ g h, μ g h ≠ 0 := by
    intro g h; rcases hμ g h with h | h <;> rw [h] <;> norm_num
  have hμr : ∀ g h, star (μ g h) = μ g h := by
    intro g h; rcases hμ g h with h | h <;> rw [h] <;> simp
  have hn : (n : ℂ) ≠ 0 := by
    have := table_pos hT
    exact_mod_cast this.ne'
  have hval : ∀ c : ℤ, ∑ k, ∑ i, ∑ j, D k i j * D k j i = (n : ℂ) * (c : ℂ) → c ≤ 1 →
      frobeniusSchur D = .ok c := by
    intro c hc h1
    unfold frobeniusSchur
    simp only [hc, mul_div_cancel_left₀ _ hn]
    have : rint ((c : ℂ).re) = c := by
      have := rint_intCast c
      simpa using this
    rw [this, if_neg (by omega)]
  -- a symmetric and an antisymmetric intertwiner exclude each other
  have hsum : ∀ {S : Matrix (Fin d) (Fin d) ℂ} {c : ℤ}, IsUnit S → S.transpose = (c : ℂ) • S →
      (∀ g, D g * S = S * (D g).map star) →
      ∑ k, ∑ i, ∑ j, D k i j * D k j i = (n : ℂ) * (c : ℂ) := by
    rintro S c ⟨⟨S, S', h1, h2⟩, rfl⟩ hc hS
    exact fs_sum_of_intertwiner hT hμ0 hD hDu hDi h1 hS hc
  have hexcl : ∀ {a b : ℤ}, ∑ k, ∑ i, ∑ j, D k i j * D k j i = (n : ℂ) * (a : ℂ) →
      ∑ k, ∑ i, ∑ j, D k i j * D k j i = (n : ℂ) * (b : ℂ) → a = b := by
    intro a b ha hb
    have := mul_left_cancel₀ hn (ha.symm.trans hb)
    exact_mod_cast this
  have heq : ∀ {S : Matrix (Fin d) (Fin d) ℂ}, IsUnit S → (∀ g, D g * S = S * (D g).map star) →
      AreEquivalent D fun g => (D g).map star := by
    rintro S ⟨⟨S, S', h1, h2⟩, rfl⟩ hS
    exact ⟨S, S', h1, h2, hS⟩
  by_cases he : AreEquivalent D fun g => (D g).map star
  · obtain ⟨S, S', h1, h2, hS⟩ := he
    have hSu : IsUnit S := ⟨⟨S, S', h1, h2⟩, rfl⟩
    rcases conj_intertwiner_sym hDu hDi h1 hS with hsym | hanti
    · have h3 := hsum (c := 1) hSu (by rw [hsym]; simp) hS
      refine ⟨1, hval 1 h3 le_rfl, Or.inl rfl, ?_, ?_, ?_⟩
      · simp only [one_ne_zero, false_iff, not_not]; exact ⟨S, S', h1, h2, hS⟩
      · simp only [true_iff]; exact ⟨S, hSu, hsym, hS⟩
      · constructor
        · intro h; norm_num at h
        · rintro ⟨R, hR1, hR2, hR3⟩
          exact hexcl h3 (hsum (c := -1) hR1 (by rw [hR2]; simp) hR3)
    · have h3 := hsum (c := -1) hSu (by rw [hanti]; simp) hS
      refine ⟨-1, hval (-1) h3 (by norm_num), Or.inr (Or.inl rfl), ?_, ?_, ?_⟩
      · simp only [neg_eq_zero, one_ne_zero, false_iff, not_not]; exact ⟨S, S', h1, h2, hS⟩
      · constructor
        · intro h; norm_num at h
        · rintro ⟨R, hR1, hR2, hR3⟩
          exact hexcl h3 (hsum (c := 1) hR1 (by rw [hR2]; simp) hR3)
      · simp only [true_iff]; exact ⟨S, hSu, hanti, hS⟩
  · have h3 := fs_sum_of_not_equiv hT hμ0 hμr hD hDu hDi he
    have h4 : ∑ k, ∑ i, ∑ j, D k i j * D k j i = (n : ℂ) * ((0 : ℤ) : ℂ) := by rw [h3]; simp
    refine ⟨0, hval 0 h4 (by norm_num), Or.inr (Or.inr rfl), ?_, ?_, ?_⟩
    · exact ⟨fun _ => he, fun _ => rfl⟩
    · constructor
      · intro h; norm_num at h
      · rintro ⟨R, hR1, _, hR3⟩; exact absurd (heq hR1 hR3) he
    · constructor
      · intro h; norm_num at h
      · rintro ⟨R, hR1, _, hR3⟩; exact absurd (heq hR1 hR3) he

/-- Non-vacuity of C17. -/
example : IsGroupTable tblV4 ∧ (∀ g h, μV4 g h = 1 ∨ μV4 g h = -1) ∧ IsProjRep tblV4 μV4 repV4 ∧
    IsUnitaryRep repV4 ∧ IsIrreducible repV4 :=
  ⟨tblV4_group, μV4_real, repV4_proj, repV4_unitary, repV4_irreducible⟩

/-! ### C23: direct product -/

open scoped Kronecker in
/-- **C23.** `get_direct_product` raises ValueError exactly when the shapes are inconsistent; otherwise
it is the Kronecker product (row-major), so it multiplies with the product factor system, is unitary
when both factors are, and has the product character. -/
theorem c23_direct_product :
    (∀ {n1 n2 a b c e : ℕ} (rep1 : Fin n1 → Matrix (Fin a) (Fin b) ℂ)
      (rep2 : Fin n2 → Matrix (Fin c) (Fin e) ℂ),
      getDirectProduct rep1 rep2 = .error .valueError ↔ ¬ (b = a ∧ n2 = n1 ∧ e = c)) ∧
    (∀ {d1 d2 : ℕ} (D : RepArr n d1) (E : RepArr n d2), ∃ F, getDirectProduct D E = .ok F ∧
      (∀ k x y, F k (finProdFinEquiv x) (finProdFinEquiv y) = D k x.1 y.1 * E k x.2 y.2) ∧
      (∀ T μ ν, IsProjRep T μ D → IsProjRep T ν E → IsProjRep T (fun g h => μ g h * ν g h) F) ∧
      (IsUnitaryRep D → IsUnitaryRep E → IsUnitaryRep F) ∧
      (∀ k, getCharacter F k = getCharacter D k * getCharacter E k)) := by
  constructor
  · intro n1 n2 a b c e rep1 rep2
    unfold getDirectProduct
    split_ifs with h
    · simp [h]
    · simp [h]
  · intro d1 d2 D E
    let F : RepArr n (d1 * d2) := fun k => (D k ⊗ₖ E k).reindex finProdFinEquiv finProdFinEquiv
    have hmul : ∀ (A A' : Matrix (Fin d1) (Fin d1) ℂ) (B B' : Matrix (Fin d2) (Fin d2) ℂ),
        (A ⊗ₖ B).reindex finProdFinEquiv finProdFinEquiv *
          (A' ⊗ₖ B').reindex finProdFinEquiv finProdFinEquiv =
        ((A * A') ⊗ₖ (B * B')).reindex finProdFinEquiv finProdFinEquiv := by
      intro A A' B B'
      rw [Matrix.mul_kronecker_mul, Matrix.reindex_apply, Matrix.reindex_apply, Matrix.reindex_apply,
        Matrix.submatrix_mul_equiv]
    refine ⟨F, ?_, ?_, ?_, ?_, ?_⟩
    · unfold getDirectProduct
      rw [dif_pos ⟨rfl, rfl, rfl⟩]
      rfl
    · intro k x y
      simp [F, Matrix.kroneckerMap_apply]
    · intro T μ ν hD hE g h
      simp only [F]
      rw [hmul, hD g h, hE g h]
      ext x y
      simp only [Matrix.reindex_apply, Matrix.submatrix_apply, Matrix.kroneckerMap_apply,
        Matrix.smul_apply, smul_eq_mul]
      ring
    · intro hD hE k
      have hct : (F k).conjTranspose =
          ((D k).conjTranspose ⊗ₖ (E k).conjTranspose).reindex finProdFinEquiv finProdFinEquiv := by
        ext x y
        simp [F, Matrix.kroneckerMap_apply]
      rw [hct]
      simp only [F]
      rw [hmul, hD k, hE k, Matrix.one_kronecker_one]
      simp
    · intro k
      unfold getCharacter
      rw [← Equiv.sum_comp finProdFinEquiv, Finset.sum_mul_sum, Fintype.sum_prod_type]
      simp [F, Matrix.kroneckerMap_apply]

/-- Non-vacuity of C23: the two-dimensional projective irrep times itself. -/
example : IsProjRep tblV4 μV4 repV4 ∧ IsUnitaryRep repV4 := ⟨repV4_proj, repV4_unitary⟩

end Spgrep
