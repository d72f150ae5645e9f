/-
Helper lemmas about the models of representation.py.
-/
import Verif.Proofs.TableRep
import Verif.Proofs.MatrixGroup

namespace Spgrep

open Spec Matrix Module

variable {n : ℕ}

/-- The phase-multiplied matrices built in irreps.py:87-95. -/
theorem small_law_aux {rots : Fin n → M3} {trans : Fin n → V3} {k : V3} {i j : Fin n} {w : V3} :
    expPhase (dot3 k (trans i)) * expPhase (dot3 k (trans j)) *
        getFactorSystem rots trans k i j =
      expPhase (dot3 k fun x => rotVec (rots i) (trans j) x + trans i x - w x) * expPhase (dot3 k w) := by
  unfold getFactorSystem
  rw [← expPhase_add, ← expPhase_add, ← expPhase_add]
  congr 1
  unfold dot3 rotVec residual
  simp only [Fin.sum_univ_three]
  ring

theorem expPhase_spec (x : ℝ) : expPhase x = Complex.exp (-2 * Real.pi * Complex.I * (x : ℂ)) := by
  unfold expPhase; congr 1; ring

/-- Common core of C11 and C12 over any commutative ring. -/
theorem regular_mul {R : Type*} [CommSemiring R] {T : Fin n → Fin n → Fin n} (hT : IsGroupTable T)
    {μ : Fin n → Fin n → R} (hc : ∀ i j k, μ i (T j k) * μ j k = μ (T i j) k * μ i j) (k l : Fin n) :
    (Matrix.of fun i j => if i = T k j then μ k j else 0 : Matrix (Fin n) (Fin n) R) *
      (Matrix.of fun i j => if i = T l j then μ l j else 0) =
      μ k l • Matrix.of fun i j => if i = T (T k l) j then μ (T k l) j else 0 := by
  ext i j
  simp only [Matrix.mul_apply, Matrix.of_apply, Matrix.smul_apply, smul_eq_mul]
  rw [Finset.sum_eq_single (T l j)]
  · simp only [if_true]
    by_cases hi : i = T k (T l j)
    · rw [if_pos hi, if_pos (by rw [hi, hT.assoc]), hc, mul_comm]
    · rw [if_neg hi, if_neg (by rwa [hT.assoc]), zero_mul, mul_zero]
  · intro x _ hx
    rw [if_neg hx, mul_zero]
  · intro hx
    exact absurd (Finset.mem_univ _) hx

theorem table_left_cancel {T : Fin n → Fin n → Fin n} (hT : IsGroupTable T) {k a b : Fin n}
    (h : T k a = T k b) : a = b := by
  obtain ⟨e, h1, h2, h3⟩ := hT.one_inv
  obtain ⟨b', hb1, hb2⟩ := h3 k
  have := congrArg (T b') h
  rwa [← hT.assoc, ← hT.assoc, hb2, h1, h1] at this

theorem intertwinerSum_eq {d : ℕ} (D E : RepArr n d) (B : Matrix (Fin d) (Fin d) ℂ) :
    intertwinerSum D E B = ∑ g, D g * B * (E g).conjTranspose := by
  ext i j
  simp only [intertwinerSum, Matrix.of_apply, Matrix.sum_apply, Matrix.mul_apply,
    Matrix.conjTranspose_apply, Finset.sum_mul]
  apply Finset.sum_congr rfl
  intro k _
  rw [Finset.sum_comm]

theorem intertwinerLoop_cases {d : ℕ} (D E : RepArr n d) {atol : ℝ} (ha : 0 ≤ atol)
    (L : List (Matrix (Fin d) (Fin d) ℂ)) :
    ((intertwinerLoop D E atol L).2 = false →
      ∃ B ∈ L, intertwinerSum D E B ≠ 0 ∧ (intertwinerLoop D E atol L).1 =
        ((intertwinerSum D E B).det ^ ((1 : ℂ) / d))⁻¹ • intertwinerSum D E B) ∧
    ((intertwinerLoop D E atol L).2 = true →
      (intertwinerLoop D E atol L).1 = 0 ∧
      ∀ B ∈ L, ∀ i j, ‖intertwinerSum D E B i j‖ ≤ atol) := by
  induction L with
  | nil => simp [intertwinerLoop]
  | cons B L ih =>
    unfold intertwinerLoop
    simp only
    split_ifs with hc
    · refine ⟨fun h => ?_, fun h => ?_⟩
      · obtain ⟨B', hB', h1, h2⟩ := ih.1 h
        exact ⟨B', List.mem_cons_of_mem _ hB', h1, h2⟩
      · obtain ⟨h1, h2⟩ := ih.2 h
        refine ⟨h1, fun B' hB' i j => ?_⟩
        rcases List.mem_cons.1 hB' with rfl | hB'
        · have := hc i j
          simpa [IsCloseC] using this
        · exact h2 B' hB' i j
    · refine ⟨fun _ => ⟨B, List.mem_cons_self, ?_, rfl⟩, fun h => by simp at h⟩
      intro h0
      apply hc
      intro i j
      simp [IsCloseC, h0, ha]

/-- Scaling a `d × d` matrix so that the determinant is one (`d ≥ 1`, non-zero determinant). -/
theorem det_scaled {d : ℕ} (hd : 0 < d) (M : Matrix (Fin d) (Fin d) ℂ) (hM : M.det ≠ 0) :
    ((M.det ^ ((1 : ℂ) / d))⁻¹ • M).det = 1 := by
  rw [Matrix.det_smul, Fintype.card_fin, inv_pow]
  have : (M.det ^ ((1 : ℂ) / d)) ^ d = M.det := by
    rw [one_div, Complex.cpow_nat_inv_pow _ (by omega)]
  rw [this, inv_mul_cancel₀ hM]

/-- A non-zero intertwiner of unitary irreps, once its determinant is one, is unitary. -/
theorem unitary_of_intertwines {I : Type*} {d : ℕ} {D E : I → Matrix (Fin d) (Fin d) ℂ}
    (hDu : IsUnitaryRep D) (hEu : IsUnitaryRep E) (hE : IsIrreducible E)
    {U : Matrix (Fin d) (Fin d) ℂ} (hU : ∀ g, D g * U = U * E g) (hdet : ‖U.det‖ = 1) :
    U * U.conjTranspose = 1 := by
  rw [mul_eq_one_comm]
  have h1 : ∀ g, U.conjTranspose * (D g).conjTranspose = (E g).conjTranspose * U.conjTranspose := by
    intro g
    rw [← Matrix.conjTranspose_mul, hU g, Matrix.conjTranspose_mul]
  have h2 : ∀ g, U.conjTranspose * D g = E g * U.conjTranspose := by
    intro g
    calc U.conjTranspose * D g = E g * (E g).conjTranspose * U.conjTranspose * D g := by
          rw [hEu g, Matrix.one_mul]
      _ = E g * (U.conjTranspose * (D g).conjTranspose) * D g := by
          rw [h1]; simp only [Matrix.mul_assoc]
      _ = E g * U.conjTranspose * ((D g).conjTranspose * D g) := by simp only [Matrix.mul_assoc]
      _ = E g * U.conjTranspose := by rw [IsUnitaryRep.mul_left hDu, Matrix.mul_one]
  obtain ⟨c, hc⟩ := schur_scalar hE (M := U.conjTranspose * U) (by
    intro g
    rw [← Matrix.mul_assoc, ← h2, Matrix.mul_assoc, hU, Matrix.mul_assoc])
  obtain ⟨i0⟩ := hE.1
  -- the scalar is a non-negative real
  have hcre : c = ((∑ k, ‖U k i0‖ ^ 2 : ℝ) : ℂ) := by
    have h3 := congrFun (congrFun hc i0) i0
    simp only [Matrix.mul_apply, Matrix.conjTranspose_apply, Matrix.smul_apply, Matrix.one_apply_eq,
      smul_eq_mul, mul_one] at h3
    rw [← h3]
    push_cast
    apply Finset.sum_congr rfl
    intro k _
    rw [Complex.star_def, mul_comm, Complex.mul_conj, Complex.normSq_eq_norm_sq]
    push_cast; rfl
  have hc0 : 0 ≤ ∑ k, ‖U k i0‖ ^ 2 := Finset.sum_nonneg fun _ _ => by positivity
  have hd1 := congrArg Matrix.det hc
  rw [Matrix.det_mul, Matrix.det_smul, Matrix.det_one, mul_one, Fintype.card_fin,
    Matrix.det_conjTranspose] at hd1
  have hnorm := congrArg norm hd1
  rw [norm_mul, norm_star, hdet, norm_pow, one_mul] at hnorm
  have hd : d ≠ 0 := by
    rintro rfl; exact i0.elim0
  have hcn : ‖c‖ = 1 := (pow_eq_one_iff_of_nonneg (norm_nonneg c) hd).1 hnorm.symm
  rw [hcre, Complex.norm_real, Real.norm_of_nonneg hc0] at hcn
  rw [hc, hcre, hcn]; simp

theorem trace_sq_sum {d : ℕ} (D : RepArr n d) :
    ∑ k, ∑ i, ∑ j, D k i j * D k j i = ∑ k, (D k * D k).trace := by
  simp [Matrix.trace, Matrix.mul_apply]

section FS

variable {T : Fin n → Fin n → Fin n} {μ : Fin n → Fin n → ℂ} {d : ℕ} {D : RepArr n d}

theorem conj_projRep (hμr : ∀ g h, star (μ g h) = μ g h) (hD : IsProjRep T μ D) :
    IsProjRep T μ fun g => (D g).map star := by
  intro g h
  ext a b
  have h2 := congrArg star (congrFun (congrFun (hD g h) a) b)
  simp only [Matrix.map_apply, Matrix.mul_apply, Matrix.smul_apply, smul_eq_mul, star_sum,
    star_mul', hμr] at h2 ⊢
  exact h2

theorem conj_unitary (hD : IsUnitaryRep D) : IsUnitaryRep fun g => (D g).map star := by
  intro g
  ext a b
  have h := congrArg star (congrFun (congrFun (hD g) a) b)
  simp only [Matrix.mul_apply, Matrix.conjTranspose_apply, star_sum, star_mul', star_star,
    Matrix.map_apply] at h ⊢
  rw [h, Matrix.one_apply]
  split_ifs <;> simp

theorem conj_irreducible (hD : IsIrreducible D) : IsIrreducible fun g => (D g).map star := by
  refine ⟨hD.1, fun W hW => ?_⟩
  -- conjugate subspace
  let W' : Submodule ℂ (Fin d → ℂ) :=
    { carrier := {v | (fun i => star (v i)) ∈ W}
      add_mem' := by
        intro v w hv hw
        have := W.add_mem hv hw
        simpa [Pi.add_def] using this
      zero_mem' := by
        have := W.zero_mem
        simpa [Pi.zero_def] using this
      smul_mem' := by
        intro c v hv
        have := W.smul_mem (star c) hv
        simpa [Pi.smul_def] using this }
  have hmem : ∀ v, v ∈ W' ↔ (fun i => star (v i)) ∈ W := fun v => Iff.rfl
  have hinv : ∀ g, ∀ v ∈ W', (D g).mulVec v ∈ W' := by
    intro g v hv
    rw [hmem] at hv ⊢
    have := hW g _ hv
    convert this using 1
    funext i
    simp [Matrix.mulVec, dotProduct]
  rcases hD.2 W' hinv with h | h
  · left
    rw [Submodule.eq_bot_iff]
    intro w hw
    have : (fun i => star (w i)) ∈ W' := by
      rw [hmem]; simpa using hw
    rw [h, Submodule.mem_bot] at this
    funext i
    have := congrFun this i
    simpa using this
  · right
    rw [Submodule.eq_top_iff']
    intro w
    have : (fun i => star (w i)) ∈ W' := by rw [h]; trivial
    rw [hmem] at this
    simpa using this

/-- An intertwiner between a unitary irrep and its conjugate is symmetric or antisymmetric. -/
theorem conj_intertwiner_sym (hDu : IsUnitaryRep D) (hDi : IsIrreducible D)
    {S S' : Matrix (Fin d) (Fin d) ℂ} (hSS : S * S' = 1)
    (hS : ∀ g, D g * S = S * (D g).map star) :
    S.transpose = S ∨ S.transpose = -S := by
  have h0 : ∀ g, D g * S * (D g).transpose = S := by
    intro g
    rw [hS g, Matrix.mul_assoc]
    have := conj_unitary hDu g
    have h2 : ((D g).map star).conjTranspose = (D g).transpose := by
      ext a b; simp
    rw [h2] at this
    rw [this, Matrix.mul_one]
  have h1 : ∀ g, D g * S.transpose * (D g).transpose = S.transpose := by
    intro g
    have := congrArg Matrix.transpose (h0 g)
    rw [Matrix.transpose_mul, Matrix.transpose_mul, Matrix.transpose_transpose] at this
    rw [Matrix.mul_assoc]; exact this
  have h2 : ∀ g, D g * (S.transpose * S') = S.transpose * S' * D g := by
    intro g
    have hs : S'  * S = 1 := mul_eq_one_comm.1 hSS
    have ht : IsUnit (D g).transpose := by
      have := IsUnitaryRep.isUnit hDu g
      rwa [Matrix.isUnit_transpose]
    -- S' = (D g)ᵀ⁻¹ S' (D g)⁻¹ from S = D S Dᵀ
    obtain ⟨⟨Dt, Di, hd1, hd2⟩, hd⟩ := ht
    simp only at hd
    subst hd
    have e2 : S' * D g * S = Di := by
      have e3 : S' * (D g * S * (D g).transpose) = 1 := by rw [h0]; exact hs
      calc S' * D g * S = S' * D g * S * ((D g).transpose * Di) := by rw [hd1, Matrix.mul_one]
        _ = S' * (D g * S * (D g).transpose) * Di := by simp only [Matrix.mul_assoc]
        _ = Di := by rw [e3, Matrix.one_mul]
    calc D g * (S.transpose * S') = D g * S.transpose * ((D g).transpose * Di) * S' := by
          rw [hd1, Matrix.mul_one, Matrix.mul_assoc]
      _ = (D g * S.transpose * (D g).transpose) * Di * S' := by simp only [Matrix.mul_assoc]
      _ = S.transpose * (S' * D g * S) * S' := by rw [h1, e2]
      _ = S.transpose * S' * D g * (S * S') := by simp only [Matrix.mul_assoc]
      _ = S.transpose * S' * D g := by rw [hSS, Matrix.mul_one]
  obtain ⟨c, hc⟩ := schur_scalar hDi h2
  have h3 : S.transpose = c • S := by
    calc S.transpose = S.transpose * (S' * S) := by rw [mul_eq_one_comm.1 hSS, Matrix.mul_one]
      _ = c • S := by rw [← Matrix.mul_assoc, hc, Matrix.smul_mul, Matrix.one_mul]
  have h4 : S = (c * c) • S := by
    calc S = S.transpose.transpose := by simp
      _ = c • S.transpose := by rw [h3, Matrix.transpose_smul]; rw [h3]
      _ = (c * c) • S := by rw [h3, smul_smul]
  have hS0 : S ≠ 0 := by
    rintro rfl
    rw [Matrix.zero_mul] at hSS
    obtain ⟨i⟩ := hDi.1
    have := congrFun (congrFun hSS i) i
    simp at this
  have h5 : c * c = 1 := by
    by_contra hne
    have : (c * c - 1) • S = 0 := by rw [sub_smul, ← h4, one_smul, sub_self]
    rcases smul_eq_zero.1 this with h | h
    · exact hne (sub_eq_zero.1 h)
    · exact hS0 h
  rcases mul_self_eq_one_iff.1 h5 with h | h
  · left; rw [h3, h, one_smul]
  · right; rw [h3, h, neg_smul, one_smul]

theorem fs_sum_of_intertwiner (hT : IsGroupTable T) (hμ : ∀ g h, μ g h ≠ 0) (hD : IsProjRep T μ D)
    (hDu : IsUnitaryRep D) (hDi : IsIrreducible D) {S S' : Matrix (Fin d) (Fin d) ℂ} (hSS : S * S' = 1)
    (hS : ∀ g, D g * S = S * (D g).map star) {c : ℂ} (hc : S.transpose = c • S) :
    ∑ k, ∑ i, ∑ j, D k i j * D k j i = (n : ℂ) * c := by
  have hDg : ∀ g, D g = S * (D g).map star * S' := by
    intro g; rw [← hS, Matrix.mul_assoc, hSS, Matrix.mul_one]
  have h1 : ∀ k i j, D k i j * D k j i =
      ∑ b, ∑ a, S j a * S' b i * (D k i j * star (D k a b)) := by
    intro k i j
    conv_lhs => rw [show D k j i = (S * (D k).map star * S') j i by rw [← hDg]]
    simp only [Matrix.mul_apply, Matrix.map_apply, Finset.sum_mul, Finset.mul_sum]
    refine Finset.sum_congr rfl fun b _ => Finset.sum_congr rfl fun a _ => ?_
    ring
  have h2 : ∑ k, ∑ i, ∑ j, D k i j * D k j i =
      ∑ i, ∑ j, ∑ b, ∑ a, S j a * S' b i * ∑ k, D k i j * star (D k a b) := by
    simp only [h1, Finset.mul_sum]
    rw [Finset.sum_comm]
    refine Finset.sum_congr rfl fun i _ => ?_
    rw [Finset.sum_comm]
    refine Finset.sum_congr rfl fun j _ => ?_
    rw [Finset.sum_comm]
    refine Finset.sum_congr rfl fun b _ => ?_
    rw [Finset.sum_comm]
  rw [h2]
  simp only [table_schur_orthogonality_self hT hμ hD hDi hDu]
  have h3 : ∀ i j, ∑ b, ∑ a, S j a * S' b i *
      (if i = a ∧ j = b then (n : ℂ) / (Fintype.card (Fin d) : ℂ) else 0) =
      S j i * S' j i * ((n : ℂ) / (d : ℂ)) := by
    intro i j
    rw [Finset.sum_eq_single j, Finset.sum_eq_single i]
    · simp
    · intro a _ ha; simp [Ne.symm ha]
    · intro h; exact absurd (Finset.mem_univ _) h
    · intro b _ hb; simp [Ne.symm hb]
    · intro h; exact absurd (Finset.mem_univ _) h
  simp only [h3]
  have h4 : ∑ i, ∑ j, S j i * S' j i = c * d := by
    have h5 : ∑ i, ∑ j, S j i * S' j i = (S.transpose * S').trace := by
      simp [Matrix.trace, Matrix.mul_apply]
    rw [h5, hc, Matrix.smul_mul, hSS, Matrix.trace_smul, Matrix.trace_one, Fintype.card_fin,
      smul_eq_mul]
  simp only [← Finset.sum_mul]
  rw [h4]
  obtain ⟨i0⟩ := hDi.1
  have hd : (d : ℂ) ≠ 0 := by
    have : d ≠ 0 := by rintro rfl; exact i0.elim0
    exact_mod_cast this
  field_simp

theorem fs_sum_of_not_equiv (hT : IsGroupTable T) (hμ : ∀ g h, μ g h ≠ 0)
    (hμr : ∀ g h, star (μ g h) = μ g h) (hD : IsProjRep T μ D)
    (hDu : IsUnitaryRep D) (hDi : IsIrreducible D)
    (hne : ¬ AreEquivalent D fun g => (D g).map star) :
    ∑ k, ∑ i, ∑ j, D k i j * D k j i = 0 := by
  have key := table_schur_orthogonality_ne hT hμ hD (conj_projRep hμr hD) hDi (conj_irreducible hDi)
    (conj_unitary hDu) hne
  rw [Finset.sum_comm]
  apply Finset.sum_eq_zero
  intro i _
  rw [Finset.sum_comm]
  apply Finset.sum_eq_zero
  intro j _
  have := key i j i j
  simpa using this

end FS

end Spgrep
