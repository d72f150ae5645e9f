/-
Characters of projective representations: the inner product of characters counts intertwiners.
-/
import Verif.Proofs.RepTheory
import Mathlib.LinearAlgebra.Matrix.StdBasis

set_option linter.unusedSectionVars false

namespace Spgrep

open Spec Matrix Module

variable {G : Type*} [Group G] [Fintype G]
variable {ι κ : Type*} [Fintype ι] [Fintype κ] [DecidableEq ι] [DecidableEq κ]

/-- The space of intertwiners. -/
def homSub {I : Type*} (D : I → Matrix ι ι ℂ) (E : I → Matrix κ κ ℂ) : Submodule ℂ (Matrix ι κ ℂ) where
  carrier := {S | ∀ g, D g * S = S * E g}
  add_mem' := by
    intro a b ha hb g
    rw [Matrix.mul_add, Matrix.add_mul, ha g, hb g]
  zero_mem' := by intro g; simp
  smul_mem' := by
    intro c a ha g
    rw [Matrix.mul_smul, Matrix.smul_mul, ha g]

theorem mem_homSub {I : Type*} {D : I → Matrix ι ι ℂ} {E : I → Matrix κ κ ℂ} {S : Matrix ι κ ℂ} :
    S ∈ homSub D E ↔ ∀ g, D g * S = S * E g := Iff.rfl

theorem mul_single_mul_apply (A : Matrix ι ι ℂ) (C : Matrix κ κ ℂ) (i j : ι) (k l : κ) :
    (A * Matrix.single j k (1 : ℂ) * C) i l = A i j * C k l := by
  simp [Matrix.mul_apply, Matrix.single_apply, ite_and, Finset.sum_ite_eq]

/-- `B ↦ A B C` as a linear map. -/
def sandwich (A : Matrix ι ι ℂ) (C : Matrix κ κ ℂ) : Matrix ι κ ℂ →ₗ[ℂ] Matrix ι κ ℂ where
  toFun B := A * B * C
  map_add' := by intro a b; rw [Matrix.mul_add, Matrix.add_mul]
  map_smul' := by intro c a; simp

theorem trace_sandwich (A : Matrix ι ι ℂ) (C : Matrix κ κ ℂ) :
    LinearMap.trace ℂ _ (sandwich A C) = A.trace * C.trace := by
  rw [LinearMap.trace_eq_matrix_trace ℂ (Matrix.stdBasis ℂ ι κ), Matrix.trace,
    Fintype.sum_prod_type, Matrix.trace, Matrix.trace, Finset.sum_mul_sum]
  apply Finset.sum_congr rfl
  intro i _
  apply Finset.sum_congr rfl
  intro k _
  rw [Matrix.diag_apply, LinearMap.toMatrix_apply, Matrix.stdBasis_eq_single]
  simp only [sandwich, LinearMap.coe_mk, AddHom.coe_mk, Matrix.diag_apply]
  have : ((Matrix.stdBasis ℂ ι κ).repr (A * Matrix.single i k (1 : ℂ) * C)) (i, k) =
      (A * Matrix.single i k (1 : ℂ) * C) i k := by
    simp [Matrix.stdBasis]
  rw [this, mul_single_mul_apply]

/-- The averaging projection. -/
noncomputable def avgLin (D : G → Matrix ι ι ℂ) (E : G → Matrix κ κ ℂ) :
    Matrix ι κ ℂ →ₗ[ℂ] Matrix ι κ ℂ :=
  (Fintype.card G : ℂ)⁻¹ • ∑ g, sandwich (D g) (E g)⁻¹

theorem avgLin_apply (D : G → Matrix ι ι ℂ) (E : G → Matrix κ κ ℂ) (B : Matrix ι κ ℂ) :
    avgLin D E B = (Fintype.card G : ℂ)⁻¹ • avg D E B := by
  simp [avgLin, avg, sandwich, LinearMap.sum_apply]

theorem card_ne_zero' : (Fintype.card G : ℂ) ≠ 0 := by
  exact_mod_cast Fintype.card_ne_zero

theorem avgLin_isProj {μ : G → G → ℂ} (hμ : ∀ g h, μ g h ≠ 0) {D : G → Matrix ι ι ℂ}
    {E : G → Matrix κ κ ℂ} (hD : IsProjRep (· * ·) μ D) (hE : IsProjRep (· * ·) μ E)
    (hEu : ∀ g, IsUnit (E g)) : LinearMap.IsProj (homSub D E) (avgLin D E) where
  map_mem B := by
    intro g
    rw [avgLin_apply, Matrix.mul_smul, Matrix.smul_mul, avg_intertwines hμ hD hE hEu]
  map_id B hB := by
    rw [avgLin_apply]
    have : avg D E B = (Fintype.card G : ℂ) • B := by
      unfold avg
      have h1 : ∀ g, D g * B * (E g)⁻¹ = B := by
        intro g
        rw [mem_homSub.1 hB g, Matrix.mul_assoc,
          Matrix.mul_nonsing_inv _ ((Matrix.isUnit_iff_isUnit_det _).1 (hEu g)), Matrix.mul_one]
      simp only [h1, Finset.sum_const, Finset.card_univ]
      rw [← Nat.cast_smul_eq_nsmul ℂ]
    rw [this, smul_smul, inv_mul_cancel₀ card_ne_zero', one_smul]

/-- The character inner product is the group order times the number of independent intertwiners. -/
theorem sum_trace_mul_trace_inv {μ : G → G → ℂ} (hμ : ∀ g h, μ g h ≠ 0) {D : G → Matrix ι ι ℂ}
    {E : G → Matrix κ κ ℂ} (hD : IsProjRep (· * ·) μ D) (hE : IsProjRep (· * ·) μ E)
    (hEu : ∀ g, IsUnit (E g)) :
    ∑ g, (D g).trace * ((E g)⁻¹).trace = (Fintype.card G : ℂ) * (finrank ℂ (homSub D E) : ℂ) := by
  have h := (avgLin_isProj hμ hD hE hEu).trace
  unfold avgLin at h
  rw [map_smul, map_sum] at h
  simp only [trace_sandwich, smul_eq_mul] at h
  rw [← h, mul_inv_cancel_left₀ card_ne_zero']

theorem sum_char_conj {μ : G → G → ℂ} (hμ : ∀ g h, μ g h ≠ 0) {D : G → Matrix ι ι ℂ}
    {E : G → Matrix κ κ ℂ} (hD : IsProjRep (· * ·) μ D) (hE : IsProjRep (· * ·) μ E)
    (hEu : IsUnitaryRep E) :
    ∑ g, (D g).trace * star (E g).trace = (Fintype.card G : ℂ) * (finrank ℂ (homSub D E) : ℂ) := by
  rw [← sum_trace_mul_trace_inv hμ hD hE (IsUnitaryRep.isUnit hEu)]
  apply Finset.sum_congr rfl
  intro g _
  rw [IsUnitaryRep.inv hEu, Matrix.trace_conjTranspose]

theorem finrank_homSub_self {I : Type*} {D : I → Matrix ι ι ℂ} (hD : IsIrreducible D) :
    finrank ℂ (homSub D D) = 1 := by
  have : Nonempty ι := hD.1
  have h1 : (1 : Matrix ι ι ℂ) ∈ homSub D D := by intro g; simp
  rw [finrank_eq_one_iff_of_nonzero' (⟨1, h1⟩ : homSub D D)]
  · rintro ⟨M, hM⟩
    obtain ⟨c, hc⟩ := schur_scalar hD hM
    exact ⟨c, Subtype.ext hc.symm⟩
  · intro h
    have := congrArg Subtype.val h
    simp at this

theorem homSub_eq_bot_of_not_equiv {I : Type*} {D : I → Matrix ι ι ℂ} {E : I → Matrix κ κ ℂ}
    (hD : IsIrreducible D) (hE : IsIrreducible E) (hne : ¬ AreEquivalent D E) : homSub D E = ⊥ := by
  rw [Submodule.eq_bot_iff]
  intro S hS
  by_contra hS0
  obtain ⟨S', h1, h2⟩ := schur_equiv hD hE hS hS0
  exact hne ⟨S, S', h1, h2, hS⟩

theorem AreEquivalent.refl {I : Type*} (D : I → Matrix ι ι ℂ) : AreEquivalent D D :=
  ⟨1, 1, by simp, by simp, by simp⟩

theorem AreEquivalent.symm {I : Type*} {D : I → Matrix ι ι ℂ} {E : I → Matrix κ κ ℂ}
    (h : AreEquivalent D E) : AreEquivalent E D := by
  obtain ⟨S, S', h1, h2, h3⟩ := h
  refine ⟨S', S, h2, h1, fun g => ?_⟩
  calc E g * S' = (S' * S) * E g * S' := by rw [h2, Matrix.one_mul]
    _ = S' * (S * E g) * S' := by simp only [Matrix.mul_assoc]
    _ = S' * D g * (S * S') := by rw [← h3]; simp only [Matrix.mul_assoc]
    _ = S' * D g := by rw [h1, Matrix.mul_one]

theorem AreEquivalent.trans {I : Type*} {τ : Type*} [Fintype τ] [DecidableEq τ]
    {D : I → Matrix ι ι ℂ} {E : I → Matrix κ κ ℂ}
    {F : I → Matrix τ τ ℂ} (h : AreEquivalent D E) (h' : AreEquivalent E F) : AreEquivalent D F := by
  obtain ⟨S, S', h1, h2, h3⟩ := h
  obtain ⟨R, R', k1, k2, k3⟩ := h'
  refine ⟨S * R, R' * S', ?_, ?_, fun g => ?_⟩
  · rw [Matrix.mul_assoc, ← Matrix.mul_assoc R, k1, Matrix.one_mul, h1]
  · rw [Matrix.mul_assoc, ← Matrix.mul_assoc S', h2, Matrix.one_mul, k2]
  · rw [← Matrix.mul_assoc, h3, Matrix.mul_assoc, k3, Matrix.mul_assoc]

theorem AreEquivalent.trace {I : Type*} {D : I → Matrix ι ι ℂ} {E : I → Matrix κ κ ℂ}
    (h : AreEquivalent D E) (g : I) : (D g).trace = (E g).trace := by
  obtain ⟨S, S', h1, h2, h3⟩ := h
  calc (D g).trace = (D g * (S * S')).trace := by rw [h1, Matrix.mul_one]
    _ = (S * E g * S').trace := by rw [← Matrix.mul_assoc, h3]
    _ = (S' * (S * E g)).trace := Matrix.trace_mul_comm _ _
    _ = (E g).trace := by rw [← Matrix.mul_assoc, h2, Matrix.one_mul]

theorem AreEquivalent.ne_bot {I : Type*} {D : I → Matrix ι ι ℂ} {E : I → Matrix κ κ ℂ}
    [Nonempty ι] (h : AreEquivalent D E) : homSub D E ≠ ⊥ := by
  obtain ⟨S, S', h1, h2, h3⟩ := h
  intro hb
  have : S = 0 := (Submodule.eq_bot_iff _).1 hb S h3
  rw [this, Matrix.zero_mul] at h1
  exact zero_ne_one h1

/-- Orthogonality of characters of unitary projective irreps. -/
theorem char_orthogonality {μ : G → G → ℂ} (hμ : ∀ g h, μ g h ≠ 0) {D : G → Matrix ι ι ℂ}
    {E : G → Matrix κ κ ℂ} (hD : IsProjRep (· * ·) μ D) (hE : IsProjRep (· * ·) μ E)
    (hDu : IsUnitaryRep D) (hDi : IsIrreducible D) (hEi : IsIrreducible E) (hEu : IsUnitaryRep E) :
    (AreEquivalent D E → ∑ g, (D g).trace * star (E g).trace = (Fintype.card G : ℂ)) ∧
    (¬ AreEquivalent D E → ∑ g, (D g).trace * star (E g).trace = 0) := by
  constructor
  · intro h
    have h1 : ∀ g, (E g).trace = (D g).trace := fun g => (AreEquivalent.trace h g).symm
    simp only [h1]
    rw [sum_char_conj hμ hD hD hDu, finrank_homSub_self hDi]
    simp
  · intro h
    rw [sum_char_conj hμ hD hE hEu, homSub_eq_bot_of_not_equiv hDi hEi h]
    simp

/-- Schur orthogonality for inequivalent irreps (with inverses, no unitarity needed). -/
theorem schur_orthogonality_ne {μ : G → G → ℂ} (hμ : ∀ g h, μ g h ≠ 0) {D : G → Matrix ι ι ℂ}
    {E : G → Matrix κ κ ℂ} (hD : IsProjRep (· * ·) μ D) (hE : IsProjRep (· * ·) μ E)
    (hDi : IsIrreducible D) (hEi : IsIrreducible E) (hEu : ∀ g, IsUnit (E g))
    (hne : ¬ AreEquivalent D E) (i j : ι) (k l : κ) : ∑ g, D g i j * (E g)⁻¹ k l = 0 := by
  have h1 : avg D E (Matrix.single j k (1 : ℂ)) ∈ homSub D E := fun g => avg_intertwines hμ hD hE hEu _ g
  rw [homSub_eq_bot_of_not_equiv hDi hEi hne, Submodule.mem_bot] at h1
  have h2 := congrFun (congrFun h1 i) l
  unfold avg at h2
  rw [Matrix.sum_apply] at h2
  rw [Matrix.zero_apply] at h2
  rw [← h2]
  apply Finset.sum_congr rfl
  intro g _
  rw [mul_single_mul_apply]

/-- Schur orthogonality within one irrep. -/
theorem schur_orthogonality_self {μ : G → G → ℂ} (hμ : ∀ g h, μ g h ≠ 0) {D : G → Matrix ι ι ℂ}
    (hD : IsProjRep (· * ·) μ D) (hDi : IsIrreducible D) (hDu : ∀ g, IsUnit (D g)) (i j k l : ι) :
    ∑ g, D g i j * (D g)⁻¹ k l =
      if i = l ∧ j = k then (Fintype.card G : ℂ) / (Fintype.card ι : ℂ) else 0 := by
  have h1 : ∀ g, D g * avg D D (Matrix.single j k (1 : ℂ)) = avg D D (Matrix.single j k (1 : ℂ)) * D g :=
    fun g => avg_intertwines hμ hD hD hDu _ g
  obtain ⟨c, hc⟩ := schur_scalar hDi h1
  have hsum : ∀ i l, ∑ g, D g i j * (D g)⁻¹ k l = if i = l then c else 0 := by
    intro i l
    have h2 := congrFun (congrFun hc i) l
    unfold avg at h2
    rw [Matrix.sum_apply] at h2
    have h3 : (c • (1 : Matrix ι ι ℂ)) i l = if i = l then c else 0 := by
      simp [Matrix.one_apply]
    rw [← h3, ← h2]
    apply Finset.sum_congr rfl
    intro g _
    rw [mul_single_mul_apply]
  have : Nonempty ι := hDi.1
  have hcard : (Fintype.card ι : ℂ) ≠ 0 := by exact_mod_cast Fintype.card_ne_zero
  have hcval : c = if j = k then (Fintype.card G : ℂ) / (Fintype.card ι : ℂ) else 0 := by
    have h4 : ∑ i, ∑ g, D g i j * (D g)⁻¹ k i = (Fintype.card ι : ℂ) * c := by
      simp [hsum]
    have h5 : ∑ i, ∑ g, D g i j * (D g)⁻¹ k i = if j = k then (Fintype.card G : ℂ) else 0 := by
      rw [Finset.sum_comm]
      have : ∀ g, ∑ i, D g i j * (D g)⁻¹ k i = if j = k then 1 else 0 := by
        intro g
        have h6 : ((D g)⁻¹ * D g) k j = if j = k then 1 else 0 := by
          rw [Matrix.nonsing_inv_mul _ ((Matrix.isUnit_iff_isUnit_det _).1 (hDu g)), Matrix.one_apply]
          simp [eq_comm]
        rw [← h6, Matrix.mul_apply]
        exact Finset.sum_congr rfl fun _ _ => mul_comm _ _
      simp [this]
    rw [h4] at h5
    split_ifs with hjk
    · rw [if_pos hjk] at h5
      field_simp
      rw [mul_comm]; exact h5
    · rw [if_neg hjk] at h5
      exact (mul_eq_zero.1 h5).resolve_left hcard
  rw [hsum, hcval]
  by_cases h1 : i = l <;> by_cases h2 : j = k <;> simp [h1, h2]

end Spgrep
