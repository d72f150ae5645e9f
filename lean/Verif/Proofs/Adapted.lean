/-
Bases adapted to all irreps at once; blocks orthogonal to given blocks.
-/
import Verif.Props.ProjectBasis
import Verif.Proofs.RepComplete

namespace Spgrep

open Spec

variable {n d d' D : ℕ} {T : Fin n → Fin n → Fin n} {μ : Fin n → Fin n → ℂ}

/-- The adjoint of a block intertwines in the other direction. -/
theorem BlockHom.adjoint {rep : RepArr n D} {irrep : RepArr n d} {b : Matrix (Fin d) (Fin D) ℂ} (hru : IsUnitaryRep rep)
    (hiu : IsUnitaryRep irrep) (h : BlockHom rep irrep b) (g : Fin n) :
    b.map star * rep g = irrep g * b.map star := by
  have h1 := congrArg Matrix.conjTranspose (h g)
  rw [Matrix.conjTranspose_mul, Matrix.conjTranspose_mul] at h1
  have h0 : b.transpose.conjTranspose = b.map star := by ext; simp
  rw [h0] at h1
  calc b.map star * rep g = irrep g * (irrep g).conjTranspose * b.map star * rep g := by rw [hiu g, Matrix.one_mul]
    _ = irrep g * b.map star * ((rep g).conjTranspose * rep g) := by
        rw [Matrix.mul_assoc (irrep g), ← h1]; simp only [Matrix.mul_assoc]
    _ = irrep g * b.map star := by rw [IsUnitaryRep.mul_left hru g, Matrix.mul_one]

/-- The overlap of two blocks is an intertwiner of the irreps. -/
theorem BlockHom.overlap {rep : RepArr n D} {E : RepArr n d} {F : RepArr n d'} {b : Matrix (Fin d) (Fin D) ℂ}
    {c : Matrix (Fin d') (Fin D) ℂ} (hru : IsUnitaryRep rep) (hEu : IsUnitaryRep E)
    (hb : BlockHom rep E b) (hc : BlockHom rep F c) : b.map star * c.transpose ∈ homSub E F := by
  intro g
  rw [← Matrix.mul_assoc, ← BlockHom.adjoint hru hEu hb, Matrix.mul_assoc, hc g, Matrix.mul_assoc]

/-- Blocks of inequivalent irreps are orthogonal. -/
theorem BlockHom.orthogonal {rep : RepArr n D} {E : RepArr n d} {F : RepArr n d'} {b : Matrix (Fin d) (Fin D) ℂ}
    {c : Matrix (Fin d') (Fin D) ℂ} (hru : IsUnitaryRep rep) (hEu : IsUnitaryRep E) (hE : Spec.IsIrreducible E)
    (hF : Spec.IsIrreducible F) (hne : ¬ AreEquivalent E F) (hb : BlockHom rep E b) (hc : BlockHom rep F c) :
    b.map star * c.transpose = 0 := by
  have := BlockHom.overlap hru hEu hb hc
  rwa [homSub_eq_bot_of_not_equiv hE hF hne, Submodule.mem_bot] at this

/-- Vectors orthogonal to all rows of a family of blocks. -/
def orthSub {κ : Type*} {dim : κ → ℕ} (B : ∀ a, Matrix (Fin (dim a)) (Fin D) ℂ) : Submodule ℂ (Fin D → ℂ) where
  carrier := {v | ∀ a, ((B a).map star).mulVec v = 0}
  add_mem' h1 h2 a := by rw [Matrix.mulVec_add, h1 a, h2 a, add_zero]
  zero_mem' a := Matrix.mulVec_zero _
  smul_mem' c v h a := by rw [Matrix.mulVec_smul, h a, smul_zero]

/-- If every block of every irrep of a complete list is a combination of the given blocks, no non-zero vector is
orthogonal to all of them. -/
theorem orthSub_eq_bot {rep : RepArr n D}
    (hrep : IsProjRep T μ rep) (hru : IsUnitaryRep rep) {L : List (AnyRep n)} (hL : IsCompleteIrreps T μ L)
    {κ : Type*} {dim : κ → ℕ} {B : ∀ a, Matrix (Fin (dim a)) (Fin D) ℂ} {F : ∀ a, RepArr n (dim a)}
    (hFu : ∀ a, IsUnitaryRep (F a)) (hB : ∀ a, BlockHom rep (F a) (B a))
    (hall : ∀ E ∈ L, ∀ b : Matrix (Fin E.1) (Fin D) ℂ, BlockHom rep E.2 b →
      (∀ a, (B a).map star * b.transpose = 0) → b.map star * b.transpose = 0) : orthSub B = ⊥ := by
  by_contra hne
  obtain ⟨e, J, Γ, hJ, hΓ, hinj, hmem⟩ := exists_irred_sub (D := rep) (orthSub B) (by
    intro g v hv a
    rw [Matrix.mulVec_mulVec, BlockHom.adjoint hru (hFu a) (hB a), ← Matrix.mulVec_mulVec, hv a, Matrix.mulVec_zero]) hne
  have hΓp : IsProjRep T μ Γ := by
    intro g h
    apply mul_left_cancel_of_injective hinj
    rw [← Matrix.mul_assoc, ← hJ, Matrix.mul_assoc, ← hJ, ← Matrix.mul_assoc, hrep g h,
      Matrix.smul_mul, hJ, Matrix.mul_smul]
  have hΓu : ∀ g, IsUnit (Γ g) := by
    intro g
    rw [← Matrix.mulVec_injective_iff_isUnit]
    intro v w hvw
    apply hinj
    have h1 : (rep g).mulVec (J.mulVec v) = (rep g).mulVec (J.mulVec w) := by
      rw [Matrix.mulVec_mulVec, Matrix.mulVec_mulVec, hJ, ← Matrix.mulVec_mulVec, hvw, Matrix.mulVec_mulVec]
    exact (Matrix.mulVec_injective_iff_isUnit.2 (IsUnitaryRep.isUnit hru g)) h1
  obtain ⟨E, hE, S, S', h1, h2, h3⟩ := hL.complete e Γ hΓp hΓu hΓ
  have hX : BlockHom rep E.2 (J * S).transpose := by
    intro g
    rw [Matrix.transpose_transpose, ← Matrix.mul_assoc, hJ, Matrix.mul_assoc, h3, Matrix.mul_assoc]
  have hX0 : (J * S).transpose.map star * (J * S) = 0 := by
    have := hall E hE _ hX (fun a => by
      rw [Matrix.transpose_transpose, ← Matrix.mul_assoc]
      have : (B a).map star * J = 0 := by
        ext i j
        have h4 := congrFun (hmem (Pi.single j 1) a) i
        rw [Matrix.mulVec_mulVec, Matrix.mulVec_single_one] at h4
        exact h4
      rw [this, Matrix.zero_mul])
    rwa [Matrix.transpose_transpose] at this
  have hX1 : J * S = 0 := by
    apply gram_eq_zero
    rw [← hX0]
    congr 1
  have hJ0 : J = 0 := by
    rw [← Matrix.mul_one J, ← h1, ← Matrix.mul_assoc, hX1, Matrix.zero_mul]
  obtain ⟨i⟩ := hΓ.1
  have : (Pi.single i (1 : ℂ) : Fin e → ℂ) = 0 := hinj (by
    show J.mulVec _ = J.mulVec _
    rw [hJ0, Matrix.zero_mulVec, Matrix.zero_mulVec])
  have := congrFun this i
  simp at this

end Spgrep
