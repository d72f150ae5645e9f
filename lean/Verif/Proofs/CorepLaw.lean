/-
The law of co-representations for matrices assembled from the linear elements and one anti-linear element: when it holds for
the matrices of the code, and that it always holds after inserting a complex conjugation.
-/
import Verif.Proofs.Wigner

namespace Spgrep

open Spec Matrix

variable {n m d : ℕ} {T : Fin n → Fin n → Fin n} {a : Fin n → Bool} {F : Fin n → Fin n → ℂ} {xsg : Fin m → Fin n}
  {T' : Fin m → Fin m → Fin m} {a0 : Fin n} {c : Fin m → Fin m} {s : Fin m}

theorem indexOf?_eq_none_of {α : Type*} [DecidableEq α] {xs : Fin m → α} {x : α} (h : ∀ j, xs j ≠ x) :
    indexOf? xs x = none := by
  cases hx : indexOf? xs x with
  | none => rfl
  | some j => exact absurd (indexOf?_eq_some.1 hx).1 (h j)

theorem blocks_mul (A B C D A' B' C' D' : Matrix (Fin d) (Fin d) ℂ) : blocks A B C D * blocks A' B' C' D' =
    blocks (A * A' + B * C') (A * B' + B * D') (C * A' + D * C') (C * B' + D * D') := by
  unfold blocks
  rw [Matrix.reindex_apply, Matrix.reindex_apply, Matrix.submatrix_mul_equiv, Matrix.fromBlocks_multiply]
  rfl

theorem blocks_smul (z : ℂ) (A B C D : Matrix (Fin d) (Fin d) ℂ) :
    z • blocks A B C D = blocks (z • A) (z • B) (z • C) (z • D) := by
  unfold blocks
  rw [← Matrix.fromBlocks_smul]
  rfl

theorem blocks_map_star (A B C D : Matrix (Fin d) (Fin d) ℂ) :
    (blocks A B C D).map star = blocks (A.map star) (B.map star) (C.map star) (D.map star) := by
  unfold blocks
  rw [← Matrix.fromBlocks_map]
  rfl

theorem blocks_conjTranspose (A B C D : Matrix (Fin d) (Fin d) ℂ) :
    (blocks A B C D).conjTranspose = blocks A.conjTranspose C.conjTranspose B.conjTranspose D.conjTranspose := by
  unfold blocks
  rw [← Matrix.fromBlocks_conjTranspose]
  rfl

theorem blocks_one : blocks (1 : Matrix (Fin d) (Fin d) ℂ) 0 0 1 = 1 := by
  unfold blocks
  rw [Matrix.fromBlocks_one, Matrix.reindex_apply, Matrix.submatrix_one_equiv]

theorem blocks_inj {A B C D A' B' C' D' : Matrix (Fin d) (Fin d) ℂ} :
    blocks A B C D = blocks A' B' C' D' ↔ A = A' ∧ B = B' ∧ C = C' ∧ D = D' := by
  unfold blocks
  rw [(Matrix.reindex finSumFinEquiv finSumFinEquiv).injective.eq_iff, Matrix.fromBlocks_inj]

theorem map_star_zero : (0 : Matrix (Fin d) (Fin d) ℂ).map star = 0 := by
  ext i j
  simp

theorem map_star_neg (A : Matrix (Fin d) (Fin d) ℂ) : (-A).map star = -A.map star := by
  ext i j
  simp

namespace AntiGroup

theorem anti_a0u (A : AntiGroup T a F xsg T' a0 c s) (u : Fin m) : a (T a0 (xsg u)) = true := by
  rw [A.hom, A.anti, A.linear]
  rfl

theorem a0u_inj (A : AntiGroup T a F xsg T' a0 c s) : Function.Injective fun u => T a0 (xsg u) :=
  fun _ _ h => A.inj (A.cancel h)

theorem assemble_lin (A : AntiGroup T a F xsg T' a0 c s) (X Y : Fin m → Matrix (Fin d) (Fin d) ℂ) (u : Fin m) :
    assemble xsg (fun u => T a0 (xsg u)) X Y (xsg u) = X u := by
  unfold assemble
  rw [indexOf?_eq_none_of fun v hv => ?_, (indexOf?_eq_some_of_inj A.inj).2 (rfl : xsg u = xsg u)]
  have h1 := A.anti_a0u v
  rw [hv, A.linear] at h1
  exact Bool.false_ne_true h1

theorem assemble_anti (A : AntiGroup T a F xsg T' a0 c s) (X Y : Fin m → Matrix (Fin d) (Fin d) ℂ) (u : Fin m) :
    assemble xsg (fun u => T a0 (xsg u)) X Y (T a0 (xsg u)) = Y u := by
  unfold assemble
  rw [(indexOf?_eq_some_of_inj (xs := fun u => T a0 (xsg u)) A.a0u_inj).2 (rfl : T a0 (xsg u) = T a0 (xsg u))]

/-- Every element is linear, or the product of `a0` with a linear element. -/
theorem cases (A : AntiGroup T a F xsg T' a0 c s) (g : Fin n) : (∃ u, g = xsg u) ∨ ∃ u, g = T a0 (xsg u) := by
  cases hg : a g with
  | false =>
    obtain ⟨u, hu⟩ := (A.mem g).2 hg
    exact .inl ⟨u, hu.symm⟩
  | true =>
    right
    obtain ⟨e, he1, he2, hinv⟩ := A.table.one_inv
    obtain ⟨j, hj1, hj2⟩ := hinv a0
    have hae : a e = false := by
      have := A.hom e e
      rw [he1] at this
      cases h : a e
      · rfl
      · rw [h] at this
        exact absurd this (by decide)
    have haj : a j = true := by
      have := A.hom a0 j
      rw [hj1, hae, A.anti] at this
      simpa using this.symm
    obtain ⟨u, hu⟩ := (A.mem (T j g)).2 (by rw [A.hom, haj, hg]; rfl)
    exact ⟨u, by rw [hu, ← A.assoc, hj1, he1]⟩

theorem pos_linear_anti (A : AntiGroup T a F xsg T' a0 c s) (u v : Fin m) :
    T (xsg u) (T a0 (xsg v)) = T a0 (xsg (T' (c u) v)) := by
  rw [A.sub, ← A.assoc, ← A.assoc, A.conj]

theorem pos_anti_linear (A : AntiGroup T a F xsg T' a0 c s) (u v : Fin m) :
    T (T a0 (xsg u)) (xsg v) = T a0 (xsg (T' u v)) := by
  rw [A.sub, A.assoc]

theorem pos_anti_anti (A : AntiGroup T a F xsg T' a0 c s) (u v : Fin m) :
    T (T a0 (xsg u)) (T a0 (xsg v)) = xsg (T' (T' s (c u)) v) := by
  rw [A.sub, A.sub, A.square, A.assoc, A.assoc, A.assoc, A.pos_linear_anti, A.sub]

theorem scalar_linear_anti (A : AntiGroup T a F xsg T' a0 c s) (u v : Fin m) :
    star (F a0 (xsg v)) * (conjFactor F xsg a0 c u * star (F (xsg (c u)) (xsg v))) =
      F (xsg u) (T a0 (xsg v)) * star (F a0 (xsg (T' (c u) v))) := by
  have e2 := A.lin (A.linear u) a0 (xsg v)
  have e3 := A.alin A.anti (xsg (c u)) (xsg v)
  rw [A.conj, ← A.sub] at e3
  have uV := A.mul_star a0 (xsg v)
  have uB := A.mul_star a0 (xsg (T' (c u) v))
  have hf : conjFactor F xsg a0 c u * F a0 (xsg (c u)) = F (xsg u) a0 := div_mul_cancel₀ _ (A.ne_zero _ _)
  apply mul_right_cancel₀ (A.ne_zero a0 (xsg v))
  apply mul_right_cancel₀ (A.ne_zero a0 (xsg (c u)))
  generalize conjFactor F xsg a0 c u = f at *
  generalize F (xsg u) a0 = A' at *
  generalize F a0 (xsg v) = V at *
  generalize F a0 (xsg (c u)) = P at *
  generalize F (xsg (c u)) (xsg v) = C at *
  generalize F a0 (xsg (T' (c u) v)) = B at *
  generalize F (xsg u) (T a0 (xsg v)) = τ at *
  generalize F (T (xsg u) a0) (xsg v) = X at *
  linear_combination (f * star C * P) * uV + (star C) * hf - (star B * P) * e2 + (A' * star B) * e3 - (A' * star C) * uB

theorem scalar_anti_linear (A : AntiGroup T a F xsg T' a0 c s) (u v : Fin m) :
    star (F a0 (xsg u)) * star (F (xsg u) (xsg v)) =
      F (T a0 (xsg u)) (xsg v) * star (F a0 (xsg (T' u v))) := by
  have e3 := A.alin A.anti (xsg u) (xsg v)
  rw [← A.sub] at e3
  have uV := A.mul_star a0 (xsg u)
  have uB := A.mul_star a0 (xsg (T' u v))
  apply mul_right_cancel₀ (A.ne_zero a0 (xsg u))
  generalize F a0 (xsg u) = V at *
  generalize F (xsg u) (xsg v) = C at *
  generalize F a0 (xsg (T' u v)) = B at *
  generalize F (T a0 (xsg u)) (xsg v) = X at *
  linear_combination (star C) * uV + (star B) * e3 - (star C) * uB

theorem scalar_anti_anti (A : AntiGroup T a F xsg T' a0 c s) (u v : Fin m) :
    star (F a0 (xsg u)) * F a0 (xsg v) * (F a0 a0 * (star (conjFactor F xsg a0 c u) *
      (F (xsg s) (xsg (c u)) * F (xsg (T' s (c u))) (xsg v)))) = F (T a0 (xsg u)) (T a0 (xsg v)) := by
  have e1 := A.alin A.anti (xsg u) (T a0 (xsg v))
  have e2 := A.lin (A.linear u) a0 (xsg v)
  have e3 := A.alin A.anti (xsg (c u)) (xsg v)
  have e4 := A.alin A.anti a0 (xsg (T' (c u) v))
  have e5 := A.lin (A.linear s) (xsg (c u)) (xsg v)
  rw [A.conj, ← A.sub] at e3
  rw [← A.pos_linear_anti, ← A.square] at e4
  rw [← A.sub s (c u), ← A.sub (c u) v] at e5
  have uP := A.mul_star a0 (xsg (c u))
  have uA := A.mul_star (xsg u) a0
  have uB := A.mul_star a0 (xsg (T' (c u) v))
  have uC := A.mul_star (xsg (c u)) (xsg v)
  have uτ := A.mul_star (xsg u) (T a0 (xsg v))
  have uV := A.mul_star a0 (xsg u)
  have hst : star (conjFactor F xsg a0 c u) * star (F a0 (xsg (c u))) = star (F (xsg u) a0) := by
    unfold conjFactor
    rw [star_div₀, div_mul_cancel₀ _ (A.star_ne_zero _ _)]
  apply mul_right_cancel₀ (A.star_ne_zero a0 (xsg (c u)))
  apply mul_right_cancel₀ (A.ne_zero a0 (xsg u))
  generalize conjFactor F xsg a0 c u = f at *
  generalize F (T a0 (xsg u)) (T a0 (xsg v)) = W at *
  generalize F a0 (xsg u) = Z at *
  generalize F a0 (xsg v) = V at *
  generalize F (xsg u) (T a0 (xsg v)) = τ at *
  generalize F (xsg u) a0 = A' at *
  generalize F a0 (xsg (c u)) = P at *
  generalize F (T (xsg u) a0) (xsg v) = X at *
  generalize F a0 (T (xsg u) (T a0 (xsg v))) = Y at *
  generalize F a0 (xsg (T' (c u) v)) = B at *
  generalize F (xsg (c u)) (xsg v) = C at *
  generalize F (xsg s) (xsg (c u)) = G at *
  generalize F (xsg (T' s (c u))) (xsg v) = H at *
  generalize F (xsg s) (xsg (T' (c u) v)) = J at *
  generalize F a0 a0 = E0 at *
  have h1 : X * star B * C = star P := by
    linear_combination (-(X * star B * C)) * uP - star B * C * star P * e3 + star P * C * star C * uB + star P * uC
  have h2 : X = star A' * τ * V := by linear_combination (-X) * uA - star A' * e2
  have h3 : star τ * star P = star A' * V * star B * C := by
    linear_combination (-star τ) * h1 + (star τ * star B * C) * h2 + (star A' * V * star B * C) * uτ
  linear_combination (V * E0 * star f * G * H * star P) * uV + (V * E0 * G * H) * hst - (E0 * star A' * V) * e5 -
    (star A' * V * C) * e4 - Y * h3 + star P * e1

/-- With the complex conjugation which the code omits, matrices assembled from a representation `X` of the linear elements and
a matrix `M` for `a0` obey the law of co-representations as soon as `M` intertwines `X` with its conjugate and has the right
square. -/
theorem law_of_intertwines (A : AntiGroup T a F xsg T' a0 c s) {X : RepArr m d}
    (hX : IsProjRep T' (fun u v => F (xsg u) (xsg v)) X) {M : Matrix (Fin d) (Fin d) ℂ}
    (hM : ∀ u, X u * M = M * bar F xsg a0 c X u) (hsq : M * M.map star = F a0 a0 • X s) :
    CorepLaw T a F (assemble xsg (fun u => T a0 (xsg u)) X fun u => star (F a0 (xsg u)) • (M * (X u).map star)) := by
  intro g h
  rcases A.cases g with ⟨u, rfl⟩ | ⟨u, rfl⟩ <;> rcases A.cases h with ⟨v, rfl⟩ | ⟨v, rfl⟩
  · rw [A.linear, ← A.sub]
    simp only [A.assemble_lin, conjIfM, Bool.false_eq_true, if_false]
    exact hX u v
  · rw [A.linear, A.pos_linear_anti]
    simp only [A.assemble_lin, A.assemble_anti, conjIfM, Bool.false_eq_true, if_false]
    rw [Matrix.mul_smul, ← Matrix.mul_assoc, hM]
    unfold bar
    rw [Matrix.mul_smul, Matrix.smul_mul, Matrix.mul_assoc, ← map_star_mul, hX, map_star_smul, Matrix.mul_smul, smul_smul,
      smul_smul, smul_smul, mul_assoc, A.scalar_linear_anti]
  · rw [A.anti_a0u, A.pos_anti_linear]
    simp only [A.assemble_lin, A.assemble_anti, conjIfM, if_true]
    rw [Matrix.smul_mul, Matrix.mul_assoc, ← map_star_mul, hX, map_star_smul, Matrix.mul_smul, smul_smul, smul_smul,
      A.scalar_anti_linear]
  · rw [A.anti_a0u, A.pos_anti_anti]
    simp only [A.assemble_lin, A.assemble_anti, conjIfM, if_true]
    have h1 : M * (X u).map star * (M.map star * X v) =
        (F a0 a0 * (star (conjFactor F xsg a0 c u) * (F (xsg s) (xsg (c u)) * F (xsg (T' s (c u))) (xsg v)))) •
          X (T' (T' s (c u)) v) := by
      calc M * (X u).map star * (M.map star * X v) = M * (X u * M).map star * X v := by
            rw [map_star_mul]; simp only [Matrix.mul_assoc]
        _ = M * M.map star * (bar F xsg a0 c X u).map star * X v := by
            rw [hM, map_star_mul]; simp only [Matrix.mul_assoc]
        _ = _ := by
            unfold bar
            rw [map_star_smul, map_star_map_star, hsq, Matrix.smul_mul, Matrix.mul_smul, hX, Matrix.smul_mul, Matrix.smul_mul,
              Matrix.smul_mul, hX]
            simp only [smul_smul]
    rw [map_star_smul, map_star_mul, map_star_map_star, star_star, Matrix.smul_mul, Matrix.mul_smul, h1, smul_smul, smul_smul,
      A.scalar_anti_anti]

/-- The identity element of the linear part. -/
theorem exists_one (A : AntiGroup T a F xsg T' a0 c s) : ∃ u0, ∀ i, T (xsg u0) i = i ∧ T i (xsg u0) = i := by
  obtain ⟨e, he1, he2, -⟩ := A.table.one_inv
  have hae : a e = false := by
    have := A.hom e e
    rw [he1] at this
    cases h : a e
    · rfl
    · rw [h] at this
      exact absurd this (by decide)
  obtain ⟨u0, hu0⟩ := (A.mem e).2 hae
  exact ⟨u0, fun i => ⟨by rw [hu0, he1], by rw [hu0, he2]⟩⟩

/-- Exactly when the matrices assembled without the complex conjugation obey the law of co-representations. -/
theorem law_iff (A : AntiGroup T a F xsg T' a0 c s) (h1 : ∀ e, (∀ i, T e i = i) → F e e = 1) {X : RepArr m d}
    (hX : IsProjRep T' (fun u v => F (xsg u) (xsg v)) X) (hXu : IsUnitaryRep X) {M : Matrix (Fin d) (Fin d) ℂ}
    (hMu : M.conjTranspose * M = 1) :
    CorepLaw T a F (assemble xsg (fun u => T a0 (xsg u)) X fun u => star (F a0 (xsg u)) • (M * X u)) ↔
      (∀ u, (X u).map star = X u) ∧ (∀ u, X u * M = M * bar F xsg a0 c X u) ∧ M * M.map star = F a0 a0 • X s := by
  constructor
  · intro h
    obtain ⟨u0, hu0⟩ := A.exists_one
    have hF0 : F (xsg u0) (xsg u0) = 1 := h1 _ fun i => (hu0 i).1
    have hF1 : F a0 (xsg u0) = 1 := by
      have := A.alin A.anti (xsg u0) (xsg u0)
      rw [(hu0 _).1, (hu0 _).2, hF0, star_one] at this
      exact (mul_left_cancel₀ (A.ne_zero a0 (xsg u0)) this).symm
    have hX0 : X u0 = 1 := by
      have h2 := hX u0 u0
      dsimp only at h2
      rw [hF0, one_smul, show T' u0 u0 = u0 from A.inj (by rw [A.sub, (hu0 _).1])] at h2
      calc X u0 = X u0 * (X u0 * (X u0).conjTranspose) := by rw [hXu, Matrix.mul_one]
        _ = 1 := by rw [← Matrix.mul_assoc, h2, hXu]
    have hE0 : assemble xsg (fun u => T a0 (xsg u)) X (fun u => star (F a0 (xsg u)) • (M * X u)) a0 = M := by
      have h2 := A.assemble_anti X (fun u => star (F a0 (xsg u)) • (M * X u)) u0
      rw [(hu0 a0).2, hF1, star_one, one_smul, hX0, Matrix.mul_one] at h2
      exact h2
    have hreal : ∀ u, (X u).map star = X u := by
      intro u
      have h2 := h a0 (xsg u)
      rw [hE0, A.anti, A.assemble_lin, A.assemble_anti, smul_smul, A.mul_star, one_smul] at h2
      simp only [conjIfM, if_true] at h2
      have h3 := congrArg (fun N => M.conjTranspose * N) h2
      simpa only [← Matrix.mul_assoc, hMu, Matrix.one_mul] using h3
    refine ⟨hreal, fun u => ?_, ?_⟩
    · have h2 := h (xsg u) a0
      rw [hE0, A.linear, A.assemble_lin, ← A.conj, A.assemble_anti, smul_smul] at h2
      simp only [conjIfM, Bool.false_eq_true, if_false] at h2
      rw [h2]
      unfold bar
      rw [hreal, Matrix.mul_smul]
      congr 1
      unfold conjFactor
      rw [eq_div_iff (A.ne_zero _ _), mul_assoc, mul_comm (star _), A.mul_star, mul_one]
    · have h2 := h a0 a0
      rw [hE0, A.anti, ← A.square, A.assemble_lin] at h2
      simpa only [conjIfM, if_true] using h2
  · rintro ⟨hreal, hM, hsq⟩
    have h2 := A.law_of_intertwines hX hM hsq
    simp only [hreal] at h2
    exact h2

/-- Two blocks which are representations. -/
theorem blocks_projRep {D E : RepArr m d} {μ : Fin m → Fin m → ℂ} (hD : IsProjRep T' μ D) (hE : IsProjRep T' μ E) :
    IsProjRep T' μ fun u => blocks (D u) 0 0 (E u) := by
  intro u v
  dsimp only
  rw [blocks_mul, blocks_smul, hD, hE]
  simp

theorem blocks_unitary {D E : RepArr m d} (hD : IsUnitaryRep D) (hE : IsUnitaryRep E) :
    IsUnitaryRep fun u => blocks (D u) 0 0 (E u) := by
  intro u
  dsimp only
  rw [blocks_conjTranspose, blocks_mul, hD, hE, ← blocks_one]
  simp

theorem bar_blocks (D E : RepArr m d) (u : Fin m) : bar F xsg a0 c (fun u => blocks (D u) 0 0 (E u)) u =
    blocks (bar F xsg a0 c D u) 0 0 (bar F xsg a0 c E u) := by
  unfold bar
  rw [blocks_map_star, blocks_smul, map_star_zero, smul_zero]

/-- The square of the intertwiner between an irrep and its conjugate, and the indicator. -/
theorem intertwiner_square (A : AntiGroup T a F xsg T' a0 c s) {D : RepArr m d}
    (hD : IsProjRep T' (fun u v => F (xsg u) (xsg v)) D) (hDu : IsUnitaryRep D) (hDi : Spec.IsIrreducible D)
    {U : Matrix (Fin d) (Fin d) ℂ} (hU : U * U.conjTranspose = 1) (hUD : ∀ u, D u * U = U * bar F xsg a0 c D u) :
    ∃ σ : ℂ, (σ = 1 ∨ σ = -1) ∧ U * U.map star = σ • F a0 a0 • D s ∧
      ∀ (q : Fin m → Fin m), (∀ u, xsg (q u) = T (T a0 (xsg u)) (T a0 (xsg u))) →
        ∑ u, F (T a0 (xsg u)) (T a0 (xsg u)) * (D (q u)).trace = σ * m := by
  have hU' : U.conjTranspose * U = 1 := mul_eq_one_comm.1 hU
  obtain ⟨σ, hσ, h1, h2⟩ := A.wigner_equiv hD hDu hDi (W := U.conjTranspose) (by rw [Matrix.conjTranspose_conjTranspose, hU'])
    fun u => by
      calc bar F xsg a0 c D u * U.conjTranspose = U.conjTranspose * (U * bar F xsg a0 c D u) * U.conjTranspose := by
            rw [← Matrix.mul_assoc, hU', Matrix.one_mul]
        _ = U.conjTranspose * D u := by rw [← hUD, Matrix.mul_assoc, Matrix.mul_assoc, hU, Matrix.mul_one]
  refine ⟨σ, hσ, ?_, h2⟩
  rw [show U.conjTranspose.map star = U.transpose by ext i j; simp] at h1
  obtain ⟨h3, h4⟩ := map_star_unitary hU
  have h5 : F a0 a0 • D s = σ • (U * U.map star) := by
    calc F a0 a0 • D s = F a0 a0 • (D s * (U.transpose * (U.conjTranspose * U) * U.map star)) := by
          rw [hU', Matrix.mul_one, h4, Matrix.mul_one]
      _ = F a0 a0 • (D s * (U.transpose * U.conjTranspose)) * (U * U.map star) := by
          rw [Matrix.smul_mul]; simp only [Matrix.mul_assoc]
      _ = _ := by rw [h1, Matrix.smul_mul, Matrix.one_mul]
  rw [h5, smul_smul]
  rcases hσ with rfl | rfl <;> simp

/-- The law for indicator 1. -/
theorem law_one_iff (A : AntiGroup T a F xsg T' a0 c s) (h1 : ∀ e, (∀ i, T e i = i) → F e e = 1) {D : RepArr m d}
    (hD : IsProjRep T' (fun u v => F (xsg u) (xsg v)) D) (hDu : IsUnitaryRep D)
    {U : Matrix (Fin d) (Fin d) ℂ} (hU : U * U.conjTranspose = 1) (hUD : ∀ u, D u * U = U * bar F xsg a0 c D u)
    (hsq : U * U.map star = F a0 a0 • D s) :
    CorepLaw T a F (assemble xsg (fun u => T a0 (xsg u)) D fun u => star (F a0 (xsg u)) • (U * D u)) ↔
      ∀ u, (D u).map star = D u := by
  rw [A.law_iff h1 hD hDu (mul_eq_one_comm.1 hU)]
  exact ⟨fun h => h.1, fun h => ⟨h, hUD, hsq⟩⟩

/-- The factor of the square of `a0`. -/
theorem conjFactor_square (A : AntiGroup T a F xsg T' a0 c s) :
    conjFactor F xsg a0 c s * F a0 a0 = star (F a0 a0) := by
  have e := A.alin A.anti a0 a0
  unfold conjFactor
  rw [A.conj_square, ← A.square] at *
  rw [div_mul_eq_mul_div, div_eq_iff (A.ne_zero _ _)]
  linear_combination -e

/-- The matrix of `a0` for indicator 0. -/
theorem zero_matrix (A : AntiGroup T a F xsg T' a0 c s) {D : RepArr m d}
    (hD : IsProjRep T' (fun u v => F (xsg u) (xsg v)) D) (hDu : IsUnitaryRep D) :
    (blocks 0 (F a0 a0 • D s) 1 0).conjTranspose * blocks 0 (F a0 a0 • D s) 1 0 = 1 ∧
    (∀ u, blocks (D u) 0 0 (bar F xsg a0 c D u) * blocks 0 (F a0 a0 • D s) 1 0 =
      blocks 0 (F a0 a0 • D s) 1 0 * bar F xsg a0 c (fun u => blocks (D u) 0 0 (bar F xsg a0 c D u)) u) ∧
    blocks 0 (F a0 a0 • D s) 1 0 * (blocks 0 (F a0 a0 • D s) 1 0).map star =
      F a0 a0 • blocks (D s) 0 0 (bar F xsg a0 c D s) := by
  refine ⟨?_, fun u => ?_, ?_⟩
  · have h2 : (F a0 a0 • D s).conjTranspose * (F a0 a0 • D s) = 1 := by
      rw [Matrix.conjTranspose_smul, Matrix.smul_mul, Matrix.mul_smul, smul_smul, mul_comm (star _), A.mul_star,
        mul_eq_one_comm.1 (hDu s), one_smul]
    rw [blocks_conjTranspose, blocks_mul, ← blocks_one, h2]
    simp
  · have h2 : D u * (F a0 a0 • D s) = F a0 a0 • D s * bar F xsg a0 c (bar F xsg a0 c D) u := by
      rw [Matrix.smul_mul, A.bar_bar hD, Matrix.mul_smul]
    rw [bar_blocks, blocks_mul, blocks_mul, h2]
    simp
  · rw [blocks_map_star, blocks_mul, blocks_smul, map_star_smul, map_star_zero, map_star_one]
    have h2 : F a0 a0 • bar F xsg a0 c D s = star (F a0 a0) • (D s).map star := by
      unfold bar
      rw [A.conj_square, smul_smul, mul_comm, A.conjFactor_square]
    rw [h2]
    simp

/-- The law for indicator 0. -/
theorem law_zero_iff (A : AntiGroup T a F xsg T' a0 c s) (h1 : ∀ e, (∀ i, T e i = i) → F e e = 1) {D : RepArr m d}
    (hD : IsProjRep T' (fun u v => F (xsg u) (xsg v)) D) (hDu : IsUnitaryRep D) :
    CorepLaw T a F (assemble xsg (fun u => T a0 (xsg u)) (fun u => blocks (D u) 0 0 (bar F xsg a0 c D u)) fun u =>
      star (F a0 (xsg u)) • (blocks 0 (F a0 a0 • D s) 1 0 * blocks (D u) 0 0 (bar F xsg a0 c D u))) ↔
      ∀ u, (D u).map star = D u ∧ (bar F xsg a0 c D u).map star = bar F xsg a0 c D u := by
  obtain ⟨hM1, hM2, hM3⟩ := A.zero_matrix hD hDu
  rw [A.law_iff h1 (X := fun u => blocks (D u) 0 0 (bar F xsg a0 c D u)) (blocks_projRep hD (A.bar_projRep hD))
    (blocks_unitary hDu (A.bar_unitary hDu)) hM1]
  have h2 : ∀ u, (blocks (D u) 0 0 (bar F xsg a0 c D u)).map star = blocks (D u) 0 0 (bar F xsg a0 c D u) ↔
      (D u).map star = D u ∧ (bar F xsg a0 c D u).map star = bar F xsg a0 c D u := by
    intro u
    rw [blocks_map_star, blocks_inj, map_star_zero]
    simp
  exact ⟨fun h u => (h2 u).1 (h.1 u), fun h => ⟨fun u => (h2 u).2 (h u), hM2, hM3⟩⟩

/-- The law for indicator -1. -/
theorem law_neg_iff (A : AntiGroup T a F xsg T' a0 c s) (h1 : ∀ e, (∀ i, T e i = i) → F e e = 1) {D : RepArr m d}
    (hD : IsProjRep T' (fun u v => F (xsg u) (xsg v)) D) (hDu : IsUnitaryRep D)
    {U : Matrix (Fin d) (Fin d) ℂ} (hU : U * U.conjTranspose = 1) (hUD : ∀ u, D u * U = U * bar F xsg a0 c D u)
    (hsq : U * U.map star = -(F a0 a0 • D s)) :
    CorepLaw T a F (assemble xsg (fun u => T a0 (xsg u)) (fun u => blocks (D u) 0 0 (bar F xsg a0 c D u)) fun u =>
      star (F a0 (xsg u)) • (blocks 0 (-U) U 0 * blocks (D u) 0 0 (bar F xsg a0 c D u))) ↔
      (∀ u, (D u).map star = D u) ∧ ∀ u, bar F xsg a0 c D u = D u := by
  have hU' : U.conjTranspose * U = 1 := mul_eq_one_comm.1 hU
  have hM1 : (blocks 0 (-U) U 0).conjTranspose * blocks 0 (-U) U 0 = 1 := by
    rw [blocks_conjTranspose, blocks_mul, ← blocks_one, Matrix.conjTranspose_neg, neg_mul_neg, hU']
    simp
  rw [A.law_iff h1 (X := fun u => blocks (D u) 0 0 (bar F xsg a0 c D u)) (blocks_projRep hD (A.bar_projRep hD))
    (blocks_unitary hDu (A.bar_unitary hDu)) hM1]
  have h2 : ∀ u, blocks (D u) 0 0 (bar F xsg a0 c D u) * blocks 0 (-U) U 0 =
      blocks 0 (-U) U 0 * bar F xsg a0 c (fun u => blocks (D u) 0 0 (bar F xsg a0 c D u)) u ↔
      D u * U = U * bar F xsg a0 c (bar F xsg a0 c D) u ∧ bar F xsg a0 c D u * U = U * bar F xsg a0 c D u := by
    intro u
    rw [bar_blocks, blocks_mul, blocks_mul, blocks_inj]
    simp
  have h3 : ∀ u, (blocks (D u) 0 0 (bar F xsg a0 c D u)).map star = blocks (D u) 0 0 (bar F xsg a0 c D u) ↔
      (D u).map star = D u ∧ (bar F xsg a0 c D u).map star = bar F xsg a0 c D u := by
    intro u
    rw [blocks_map_star, blocks_inj, map_star_zero]
    simp
  constructor
  · rintro ⟨hr, hM, -⟩
    refine ⟨fun u => ((h3 u).1 (hr u)).1, fun u => ?_⟩
    have h4 : bar F xsg a0 c D u * U = D u * U := by rw [((h2 u).1 (hM u)).2, hUD]
    have h5 := congrArg (fun N => N * U.conjTranspose) h4
    simpa only [Matrix.mul_assoc, hU, Matrix.mul_one] using h5
  · rintro ⟨hr, hb⟩
    have hb' : bar F xsg a0 c D = D := funext hb
    refine ⟨fun u => (h3 u).2 ⟨hr u, by rw [hb, hr]⟩, fun u => (h2 u).2 ⟨?_, ?_⟩, ?_⟩
    · rw [hb', hUD, hb]
    · rw [hb, hUD, hb]
    · rw [blocks_map_star, blocks_mul, blocks_smul, hb, map_star_neg, map_star_zero]
      have h4 : -U * U.map star = F a0 a0 • D s := by rw [neg_mul, hsq, neg_neg]
      have h5 : U * -U.map star = F a0 a0 • D s := by rw [mul_neg, hsq, neg_neg]
      rw [h4, h5]
      simp

end AntiGroup

end Spgrep
