/-
Wigner's classification: the irreducible co-representations in terms of the irreps of the linear elements.
-/
import Verif.Spec.CorepClass
import Verif.Proofs.CorepLaw
import Verif.Proofs.RepComplete
import Mathlib.Data.Matrix.ColumnRowPartitioned

namespace Spgrep

open Spec Matrix

variable {n m d N : ℕ} {T : Fin n → Fin n → Fin n} {a : Fin n → Bool} {F : Fin n → Fin n → ℂ} {xsg : Fin m → Fin n}
  {T' : Fin m → Fin m → Fin m} {a0 : Fin n} {c : Fin m → Fin m} {s : Fin m}

/-! ### Matrices -/

theorem mapStar_mul {ι κ τ : Type*} [Fintype κ] (A : Matrix ι κ ℂ) (B : Matrix κ τ ℂ) :
    (A * B).map star = A.map star * B.map star := by
  ext i j
  simp [Matrix.mul_apply]

theorem mapStar_mapStar {ι κ : Type*} (A : Matrix ι κ ℂ) : (A.map star).map star = A := by
  ext i j
  simp

theorem mapStar_smul {ι κ : Type*} (z : ℂ) (A : Matrix ι κ ℂ) : (z • A).map star = star z • A.map star := by
  ext i j
  simp

theorem mapStar_add {ι κ : Type*} (A B : Matrix ι κ ℂ) : (A + B).map star = A.map star + B.map star := by
  ext i j
  simp

theorem mapStar_sub {ι κ : Type*} (A B : Matrix ι κ ℂ) : (A - B).map star = A.map star - B.map star := by
  ext i j
  simp

theorem mapConjIf_true {ι κ : Type*} (A : Matrix ι κ ℂ) : A.map (conjIf true) = A.map star := by
  ext i j
  simp [conjIf]

theorem mapConjIf_false {ι κ : Type*} (A : Matrix ι κ ℂ) : A.map (conjIf false) = A := by
  ext i j
  simp [conjIf]

/-- Two blocks of columns. -/
def cols (P Q : Matrix (Fin N) (Fin d) ℂ) : Matrix (Fin N) (Fin (d + d)) ℂ :=
  (Matrix.fromCols P Q).reindex (Equiv.refl _) finSumFinEquiv

theorem cols_inl (P Q : Matrix (Fin N) (Fin d) ℂ) (i : Fin N) (j : Fin d) : cols P Q i (finSumFinEquiv (Sum.inl j)) = P i j := by
  rw [cols, Matrix.reindex_apply, Matrix.submatrix_apply, Equiv.symm_apply_apply]
  rfl

theorem cols_inr (P Q : Matrix (Fin N) (Fin d) ℂ) (i : Fin N) (j : Fin d) : cols P Q i (finSumFinEquiv (Sum.inr j)) = Q i j := by
  rw [cols, Matrix.reindex_apply, Matrix.submatrix_apply, Equiv.symm_apply_apply]
  rfl

theorem cols_mul_blocks (P Q : Matrix (Fin N) (Fin d) ℂ) (A B C D : Matrix (Fin d) (Fin d) ℂ) :
    cols P Q * blocks A B C D = cols (P * A + Q * C) (P * B + Q * D) := by
  unfold cols blocks
  simp only [Matrix.reindex_apply]
  rw [Matrix.submatrix_mul_equiv]
  congr 1
  ext i j
  rcases j with j | j <;> simp [Matrix.mul_apply, Matrix.fromCols, Matrix.fromBlocks, Matrix.add_apply]

theorem mul_cols (X : Matrix (Fin N) (Fin N) ℂ) (P Q : Matrix (Fin N) (Fin d) ℂ) :
    X * cols P Q = cols (X * P) (X * Q) := by
  ext i j
  obtain ⟨j, rfl⟩ := finSumFinEquiv.surjective j
  rcases j with j | j <;> simp only [Matrix.mul_apply, cols_inl, cols_inr]

theorem cols_map_star (P Q : Matrix (Fin N) (Fin d) ℂ) : (cols P Q).map star = cols (P.map star) (Q.map star) := by
  ext i j
  obtain ⟨j, rfl⟩ := finSumFinEquiv.surjective j
  rcases j with j | j <;> simp only [Matrix.map_apply, cols_inl, cols_inr]

theorem cols_mulVec (P Q : Matrix (Fin N) (Fin d) ℂ) (v : Fin (d + d) → ℂ) :
    (cols P Q).mulVec v = P.mulVec (fun i => v (finSumFinEquiv (Sum.inl i))) + Q.mulVec fun i => v (finSumFinEquiv (Sum.inr i)) := by
  ext i
  simp only [Matrix.mulVec, dotProduct, Pi.add_apply]
  rw [← finSumFinEquiv.sum_comp, Fintype.sum_sum_type]
  simp only [cols_inl, cols_inr]

/-- A non-zero intertwiner out of an irreducible family is injective. -/
theorem injective_of_intertwines {I : Type*} {X : I → Matrix (Fin N) (Fin N) ℂ} {D : I → Matrix (Fin d) (Fin d) ℂ}
    (hD : Spec.IsIrreducible D) {P : Matrix (Fin N) (Fin d) ℂ} (hP : ∀ u, X u * P = P * D u) (h0 : P ≠ 0) :
    Function.Injective P.mulVec := by
  have h1 := hD.2 (LinearMap.ker P.mulVecLin) fun g v hv => by
    rw [LinearMap.mem_ker, Matrix.mulVecLin_apply] at hv ⊢
    rw [Matrix.mulVec_mulVec, ← hP, ← Matrix.mulVec_mulVec, hv, Matrix.mulVec_zero]
  rcases h1 with h1 | h1
  · exact LinearMap.ker_eq_bot.1 h1
  · exfalso
    apply h0
    have h2 : P.mulVecLin = 0 := LinearMap.ker_eq_top.1 h1
    ext i j
    have := congrFun (LinearMap.congr_fun h2 (Pi.single j 1)) i
    simpa using this

namespace AntiGroup

/-! ### The law -/

theorem lin_projRep (A : AntiGroup T a F xsg T' a0 c s) {X : RepArr n N} (hX : CorepLaw T a F X) :
    IsProjRep T' (fun u v => F (xsg u) (xsg v)) fun u => X (xsg u) := by
  intro u v
  have := hX (xsg u) (xsg v)
  rw [A.linear, conjIfM, if_neg (by decide), ← A.sub] at this
  exact this

theorem anti_mul (A : AntiGroup T a F xsg T' a0 c s) {X : RepArr n N} (hX : CorepLaw T a F X) (i : Fin n) :
    X a0 * (X i).map star = F a0 i • X (T a0 i) := by
  have := hX a0 i
  rwa [A.anti, conjIfM, if_pos rfl] at this

theorem lin_mul (A : AntiGroup T a F xsg T' a0 c s) {X : RepArr n N} (hX : CorepLaw T a F X) (u : Fin m) (i : Fin n) :
    X (xsg u) * X i = F (xsg u) i • X (T (xsg u) i) := by
  have := hX (xsg u) i
  rwa [A.linear, conjIfM, if_neg (by decide)] at this

/-- The image of a constituent under `a0` is a constituent of conjugate type. -/
theorem partner (A : AntiGroup T a F xsg T' a0 c s) {X : RepArr n N} (hX : CorepLaw T a F X) {D : RepArr m d}
    {P : Matrix (Fin N) (Fin d) ℂ} (hP : ∀ u, X (xsg u) * P = P * D u) (u : Fin m) :
    X (xsg u) * (X a0 * P.map star) = X a0 * P.map star * bar F xsg a0 c D u := by
  have h1 : X (xsg u) * X a0 = conjFactor F xsg a0 c u • (X a0 * (X (xsg (c u))).map star) := by
    rw [A.lin_mul hX, A.anti_mul hX, A.conj, smul_smul, conjFactor, div_mul_cancel₀ _ (A.ne_zero _ _)]
  unfold bar
  rw [← Matrix.mul_assoc, h1, Matrix.smul_mul, Matrix.mul_assoc, ← mapStar_mul, hP, mapStar_mul, Matrix.mul_smul,
    Matrix.mul_assoc]

/-- The image of the image. -/
theorem partner_square (A : AntiGroup T a F xsg T' a0 c s) {X : RepArr n N} (hX : CorepLaw T a F X) {D : RepArr m d}
    {P : Matrix (Fin N) (Fin d) ℂ} (hP : ∀ u, X (xsg u) * P = P * D u) :
    X a0 * (X a0 * P.map star).map star = P * (F a0 a0 • D s) := by
  rw [mapStar_mul, mapStar_mapStar, ← Matrix.mul_assoc, A.anti_mul hX, ← A.square, Matrix.smul_mul, hP, Matrix.mul_smul]

/-- The relation of equivalent co-representations need only be checked for the linear elements and `a0`. -/
theorem relation_of_gen (A : AntiGroup T a F xsg T' a0 c s) {X : RepArr n N} (hX : CorepLaw T a F X) {B : RepArr m d}
    {M : Matrix (Fin d) (Fin d) ℂ} {S : Matrix (Fin N) (Fin d) ℂ} (h1 : ∀ u, X (xsg u) * S = S * B u)
    (h2 : X a0 * S.map star = S * M) (g : Fin n) :
    X g * S.map (conjIf (a g)) =
      S * assemble xsg (fun u => T a0 (xsg u)) B (fun u => star (F a0 (xsg u)) • (M * (B u).map star)) g := by
  rcases A.cases g with ⟨u, rfl⟩ | ⟨u, rfl⟩
  · rw [A.assemble_lin, A.linear, mapConjIf_false, h1]
  · rw [A.assemble_anti, A.anti_a0u, mapConjIf_true]
    have h3 : X (T a0 (xsg u)) = star (F a0 (xsg u)) • (X a0 * (X (xsg u)).map star) := by
      rw [A.anti_mul hX, smul_smul, mul_comm, A.mul_star, one_smul]
    rw [h3, Matrix.smul_mul, Matrix.mul_smul, Matrix.mul_assoc, ← mapStar_mul, h1, mapStar_mul, ← Matrix.mul_assoc, h2,
      Matrix.mul_assoc]

/-- An injective such relation out of an irreducible co-representation is an equivalence. -/
theorem equiv_of_injective {X : RepArr n N}
    (hXi : IsIrreducibleCorep a X) {E : RepArr n d} (hd : 0 < d) {S : Matrix (Fin N) (Fin d) ℂ}
    (h1 : ∀ g, X g * S.map (conjIf (a g)) = S * E g) (hS : Function.Injective S.mulVec) : AreCorepEquivalent a X E := by
  have hconj : ∀ (g : Fin n) (v : Fin d → ℂ), (fun x => conjIf (a g) (S.mulVec v x)) =
      (S.map (conjIf (a g))).mulVec fun x => conjIf (a g) (v x) := by
    intro g v
    funext x
    cases hag : a g <;> simp [Matrix.mulVec, dotProduct, conjIf]
  have h2 := hXi.2 (LinearMap.range S.mulVecLin) fun g v hv => by
    obtain ⟨x, rfl⟩ := hv
    refine ⟨(E g).mulVec fun y => conjIf (a g) (x y), ?_⟩
    simp only [Matrix.mulVecLin_apply]
    rw [hconj, Matrix.mulVec_mulVec, Matrix.mulVec_mulVec, h1]
  have h3 : LinearMap.range S.mulVecLin = ⊤ := by
    rcases h2 with h2 | h2
    · exfalso
      have h4 : S.mulVec (Pi.single ⟨0, hd⟩ 1) ∈ LinearMap.range S.mulVecLin := ⟨_, rfl⟩
      rw [h2, Submodule.mem_bot] at h4
      have h5 := hS (h4.trans (Matrix.mulVec_zero S).symm)
      have := congrFun h5 ⟨0, hd⟩
      simp at this
    · exact h2
  let e : (Fin d → ℂ) ≃ₗ[ℂ] (Fin N → ℂ) := LinearEquiv.ofBijective S.mulVecLin ⟨hS, LinearMap.range_eq_top.1 h3⟩
  have he : ∀ v, e v = S.mulVec v := fun v => rfl
  refine ⟨S, LinearMap.toMatrix' e.symm.toLinearMap, ?_, ?_, h1⟩
  · apply Matrix.toLin'.injective
    rw [Matrix.toLin'_mul, Matrix.toLin'_toMatrix', Matrix.toLin'_one]
    refine LinearMap.ext fun v => ?_
    rw [LinearMap.comp_apply, Matrix.toLin'_apply]
    exact e.apply_symm_apply v
  · apply Matrix.toLin'.injective
    rw [Matrix.toLin'_mul, Matrix.toLin'_toMatrix', Matrix.toLin'_one]
    refine LinearMap.ext fun v => ?_
    rw [LinearMap.comp_apply, Matrix.toLin'_apply]
    exact e.symm_apply_apply v

theorem anti_ne_zero {X : RepArr n N} (hu : IsUnit (X a0)) {P : Matrix (Fin N) (Fin d) ℂ} (h0 : P ≠ 0) :
    X a0 * P.map star ≠ 0 := by
  intro h
  apply h0
  obtain ⟨V, hV⟩ := hu
  have h1 : P.map star = 0 := by
    calc P.map star = ((V⁻¹ : (Matrix (Fin N) (Fin N) ℂ)ˣ) : Matrix (Fin N) (Fin N) ℂ) * (X a0 * P.map star) := by
          rw [← Matrix.mul_assoc, ← hV, Units.inv_mul, Matrix.one_mul]
      _ = 0 := by rw [h, Matrix.mul_zero]
  rw [← mapStar_mapStar P, h1]
  ext i j
  simp

/-- A constituent and its image under `a0` are independent unless the indicator is 1. -/
theorem cols_injective (A : AntiGroup T a F xsg T' a0 c s) {X : RepArr n N} (hX : CorepLaw T a F X) (hu : IsUnit (X a0))
    {D : RepArr m d} (hDi : Spec.IsIrreducible D) {P : Matrix (Fin N) (Fin d) ℂ} (hP : ∀ u, X (xsg u) * P = P * D u)
    (h0 : P ≠ 0) (hε : ¬ AreEquivalent D (bar F xsg a0 c D) ∨ ∃ U U' : Matrix (Fin d) (Fin d) ℂ, U * U' = 1 ∧
      (∀ u, D u * U = U * bar F xsg a0 c D u) ∧ U * U.map star = -(F a0 a0 • D s)) :
    Function.Injective (cols P (X a0 * P.map star)).mulVec := by
  set Q := X a0 * P.map star with hQ
  have hQ0 : Q ≠ 0 := anti_ne_zero hu h0
  have hQi := A.partner hX hP
  rw [← hQ] at hQi
  have hQinj : Function.Injective Q.mulVec := injective_of_intertwines (A.bar_irreducible hDi) hQi hQ0
  let W : Submodule ℂ (Fin d → ℂ) :=
    { carrier := {x | ∃ y, P.mulVec x = Q.mulVec y}
      add_mem' := by
        rintro x x' ⟨y, hy⟩ ⟨y', hy'⟩
        exact ⟨y + y', by rw [Matrix.mulVec_add, Matrix.mulVec_add, hy, hy']⟩
      zero_mem' := ⟨0, by rw [Matrix.mulVec_zero, Matrix.mulVec_zero]⟩
      smul_mem' := by
        rintro z x ⟨y, hy⟩
        exact ⟨z • y, by rw [Matrix.mulVec_smul, Matrix.mulVec_smul, hy]⟩ }
  have hW : W = ⊥ ∨ W = ⊤ := by
    refine hDi.2 W fun g v hv => ?_
    obtain ⟨y, hy⟩ := hv
    refine ⟨(bar F xsg a0 c D g).mulVec y, ?_⟩
    rw [Matrix.mulVec_mulVec, ← hP, Matrix.mulVec_mulVec, ← hQi, ← Matrix.mulVec_mulVec, hy, Matrix.mulVec_mulVec]
  rcases hW with hW | hW
  · have key : ∀ x y, P.mulVec x + Q.mulVec y = 0 → x = 0 ∧ y = 0 := by
      intro x y h
      have hx : x ∈ W := ⟨-y, by rw [Matrix.mulVec_neg]; exact eq_neg_of_add_eq_zero_left h⟩
      rw [hW, Submodule.mem_bot] at hx
      subst hx
      rw [Matrix.mulVec_zero, zero_add] at h
      exact ⟨rfl, hQinj (h.trans (Matrix.mulVec_zero Q).symm)⟩
    intro v w hvw
    have h1 : (cols P Q).mulVec (v - w) = 0 := by
      rw [Matrix.mulVec_sub]
      exact sub_eq_zero.2 hvw
    rw [cols_mulVec] at h1
    obtain ⟨h2, h3⟩ := key _ _ h1
    funext j
    obtain ⟨j, rfl⟩ := finSumFinEquiv.surjective j
    rcases j with j | j
    · exact sub_eq_zero.1 (congrFun h2 j)
    · exact sub_eq_zero.1 (congrFun h3 j)
  · exfalso
    have h1 : ∀ j : Fin d, ∃ y, P.mulVec (Pi.single j 1) = Q.mulVec y := fun j => by
      have : (Pi.single j 1 : Fin d → ℂ) ∈ W := by rw [hW]; exact Submodule.mem_top
      exact this
    choose y hy using h1
    let M : Matrix (Fin d) (Fin d) ℂ := Matrix.of fun i j => y j i
    have hPM : P = Q * M := by
      ext i j
      have := congrFun (hy j) i
      rw [Matrix.mulVec_single_one] at this
      rw [Matrix.mul_apply]
      exact this
    have hMD : ∀ u, bar F xsg a0 c D u * M = M * D u := by
      intro u
      apply mul_left_cancel_of_injective hQinj
      rw [← Matrix.mul_assoc, ← hQi, Matrix.mul_assoc, ← hPM, hP, ← Matrix.mul_assoc, ← hPM]
    have hM0 : M ≠ 0 := by
      intro h
      apply h0
      rw [hPM, h, Matrix.mul_zero]
    rcases hε with hε | ⟨U, U', hUU, hUD, hsq⟩
    · apply hε
      obtain ⟨M', h2, h3⟩ := schur_equiv (A.bar_irreducible hDi) hDi hMD hM0
      exact AreEquivalent.symm ⟨M, M', h2, h3, hMD⟩
    · obtain ⟨z, hz⟩ := schur_scalar hDi (M := U * M) fun u => by
        rw [← Matrix.mul_assoc, hUD, Matrix.mul_assoc, hMD, Matrix.mul_assoc]
      have hUU' : U' * U = 1 := mul_eq_one_comm.1 hUU
      have hM : M = z • U' := by
        calc M = U' * (U * M) := by rw [← Matrix.mul_assoc, hUU', Matrix.one_mul]
          _ = z • U' := by rw [hz, Matrix.mul_smul, Matrix.mul_one]
      have hMU : M * U = z • 1 := by rw [hM, Matrix.smul_mul, hUU']
      have h2 : Q * (1 : Matrix (Fin d) (Fin d) ℂ) = Q * (M * (F a0 a0 • D s) * M.map star) := by
        calc Q * (1 : Matrix (Fin d) (Fin d) ℂ) = X a0 * (Q * M).map star := by rw [Matrix.mul_one, ← hPM]
          _ = P * (F a0 a0 • D s) * M.map star := by
              rw [mapStar_mul, ← Matrix.mul_assoc, hQ, A.partner_square hX hP]
          _ = Q * M * (F a0 a0 • D s) * M.map star := by rw [← hPM]
          _ = _ := by simp only [Matrix.mul_assoc]
      have h3 := mul_left_cancel_of_injective hQinj h2
      have h4 : F a0 a0 • D s = -(U * U.map star) := by rw [hsq, neg_neg]
      have h5 : (1 : Matrix (Fin d) (Fin d) ℂ) = (-(z * star z)) • 1 := by
        calc (1 : Matrix (Fin d) (Fin d) ℂ) = -(M * U * (U * M).map star) := by
              rw [h3, h4, mapStar_mul, Matrix.mul_neg, Matrix.neg_mul]
              simp only [Matrix.mul_assoc]
          _ = _ := by
              rw [hMU, hz, mapStar_smul, map_star_one, Matrix.smul_mul, Matrix.mul_smul, smul_smul, Matrix.mul_one, neg_smul]
      obtain ⟨i⟩ := hDi.1
      have h6 := congrFun (congrFun h5 i) i
      simp only [Matrix.smul_apply, Matrix.one_apply_eq, smul_eq_mul, mul_one, Complex.star_def, Complex.mul_conj] at h6
      have h7 := congrArg Complex.re h6
      simp only [Complex.one_re, Complex.neg_re, Complex.ofReal_re] at h7
      linarith [Complex.normSq_nonneg z]

/-! ### The classification -/

/-- A complete family of irreps of the linear elements, with partners `p` and indicators `ι`. -/
structure PairedIrreps (T : Fin n → Fin n → Fin n) (F : Fin n → Fin n → ℂ) (xsg : Fin m → Fin n)
    (T' : Fin m → Fin m → Fin m) (a0 : Fin n) (c : Fin m → Fin m) {l : ℕ} {dm : Fin l → ℕ} (R : ∀ i, RepArr m (dm i))
    (p : Fin l → Fin l) (ι : Fin l → ℤ) : Prop where
  rep : ∀ i, IsProjRep T' (fun u v => F (xsg u) (xsg v)) (R i)
  unitary : ∀ i, IsUnitaryRep (R i)
  irred : ∀ i, Spec.IsIrreducible (R i)
  inequiv : ∀ i j, AreEquivalent (R i) (R j) → i = j
  complete : ∀ (e : ℕ) (E : RepArr m e), IsProjRep T' (fun u v => F (xsg u) (xsg v)) E → (∀ g, IsUnit (E g)) →
    Spec.IsIrreducible E → ∃ i, AreEquivalent E (R i)
  invol : ∀ i, p (p i) = i
  partner : ∀ i j, AreEquivalent (bar F xsg a0 c (R i)) (R j) ↔ j = p i
  values : ∀ i, ι i = 1 ∨ ι i = -1 ∨ ι i = 0
  zero : ∀ i, ι i = 0 ↔ p i ≠ i
  sum : ∀ i (q : Fin m → Fin m), (∀ u, xsg (q u) = T (T a0 (xsg u)) (T a0 (xsg u))) →
    ∑ u, F (T a0 (xsg u)) (T a0 (xsg u)) * (R i (q u)).trace = ((ι i * m : ℤ) : ℂ)

variable {l : ℕ} {dm : Fin l → ℕ} {R : ∀ i, RepArr m (dm i)} {p : Fin l → Fin l} {ι : Fin l → ℤ}

/-- The intertwiner between an irrep and its conjugate, when they are equivalent. -/
theorem exists_square (A : AntiGroup T a F xsg T' a0 c s) (H : PairedIrreps T F xsg T' a0 c R p ι) {i : Fin l}
    (hi : p i = i) : ∃ U : Matrix (Fin (dm i)) (Fin (dm i)) ℂ, U * U.conjTranspose = 1 ∧
      (∀ u, R i u * U = U * bar F xsg a0 c (R i) u) ∧ U * U.map star = (ι i : ℂ) • F a0 a0 • R i s := by
  have hm : (m : ℂ) ≠ 0 := by exact_mod_cast (table_pos A.sub_table).ne'
  obtain ⟨U, hU, hUD⟩ := exists_unitary (H.unitary i) (A.bar_unitary (H.unitary i)) (A.bar_irreducible (H.irred i))
    (AreEquivalent.symm ((H.partner i i).2 hi.symm))
  obtain ⟨σ, -, hsq, hsum⟩ := A.intertwiner_square (H.rep i) (H.unitary i) (H.irred i) hU hUD
  have hq : ∀ u, xsg (T' (T' s (c u)) u) = T (T a0 (xsg u)) (T a0 (xsg u)) := fun u => (A.pos_anti_anti u u).symm
  have h2 := (hsum _ hq).symm.trans (H.sum i _ hq)
  have h3 : σ = (ι i : ℂ) := mul_right_cancel₀ hm (by rw [h2]; push_cast; ring)
  exact ⟨U, hU, hUD, by rw [hsq, h3]⟩

/-- An invariant subspace contains one of the irreps. -/
theorem exists_constituent (H : PairedIrreps T F xsg T' a0 c R p ι) {Y : RepArr m N}
    (hY : IsProjRep T' (fun u v => F (xsg u) (xsg v)) Y) (hu : ∀ u, IsUnit (Y u)) (W : Submodule ℂ (Fin N → ℂ))
    (hW : ∀ u, ∀ v ∈ W, (Y u).mulVec v ∈ W) (h0 : W ≠ ⊥) :
    ∃ i, ∃ P : Matrix (Fin N) (Fin (dm i)) ℂ, P ≠ 0 ∧ (∀ u, Y u * P = P * R i u) ∧ ∀ v, P.mulVec v ∈ W := by
  obtain ⟨d, J, Γ, hJ, hΓ, hinj, hJW⟩ := exists_irred_sub W hW h0
  have hΓr : IsProjRep T' (fun u v => F (xsg u) (xsg v)) Γ := by
    intro g h
    apply mul_left_cancel_of_injective hinj
    rw [← Matrix.mul_assoc, ← hJ, Matrix.mul_assoc, ← hJ, ← Matrix.mul_assoc, hY g h, Matrix.smul_mul, hJ, Matrix.mul_smul]
  have hΓu : ∀ g, IsUnit (Γ g) := by
    intro g
    rw [← Matrix.mulVec_injective_iff_isUnit]
    intro v w hvw
    apply hinj
    apply (Matrix.mulVec_injective_iff_isUnit.2 (hu g))
    rw [Matrix.mulVec_mulVec, Matrix.mulVec_mulVec, hJ, ← Matrix.mulVec_mulVec, ← Matrix.mulVec_mulVec, hvw]
  obtain ⟨i, S, S', h1, h2, h3⟩ := H.complete d Γ hΓr hΓu hΓ
  refine ⟨i, J * S, ?_, fun u => ?_, fun v => ?_⟩
  · intro h
    obtain ⟨j⟩ := hΓ.1
    have h4 : J = 0 := by
      calc J = J * S * S' := by rw [Matrix.mul_assoc, h1, Matrix.mul_one]
        _ = 0 := by rw [h, Matrix.zero_mul]
    have h5 : (Pi.single j 1 : Fin d → ℂ) = 0 := hinj (by rw [h4, Matrix.zero_mulVec, Matrix.zero_mulVec])
    have := congrFun h5 j
    simp at this
  · rw [← Matrix.mul_assoc, hJ, Matrix.mul_assoc, h3, Matrix.mul_assoc]
  · rw [← Matrix.mulVec_mulVec]
    exact hJW _

theorem assemble_unitary (A : AntiGroup T a F xsg T' a0 c s) {B : RepArr m d} (hB : IsUnitaryRep B)
    {M : Matrix (Fin d) (Fin d) ℂ} (hM : M * M.conjTranspose = 1) :
    IsUnitaryRep (assemble xsg (fun u => T a0 (xsg u)) B fun u => star (F a0 (xsg u)) • (M * (B u).map star)) := by
  intro g
  rcases A.cases g with ⟨u, rfl⟩ | ⟨u, rfl⟩
  · rw [A.assemble_lin]
    exact hB u
  · rw [A.assemble_anti]
    refine smul_unitary (by rw [norm_star, A.norm]) ?_
    rw [Matrix.conjTranspose_mul, Matrix.mul_assoc, ← Matrix.mul_assoc ((B u).map star), conj_unitary hB u, Matrix.one_mul, hM]

/-- The linear part of an invariant subspace, and its image under `a0`. -/
theorem invariant_lin (A : AntiGroup T a F xsg T' a0 c s) {X : RepArr n N} {W : Submodule ℂ (Fin N → ℂ)}
    (hW : ∀ i, ∀ v ∈ W, (X i).mulVec (fun x => conjIf (a i) (v x)) ∈ W) :
    (∀ u, ∀ v ∈ W, (X (xsg u)).mulVec v ∈ W) ∧ ∀ {P : Matrix (Fin N) (Fin d) ℂ}, (∀ v, P.mulVec v ∈ W) →
      ∀ v, (X a0 * P.map star).mulVec v ∈ W := by
  constructor
  · intro u v hv
    have := hW (xsg u) v hv
    rw [A.linear] at this
    exact this
  · intro P hP v
    have := hW a0 (P.mulVec fun x => star (v x)) (hP _)
    rw [A.anti] at this
    convert this using 1
    rw [← Matrix.mulVec_mulVec]
    congr 1
    funext x
    simp [Matrix.mulVec, dotProduct, conjIf]

/-- An invariant subspace containing the columns of an injective square matrix is the whole space. -/
theorem eq_top_of_injective {W : Submodule ℂ (Fin N → ℂ)} {S : Matrix (Fin N) (Fin d) ℂ} (hS : Function.Injective S.mulVec)
    (hN : N = d) (hW : ∀ v, S.mulVec v ∈ W) : W = ⊤ := by
  subst hN
  rw [Submodule.eq_top_iff']
  intro v
  obtain ⟨w, rfl⟩ := (LinearMap.injective_iff_surjective (f := S.mulVecLin)).1 hS v
  exact hW w

/-- What is in a doubled irrep. -/
theorem constituent_blocks {D E : RepArr m d} (hD : Spec.IsIrreducible D) (hE : Spec.IsIrreducible E) {e : ℕ} {Γ : RepArr m e}
    (hΓ : Spec.IsIrreducible Γ) {P : Matrix (Fin (d + d)) (Fin e) ℂ} (h0 : P ≠ 0)
    (hP : ∀ u, blocks (D u) 0 0 (E u) * P = P * Γ u) : AreEquivalent D Γ ∨ AreEquivalent E Γ := by
  let P1 : Matrix (Fin d) (Fin e) ℂ := fun i j => P (finSumFinEquiv (Sum.inl i)) j
  let P2 : Matrix (Fin d) (Fin e) ℂ := fun i j => P (finSumFinEquiv (Sum.inr i)) j
  have h1 : ∀ u, D u * P1 = P1 * Γ u := by
    intro u
    ext i j
    have := congrFun (congrFun (hP u) (finSumFinEquiv (Sum.inl i))) j
    rw [Matrix.mul_apply, ← finSumFinEquiv.sum_comp, Fintype.sum_sum_type] at this
    simp only [blocks, Matrix.reindex_apply, Matrix.submatrix_apply, Equiv.symm_apply_apply, Matrix.fromBlocks_apply₁₁,
      Matrix.fromBlocks_apply₁₂, Matrix.zero_apply, zero_mul, Finset.sum_const_zero, add_zero] at this
    exact this
  have h2 : ∀ u, E u * P2 = P2 * Γ u := by
    intro u
    ext i j
    have := congrFun (congrFun (hP u) (finSumFinEquiv (Sum.inr i))) j
    rw [Matrix.mul_apply, ← finSumFinEquiv.sum_comp, Fintype.sum_sum_type] at this
    simp only [blocks, Matrix.reindex_apply, Matrix.submatrix_apply, Equiv.symm_apply_apply, Matrix.fromBlocks_apply₂₁,
      Matrix.fromBlocks_apply₂₂, Matrix.zero_apply, zero_mul, Finset.sum_const_zero, zero_add] at this
    exact this
  by_cases h3 : P1 = 0
  · have h4 : P2 ≠ 0 := by
      intro h4
      apply h0
      ext i j
      obtain ⟨i, rfl⟩ := finSumFinEquiv.surjective i
      rcases i with i | i
      · exact congrFun (congrFun h3 i) j
      · exact congrFun (congrFun h4 i) j
    obtain ⟨S', h5, h6⟩ := schur_equiv hE hΓ h2 h4
    exact .inr ⟨P2, S', h5, h6, h2⟩
  · obtain ⟨S', h5, h6⟩ := schur_equiv hD hΓ h1 h3
    exact .inl ⟨P1, S', h5, h6, h1⟩

/-- Wigner's classification of irreducible co-representations. -/
theorem wigner_classification (A : AntiGroup T a F xsg T' a0 c s) (H : PairedIrreps T F xsg T' a0 c R p ι) :
    ∃ K : Fin l → AnyRep n,
      (∀ i, ι i = 1 → ∃ E : RepArr n (dm i), K i = ⟨dm i, E⟩ ∧ ∀ u, E (xsg u) = R i u) ∧
      (∀ i, ι i ≠ 1 → ∃ E : RepArr n (dm i + dm i), K i = ⟨dm i + dm i, E⟩ ∧
        ∀ u, E (xsg u) = blocks (R i u) 0 0 (bar F xsg a0 c (R i) u)) ∧
      (∀ i, CorepLaw T a F (K i).2) ∧ (∀ i, IsUnitaryRep (K i).2) ∧ (∀ i, IsIrreducibleCorep a (K i).2) ∧
      (∀ i j, AreCorepEquivalent a (K i).2 (K j).2 → j = i ∨ j = p i) ∧
      ∀ (N : ℕ) (X : RepArr n N), CorepLaw T a F X → (∀ i, IsUnit (X i)) → IsIrreducibleCorep a X →
        ∃ i, i ≤ p i ∧ AreCorepEquivalent a X (K i).2 := by
  classical
  -- indicators of partners
  have hpart : ∀ i, ι i ≠ 1 → ι (p i) ≠ 1 := by
    intro i h
    rcases H.values i with h1 | h1 | h1
    · exact absurd h1 h
    · have h2 : p i = i := by
        by_contra h2
        rw [(H.zero i).2 h2] at h1
        exact absurd h1 (by decide)
      rwa [h2]
    · have h2 : ι (p i) = 0 := (H.zero _).2 (by rw [H.invol]; exact ((H.zero i).1 h1).symm)
      rw [h2]
      decide
  have hε : ∀ i, ι i ≠ 1 → (¬ AreEquivalent (R i) (bar F xsg a0 c (R i)) ∨
      ∃ U U' : Matrix (Fin (dm i)) (Fin (dm i)) ℂ, U * U' = 1 ∧ (∀ u, R i u * U = U * bar F xsg a0 c (R i) u) ∧
        U * U.map star = -(F a0 a0 • R i s)) := by
    intro i h
    rcases H.values i with h1 | h1 | h1
    · exact absurd h1 h
    · right
      have h2 : p i = i := by
        by_contra h2
        rw [(H.zero i).2 h2] at h1
        exact absurd h1 (by decide)
      obtain ⟨U, hU, hUD, hsq⟩ := A.exists_square H h2
      exact ⟨U, _, hU, hUD, by rw [hsq, h1]; simp⟩
    · left
      intro h2
      exact (H.zero i).1 h1 ((H.partner i i).1 (AreEquivalent.symm h2)).symm
  -- the co-representations
  have hU : ∀ i, ∃ U : Matrix (Fin (dm i)) (Fin (dm i)) ℂ, ι i = 1 → U * U.conjTranspose = 1 ∧
      (∀ u, R i u * U = U * bar F xsg a0 c (R i) u) ∧ U * U.map star = F a0 a0 • R i s := by
    intro i
    by_cases h : ι i = 1
    · have h2 : p i = i := by
        by_contra h2
        rw [(H.zero i).2 h2] at h
        exact absurd h (by decide)
      obtain ⟨U, hU, hUD, hsq⟩ := A.exists_square H h2
      exact ⟨U, fun _ => ⟨hU, hUD, by rw [hsq, h]; simp⟩⟩
    · exact ⟨0, fun h' => absurd h' h⟩
  choose U hU using hU
  let one : ∀ i, RepArr n (dm i) := fun i => assemble xsg (fun u => T a0 (xsg u)) (R i) fun u =>
    star (F a0 (xsg u)) • (U i * (R i u).map star)
  let B : ∀ i, RepArr m (dm i + dm i) := fun i u => blocks (R i u) 0 0 (bar F xsg a0 c (R i) u)
  let M : ∀ i, Matrix (Fin (dm i + dm i)) (Fin (dm i + dm i)) ℂ := fun i => blocks 0 (F a0 a0 • R i s) 1 0
  let dbl : ∀ i, RepArr n (dm i + dm i) := fun i => assemble xsg (fun u => T a0 (xsg u)) (B i) fun u =>
    star (F a0 (xsg u)) • (M i * (B i u).map star)
  let K : Fin l → AnyRep n := fun i => if ι i = 1 then ⟨dm i, one i⟩ else ⟨dm i + dm i, dbl i⟩
  have hK1 : ∀ i, ι i = 1 → K i = ⟨dm i, one i⟩ := fun i h => if_pos h
  have hK2 : ∀ i, ι i ≠ 1 → K i = ⟨dm i + dm i, dbl i⟩ := fun i h => if_neg h
  have hone : ∀ i u, one i (xsg u) = R i u := fun i u => A.assemble_lin _ _ u
  have hdbl : ∀ i u, dbl i (xsg u) = B i u := fun i u => A.assemble_lin _ _ u
  have hBr : ∀ i, IsProjRep T' (fun u v => F (xsg u) (xsg v)) (B i) := fun i => blocks_projRep (H.rep i) (A.bar_projRep (H.rep i))
  have hlaw : ∀ i, CorepLaw T a F (K i).2 := by
    intro i
    by_cases h : ι i = 1
    · rw [hK1 i h]
      exact A.law_of_intertwines (H.rep i) (hU i h).2.1 (hU i h).2.2
    · rw [hK2 i h]
      obtain ⟨-, hM2, hM3⟩ := A.zero_matrix (H.rep i) (H.unitary i)
      exact A.law_of_intertwines (hBr i) hM2 hM3
  have hunit : ∀ i, IsUnitaryRep (K i).2 := by
    intro i
    by_cases h : ι i = 1
    · rw [hK1 i h]
      exact A.assemble_unitary (H.unitary i) (hU i h).1
    · rw [hK2 i h]
      obtain ⟨hM1, -, -⟩ := A.zero_matrix (H.rep i) (H.unitary i)
      exact A.assemble_unitary (blocks_unitary (H.unitary i) (A.bar_unitary (H.unitary i))) (mul_eq_one_comm.1 hM1)
  -- constituents of the linear part
  have hcons : ∀ i j (P : Matrix (Fin (K i).1) (Fin (dm j)) ℂ), P ≠ 0 → (∀ u, (K i).2 (xsg u) * P = P * R j u) →
      j = i ∨ j = p i := by
    intro i
    by_cases h : ι i = 1
    · rw [hK1 i h]
      intro j P h0 hP
      left
      simp only [hone] at hP
      obtain ⟨S', h1, h2⟩ := schur_equiv (H.irred i) (H.irred j) hP h0
      exact (H.inequiv i j ⟨P, S', h1, h2, hP⟩).symm
    · rw [hK2 i h]
      intro j P h0 hP
      simp only [hdbl] at hP
      rcases constituent_blocks (H.irred i) (A.bar_irreducible (H.irred i)) (H.irred j) h0 hP with h1 | h1
      · exact .inl (H.inequiv i j h1).symm
      · exact .inr ((H.partner i j).1 h1)
  have hlinU : ∀ i u, IsUnit ((K i).2 (xsg u)) := fun i u => IsUnitaryRep.isUnit (hunit i) _
  have hpos : ∀ i, 0 < dm i := fun i => by obtain ⟨j⟩ := (H.irred i).1; exact j.pos
  have hirr : ∀ i, IsIrreducibleCorep a (K i).2 := by
    intro i
    by_cases h : ι i = 1
    · rw [hK1 i h]
      refine ⟨(H.irred i).1, fun W hW => (H.irred i).2 W fun u v hv => ?_⟩
      have := (A.invariant_lin (d := 0) hW).1 u v hv
      simp only [hone] at this
      exact this
    · refine ⟨?_, fun W hW => ?_⟩
      · rw [hK2 i h]
        exact ⟨⟨0, Nat.add_pos_left (hpos i) _⟩⟩
      · by_cases hW0 : W = ⊥
        · exact .inl hW0
        right
        obtain ⟨j, P, h0, hP, hPW⟩ := exists_constituent H (A.lin_projRep (hlaw i)) (hlinU i) W
          (A.invariant_lin (d := 0) hW).1 hW0
        have hj : ι j ≠ 1 ∧ (K i).1 = dm j + dm j := by
          have h3 : (K i).1 = dm i + dm i := by rw [hK2 i h]
          rcases hcons i j P h0 hP with rfl | rfl
          · exact ⟨h, h3⟩
          · refine ⟨hpart i h, ?_⟩
            rw [h3, AreEquivalent.dim_eq ((H.partner i (p i)).2 rfl)]
        have h1 := A.cols_injective (hlaw i) (IsUnitaryRep.isUnit (hunit i) _) (H.irred j) hP h0 (hε j hj.1)
        refine eq_top_of_injective h1 hj.2 fun v => ?_
        rw [cols_mulVec]
        exact W.add_mem (hPW _) ((A.invariant_lin hW).2 hPW _)
  refine ⟨K, fun i h => ⟨one i, hK1 i h, hone i⟩, fun i h => ⟨dbl i, hK2 i h, hdbl i⟩, hlaw, hunit, hirr, ?_, ?_⟩
  · rintro i j ⟨S, S', h1, h2, h3⟩
    have h3' : ∀ u, (K i).2 (xsg u) * S = S * (K j).2 (xsg u) := by
      intro u
      have := h3 (xsg u)
      rwa [A.linear, mapConjIf_false] at this
    obtain ⟨k, P, h0, hP, -⟩ := exists_constituent H (A.lin_projRep (hlaw j)) (hlinU j) ⊤
      (fun _ _ _ => Submodule.mem_top) (by
        obtain ⟨x⟩ := (hirr j).1
        intro h
        have h4 : (Pi.single x 1 : Fin (K j).1 → ℂ) ∈ (⊤ : Submodule ℂ (Fin (K j).1 → ℂ)) := Submodule.mem_top
        rw [h, Submodule.mem_bot] at h4
        have := congrFun h4 x
        simp at this)
    have h4 := hcons j k P h0 hP
    have h5 : k = i ∨ k = p i := by
      refine hcons i k (S * P) ?_ fun u => ?_
      · intro h
        apply h0
        calc P = S' * (S * P) := by rw [← Matrix.mul_assoc, h2, Matrix.one_mul]
          _ = 0 := by rw [h, Matrix.mul_zero]
      · rw [← Matrix.mul_assoc, h3', Matrix.mul_assoc, hP, Matrix.mul_assoc]
    rcases h4 with rfl | rfl
    · exact h5
    · rcases h5 with h5 | h5
      · exact .inr (by rw [← h5, H.invol])
      · exact .inl (by rw [← H.invol j, h5, H.invol])
  · intro N X hX hXu hXi
    -- a constituent whose index comes first
    have hex : ∃ i, i ≤ p i ∧ ∃ P : Matrix (Fin N) (Fin (dm i)) ℂ, P ≠ 0 ∧ ∀ u, X (xsg u) * P = P * R i u := by
      obtain ⟨i, P, h0, hP, -⟩ := exists_constituent H (A.lin_projRep hX) (fun u => hXu _) ⊤
        (fun _ _ _ => Submodule.mem_top) (by
          obtain ⟨x⟩ := hXi.1
          intro h
          have h4 : (Pi.single x 1 : Fin N → ℂ) ∈ (⊤ : Submodule ℂ (Fin N → ℂ)) := Submodule.mem_top
          rw [h, Submodule.mem_bot] at h4
          have := congrFun h4 x
          simp at this)
      by_cases hi : i ≤ p i
      · exact ⟨i, hi, P, h0, hP⟩
      · obtain ⟨S, S', h1, h2, h3⟩ := (H.partner i (p i)).2 rfl
        refine ⟨p i, by rw [H.invol]; exact (not_le.1 hi).le, X a0 * P.map star * S, ?_, fun u => ?_⟩
        · intro h
          apply anti_ne_zero (hXu a0) h0
          calc X a0 * P.map star = X a0 * P.map star * S * S' := by rw [Matrix.mul_assoc, h1, Matrix.mul_one]
            _ = 0 := by rw [h, Matrix.zero_mul]
        · rw [← Matrix.mul_assoc, A.partner hX hP, Matrix.mul_assoc, h3]
          simp only [Matrix.mul_assoc]
    obtain ⟨i, hi, P, h0, hP⟩ := hex
    refine ⟨i, hi, ?_⟩
    have hQ := A.partner hX hP
    have hsq := A.partner_square hX hP
    set Q := X a0 * P.map star with hQdef
    by_cases h : ι i = 1
    · rw [hK1 i h]
      obtain ⟨hU1, hU2, hU3⟩ := hU i h
      have hU1' : (U i).conjTranspose * U i = 1 := mul_eq_one_comm.1 hU1
      set Q' := Q * (U i).conjTranspose with hQ'
      have e0 : Q' * U i = Q := by rw [hQ', Matrix.mul_assoc, hU1', Matrix.mul_one]
      have e1 : ∀ u, X (xsg u) * Q' = Q' * R i u := by
        intro u
        have : bar F xsg a0 c (R i) u * (U i).conjTranspose = (U i).conjTranspose * R i u := by
          calc bar F xsg a0 c (R i) u * (U i).conjTranspose
              = (U i).conjTranspose * (U i * bar F xsg a0 c (R i) u) * (U i).conjTranspose := by
                rw [← Matrix.mul_assoc, hU1', Matrix.one_mul]
            _ = _ := by rw [← hU2, Matrix.mul_assoc, Matrix.mul_assoc, hU1, Matrix.mul_one]
        rw [hQ', ← Matrix.mul_assoc, hQ, Matrix.mul_assoc Q, this, Matrix.mul_assoc Q]
      have e2 : X a0 * Q'.map star = P * U i := by
        rw [hQ', mapStar_mul, ← Matrix.mul_assoc, hsq, ← hU3, Matrix.mul_assoc, Matrix.mul_assoc, ← mapStar_mul, hU1,
          map_star_one, Matrix.mul_one]
      have key : ∀ S : Matrix (Fin N) (Fin (dm i)) ℂ, S ≠ 0 → (∀ u, X (xsg u) * S = S * R i u) →
          X a0 * S.map star = S * U i → AreCorepEquivalent a X (one i) := fun S hS0 hS1 hS2 =>
        equiv_of_injective hXi (hpos i) (A.relation_of_gen hX hS1 hS2) (injective_of_intertwines (H.irred i) hS1 hS0)
      by_cases h1 : P + Q' = 0
      · refine key (Complex.I • (P - Q')) ?_ (fun u => ?_) ?_
        · intro h2
          have h3 : P - Q' = 0 := (smul_eq_zero.1 h2).resolve_left Complex.I_ne_zero
          apply h0
          have h4 : (2 : ℂ) • P = 0 := by
            rw [two_smul]
            calc P + P = (P + Q') + (P - Q') := by abel
              _ = 0 := by rw [h1, h3, add_zero]
          exact (smul_eq_zero.1 h4).resolve_left two_ne_zero
        · rw [Matrix.mul_smul, Matrix.smul_mul, Matrix.mul_sub, Matrix.sub_mul, hP, e1]
        · rw [mapStar_smul, mapStar_sub, Matrix.mul_smul, Matrix.mul_sub, e2, ← hQdef, ← e0, Complex.star_def, Complex.conj_I,
            neg_smul, ← smul_neg, neg_sub, Matrix.smul_mul, Matrix.sub_mul]
      · refine key (P + Q') h1 (fun u => ?_) ?_
        · rw [Matrix.mul_add, Matrix.add_mul, hP, e1]
        · rw [mapStar_add, Matrix.mul_add, e2, ← hQdef, Matrix.add_mul, e0, add_comm]
    · rw [hK2 i h]
      have h1 := A.cols_injective hX (hXu a0) (H.irred i) hP h0 (hε i h)
      refine equiv_of_injective hXi (Nat.add_pos_left (hpos i) _) (A.relation_of_gen hX (B := B i) (M := M i) (fun u => ?_) ?_) h1
      · rw [mul_cols, cols_mul_blocks, ← hQdef, hP, hQ]
        simp
      · rw [cols_map_star, mul_cols, cols_mul_blocks, ← hQdef, hsq]
        simp

end AntiGroup

end Spgrep
