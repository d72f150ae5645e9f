/-
Representations over the real numbers: Schur's lemma, the doubled representation of an irrep, and lists of all real
irreducible representations.
-/
import Verif.Proofs.Enumerate
import Verif.Proofs.SmallReal
import Verif.Props.Representation
import Verif.Spec.PhysIrrep
import Mathlib.LinearAlgebra.Matrix.Basis
import Mathlib.LinearAlgebra.Complex.FiniteDimensional

namespace Spgrep

open Spec Matrix

variable {n d : ℕ}

/-- Schur's lemma over the real numbers. -/
theorem real_schur {ι κ : Type*} [Fintype ι] [Fintype κ] [DecidableEq ι] [DecidableEq κ]
    {R : Fin n → Matrix ι ι ℝ} {R' : Fin n → Matrix κ κ ℝ} (hR : IsRealIrreducible R) (hR' : IsRealIrreducible R')
    {S : Matrix ι κ ℝ} (hS : ∀ g, R g * S = S * R' g) (hne : S ≠ 0) :
    ∃ S' : Matrix κ ι ℝ, S * S' = 1 ∧ S' * S = 1 := by
  have hker : LinearMap.ker S.mulVecLin = ⊥ := by
    rcases hR'.2 (LinearMap.ker S.mulVecLin) (by
      intro g v hv
      simp only [LinearMap.mem_ker, Matrix.mulVecLin_apply] at hv ⊢
      rw [Matrix.mulVec_mulVec, ← hS, ← Matrix.mulVec_mulVec, hv, Matrix.mulVec_zero]) with h | h
    · exact h
    · exfalso
      apply hne
      have : S.mulVecLin = 0 := LinearMap.ker_eq_top.1 h
      ext i j
      have h2 := congrArg (fun f => f (Pi.single j 1) i) this
      simpa using h2
  have hran : LinearMap.range S.mulVecLin = ⊤ := by
    rcases hR.2 (LinearMap.range S.mulVecLin) (by
      rintro g _ ⟨v, rfl⟩
      refine ⟨(R' g).mulVec v, ?_⟩
      simp only [Matrix.mulVecLin_apply]
      rw [Matrix.mulVec_mulVec, ← hS, ← Matrix.mulVec_mulVec]) with h | h
    · exfalso
      apply hne
      have : S.mulVecLin = 0 := LinearMap.range_eq_bot.1 h
      ext i j
      have h2 := congrArg (fun f => f (Pi.single j 1) i) this
      simpa using h2
    · exact h
  let f := LinearEquiv.ofBijective S.mulVecLin ⟨LinearMap.ker_eq_bot.1 hker, LinearMap.range_eq_top.1 hran⟩
  have hf : ∀ v, S.mulVec (f.symm v) = v := fun v => f.apply_symm_apply v
  have hf' : ∀ v, f.symm (S.mulVec v) = v := fun v => f.symm_apply_apply v
  have h3 : ∀ v, (LinearMap.toMatrix' f.symm.toLinearMap).mulVec v = f.symm v := fun v => by
    have := LinearMap.toMatrix'_mulVec f.symm.toLinearMap v
    exact this
  refine ⟨LinearMap.toMatrix' f.symm.toLinearMap, ?_, ?_⟩
  · apply Matrix.mulVec_injective
    funext v
    change (S * _).mulVec v = (1 : Matrix ι ι ℝ).mulVec v
    rw [← Matrix.mulVec_mulVec, h3, hf, Matrix.one_mulVec]
  · apply Matrix.mulVec_injective
    funext v
    change (_ * S).mulVec v = (1 : Matrix κ κ ℝ).mulVec v
    rw [← Matrix.mulVec_mulVec, h3, hf', Matrix.one_mulVec]

/-- A real representation that is irreducible over the complex numbers is irreducible over the reals. -/
theorem realIrreducible_of_complex {ι : Type*} [Fintype ι] [DecidableEq ι] {R : Fin n → Matrix ι ι ℝ}
    (h : Spec.IsIrreducible fun g => (R g).map Complex.ofReal) : IsRealIrreducible R := by
  refine ⟨h.1, fun W hW => ?_⟩
  have hre : ∀ (A : Matrix ι ι ℝ) (v : ι → ℂ), (fun i => ((A.map Complex.ofReal).mulVec v i).re) =
      A.mulVec fun i => (v i).re := by
    intro A v; funext i
    simp [Matrix.mulVec, dotProduct]
  have him : ∀ (A : Matrix ι ι ℝ) (v : ι → ℂ), (fun i => ((A.map Complex.ofReal).mulVec v i).im) =
      A.mulVec fun i => (v i).im := by
    intro A v; funext i
    simp [Matrix.mulVec, dotProduct]
  let C : Submodule ℂ (ι → ℂ) :=
    { carrier := {v | (fun i => (v i).re) ∈ W ∧ (fun i => (v i).im) ∈ W}
      add_mem' := fun {a b} ha hb => ⟨W.add_mem ha.1 hb.1, W.add_mem ha.2 hb.2⟩
      zero_mem' := ⟨W.zero_mem, W.zero_mem⟩
      smul_mem' := fun c v hv => by
        constructor
        · have : (fun i => ((c • v) i).re) = c.re • (fun i => (v i).re) - c.im • fun i => (v i).im := by
            funext i; simp
          rw [this]; exact W.sub_mem (W.smul_mem _ hv.1) (W.smul_mem _ hv.2)
        · have : (fun i => ((c • v) i).im) = c.re • (fun i => (v i).im) + c.im • fun i => (v i).re := by
            funext i; simp
          rw [this]; exact W.add_mem (W.smul_mem _ hv.2) (W.smul_mem _ hv.1) }
  have hmem : ∀ w : ι → ℝ, w ∈ W ↔ (fun i => (w i : ℂ)) ∈ C := by
    intro w
    change _ ↔ (fun i => ((w i : ℂ)).re) ∈ W ∧ (fun i => ((w i : ℂ)).im) ∈ W
    simp only [Complex.ofReal_re, Complex.ofReal_im]
    exact ⟨fun h => ⟨h, W.zero_mem⟩, fun h => h.1⟩
  rcases h.2 C (fun g v hv => ⟨by rw [hre]; exact hW g _ hv.1, by rw [him]; exact hW g _ hv.2⟩) with h | h
  · left
    rw [Submodule.eq_bot_iff]
    intro w hw
    have := (hmem w).1 hw
    rw [h, Submodule.mem_bot] at this
    funext i
    have h2 := congrFun this i
    simpa using h2
  · right
    rw [Submodule.eq_top_iff']
    intro w
    rw [hmem, h]; trivial

/-- The complex vector with real part the first half and imaginary part minus the second half. -/
noncomputable def toC (v : Fin d ⊕ Fin d → ℝ) : Fin d → ℂ := fun i => ⟨v (Sum.inl i), -v (Sum.inr i)⟩

/-- Its inverse. -/
noncomputable def ofC (z : Fin d → ℂ) : Fin d ⊕ Fin d → ℝ := Sum.elim (fun i => (z i).re) fun i => -(z i).im

theorem toC_ofC (z : Fin d → ℂ) : toC (ofC z) = z := by
  funext i; apply Complex.ext <;> simp [toC, ofC]

theorem ofC_toC (v : Fin d ⊕ Fin d → ℝ) : ofC (toC v) = v := by
  funext i; rcases i with i | i <;> simp [toC, ofC]

theorem toC_add (v w : Fin d ⊕ Fin d → ℝ) : toC (v + w) = toC v + toC w := by
  funext i; apply Complex.ext <;> simp [toC]; ring

theorem toC_smul (c : ℝ) (v : Fin d ⊕ Fin d → ℝ) : toC (c • v) = (c : ℂ) • toC v := by
  funext i; apply Complex.ext <;> simp [toC]

/-- In these coordinates the doubled matrices act as the irrep. -/
theorem toC_physDouble (D : RepArr n d) (g : Fin n) (v : Fin d ⊕ Fin d → ℝ) :
    toC ((physDouble D g).mulVec v) = (D g).mulVec (toC v) := by
  funext i
  apply Complex.ext
  · simp [toC, physDouble, Matrix.mulVec, dotProduct, Fintype.sum_sum_type, Finset.sum_add_distrib]
  · simp [toC, physDouble, Matrix.mulVec, dotProduct, Fintype.sum_sum_type, Finset.sum_add_distrib]

theorem ofC_mulVec (D : RepArr n d) (g : Fin n) (z : Fin d → ℂ) :
    ofC ((D g).mulVec z) = (physDouble D g).mulVec (ofC z) := by
  rw [← ofC_toC ((physDouble D g).mulVec (ofC z)), toC_physDouble, toC_ofC]

/-- A proper real invariant subspace of the doubled irrep gives an intertwiner with the conjugate whose product with
its conjugate is one. -/
theorem conj_of_invariant {D : RepArr n d} (hD : Spec.IsIrreducible D)
    {W : Submodule ℝ (Fin d ⊕ Fin d → ℝ)} (hW : ∀ g, ∀ v ∈ W, (physDouble D g).mulVec v ∈ W)
    (h0 : W ≠ ⊥) (h1 : W ≠ ⊤) :
    ∃ S : Matrix (Fin d) (Fin d) ℂ, S * S.map star = 1 ∧ ∀ g, D g * S = S * (D g).map star := by
  classical
  let φ : (Fin d ⊕ Fin d → ℝ) →ₗ[ℝ] (Fin d → ℂ) :=
    { toFun := toC
      map_add' := toC_add
      map_smul' := fun c v => by rw [toC_smul]; funext i; simp }
  -- no complex line inside
  let I0 : Submodule ℂ (Fin d → ℂ) :=
    { carrier := {z | ofC z ∈ W ∧ ofC (Complex.I • z) ∈ W}
      add_mem' := fun {a b} ha hb => by
        have e : ∀ x y : Fin d → ℂ, ofC (x + y) = ofC x + ofC y := by
          intro x y; funext i; rcases i with i | i <;> simp [ofC]; ring
        refine ⟨by rw [e]; exact W.add_mem ha.1 hb.1, by rw [smul_add, e]; exact W.add_mem ha.2 hb.2⟩
      zero_mem' := by
        have e : ofC (0 : Fin d → ℂ) = 0 := by funext i; rcases i with i | i <;> simp [ofC]
        exact ⟨by rw [e]; exact W.zero_mem, by rw [smul_zero, e]; exact W.zero_mem⟩
      smul_mem' := fun c z hz => by
        have e1 : ofC (c • z) = c.re • ofC z + c.im • ofC (Complex.I • z) := by
          funext i; rcases i with i | i <;> simp [ofC] <;> ring
        have e2 : ofC (Complex.I • c • z) = c.re • ofC (Complex.I • z) - c.im • ofC z := by
          funext i; rcases i with i | i <;> simp [ofC] <;> ring
        exact ⟨by rw [e1]; exact W.add_mem (W.smul_mem _ hz.1) (W.smul_mem _ hz.2),
          by rw [e2]; exact W.sub_mem (W.smul_mem _ hz.2) (W.smul_mem _ hz.1)⟩ }
  have hI0 : I0 = ⊥ := by
    rcases hD.2 I0 (fun g z hz => ⟨by rw [ofC_mulVec]; exact hW g _ hz.1,
      by rw [← Matrix.mulVec_smul, ofC_mulVec]; exact hW g _ hz.2⟩) with h | h
    · exact h
    · exfalso; apply h1
      rw [Submodule.eq_top_iff']
      intro v
      have : toC v ∈ I0 := by rw [h]; trivial
      have h2 := this.1
      rwa [ofC_toC] at h2
  -- the complex span is everything
  let C0 : Submodule ℂ (Fin d → ℂ) := Submodule.span ℂ (toC '' (W : Set _))
  have hC0 : C0 = ⊤ := by
    rcases hD.2 C0 (fun g z hz => by
      induction hz using Submodule.span_induction with
      | mem x hx =>
        obtain ⟨w, hw, rfl⟩ := hx
        rw [← toC_physDouble]
        exact Submodule.subset_span ⟨_, hW g w hw, rfl⟩
      | zero => rw [Matrix.mulVec_zero]; exact C0.zero_mem
      | add x y _ _ hx hy => rw [Matrix.mulVec_add]; exact C0.add_mem hx hy
      | smul c x _ hx => rw [Matrix.mulVec_smul]; exact C0.smul_mem _ hx) with h | h
    · exfalso; apply h0
      rw [Submodule.eq_bot_iff]
      intro w hw
      have h2 : toC w ∈ C0 := Submodule.subset_span ⟨w, hw, rfl⟩
      rw [h, Submodule.mem_bot] at h2
      rw [← ofC_toC w, h2]
      funext i; rcases i with i | i <;> simp [ofC]
    · exact h
  -- a real basis of `W` is a complex basis
  let b := Module.finBasis ℝ W
  let m := Module.finrank ℝ W
  let w : Fin m → Fin d → ℂ := fun j => toC (b j : Fin d ⊕ Fin d → ℝ)
  have hsumC : ∀ c : Fin m → ℝ, toC ((∑ j, c j • b j : W) : Fin d ⊕ Fin d → ℝ) = ∑ j, (c j : ℂ) • w j := by
    intro c
    have : ((∑ j, c j • b j : W) : Fin d ⊕ Fin d → ℝ) = ∑ j, c j • (b j : Fin d ⊕ Fin d → ℝ) := by simp
    rw [this]
    have h3 : φ (∑ j, c j • (b j : Fin d ⊕ Fin d → ℝ)) = ∑ j, (c j : ℂ) • w j := by
      rw [map_sum]
      refine Finset.sum_congr rfl fun j _ => ?_
      exact toC_smul _ _
    exact h3
  have hli : LinearIndependent ℂ w := by
    rw [Fintype.linearIndependent_iff]
    intro c hc
    let x : W := ∑ j, (c j).re • b j
    let y : W := ∑ j, (c j).im • b j
    have hxy : toC (x : Fin d ⊕ Fin d → ℝ) + Complex.I • toC (y : Fin d ⊕ Fin d → ℝ) = 0 := by
      rw [hsumC, hsumC, Finset.smul_sum, ← Finset.sum_add_distrib, ← hc]
      refine Finset.sum_congr rfl fun j _ => ?_
      rw [smul_smul, ← add_smul]
      congr 1
      rw [mul_comm]; exact Complex.re_add_im _
    have hy : toC (y : Fin d ⊕ Fin d → ℝ) ∈ I0 := by
      refine ⟨by rw [ofC_toC]; exact y.2, ?_⟩
      have : Complex.I • toC (y : Fin d ⊕ Fin d → ℝ) = toC ((-x : W) : Fin d ⊕ Fin d → ℝ) := by
        have e : toC ((-x : W) : Fin d ⊕ Fin d → ℝ) = -toC (x : Fin d ⊕ Fin d → ℝ) := by
          have := toC_smul (-1) (x : Fin d ⊕ Fin d → ℝ)
          simpa using this
        rw [e]
        exact eq_neg_of_add_eq_zero_right hxy
      rw [this, ofC_toC]
      exact (-x).2
    rw [hI0, Submodule.mem_bot] at hy
    have hy0 : y = 0 := by
      apply Subtype.ext
      rw [← ofC_toC (y : Fin d ⊕ Fin d → ℝ), hy]
      funext i; rcases i with i | i <;> simp [ofC]
    have hx0 : x = 0 := by
      rw [hy, smul_zero, add_zero] at hxy
      apply Subtype.ext
      rw [← ofC_toC (x : Fin d ⊕ Fin d → ℝ), hxy]
      funext i; rcases i with i | i <;> simp [ofC]
    have hbl := Fintype.linearIndependent_iff.1 b.linearIndependent
    intro j
    apply Complex.ext
    · exact hbl _ hx0 j
    · exact hbl _ hy0 j
  have hsp : ⊤ ≤ Submodule.span ℂ (Set.range w) := by
    rw [← hC0]
    apply Submodule.span_le.2
    rintro _ ⟨v, hv, rfl⟩
    have h3 : (⟨v, hv⟩ : W) = ∑ j, b.repr ⟨v, hv⟩ j • b j := (b.sum_repr _).symm
    have h4 : toC v = ∑ j, ((b.repr ⟨v, hv⟩ j : ℝ) : ℂ) • w j := by
      rw [← hsumC, ← h3]
    rw [h4]
    exact Submodule.sum_mem _ fun j _ => Submodule.smul_mem _ _ (Submodule.subset_span ⟨j, rfl⟩)
  let B : Module.Basis (Fin m) ℂ (Fin d → ℂ) := Module.Basis.mk hli hsp
  let X : Matrix (Fin d) (Fin m) ℂ := (Pi.basisFun ℂ (Fin d)).toMatrix B
  let X' : Matrix (Fin m) (Fin d) ℂ := B.toMatrix (Pi.basisFun ℂ (Fin d))
  have hX1 : X * X' = 1 := Module.Basis.toMatrix_mul_toMatrix_flip _ _
  have hX2 : X' * X = 1 := Module.Basis.toMatrix_mul_toMatrix_flip _ _
  have hXw : ∀ i j, X i j = w j i := by
    intro i j
    simp only [X, Module.Basis.toMatrix_apply, Pi.basisFun_repr]
    exact congrFun (Module.Basis.mk_apply hli hsp j) i
  let E : Fin n → Matrix (Fin m) (Fin m) ℝ := fun g => Matrix.of fun i j =>
    b.repr ⟨(physDouble D g).mulVec (b j : Fin d ⊕ Fin d → ℝ), hW g _ (b j).2⟩ i
  have hE : ∀ g, D g * X = X * (E g).map Complex.ofReal := by
    intro g
    ext i j
    have h3 := b.sum_repr ⟨(physDouble D g).mulVec (b j : Fin d ⊕ Fin d → ℝ), hW g _ (b j).2⟩
    have h4 := hsumC fun k => E g k j
    have h5 : (∑ k, E g k j • b k : W) = ⟨(physDouble D g).mulVec (b j : Fin d ⊕ Fin d → ℝ), hW g _ (b j).2⟩ := h3
    rw [h5, toC_physDouble] at h4
    have h6 := congrFun h4 i
    rw [Matrix.mul_apply, Matrix.mul_apply]
    have h7 : ∑ k, D g i k * X k j = (D g).mulVec (w j) i := by
      simp only [Matrix.mulVec, dotProduct, hXw]
    rw [h7]
    change (D g).mulVec (w j) i = _ at h6
    rw [h6, Finset.sum_apply]
    refine Finset.sum_congr rfl fun k _ => ?_
    rw [Pi.smul_apply, smul_eq_mul, hXw, Matrix.map_apply, mul_comm]
  have hconj : ∀ {α β γ : Type} [Fintype β] (A : Matrix α β ℂ) (A' : Matrix β γ ℂ),
      (A * A').map star = A.map star * A'.map star := fun A A' => Matrix.map_mul (f := starRingEnd ℂ)
  have hone : ∀ k : ℕ, (1 : Matrix (Fin k) (Fin k) ℂ).map star = 1 := fun k =>
    Matrix.map_one _ (star_zero _) (star_one _)
  have hreal : ∀ g, ((E g).map Complex.ofReal).map star = (E g).map Complex.ofReal := by
    intro g; ext i j; simp
  have hE' : ∀ g, X'.map star * (D g).map star = (E g).map Complex.ofReal * X'.map star := by
    intro g
    have h3 := congrArg (fun M => M.map star) (hE g)
    rw [hconj, hconj, hreal] at h3
    have h4 : X'.map star * X.map star = 1 := by rw [← hconj, hX2, hone]
    have h5 : X.map star * X'.map star = 1 := by rw [← hconj, hX1, hone]
    calc X'.map star * (D g).map star = X'.map star * ((D g).map star * X.map star) * X'.map star := by
          rw [Matrix.mul_assoc, Matrix.mul_assoc, h5, Matrix.mul_one]
      _ = _ := by rw [h3, ← Matrix.mul_assoc, h4, Matrix.one_mul]
  refine ⟨X * X'.map star, ?_, fun g => ?_⟩
  · have h4 : X'.map star * X.map star = 1 := by rw [← hconj, hX2, hone]
    have hss : (X'.map star).map star = X' := by ext i j; simp
    rw [hconj, hss]
    calc X * X'.map star * (X.map star * X') = X * (X'.map star * X.map star) * X' := by simp only [Matrix.mul_assoc]
      _ = 1 := by rw [h4, Matrix.mul_one, hX1]
  · rw [← Matrix.mul_assoc, hE, Matrix.mul_assoc, ← hE', Matrix.mul_assoc]

/-- The doubled irrep is irreducible over the reals unless the irrep is of real type. -/
theorem double_irreducible {T : Fin n → Fin n → Fin n} {μ : Fin n → Fin n → ℂ} (hT : IsGroupTable T)
    (hμ : ∀ g h, μ g h = 1 ∨ μ g h = -1) {D : RepArr n d} (hD : IsProjRep T μ D) (hDu : IsUnitaryRep D)
    (hDi : Spec.IsIrreducible D) : IsRealIrreducible (physDouble D) ↔ frobeniusSchur D ≠ .ok 1 := by
  obtain ⟨s, hs, hs3, -, hs1, -⟩ := c17_frobenius_schur hT hμ hD hDu hDi
  obtain ⟨i0⟩ := hDi.1
  constructor
  · intro hirr h1
    rw [hs] at h1
    obtain ⟨S, hSu, hSt, hS⟩ := hs1.1 (Except.ok.inj h1)
    -- scale
    obtain ⟨c, hc⟩ := schur_scalar hDi (M := S * S.map star) fun g => by
      have h2 := congrArg (fun M : Matrix (Fin d) (Fin d) ℂ => M.map star) (hS g)
      have hm : ∀ A A' : Matrix (Fin d) (Fin d) ℂ, (A * A').map star = A.map star * A'.map star :=
        fun A A' => Matrix.map_mul (f := starRingEnd ℂ)
      have hss : ((D g).map star).map star = D g := by ext i j; simp
      rw [hm, hm, hss] at h2
      rw [← Matrix.mul_assoc, hS, Matrix.mul_assoc, h2, Matrix.mul_assoc]
    have hcs : S * S.conjTranspose = c • 1 := by
      rw [← hc]
      congr 1
      conv_rhs => rw [← hSt]
      ext i j; simp
    have hcr : ∃ r : ℝ, 0 ≤ r ∧ c = r := by
      refine ⟨∑ j, ‖S i0 j‖ ^ 2, Finset.sum_nonneg fun _ _ => by positivity, ?_⟩
      have h2 := congrFun (congrFun hcs i0) i0
      rw [Matrix.smul_apply, Matrix.one_apply_eq, smul_eq_mul, mul_one, Matrix.mul_apply] at h2
      rw [← h2]
      push_cast
      refine Finset.sum_congr rfl fun j _ => ?_
      rw [Matrix.conjTranspose_apply, Complex.star_def, Complex.mul_conj']
    obtain ⟨r, hr0, rfl⟩ := hcr
    have hrpos : 0 < r := by
      rcases hr0.lt_or_eq with h | h
      · exact h
      · exfalso
        rw [← h] at hc
        simp only [Complex.ofReal_zero, zero_smul] at hc
        obtain ⟨S', hS'⟩ := hSu
        have h3 : S.map star = 0 := by
          calc S.map star = (S'⁻¹ : (Matrix (Fin d) (Fin d) ℂ)ˣ) * (S * S.map star) := by
                rw [← Matrix.mul_assoc, ← hS', Units.inv_mul, Matrix.one_mul]
            _ = 0 := by rw [hc, Matrix.mul_zero]
        have h4 : S = 0 := by
          ext i j
          have := congrFun (congrFun h3 i) j
          simpa using this
        have h5 : (1 : Matrix (Fin d) (Fin d) ℂ) = 0 := by
          rw [← Units.mul_inv S', hS', h4, Matrix.zero_mul]
        have := congrFun (congrFun h5 i0) i0
        simp at this
    let q : ℂ := (Real.sqrt r : ℝ)
    have hqq : q * q = (r : ℂ) := by
      change ((Real.sqrt r : ℝ) : ℂ) * ((Real.sqrt r : ℝ) : ℂ) = _
      rw [← Complex.ofReal_mul, Real.mul_self_sqrt hr0]
    have hq0 : q ≠ 0 := by
      intro h
      rw [h, mul_zero] at hqq
      have : r = 0 := by exact_mod_cast hqq.symm
      exact hrpos.ne' this
    have hqs : star q = q := by simp [q]
    let cj : (Fin d → ℂ) → Fin d → ℂ := fun z i => star (z i)
    have hcj : ∀ (A : Matrix (Fin d) (Fin d) ℂ) z, cj (A.mulVec z) = (A.map star).mulVec (cj z) := by
      intro A z; funext i
      simp [cj, Matrix.mulVec, dotProduct]
    let W : Submodule ℝ (Fin d ⊕ Fin d → ℝ) :=
      { carrier := {v | S.mulVec (cj (toC v)) = q • toC v}
        add_mem' := fun {a b} ha hb => by
          have e : cj (toC a + toC b) = cj (toC a) + cj (toC b) := by funext i; simp [cj]
          have ha' : S.mulVec (cj (toC a)) = q • toC a := ha
          have hb' : S.mulVec (cj (toC b)) = q • toC b := hb
          change S.mulVec (cj (toC (a + b))) = q • toC (a + b)
          rw [toC_add, e, Matrix.mulVec_add, ha', hb', smul_add]
        zero_mem' := by
          have e0 : toC (0 : Fin d ⊕ Fin d → ℝ) = 0 := by funext i; apply Complex.ext <;> simp [toC]
          have e : cj (0 : Fin d → ℂ) = 0 := by funext i; simp [cj]
          change S.mulVec (cj (toC 0)) = q • toC 0
          rw [e0, e, Matrix.mulVec_zero, smul_zero]
        smul_mem' := fun c v hv => by
          have e : cj ((c : ℂ) • toC v) = (c : ℂ) • cj (toC v) := by funext i; simp [cj]
          have hv' : S.mulVec (cj (toC v)) = q • toC v := hv
          change S.mulVec (cj (toC (c • v))) = q • toC (c • v)
          rw [toC_smul, e, Matrix.mulVec_smul, hv', smul_comm] }
    have hWmem : ∀ z, ofC z ∈ W ↔ S.mulVec (cj z) = q • z := by
      intro z
      change S.mulVec (cj (toC (ofC z))) = q • toC (ofC z) ↔ _
      rw [toC_ofC]
    have hJ : ∀ z, S.mulVec (cj (S.mulVec (cj z))) = (q * q) • z := by
      intro z
      have : cj (cj z) = z := by funext i; simp [cj]
      rw [hcj, this, Matrix.mulVec_mulVec, hc, Matrix.smul_mulVec, Matrix.one_mulVec, hqq]
    have hcjs : ∀ z, cj (q • z) = q • cj z := by
      intro z; funext i
      simp only [cj, Pi.smul_apply, smul_eq_mul, star_mul', hqs]
    have hproj : ∀ z, ofC (q • z + S.mulVec (cj z)) ∈ W := by
      intro z
      rw [hWmem]
      have e : ∀ x y : Fin d → ℂ, cj (x + y) = cj x + cj y := by intro x y; funext i; simp [cj]
      rw [e, Matrix.mulVec_add, hJ, hcjs, Matrix.mulVec_smul, smul_add, smul_smul, add_comm]
    rcases hirr.2 W (fun g v hv => by
      have hv' : S.mulVec (cj (toC v)) = q • toC v := hv
      change S.mulVec (cj (toC ((physDouble D g).mulVec v))) = q • toC ((physDouble D g).mulVec v)
      rw [toC_physDouble, hcj, Matrix.mulVec_mulVec, ← hS, ← Matrix.mulVec_mulVec, hv', Matrix.mulVec_smul]) with h | h
    · -- the zero space: `q z = -S z̄` for all z
      have h6 : ∀ z : Fin d → ℂ, q • z + S.mulVec (cj z) = 0 := by
        intro z
        have h2 := hproj z
        rw [h, Submodule.mem_bot] at h2
        rw [← toC_ofC (q • z + S.mulVec (cj z)), h2]
        funext i; apply Complex.ext <;> simp [toC]
      have h7 := h6 (Pi.single i0 1)
      have h8 := h6 (Complex.I • Pi.single i0 1)
      have e : cj (Complex.I • (Pi.single i0 1 : Fin d → ℂ)) = -Complex.I • cj (Pi.single i0 1) := by
        funext i; simp [cj]
      rw [e, Matrix.mulVec_smul] at h8
      have h9 := congrFun h7 i0
      have h10 := congrFun h8 i0
      simp only [Pi.add_apply, Pi.smul_apply, smul_eq_mul, Pi.single_eq_same, Pi.zero_apply] at h9 h10
      apply hq0
      have hI := Complex.I_ne_zero
      have : Complex.I * (2 * q) = 0 := by linear_combination h10 + Complex.I * h9
      simpa [hI] using this
    · have h6 : ∀ z : Fin d → ℂ, S.mulVec (cj z) = q • z := by
        intro z
        rw [← hWmem, h]; trivial
      have h7 := congrFun (h6 (Pi.single i0 1)) i0
      have h8 := h6 (Complex.I • Pi.single i0 1)
      have e : cj (Complex.I • (Pi.single i0 1 : Fin d → ℂ)) = -Complex.I • cj (Pi.single i0 1) := by
        funext i; simp [cj]
      rw [e, Matrix.mulVec_smul] at h8
      have h10 := congrFun h8 i0
      simp only [Pi.smul_apply, smul_eq_mul, Pi.single_eq_same] at h7 h10
      apply hq0
      have hI := Complex.I_ne_zero
      have : Complex.I * (2 * q) = 0 := by linear_combination -h10 - Complex.I * h7
      simpa [hI] using this
  · intro hne
    refine ⟨⟨Sum.inl i0⟩, fun W hW => ?_⟩
    by_contra hcon
    push Not at hcon
    obtain ⟨S, hSS, hS⟩ := conj_of_invariant hDi hW hcon.1 hcon.2
    apply hne
    rw [hs]
    congr 1
    rw [hs1]
    refine ⟨S, ⟨⟨S, S.map star, hSS, mul_eq_one_comm.1 hSS⟩, rfl⟩, ?_, hS⟩
    rcases conj_intertwiner_sym hDu hDi hSS hS with h | h
    · exact h
    · exfalso
      have h2 : S * S.conjTranspose = -1 := by
        rw [← hSS, ← Matrix.mul_neg]
        congr 1
        have : S.conjTranspose = S.transpose.map star := rfl
        rw [this, h]
        ext i j; simp
      have h3 := congrFun (congrFun h2 i0) i0
      rw [Matrix.mul_apply, Matrix.neg_apply, Matrix.one_apply_eq] at h3
      have h4 : (∑ j, ‖S i0 j‖ ^ 2 : ℝ) = -1 := by
        have : ((∑ j, ‖S i0 j‖ ^ 2 : ℝ) : ℂ) = ((-1 : ℝ) : ℂ) := by
          push_cast
          rw [← h3]
          refine Finset.sum_congr rfl fun j _ => ?_
          rw [Matrix.conjTranspose_apply, Complex.star_def, Complex.mul_conj']
        exact_mod_cast this
      have h5 : (0 : ℝ) ≤ ∑ j, ‖S i0 j‖ ^ 2 := Finset.sum_nonneg fun _ _ => by positivity
      linarith

end Spgrep
