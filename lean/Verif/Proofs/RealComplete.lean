/-
From a complete list of complex irreps to a complete list of real irreps.
-/
import Verif.Proofs.RealIrred
import Verif.Spec.RealRep
import Verif.Props.Reality
import Verif.Props.SmallReal

namespace Spgrep

open Spec Matrix

variable {n d : ℕ} {T : Fin n → Fin n → Fin n} {ε : Fin n → Fin n → ℝ}
variable {ι κ : Type} [Fintype ι] [Fintype κ] [DecidableEq ι] [DecidableEq κ]

/-- `R` is the real irrep made from `D`. -/
structure Covers (T : Fin n → Fin n → Fin n) (ε : Fin n → Fin n → ℝ) (D : RepArr n d) (R : Fin n → Matrix ι ι ℝ) :
    Prop where
  orth : ∀ g, R g * (R g).transpose = 1
  rep : IsRealProjRep T ε R
  irred : IsRealIrreducible R
  contains : ∃ X : Matrix ι (Fin d) ℂ, X ≠ 0 ∧ ∀ g, (R g).map Complex.ofReal * X = X * D g
  only : ∀ (e : ℕ) (E : RepArr n e), Spec.IsIrreducible E →
    (∃ Y : Matrix ι (Fin e) ℂ, Y ≠ 0 ∧ ∀ g, (R g).map Complex.ofReal * Y = Y * E g) →
    AreEquivalent E D ∨ AreEquivalent E fun g => (D g).map star

theorem realProjRep_of_complex {R : Fin n → Matrix ι ι ℝ}
    (h : IsProjRep T (fun g h => (ε g h : ℂ)) fun g => (R g).map Complex.ofReal) : IsRealProjRep T ε R := by
  intro g k
  have hinj : Function.Injective (fun M : Matrix ι ι ℝ => M.map Complex.ofRealHom) :=
    Matrix.map_injective Complex.ofReal_injective
  apply hinj
  dsimp only
  rw [Matrix.map_mul]
  have := h g k
  dsimp only at this
  change (R g).map Complex.ofReal * (R k).map Complex.ofReal = _
  rw [this]
  ext i j; simp

theorem complex_projRep {R : Fin n → Matrix ι ι ℝ} (h : IsRealProjRep T ε R) :
    IsProjRep T (fun g h => (ε g h : ℂ)) fun g => (R g).map Complex.ofReal := by
  intro g k
  dsimp only
  have h1 := congrArg (fun M : Matrix ι ι ℝ => M.map Complex.ofRealHom) (h g k)
  rw [Matrix.map_mul] at h1
  change (R g).map Complex.ofReal * (R k).map Complex.ofReal = _ at h1
  rw [h1]
  ext i j; simp

/-- The real form of an irrep of real type. -/
theorem covers_of_equiv {D : RepArr n d} (hD : IsProjRep T (fun g h => (ε g h : ℂ)) D) (hDi : Spec.IsIrreducible D)
    {R : Fin n → Matrix ι ι ℝ} (ho : ∀ g, R g * (R g).transpose = 1)
    (heq : AreEquivalent (fun g => (R g).map Complex.ofReal) D) : Covers T ε D R := by
  have hirr : Spec.IsIrreducible fun g => (R g).map Complex.ofReal := AreEquivalent.irreducible heq hDi
  obtain ⟨S, S', h1, h2, hS⟩ := heq
  refine ⟨ho, realProjRep_of_complex (AreEquivalent.projRep ⟨S, S', h1, h2, hS⟩ hD), realIrreducible_of_complex hirr,
    ⟨S, ?_, hS⟩, ?_⟩
  · rintro rfl
    obtain ⟨i⟩ := hDi.1
    rw [Matrix.mul_zero] at h2
    have := congrFun (congrFun h2 i) i
    simp at this
  · rintro e E hE ⟨Y, hY0, hY⟩
    left
    obtain ⟨Y', h3, h4⟩ := schur_equiv hirr hE hY hY0
    exact AreEquivalent.trans (AreEquivalent.symm ⟨Y, Y', h3, h4, hY⟩) ⟨S, S', h1, h2, hS⟩

/-- The doubled irrep. -/
theorem covers_double (hT : IsGroupTable T) (hε : ∀ g h, ε g h = 1 ∨ ε g h = -1) {D : RepArr n d}
    (hD : IsProjRep T (fun g h => (ε g h : ℂ)) D) (hDu : IsUnitaryRep D) (hDi : Spec.IsIrreducible D)
    (hne : frobeniusSchur D ≠ .ok 1) :
    Covers T ε D fun g => (physDouble D g).reindex finSumFinEquiv finSumFinEquiv := by
  have hμ : ∀ g h, (ε g h : ℂ) = 1 ∨ (ε g h : ℂ) = -1 := by
    intro g h
    rcases hε g h with h | h <;> rw [h] <;> simp
  have hirr := (double_irreducible hT hμ hD hDu hDi).2 hne
  obtain ⟨P, hP, h1, h2, h3, -⟩ := c19_doubled D (fun _ _ => (0, 0)) (fun _ => 0) 0 (.inr rfl) 0 0
  have hPD : P = physDouble D := by
    have h4 : getPhysicallyIrrep (fun _ _ => (0, 0)) (fun _ => 0) D 0 0 0 =
        .ok ⟨d + d, fun k => (physDouble D k).reindex finSumFinEquiv finSumFinEquiv⟩ := by
      unfold getPhysicallyIrrep
      rw [if_neg (by norm_num), if_pos (.inr rfl)]
    rw [h4] at hP
    have h5 := eq_of_heq (Sigma.mk.inj (Except.ok.inj hP)).2
    funext k
    exact ((Matrix.reindex finSumFinEquiv finSumFinEquiv).injective (congrFun h5 k)).symm
  subst hPD
  have hblk : ∀ g h, (physDouble D g) * physDouble D h = ε g h • physDouble D (T g h) := by
    intro g h
    rw [h1 T _ hD g h]
    simp only [Complex.ofReal_re, Complex.ofReal_im, zero_smul, neg_zero]
    rw [show Matrix.fromBlocks (ε g h • (1 : Matrix (Fin d) (Fin d) ℝ)) 0 0 (ε g h • 1) = ε g h • 1 by
      rw [← Matrix.fromBlocks_one, Matrix.fromBlocks_smul, smul_zero], Matrix.smul_mul, Matrix.one_mul]
  have hmap : ∀ g, ((physDouble D g).reindex finSumFinEquiv finSumFinEquiv).map Complex.ofReal =
      ((physDouble D g).map Complex.ofReal).submatrix finSumFinEquiv.symm finSumFinEquiv.symm := fun g => rfl
  refine ⟨fun g => ?_, fun g h => ?_, ⟨⟨finSumFinEquiv hirr.1.some⟩, fun W hW => ?_⟩, ?_, ?_⟩
  · rw [Matrix.reindex_apply, Matrix.transpose_submatrix, Matrix.submatrix_mul_equiv, h2 hDu,
      Matrix.submatrix_one_equiv]
  · rw [Matrix.reindex_apply, Matrix.reindex_apply, Matrix.submatrix_mul_equiv, hblk, Matrix.submatrix_smul]
    rfl
  · let f : (Fin d ⊕ Fin d → ℝ) ≃ₗ[ℝ] (Fin (d + d) → ℝ) := LinearEquiv.funCongrLeft ℝ ℝ finSumFinEquiv.symm
    have hf : ∀ v i, f v i = v (finSumFinEquiv.symm i) := fun v i => rfl
    have hfm : ∀ g v, f ((physDouble D g).mulVec v) =
        ((physDouble D g).reindex finSumFinEquiv finSumFinEquiv).mulVec (f v) := by
      intro g v
      funext i
      rw [hf, Matrix.reindex_apply, Matrix.submatrix_mulVec_equiv]
      simp only [Function.comp_apply]
      congr 2
      funext j
      simp [hf]
    rcases hirr.2 (W.comap f.toLinearMap) (fun g v hv => by
      rw [Submodule.mem_comap] at hv ⊢
      change f _ ∈ W
      rw [hfm]
      exact hW g _ hv) with h | h
    · left
      rw [Submodule.eq_bot_iff]
      intro w hw
      have h3 : f.symm w ∈ W.comap f.toLinearMap := by
        rw [Submodule.mem_comap]
        change f (f.symm w) ∈ W
        rwa [f.apply_symm_apply]
      rw [h, Submodule.mem_bot] at h3
      rw [← f.apply_symm_apply w, h3, map_zero]
    · right
      rw [Submodule.eq_top_iff']
      intro w
      have h3 : f.symm w ∈ W.comap f.toLinearMap := by rw [h]; trivial
      rw [Submodule.mem_comap] at h3
      change f (f.symm w) ∈ W at h3
      rwa [f.apply_symm_apply] at h3
  · obtain ⟨i0⟩ := hDi.1
    obtain ⟨X, hX0, hX, -⟩ := double_contains (Fin.pos_iff_nonempty.2 ⟨i0⟩) D 0
    refine ⟨X.submatrix finSumFinEquiv.symm id, ?_, fun g => ?_⟩
    · intro h
      apply hX0
      ext i j
      have := congrFun (congrFun h (finSumFinEquiv i)) j
      simpa using this
    · rw [hmap, Matrix.submatrix_mul_equiv, hX g]
      rfl
  · rintro e E hE ⟨Y, hY0, hY⟩
    obtain ⟨S, S', e1, e2, hS⟩ := h3
    set Y1 := Y.submatrix finSumFinEquiv id with hY1
    have hYY : ∀ g, (physDouble D g).map Complex.ofReal * Y1 = Y1 * E g := by
      intro g
      have h4 := congrArg (fun M : Matrix (Fin (d + d)) (Fin e) ℂ => M.submatrix finSumFinEquiv id) (hY g)
      rw [hmap] at h4
      have h5 : (((physDouble D g).map Complex.ofReal).submatrix finSumFinEquiv.symm finSumFinEquiv.symm * Y).submatrix
          finSumFinEquiv id = (physDouble D g).map Complex.ofReal * Y1 := by
        rw [← Matrix.submatrix_mul_equiv _ _ finSumFinEquiv finSumFinEquiv id, Matrix.submatrix_submatrix]
        simp [hY1]
      rw [h5] at h4
      rw [h4]
      rfl
    have hY10 : S' * Y1 ≠ 0 := by
      intro h
      have h4 : Y1 = 0 := by rw [← Matrix.one_mul Y1, ← e1, Matrix.mul_assoc, h, Matrix.mul_zero]
      apply hY0
      ext i j
      have := congrFun (congrFun h4 (finSumFinEquiv.symm i)) j
      simpa [hY1] using this
    have hZ : ∀ g, Matrix.fromBlocks (D g) 0 0 ((D g).map star) * (S' * Y1) = S' * Y1 * E g := by
      intro g
      have h4 : Matrix.fromBlocks (D g) 0 0 ((D g).map star) * S' = S' * (physDouble D g).map Complex.ofReal := by
        have h5 := hS g
        dsimp only at h5
        calc _ = S' * S * Matrix.fromBlocks (D g) 0 0 ((D g).map star) * S' := by rw [e2, Matrix.one_mul]
          _ = S' * (S * Matrix.fromBlocks (D g) 0 0 ((D g).map star)) * S' := by simp only [Matrix.mul_assoc]
          _ = _ := by rw [← h5, Matrix.mul_assoc S', Matrix.mul_assoc _ S S', e1, Matrix.mul_one]
      rw [← Matrix.mul_assoc, h4, Matrix.mul_assoc, hYY, Matrix.mul_assoc]
    set Z := S' * Y1
    have hZ1 : ∀ g, D g * Z.toRows₁ = Z.toRows₁ * E g := by
      intro g
      have h4 := hZ g
      rw [← Matrix.fromRows_toRows Z, Matrix.fromBlocks_mul_fromRows, Matrix.fromRows_mul] at h4
      have h5 := (Matrix.fromRows_inj h4).1
      simpa using h5
    have hZ2 : ∀ g, (D g).map star * Z.toRows₂ = Z.toRows₂ * E g := by
      intro g
      have h4 := hZ g
      rw [← Matrix.fromRows_toRows Z, Matrix.fromBlocks_mul_fromRows, Matrix.fromRows_mul] at h4
      have h5 := (Matrix.fromRows_inj h4).2
      simpa using h5
    by_cases h4 : Z.toRows₁ = 0
    · have h5 : Z.toRows₂ ≠ 0 := by
        intro h5
        apply hY10
        rw [← Matrix.fromRows_toRows Z, h4, h5]
        simp
      obtain ⟨V, h6, h7⟩ := schur_equiv (conj_irreducible hDi) hE hZ2 h5
      exact .inr (AreEquivalent.symm ⟨_, V, h6, h7, hZ2⟩)
    · obtain ⟨V, h6, h7⟩ := schur_equiv hDi hE hZ1 h4
      exact .inl (AreEquivalent.symm ⟨_, V, h6, h7, hZ1⟩)

omit [DecidableEq ι] [DecidableEq κ] in
/-- A complex intertwiner of real families gives a real one. -/
theorem real_intertwiner {E : Fin n → Matrix ι ι ℝ} {R : Fin n → Matrix κ κ ℝ} {Z : Matrix ι κ ℂ} (hZ0 : Z ≠ 0)
    (hZ : ∀ g, (E g).map Complex.ofReal * Z = Z * (R g).map Complex.ofReal) :
    ∃ Y : Matrix ι κ ℝ, Y ≠ 0 ∧ ∀ g, E g * Y = Y * R g := by
  have hre : ∀ g, E g * Z.map Complex.re = Z.map Complex.re * R g := by
    intro g
    ext i j
    have := congrArg Complex.re (congrFun (congrFun (hZ g) i) j)
    simpa [Matrix.mul_apply] using this
  have him : ∀ g, E g * Z.map Complex.im = Z.map Complex.im * R g := by
    intro g
    ext i j
    have := congrArg Complex.im (congrFun (congrFun (hZ g) i) j)
    simpa [Matrix.mul_apply] using this
  by_cases h : Z.map Complex.re = 0
  · refine ⟨_, fun h2 => hZ0 ?_, him⟩
    ext i j
    apply Complex.ext
    · exact congrFun (congrFun h i) j
    · exact congrFun (congrFun h2 i) j
  · exact ⟨_, h, hre⟩

/-- Real irreps that contain the same complex irrep are equivalent. -/
theorem Covers.equiv {D : RepArr n d} {R : Fin n → Matrix ι ι ℝ} (hR : Covers T ε D R) (hDu : IsUnitaryRep D)
    (hDi : Spec.IsIrreducible D) {E : Fin n → Matrix κ κ ℝ} (hE : IsRealIrreducible E) {Z : Matrix κ (Fin d) ℂ}
    (hZ0 : Z ≠ 0) (hZ : ∀ g, (E g).map Complex.ofReal * Z = Z * D g) : AreRealEquivalent E R := by
  obtain ⟨X, hX0, hX⟩ := hR.contains
  have hRo : ∀ g, ((R g).map Complex.ofReal).conjTranspose * (R g).map Complex.ofReal = 1 := by
    intro g
    have h1 := mul_eq_one_comm.1 (hR.orth g)
    have h2 := congrArg (fun M : Matrix ι ι ℝ => M.map Complex.ofRealHom) h1
    rw [Matrix.map_mul, Matrix.map_one _ (map_zero _) (map_one _)] at h2
    have h3 : ((R g).map Complex.ofReal).conjTranspose = (R g).transpose.map Complex.ofRealHom := by
      ext i j; simp [Matrix.conjTranspose_apply]
    rw [h3]
    exact h2
  have hXs : ∀ g, D g * X.conjTranspose = X.conjTranspose * (R g).map Complex.ofReal := by
    intro g
    have h1 := congrArg Matrix.conjTranspose (hX g)
    rw [Matrix.conjTranspose_mul, Matrix.conjTranspose_mul] at h1
    calc D g * X.conjTranspose
        = D g * (X.conjTranspose * ((R g).map Complex.ofReal).conjTranspose) * (R g).map Complex.ofReal := by
          rw [Matrix.mul_assoc, Matrix.mul_assoc X.conjTranspose, hRo, Matrix.mul_one]
      _ = _ := by rw [h1, ← Matrix.mul_assoc, hDu, Matrix.one_mul]
  have hker : LinearMap.ker Z.mulVecLin = ⊥ := by
    rcases hDi.2 (LinearMap.ker Z.mulVecLin) (by
      intro g v hv
      simp only [LinearMap.mem_ker, Matrix.mulVecLin_apply] at hv ⊢
      rw [Matrix.mulVec_mulVec, ← hZ, ← Matrix.mulVec_mulVec, hv, Matrix.mulVec_zero]) with h | h
    · exact h
    · exfalso
      apply hZ0
      have : Z.mulVecLin = 0 := LinearMap.ker_eq_top.1 h
      ext i j
      have h2 := congrArg (fun f => f (Pi.single j 1) i) this
      simpa using h2
  have hne : Z * X.conjTranspose ≠ 0 := by
    intro h
    apply hX0
    have h1 : ∀ j, X.conjTranspose.col j = 0 := by
      intro j
      have h2 : X.conjTranspose.col j ∈ LinearMap.ker Z.mulVecLin := by
        rw [LinearMap.mem_ker, Matrix.mulVecLin_apply]
        funext i
        have := congrFun (congrFun h i) j
        simpa [Matrix.mul_apply, Matrix.mulVec, dotProduct] using this
      rwa [hker, Submodule.mem_bot] at h2
    ext i j
    have := congrFun (h1 i) j
    simpa using this
  obtain ⟨Y, hY0, hY⟩ := real_intertwiner (E := E) (R := R) hne fun g => by
    rw [← Matrix.mul_assoc, hZ, Matrix.mul_assoc, hXs, Matrix.mul_assoc]
  obtain ⟨Y', h1, h2⟩ := real_schur hE hR.irred hY hY0
  exact ⟨Y, Y', h1, h2, hY⟩

/-- A list of real irreps made from the pairs of a complete list of irreps is complete. -/
theorem complete_real (hT : IsGroupTable T) (hε : ∀ g h, ε g h = 1 ∨ ε g h = -1) {L : List (AnyRep n)}
    (hL : IsCompleteIrreps T (fun g h => (ε g h : ℂ)) L) {l : List (AnyReal n)}
    (hF : List.Forall₂ (fun p (x : AnyReal n) => Covers T ε (L.get p.1).2 x.2) (pairsOf L) l) :
    IsCompleteRealIrreps T ε l := by
  have hμ : ∀ g h, (ε g h : ℂ) = 1 ∨ (ε g h : ℂ) = -1 := by
    intro g h
    rcases hε g h with h | h <;> rw [h] <;> simp
  obtain ⟨hpair, huniq⟩ := c21_pairing.2 n T _ L hT hμ hL
  have hnd : (pairsOf L).Nodup := (c21_pairing.1 _ _).2.1
  have hmem : ∀ j : Fin L.length, L.get j ∈ L := fun j => List.get_mem L j
  refine ⟨fun R hR => ?_, fun R hR => ?_, fun R hR => ?_, ?_, ?_⟩
  · obtain ⟨p, -, h⟩ := forall₂_right hF hR; exact h.rep
  · obtain ⟨p, -, h⟩ := forall₂_right hF hR; exact h.orth
  · obtain ⟨p, -, h⟩ := forall₂_right hF hR; exact h.irred
  · rw [List.pairwise_iff_getElem]
    intro i j hi hj hij heq
    have hlen := hF.length_eq
    have hi' : i < (pairsOf L).length := by omega
    have hj' : j < (pairsOf L).length := by omega
    have hci := (List.forall₂_iff_get.1 hF).2 i hi' hi
    have hcj := (List.forall₂_iff_get.1 hF).2 j hj' hj
    set p := (pairsOf L).get ⟨i, hi'⟩ with hp
    set q := (pairsOf L).get ⟨j, hj'⟩ with hq
    have hpm : p ∈ pairsOf L := List.get_mem _ _
    have hqm : q ∈ pairsOf L := List.get_mem _ _
    obtain ⟨S, S', h1, h2, hS⟩ := heq
    obtain ⟨X, hX0, hX⟩ := hci.contains
    have honly := hcj.only _ (L.get p.1).2 (hL.irred _ (hmem _)) ⟨S'.map Complex.ofReal * X, ?_, fun g => ?_⟩
    · obtain ⟨p0, -, hp0⟩ := huniq _ (L.get p.1).2 (hL.rep _ (hmem _)) (IsUnitaryRep.isUnit (hL.unitary _ (hmem _)))
        (hL.irred _ (hmem _))
      have e1 := hp0 p ⟨hpm, .inl (AreEquivalent.refl _)⟩
      have e2 := hp0 q ⟨hqm, by
        rcases honly with h | h
        · exact .inl h
        · exact .inr (AreEquivalent.trans h (hpair q hqm).2)⟩
      have e3 : p = q := e1.trans e2.symm
      rw [hp, hq] at e3
      have := (List.Nodup.get_inj_iff hnd).1 e3
      simp only [Fin.mk.injEq] at this
      omega
    · intro h
      apply hX0
      have h3 := congrArg (fun M : Matrix _ _ ℝ => M.map Complex.ofRealHom) h1
      rw [Matrix.map_mul, Matrix.map_one _ (map_zero _) (map_one _)] at h3
      change S.map Complex.ofReal * S'.map Complex.ofReal = 1 at h3
      rw [← Matrix.one_mul X, ← h3, Matrix.mul_assoc, h, Matrix.mul_zero]
    · have h3 : l[j].2 g * S' = S' * l[i].2 g := by
        calc l[j].2 g * S' = S' * S * l[j].2 g * S' := by rw [h2, Matrix.one_mul]
          _ = S' * (S * l[j].2 g) * S' := by simp only [Matrix.mul_assoc]
          _ = _ := by rw [← hS, Matrix.mul_assoc S', Matrix.mul_assoc _ S S', h1, Matrix.mul_one]
      have h4 := congrArg (fun M : Matrix _ _ ℝ => M.map Complex.ofRealHom) h3
      rw [Matrix.map_mul, Matrix.map_mul] at h4
      change (l[j].2 g).map Complex.ofReal * S'.map Complex.ofReal =
        S'.map Complex.ofReal * (l[i].2 g).map Complex.ofReal at h4
      change (l[j].2 g).map Complex.ofReal * (S'.map Complex.ofReal * X) = _
      rw [← Matrix.mul_assoc, h4, Matrix.mul_assoc]
      have h5 : (l[i].2 g).map Complex.ofReal * X = X * (L.get p.1).2 g := hX g
      rw [h5, Matrix.mul_assoc]
  · intro e E hE hEu hEi
    have hne : (⊤ : Submodule ℂ (Fin e → ℂ)) ≠ ⊥ := by
      obtain ⟨i⟩ := hEi.1
      intro h
      have : (Pi.single i 1 : Fin e → ℂ) ∈ (⊥ : Submodule ℂ (Fin e → ℂ)) := by rw [← h]; trivial
      have h2 := congrFun ((Submodule.mem_bot ℂ).1 this) i
      simp at h2
    obtain ⟨k, J, Γ, hJ, hΓi, hJinj, -⟩ := exists_irred_sub (D := fun g => (E g).map Complex.ofReal) ⊤
      (fun _ _ _ => trivial) hne
    have hcan : ∀ {A B : Matrix (Fin k) (Fin k) ℂ}, J * A = J * B → A = B := by
      intro A B h
      apply Matrix.mulVec_injective
      funext v
      apply hJinj
      rw [Matrix.mulVec_mulVec, Matrix.mulVec_mulVec, h]
    have hEC := complex_projRep hE
    have hΓ : IsProjRep T (fun g h => (ε g h : ℂ)) Γ := by
      intro g h
      apply hcan
      have h1 := hJ g
      have h2 := hJ h
      have h3 := hJ (T g h)
      rw [← Matrix.mul_assoc, ← h1, Matrix.mul_assoc, ← h2, ← Matrix.mul_assoc, hEC g h, Matrix.smul_mul, h3,
        Matrix.mul_smul]
    have hΓu : ∀ g, IsUnit (Γ g) := by
      intro g
      rw [Matrix.isUnit_iff_isUnit_det, isUnit_iff_ne_zero]
      intro hdet
      obtain ⟨v, hv0, hv⟩ := Matrix.exists_mulVec_eq_zero_iff.2 hdet
      apply hv0
      have h1 := hJ g
      have h2 : ((E g).map Complex.ofReal).mulVec (J.mulVec v) = 0 := by
        rw [Matrix.mulVec_mulVec, h1, ← Matrix.mulVec_mulVec, hv, Matrix.mulVec_zero]
      obtain ⟨u, hu⟩ := hEu g
      have h3 : ((u⁻¹ : (Matrix (Fin e) (Fin e) ℝ)ˣ) : Matrix (Fin e) (Fin e) ℝ).map Complex.ofReal *
          (E g).map Complex.ofReal = 1 := by
        have h4 := congrArg (fun M : Matrix (Fin e) (Fin e) ℝ => M.map Complex.ofRealHom) (Units.inv_mul u)
        rw [Matrix.map_mul, Matrix.map_one _ (map_zero _) (map_one _), hu] at h4
        exact h4
      apply hJinj
      rw [Matrix.mulVec_zero, ← Matrix.one_mulVec (J.mulVec v), ← h3, ← Matrix.mulVec_mulVec, h2, Matrix.mulVec_zero]
    obtain ⟨p, ⟨hpm, hor⟩, -⟩ := huniq k Γ hΓ hΓu hΓi
    obtain ⟨x, hx, hcov⟩ := forall₂_left hF hpm
    refine ⟨x, hx, ?_⟩
    -- an intertwiner with the first irrep of the pair
    obtain ⟨Z, hZ0, hZ⟩ : ∃ Z : Matrix (Fin e) (Fin (L.get p.1).1) ℂ, Z ≠ 0 ∧
        ∀ g, (E g).map Complex.ofReal * Z = Z * (L.get p.1).2 g := by
      have hgen : ∀ (J : Matrix (Fin e) (Fin k) ℂ) (Γ : RepArr n k), J ≠ 0 →
          (∀ g, (E g).map Complex.ofReal * J = J * Γ g) → AreEquivalent Γ (L.get p.1).2 →
          ∃ Z : Matrix (Fin e) (Fin (L.get p.1).1) ℂ, Z ≠ 0 ∧
            ∀ g, (E g).map Complex.ofReal * Z = Z * (L.get p.1).2 g := by
        rintro J Γ hJ0 hJ ⟨S, S', h1, h2, hS⟩
        refine ⟨J * S, fun h => hJ0 ?_, fun g => ?_⟩
        · rw [← Matrix.mul_one J, ← h1, ← Matrix.mul_assoc, h, Matrix.zero_mul]
        · rw [← Matrix.mul_assoc, hJ, Matrix.mul_assoc, hS, Matrix.mul_assoc]
      have hJ0 : J ≠ 0 := by
        rintro rfl
        obtain ⟨i⟩ := hΓi.1
        have h1 : (0 : Matrix (Fin e) (Fin k) ℂ).mulVec (Pi.single i 1) = (0 : Matrix (Fin e) (Fin k) ℂ).mulVec 0 := by
          rw [Matrix.zero_mulVec, Matrix.zero_mulVec]
        have h2 := congrFun (hJinj h1) i
        simp at h2
      rcases hor with h | h
      · exact hgen J Γ hJ0 hJ h
      · refine hgen (J.map star) (fun g => (Γ g).map star) (fun h0 => hJ0 ?_) (fun g => ?_) ?_
        · ext i j
          have := congrFun (congrFun h0 i) j
          simpa using this
        · have h1 := congrArg (fun M : Matrix (Fin e) (Fin k) ℂ => M.map (starRingEnd ℂ)) (hJ g)
          rw [Matrix.map_mul, Matrix.map_mul] at h1
          have h2 : ((E g).map Complex.ofReal).map (starRingEnd ℂ) = (E g).map Complex.ofReal := by
            ext i j; simp
          rw [h2] at h1
          exact h1
        · have h1 := AreEquivalent.conj (AreEquivalent.trans h (AreEquivalent.symm (hpair p hpm).2))
          rw [map_star_star] at h1
          exact h1
    exact hcov.equiv (hL.unitary _ (hmem _)) (hL.irred _ (hmem _)) hEi hZ0 hZ

end Spgrep
