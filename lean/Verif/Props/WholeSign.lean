/-
C120: the sign of the returned indicators, for the irreducible representations of the whole space group.
-/
import Verif.Props.WholeReality

namespace Spgrep

open Spec

variable {n : ℕ} {rots : Fin n → M3} {trans : Fin n → V3} {e d : ℕ}

/-- A polynomial in the translations that separates the Bloch states at `k'` from those at points of the star of `k`. -/
theorem bloch_separator (h : IsSpaceGroup rots trans) (E : spaceGroup rots trans →* Matrix (Fin e) (Fin e) ℂ) (k k' : V3)
    (s : Finset (Fin n)) (hs : ∀ i ∈ s, ¬ ∀ a, ∃ m : ℤ, k' a - starPoint (rots i) k a = m) :
    ∃ (Q : Matrix (Fin e) (Fin e) ℂ) (c : ℂ), c ≠ 0 ∧ (∀ v ∈ blochStates E k', Q.mulVec v = c • v) ∧
      ∀ i ∈ s, ∀ w ∈ blochStates E (starPoint (rots i) k), Q.mulVec w = 0 := by
  induction s using Finset.induction_on with
  | empty => exact ⟨1, 1, one_ne_zero, by simp, by simp⟩
  | insert i s _ ih =>
    obtain ⟨Q, c, hc, hQv, hQs⟩ := ih fun j hj => hs j (Finset.mem_insert_of_mem hj)
    obtain ⟨t, ht⟩ : ∃ t : Fin 3 → ℤ, transPhase k' (fun a => (t a : ℝ)) ≠ transPhase (starPoint (rots i) k) fun a => (t a : ℝ) := by
      by_contra hne
      push Not at hne
      exact hs i (Finset.mem_insert_self i s) (transPhase_congr.1 hne)
    obtain ⟨τ, hτ⟩ := translation_exists h t
    refine ⟨Q * (E τ - transPhase (starPoint (rots i) k) (fun a => (t a : ℝ)) • 1),
      c * (transPhase k' (fun a => (t a : ℝ)) - transPhase (starPoint (rots i) k) fun a => (t a : ℝ)),
      mul_ne_zero hc (sub_ne_zero.2 ht), ?_, ?_⟩
    · intro v hv
      rw [← Matrix.mulVec_mulVec, Matrix.sub_mulVec, hv τ t hτ, Matrix.smul_mulVec, Matrix.one_mulVec, ← sub_smul,
        Matrix.mulVec_smul, hQv v hv, smul_smul, mul_comm]
    · intro j hj w hw
      rw [← Matrix.mulVec_mulVec, Matrix.sub_mulVec, hw τ t hτ, Matrix.smul_mulVec, Matrix.one_mulVec, ← sub_smul,
        Matrix.mulVec_smul]
      rcases Finset.mem_insert.1 hj with rfl | hj
      · rw [sub_self, zero_smul]
      · rw [hQs j hj w hw, smul_zero]

/-- All Bloch states at `k` transform by the small representation. -/
theorem bloch_range (h : IsSpaceGroup rots trans) {k : V3} {M : List (Fin n)} (hM : ListsLittle rots k M)
    {Γ : RepArr M.length d} {E : spaceGroup rots trans →* Matrix (Fin e) (Fin e) ℂ} (hE : Spec.IsIrreducible fun g => E g)
    {X : Matrix (Fin e) (Fin d) ℂ} (hX : X ≠ 0)
    (hXg : ∀ (g : spaceGroup rots trans) (p : Fin M.length) (t : Fin 3 → ℤ),
      IsOperation (rots (M.get p)) (trans (M.get p)) t g.1 → E g * X = transPhase k (fun a => t a) • (X * Γ p))
    (hXb : ∀ y, X.mulVec y ∈ blochStates E k) {v : Fin e → ℂ} (hv : v ∈ blochStates E k) : ∃ y, v = X.mulVec y := by
  classical
  obtain ⟨Q, c, hc, hQ1, hQ2⟩ := bloch_separator h E k k
    (Finset.univ.filter fun i => ¬ ∀ a, ∃ m : ℤ, k a - starPoint (rots i) k a = m) fun i hi => (Finset.mem_filter.1 hi).2
  let U : Submodule ℂ (Fin e → ℂ) := LinearMap.range X.mulVecLin
  have hU : ∀ w, w ∈ U ↔ ∃ y, X.mulVec y = w := fun w => Iff.rfl
  let V : Submodule ℂ (Fin e → ℂ) := ⨆ g, U.map (E g).mulVecLin
  have hVinv : ∀ g, ∀ w ∈ V, (E g).mulVec w ∈ V := by
    intro g w hw
    refine Submodule.iSup_induction (motive := fun w => (E g).mulVec w ∈ V) _ hw (fun g' w hw => ?_) ?_ fun x y hx hy => ?_
    · obtain ⟨u, hu, rfl⟩ := hw
      refine Submodule.mem_iSup_of_mem (g * g') ⟨u, hu, ?_⟩
      simp only [Matrix.mulVecLin_apply]
      rw [Matrix.mulVec_mulVec, map_mul]
    · rw [Matrix.mulVec_zero]
      exact V.zero_mem
    · rw [Matrix.mulVec_add]
      exact V.add_mem hx hy
  have hV : V = ⊤ := by
    refine (hE.2 V hVinv).resolve_left fun hb => hX ?_
    ext i j
    have h1 : X.mulVec (Pi.single j 1) ∈ V := by
      refine Submodule.mem_iSup_of_mem 1 ⟨_, ⟨Pi.single j 1, rfl⟩, ?_⟩
      simp only [Matrix.mulVecLin_apply]
      rw [map_one, Matrix.one_mulVec]
    rw [hb, Submodule.mem_bot] at h1
    have := congrFun h1 i
    simpa using this
  have key : ∀ w ∈ V, Q.mulVec w ∈ U := by
    intro w hw
    refine Submodule.iSup_induction (motive := fun w => Q.mulVec w ∈ U) _ hw (fun g w hw => ?_) ?_ fun x y hx hy => ?_
    · obtain ⟨u, ⟨y, rfl⟩, rfl⟩ := hw
      simp only [Matrix.mulVecLin_apply]
      by_cases hg : ∀ a, ∃ m : ℤ, k a - starPoint (rotOf h g⁻¹) k a = m
      · have hfix : FixesK (rotOf h g) k := by
          have h1 : FixesK (rotOf h g⁻¹) k := fun a => by
            obtain ⟨m, hm⟩ := hg a
            refine ⟨-m, ?_⟩
            push_cast
            rw [← hm, neg_sub]
            rfl
          have h2 := rotOf_inv h g⁻¹
          rw [inv_inv] at h2
          exact fixesK_inv h2 h1
        obtain ⟨p, hp⟩ := List.get_of_mem ((hM.2 (opIndex h g)).2 hfix)
        obtain ⟨t, ht⟩ := opIndex_spec h g
        rw [← hp] at ht
        have h3 : (E g).mulVec (X.mulVec y) = X.mulVec (transPhase k (fun a => t a) • (Γ p).mulVec y) := by
          rw [Matrix.mulVec_mulVec, hXg g p t ht, Matrix.smul_mulVec, ← Matrix.mulVec_mulVec, Matrix.mulVec_smul]
        rw [h3, hQ1 _ (hXb _), hU]
        exact ⟨c • _, Matrix.mulVec_smul _ _ _⟩
      · rw [hQ2 (opIndex h g⁻¹) (Finset.mem_filter.2 ⟨Finset.mem_univ _, hg⟩) _ (bloch_move h E (hXb y) g)]
        exact U.zero_mem
    · rw [Matrix.mulVec_zero]
      exact U.zero_mem
    · rw [Matrix.mulVec_add]
      exact U.add_mem hx hy
  obtain ⟨y, hy⟩ := (hU _).1 (key v (by rw [hV]; trivial))
  rw [hQ1 v hv] at hy
  exact ⟨c⁻¹ • y, by rw [Matrix.mulVec_smul, hy, smul_smul, inv_mul_cancel₀ hc, one_smul]⟩

/-- The sign of an intertwiner to the complex conjugate. -/
theorem intertwiner_sign {m : ℕ} {Γ : RepArr m d} (hi : Spec.IsIrreducible Γ)
    {S Z : Matrix (Fin d) (Fin d) ℂ} {c : ℝ} (hc : c = 1 ∨ c = -1) (hSu : IsUnit S) (hSt : S.transpose = (c : ℂ) • S)
    (hS : ∀ g, Γ g * S = S * (Γ g).map star) (hZ : ∀ g, Γ g * Z = Z * (Γ g).map star) (hZ0 : Z ≠ 0) :
    ∃ r : ℝ, 0 < r ∧ Z * Z.map star = ((c * r : ℝ) : ℂ) • 1 := by
  obtain ⟨S', hS1, hS2⟩ : ∃ S', S * S' = 1 ∧ S' * S = 1 := by
    obtain ⟨u, rfl⟩ := hSu
    exact ⟨(u⁻¹ : (Matrix (Fin d) (Fin d) ℂ)ˣ), u.mul_inv, u.inv_mul⟩
  have hS' : ∀ g, (Γ g).map star * S' = S' * Γ g := by
    intro g
    calc (Γ g).map star * S' = S' * S * ((Γ g).map star * S') := by rw [hS2, Matrix.one_mul]
      _ = S' * (S * (Γ g).map star) * S' := by simp only [Matrix.mul_assoc]
      _ = S' * (Γ g * S) * S' := by rw [hS]
      _ = S' * Γ g * (S * S') := by simp only [Matrix.mul_assoc]
      _ = _ := by rw [hS1, Matrix.mul_one]
  obtain ⟨z, hz⟩ := schur_scalar hi (M := Z * S') fun g => by
    rw [← Matrix.mul_assoc, hZ, Matrix.mul_assoc, hS', Matrix.mul_assoc]
  have hZS : Z = z • S := by
    calc Z = Z * S' * S := by rw [Matrix.mul_assoc, hS2, Matrix.mul_one]
      _ = _ := by rw [hz, Matrix.smul_mul, Matrix.one_mul]
  have hz0 : z ≠ 0 := by
    rintro rfl
    exact hZ0 (by rw [hZS, zero_smul])
  have hcc : (c : ℂ) * c = 1 := by rcases hc with rfl | rfl <;> norm_num
  have hconj : S.map star = (c : ℂ) • S.conjTranspose := by
    have h1 : S.conjTranspose = (c : ℂ) • S.map star := by
      have := congrArg (fun A : Matrix (Fin d) (Fin d) ℂ => A.map star) hSt
      ext i j
      have h2 := congrFun (congrFun this i) j
      simpa using h2
    rw [h1, smul_smul, hcc, one_smul]
  -- `S Sᴴ` is a positive scalar
  have hdag : ∀ g, S.conjTranspose * Γ g = (Γ g).map star * S.conjTranspose := by
    intro g
    have h1 : S.map star * Γ g = (Γ g).map star * S.map star := by
      have := congrArg (fun A : Matrix (Fin d) (Fin d) ℂ => A.map star) (hS g)
      simp only [map_star_mul] at this
      rw [this]
      congr 1
      ext i j
      simp
    rw [hconj, Matrix.smul_mul, Matrix.mul_smul] at h1
    have h2 := congrArg (fun A : Matrix (Fin d) (Fin d) ℂ => (c : ℂ) • A) h1
    simpa only [smul_smul, hcc, one_smul] using h2
  obtain ⟨w, hw⟩ := schur_scalar hi (M := S * S.conjTranspose) fun g => by
    rw [← Matrix.mul_assoc, hS, Matrix.mul_assoc, ← hdag, Matrix.mul_assoc]
  obtain ⟨i⟩ := hi.1
  have hwi : w = ((∑ j, ‖S i j‖ ^ 2 : ℝ) : ℂ) := by
    have h1 := congrFun (congrFun hw i) i
    rw [Matrix.mul_apply, Matrix.smul_apply, Matrix.one_apply_eq, smul_eq_mul, mul_one] at h1
    rw [← h1]
    push_cast
    refine Finset.sum_congr rfl fun j _ => ?_
    rw [Matrix.conjTranspose_apply, Complex.star_def, Complex.mul_conj, Complex.normSq_eq_norm_sq]
    push_cast
    rfl
  have hpos : 0 < ∑ j, ‖S i j‖ ^ 2 := by
    refine lt_of_le_of_ne (Finset.sum_nonneg fun j _ => by positivity) fun h0 => ?_
    rw [← h0, Complex.ofReal_zero] at hwi
    rw [hwi, zero_smul] at hw
    have hz : S' * (S * S.conjTranspose) = 0 := by rw [hw, Matrix.mul_zero]
    rw [← Matrix.mul_assoc, hS2, Matrix.one_mul] at hz
    have h2 : S = 0 := by simpa using hz
    exact hZ0 (by rw [hZS, h2, smul_zero])
  refine ⟨‖z‖ ^ 2 * ∑ j, ‖S i j‖ ^ 2, by have := norm_pos_iff.2 hz0; positivity, ?_⟩
  have h1 : Z.map star = star z • S.map star := by
    rw [hZS]
    ext a b
    simp
  rw [h1, hconj, hZS, Matrix.smul_mul, Matrix.mul_smul, Matrix.mul_smul, hw, hwi, smul_smul, smul_smul, smul_smul]
  congr 1
  have h2 : z * star z = ((‖z‖ ^ 2 : ℝ) : ℂ) := by
    rw [Complex.star_def, Complex.mul_conj, Complex.normSq_eq_norm_sq]
  push_cast at h2 ⊢
  linear_combination (c : ℂ) * (∑ j, (‖S i j‖ : ℂ) ^ 2) * h2

/-- The sign is inherited by the representations of the whole group. -/
theorem whole_sign (h : IsSpaceGroup rots trans) {k : V3} (h2k : ∀ a, ∃ m : ℤ, 2 * k a = m) {M : List (Fin n)}
    (hM : ListsLittle rots k M) {Γ : RepArr M.length d} (hi : Spec.IsIrreducible Γ)
    {S : Matrix (Fin d) (Fin d) ℂ} {c : ℝ} (hc : c = 1 ∨ c = -1) (hSu : IsUnit S) (hSt : S.transpose = (c : ℂ) • S)
    (hS : ∀ g, Γ g * S = S * (Γ g).map star) {E : spaceGroup rots trans →* Matrix (Fin e) (Fin e) ℂ}
    (hE : Spec.IsIrreducible fun g => E g) (hs : SubducesTo k M Γ E) {T : Matrix (Fin e) (Fin e) ℂ} (hTu : IsUnit T)
    (hT : ∀ g, E g * T = T * (E g).map star) : ∃ r : ℝ, 0 < r ∧ T * T.map star = ((c * r : ℝ) : ℂ) • 1 := by
  obtain ⟨X, hX, hXg⟩ := hs
  -- columns of `X` are Bloch states
  have hXb : ∀ y, X.mulVec y ∈ blochStates E k := by
    obtain ⟨e0, he0, u, hu'⟩ := exists_one h
    obtain ⟨p, hp⟩ := List.get_of_mem ((hM.2 e0).2 (by rw [he0]; exact fixesK_one k))
    have hop : ∀ (g : spaceGroup rots trans) (t : Fin 3 → ℤ), IsOperation 1 0 t g.1 →
        IsOperation (rots (M.get p)) (trans (M.get p)) (t - u) g.1 := by
      intro g t hg x a
      rw [hp, he0, hu', hg x a]
      simp
    have h1 : X = transPhase k (fun a => ((0 - u) a : ℤ)) • (X * Γ p) := by
      have := hXg 1 p (0 - u) (hop 1 0 ((translation_iff h).2 ⟨(rotOf_one h).1, by rw [(rotOf_one h).2]; funext a; simp⟩))
      rwa [map_one, Matrix.one_mul] at this
    intro y g t hg
    have h2 : E g * X = transPhase k (fun a => (t a : ℝ)) • X := by
      rw [hXg g p (t - u) (hop g t hg)]
      conv_rhs => rw [h1]
      rw [smul_smul, ← transPhase_add]
      congr 2
      funext a
      simp
      ring
    rw [Matrix.mulVec_mulVec, h2, Matrix.smul_mulVec]
  have hneg : ∀ t : Fin 3 → ℤ, star (transPhase k fun a => (t a : ℝ)) = transPhase k fun a => (t a : ℝ) := by
    intro t
    rw [star_transPhase]
    refine transPhase_congr.2 (fun a => ?_) t
    obtain ⟨m, hm⟩ := h2k a
    exact ⟨-m, by push_cast; rw [← hm]; ring⟩
  have hEX : ∀ (g : spaceGroup rots trans) {d' : ℕ} (Y : Matrix (Fin e) (Fin d') ℂ), E g * (T * Y.map star) = T * (E g * Y).map star := by
    intro g d' Y
    rw [← Matrix.mul_assoc, hT, Matrix.mul_assoc]
    congr 1
    ext i j
    simp [Matrix.mul_apply]
  -- the image of `X` under the antilinear map
  have hcol : ∀ j, ∃ y, (fun i => (T * X.map star) i j) = X.mulVec y := by
    intro j
    refine bloch_range h hM hE hX hXg hXb fun g t hg => ?_
    have h1 : E g * X = transPhase k (fun a => (t a : ℝ)) • X := by
      ext i j
      have := congrFun (hXb (Pi.single j 1) g t hg) i
      rw [Matrix.mulVec_mulVec] at this
      simpa using this
    have h2 := hEX g X
    rw [h1] at h2
    funext i
    have h3 := congrFun (congrFun h2 i) j
    have h4 : (transPhase k (fun a => (t a : ℝ)) • X).map star = transPhase k (fun a => (t a : ℝ)) • X.map star := by
      ext a b
      simp only [Matrix.map_apply, Matrix.smul_apply, smul_eq_mul, star_mul', hneg]
    rw [h4, Matrix.mul_smul] at h3
    exact h3
  choose y hy using hcol
  let Z : Matrix (Fin d) (Fin d) ℂ := Matrix.of fun a j => y j a
  have hTX : T * X.map star = X * Z := by
    ext i j
    exact congrFun (hy j) i
  obtain ⟨T', hT1, hT2⟩ : ∃ T', T * T' = 1 ∧ T' * T = 1 := by
    obtain ⟨u, rfl⟩ := hTu
    exact ⟨(u⁻¹ : (Matrix (Fin e) (Fin e) ℂ)ˣ), u.mul_inv, u.inv_mul⟩
  have hXc0 : X.map star ≠ 0 := by
    intro h0
    refine hX (Matrix.ext fun i j => ?_)
    have := congrFun (congrFun h0 i) j
    simpa using this
  have hZ0 : Z ≠ 0 := by
    intro h0
    rw [h0, Matrix.mul_zero] at hTX
    have h1 : T' * (T * X.map star) = 0 := by rw [hTX, Matrix.mul_zero]
    rw [← Matrix.mul_assoc, hT2, Matrix.one_mul] at h1
    exact hXc0 h1
  -- `X` is injective
  have hker : LinearMap.ker X.mulVecLin = ⊥ := by
    refine (hi.2 _ fun p v hv => ?_).resolve_right fun htop => hX ?_
    · obtain ⟨g, hg, hg0⟩ := operation_mem h (M.get p) 0
      obtain ⟨t, ht⟩ := opIndex_spec h g
      rw [hg] at ht
      rw [LinearMap.mem_ker, Matrix.mulVecLin_apply] at hv ⊢
      have h1 : (E g * X).mulVec v = 0 := by rw [← Matrix.mulVec_mulVec, hv, Matrix.mulVec_zero]
      rw [hXg g p t ht, Matrix.smul_mulVec] at h1
      rw [Matrix.mulVec_mulVec]
      exact (smul_eq_zero.1 h1).resolve_left (transPhase_ne k _)
    · ext i j
      have : Pi.single j 1 ∈ LinearMap.ker X.mulVecLin := by rw [htop]; trivial
      rw [LinearMap.mem_ker, Matrix.mulVecLin_apply] at this
      simpa using congrFun this i
  have hcancel : ∀ A B : Matrix (Fin d) (Fin d) ℂ, X * A = X * B → A = B := by
    intro A B hAB
    ext i j
    have h1 : X.mulVecLin (fun a => A a j) = X.mulVecLin fun a => B a j := by
      funext i
      exact congrFun (congrFun hAB i) j
    exact congrFun (LinearMap.ker_eq_bot.1 hker h1) i
  have hZ : ∀ p, Γ p * Z = Z * (Γ p).map star := by
    intro p
    apply hcancel
    obtain ⟨g, hg, -⟩ := operation_mem h (M.get p) 0
    obtain ⟨t, ht⟩ := opIndex_spec h g
    rw [hg] at ht
    have h1 := hXg g p t ht
    have h2 := hEX g X
    rw [h1, hTX, ← Matrix.mul_assoc, h1] at h2
    have h3 : (transPhase k (fun a => (t a : ℝ)) • (X * Γ p)).map star =
        transPhase k (fun a => (t a : ℝ)) • (X.map star * (Γ p).map star) := by
      ext a b
      simp only [Matrix.map_apply, Matrix.smul_apply, smul_eq_mul, star_mul', hneg, Matrix.mul_apply, star_sum]
    rw [h3, Matrix.smul_mul, Matrix.mul_smul, ← Matrix.mul_assoc, hTX] at h2
    have h4 := smul_right_injective _ (transPhase_ne k fun a => (t a : ℝ)) h2
    rw [Matrix.mul_assoc, Matrix.mul_assoc] at h4
    exact h4
  obtain ⟨r, hr, hZZ⟩ := intertwiner_sign hi hc hSu hSt hS hZ hZ0
  refine ⟨r, hr, ?_⟩
  -- `T conj(T)` commutes with `E` and is this scalar on the columns of `X`
  have hcomm : ∀ g, E g * (T * T.map star) = T * T.map star * E g := by
    intro g
    rw [hEX g T, hT, map_star_mul, Matrix.mul_assoc]
    congr 2
    ext i j
    simp
  obtain ⟨w, hw⟩ := schur_scalar hE hcomm
  have hTT : T * T.map star * X = X * (Z * Z.map star) := by
    have h1 : T.map star * X = X.map star * Z.map star := by
      have h2 := congrArg (fun A : Matrix (Fin e) (Fin d) ℂ => A.map star) hTX
      ext i j
      have h3 := congrFun (congrFun h2 i) j
      simpa [Matrix.mul_apply] using h3
    rw [Matrix.mul_assoc, h1, ← Matrix.mul_assoc, hTX, Matrix.mul_assoc]
  rw [hw, hZZ, Matrix.smul_mul, Matrix.mul_smul, Matrix.one_mul, Matrix.mul_one] at hTT
  have : w = ((c * r : ℝ) : ℂ) := smul_left_injective ℂ hX hTT
  rw [hw, this]

/-- **C120.**  At a k-point with `2k` a reciprocal lattice vector, the computed indicator is 1 exactly if the irreducible
representations of the whole space group that contain the small representation have an antilinear symmetry with square one, and
-1 exactly if they have one with square minus one. -/
theorem c120_sign (h : IsSpaceGroup rots trans) {k : V3} (h2k : ∀ a, ∃ m : ℤ, 2 * k a = m)
    {o : Oracles} {method : IrrepMethod} {rtol atol : ℝ} (ha : 0 < atol) (ha5 : atol ≤ 1 / 5) (hnm : NoNearMiss 1 rots k atol)
    (ho : MethodContract o method rtol fun i => rots ((littleMapping rots k atol).get i)) {maxGen : ℕ}
    {M : List (Fin n)} (hsmall : (M.length : ℝ) * (2 * atol + atol ^ 2) < 1 / 2) {out : IrrepsOut M.length}
    (hrun : irrepsFromPrimitive o rots trans k false method rtol atol maxGen = .ok ⟨M, out, false⟩) :
    ∃ (l : List (AnyRep M.length × ℤ)) (S : List (AnyRep M.length)), out = .complex l ∧ LabelsIrreps rots trans k M S ∧
      List.Forall₂ (fun Γ x => NearRep atol Γ x.1 ∧ ∀ (e : ℕ) (E : spaceGroup rots trans →* Matrix (Fin e) (Fin e) ℂ),
        Spec.IsIrreducible (fun g => E g) → SubducesTo k M Γ.2 E →
          (x.2 = 1 ↔ ∃ T : Matrix (Fin e) (Fin e) ℂ, T * T.map star = 1 ∧ ∀ g, E g * T = T * (E g).map star) ∧
          (x.2 = -1 ↔ ∃ T : Matrix (Fin e) (Fin e) ℂ, T * T.map star = -1 ∧ ∀ g, E g * T = T * (E g).map star)) S l := by
  obtain ⟨l, S, h1, h2, h3⟩ := indicator_core h h2k ha ha5 hnm ho hsmall hrun
  refine ⟨l, S, h1, h2, h3.imp fun Γ x q => ⟨q.1, fun e E hE hs => ?_⟩⟩
  obtain ⟨-, ⟨hfs, hu, hi, Tb, μ, hTg, hμ, hproj⟩, hself⟩ := q
  have hM : ListsLittle rots k M := by
    obtain ⟨rfl, -⟩ := primitive_ok hrun
    exact little_lists ha.le hnm
  obtain ⟨s, hs1, hs2, hs3, hs4, hs5⟩ := c17_frobenius_schur hTg hμ hproj hu hi
  obtain rfl : s = x.2 := Except.ok.inj (hs1.symm.trans hfs)
  -- the sign of all antilinear symmetries
  have hsign : ∀ c : ℝ, (c = 1 ∧ x.2 = 1 ∨ c = -1 ∧ x.2 = -1) → ∀ T : Matrix (Fin e) (Fin e) ℂ, IsUnit T →
      (∀ g, E g * T = T * (E g).map star) → ∃ r : ℝ, 0 < r ∧ T * T.map star = ((c * r : ℝ) : ℂ) • 1 := by
    rintro c (⟨rfl, hx⟩ | ⟨rfl, hx⟩) T hTu hT
    · obtain ⟨S, q1, q2, q3⟩ := hs4.1 hx
      exact whole_sign h h2k hM hi (.inl rfl) q1 (by rw [q2]; simp) q3 hE hs hTu hT
    · obtain ⟨S, q1, q2, q3⟩ := hs5.1 hx
      exact whole_sign h h2k hM hi (.inr rfl) q1 (by rw [q2]; simp) q3 hE hs hTu hT
  have hexists : x.2 ≠ 0 → ∃ T : Matrix (Fin e) (Fin e) ℂ, IsUnit T ∧ ∀ g, E g * T = T * (E g).map star := by
    intro hx
    have := (not_iff_not.2 (hself e E hE hs)).1 hx
    rw [not_not] at this
    obtain ⟨T, T', q1, q2, q3⟩ := this
    exact ⟨T, IsUnit.of_mul_eq_one T' q1, q3⟩
  have hnorm : ∀ (c : ℝ) (T : Matrix (Fin e) (Fin e) ℂ) (r : ℝ), 0 < r → T * T.map star = ((c * r : ℝ) : ℂ) • 1 →
      (∀ g, E g * T = T * (E g).map star) → ∃ T : Matrix (Fin e) (Fin e) ℂ, T * T.map star = (c : ℂ) • 1 ∧
        ∀ g, E g * T = T * (E g).map star := by
    intro c T r hr hTT hT
    have hq : Real.sqrt r * Real.sqrt r = r := Real.mul_self_sqrt hr.le
    have hq0 : Real.sqrt r ≠ 0 := (Real.sqrt_pos.2 hr).ne'
    refine ⟨(((Real.sqrt r)⁻¹ : ℝ) : ℂ) • T, ?_, fun g => ?_⟩
    · have h1 : ((((Real.sqrt r)⁻¹ : ℝ) : ℂ) • T).map star = (((Real.sqrt r)⁻¹ : ℝ) : ℂ) • T.map star := by
        ext i j
        simp
      rw [h1, Matrix.smul_mul, Matrix.mul_smul, hTT, smul_smul, smul_smul]
      congr 1
      rw [← Complex.ofReal_mul, ← Complex.ofReal_mul]
      congr 1
      have : (Real.sqrt r)⁻¹ * (Real.sqrt r)⁻¹ * (c * r) = c := by
        calc (Real.sqrt r)⁻¹ * (Real.sqrt r)⁻¹ * (c * r) = (Real.sqrt r)⁻¹ * (Real.sqrt r)⁻¹ * (c * (Real.sqrt r * Real.sqrt r)) := by
              rw [hq]
          _ = c := by field_simp
      exact this
    · rw [Matrix.mul_smul, hT, Matrix.smul_mul]
  obtain ⟨i0⟩ := hE.1
  have hunit : ∀ (T A : Matrix (Fin e) (Fin e) ℂ), (T * A = 1 ∨ T * A = -1) → IsUnit T := by
    rintro T A (q | q)
    · exact IsUnit.of_mul_eq_one A q
    · exact IsUnit.of_mul_eq_one (-A) (by rw [Matrix.mul_neg, q, neg_neg])
  have hnz : ∀ T : Matrix (Fin e) (Fin e) ℂ, IsUnit T → (∀ g, E g * T = T * (E g).map star) → x.2 ≠ 0 := by
    intro T hTu hT hx
    refine (hself e E hE hs).1 hx ?_
    obtain ⟨u, rfl⟩ := hTu
    exact ⟨u, (u⁻¹ : (Matrix (Fin e) (Fin e) ℂ)ˣ), u.mul_inv, u.inv_mul, hT⟩
  constructor
  · constructor
    · intro hx
      obtain ⟨T, hTu, hT⟩ := hexists (by rw [hx]; norm_num)
      obtain ⟨r, hr, hTT⟩ := hsign 1 (.inl ⟨rfl, hx⟩) T hTu hT
      obtain ⟨T', q1, q2⟩ := hnorm 1 T r hr hTT hT
      exact ⟨T', by rw [q1]; simp, q2⟩
    · rintro ⟨T, hTT, hT⟩
      have hTu := hunit T _ (.inl hTT)
      rcases hs2 with q | q | q
      · exact q
      · obtain ⟨r, hr, hTr⟩ := hsign (-1) (.inr ⟨rfl, q⟩) T hTu hT
        have := congrFun (congrFun (hTT.symm.trans hTr) i0) i0
        simp only [Matrix.one_apply_eq, Matrix.smul_apply, smul_eq_mul, mul_one] at this
        have h5 : (1 : ℝ) = -1 * r := by exact_mod_cast this
        linarith
      · exact absurd q (hnz T hTu hT)
  · constructor
    · intro hx
      obtain ⟨T, hTu, hT⟩ := hexists (by rw [hx]; norm_num)
      obtain ⟨r, hr, hTT⟩ := hsign (-1) (.inr ⟨rfl, hx⟩) T hTu hT
      obtain ⟨T', q1, q2⟩ := hnorm (-1) T r hr hTT hT
      exact ⟨T', by rw [q1]; simp, q2⟩
    · rintro ⟨T, hTT, hT⟩
      have hTu := hunit T _ (.inr hTT)
      rcases hs2 with q | q | q
      · obtain ⟨r, hr, hTr⟩ := hsign 1 (.inl ⟨rfl, q⟩) T hTu hT
        have := congrFun (congrFun (hTT.symm.trans hTr) i0) i0
        simp only [Matrix.one_apply_eq, Matrix.neg_apply, Matrix.smul_apply, smul_eq_mul, mul_one] at this
        have h5 : (-1 : ℝ) = 1 * r := by exact_mod_cast this
        linarith
      · exact q
      · exact absurd q (hnz T hTu hT)

/-- A linear combination of the unit matrix and `T` with conjugate coefficients is invertible. -/
theorem exists_unit_combination (T : Matrix (Fin e) (Fin e) ℂ) :
    ∃ z : ℂ, IsUnit (z • (1 : Matrix (Fin e) (Fin e) ℂ) + star z • T) := by
  have hinj : Function.Injective fun s : ℝ => (1 + (s : ℂ) * Complex.I) / (1 - (s : ℂ) * Complex.I) := by
    intro s t hst
    have hne : ∀ u : ℝ, (1 : ℂ) - (u : ℂ) * Complex.I ≠ 0 := by
      intro u hu
      have := congrArg Complex.re hu
      simp at this
    have h1 := (div_eq_div_iff (hne s) (hne t)).1 hst
    have h2 := congrArg Complex.im h1
    simp at h2
    linarith
  obtain ⟨μ, ⟨s, rfl⟩, hs⟩ := (Set.infinite_range_of_injective hinj).exists_notMem_finset (-T).charpoly.roots.toFinset
  refine ⟨1 + (s : ℂ) * Complex.I, ?_⟩
  have hne : (1 : ℂ) - (s : ℂ) * Complex.I ≠ 0 := by
    intro hu
    have := congrArg Complex.re hu
    simp at this
  have hst : star (1 + (s : ℂ) * Complex.I) = 1 - (s : ℂ) * Complex.I := by
    simp
    ring
  rw [Multiset.mem_toFinset, Polynomial.mem_roots (Matrix.charpoly_monic _).ne_zero, Polynomial.IsRoot.def,
    Matrix.eval_charpoly] at hs
  have heq : (1 + (s : ℂ) * Complex.I) • (1 : Matrix (Fin e) (Fin e) ℂ) + star (1 + (s : ℂ) * Complex.I) • T =
      (1 - (s : ℂ) * Complex.I) • (Matrix.scalar (Fin e) ((1 + (s : ℂ) * Complex.I) / (1 - (s : ℂ) * Complex.I)) - -T) := by
    rw [hst, sub_neg_eq_add, smul_add, Matrix.scalar_apply, ← Matrix.smul_one_eq_diagonal, smul_smul, mul_div_cancel₀ _ hne]
  rw [heq, Matrix.isUnit_iff_isUnit_det, Matrix.det_smul]
  exact (mul_ne_zero (pow_ne_zero _ hne) hs).isUnit

/-- Antilinear symmetries with square one are changes of basis to real matrices. -/
theorem real_iff_symmetry {G : Type*} (E : G → Matrix (Fin e) (Fin e) ℂ) :
    (∃ T : Matrix (Fin e) (Fin e) ℂ, T * T.map star = 1 ∧ ∀ g, E g * T = T * (E g).map star) ↔
      ∃ (P : Matrix (Fin e) (Fin e) ℂ) (R : G → Matrix (Fin e) (Fin e) ℝ), IsUnit P ∧
        ∀ g, E g * P = P * (R g).map Complex.ofReal := by
  constructor
  · rintro ⟨T, hTT, hT⟩
    obtain ⟨z, hz⟩ := exists_unit_combination T
    obtain ⟨P, hP⟩ : ∃ P, P = z • (1 : Matrix (Fin e) (Fin e) ℂ) + star z • T := ⟨_, rfl⟩
    rw [← hP] at hz
    obtain ⟨P', h1, h2⟩ : ∃ P', P * P' = 1 ∧ P' * P = 1 := by
      obtain ⟨u, hu⟩ := hz
      exact ⟨(u⁻¹ : (Matrix (Fin e) (Fin e) ℂ)ˣ), by rw [← hu]; exact u.mul_inv, by rw [← hu]; exact u.inv_mul⟩
    have hPc : T * P.map star = P := by
      have : P.map star = star z • (1 : Matrix (Fin e) (Fin e) ℂ) + z • T.map star := by
        rw [hP]
        ext i j
        by_cases hij : i = j <;> simp [hij]
      rw [this, Matrix.mul_add, Matrix.mul_smul, Matrix.mul_smul, hTT, Matrix.mul_one, hP, add_comm]
    have hreal : ∀ g, (P' * E g * P).map star = P' * E g * P := by
      intro g
      have h3 : P * (P' * E g * P).map star = E g * P := by
        calc P * (P' * E g * P).map star = T * (P.map star * (P' * E g * P).map star) := by
              rw [← Matrix.mul_assoc, hPc]
          _ = T * (P * (P' * E g * P)).map star := by rw [map_star_mul P]
          _ = T * (E g * P).map star := by rw [← Matrix.mul_assoc, ← Matrix.mul_assoc, h1, Matrix.one_mul]
          _ = T * (E g).map star * P.map star := by rw [map_star_mul, Matrix.mul_assoc]
          _ = E g * P := by rw [← hT, Matrix.mul_assoc, hPc]
      calc (P' * E g * P).map star = P' * (P * (P' * E g * P).map star) := by rw [← Matrix.mul_assoc P', h2, Matrix.one_mul]
        _ = _ := by rw [h3, Matrix.mul_assoc]
    refine ⟨P, fun g => (P' * E g * P).map Complex.re, hz, fun g => ?_⟩
    have h4 : ((P' * E g * P).map Complex.re).map Complex.ofReal = P' * E g * P := by
      ext i j
      exact Complex.conj_eq_iff_re.1 (congrFun (congrFun (hreal g) i) j)
    rw [h4, ← Matrix.mul_assoc, ← Matrix.mul_assoc, h1, Matrix.one_mul]
  · rintro ⟨P, R, hP, hR⟩
    obtain ⟨P', h1, h2⟩ : ∃ P', P * P' = 1 ∧ P' * P = 1 := by
      obtain ⟨u, hu⟩ := hP
      exact ⟨(u⁻¹ : (Matrix (Fin e) (Fin e) ℂ)ˣ), by rw [← hu]; exact u.mul_inv, by rw [← hu]; exact u.inv_mul⟩
    have hone : (1 : Matrix (Fin e) (Fin e) ℂ).map star = 1 := by
      ext i j
      by_cases hij : i = j <;> simp [Matrix.one_apply, hij]
    have hinv : ∀ A : Matrix (Fin e) (Fin e) ℂ, (A.map star).map star = A := fun A => by ext i j; simp
    have h3 : P'.map star * P.map star = 1 := by rw [← map_star_mul, h2, hone]
    refine ⟨P * P'.map star, ?_, fun g => ?_⟩
    · rw [map_star_mul, hinv, Matrix.mul_assoc, ← Matrix.mul_assoc (P'.map star), h3, Matrix.one_mul, h1]
    · have h4 : (E g).map star * P.map star = P.map star * (R g).map Complex.ofReal := by
        rw [← map_star_mul, hR, map_star_mul]
        congr 1
        ext i j
        simp
      have h5 : P'.map star * (E g).map star = (R g).map Complex.ofReal * P'.map star := by
        have h6 : P.map star * P'.map star = 1 := by rw [← map_star_mul, h1, hone]
        calc P'.map star * (E g).map star = P'.map star * ((E g).map star * P.map star) * P'.map star := by
              rw [Matrix.mul_assoc, Matrix.mul_assoc, h6, Matrix.mul_one]
          _ = P'.map star * P.map star * (R g).map Complex.ofReal * P'.map star := by
              rw [h4]; simp only [Matrix.mul_assoc]
          _ = _ := by rw [h3, Matrix.one_mul]
      rw [← Matrix.mul_assoc, hR, Matrix.mul_assoc, Matrix.mul_assoc, h5]

/-- **C120, real type.**  The computed indicator is 1 exactly if the irreducible representations of the whole space group that
contain the small representation are equivalent to representations by real matrices. -/
theorem c120_real (h : IsSpaceGroup rots trans) {k : V3} (h2k : ∀ a, ∃ m : ℤ, 2 * k a = m)
    {o : Oracles} {method : IrrepMethod} {rtol atol : ℝ} (ha : 0 < atol) (ha5 : atol ≤ 1 / 5) (hnm : NoNearMiss 1 rots k atol)
    (ho : MethodContract o method rtol fun i => rots ((littleMapping rots k atol).get i)) {maxGen : ℕ}
    {M : List (Fin n)} (hsmall : (M.length : ℝ) * (2 * atol + atol ^ 2) < 1 / 2) {out : IrrepsOut M.length}
    (hrun : irrepsFromPrimitive o rots trans k false method rtol atol maxGen = .ok ⟨M, out, false⟩) :
    ∃ (l : List (AnyRep M.length × ℤ)) (S : List (AnyRep M.length)), out = .complex l ∧ LabelsIrreps rots trans k M S ∧
      List.Forall₂ (fun Γ x => NearRep atol Γ x.1 ∧ ∀ (e : ℕ) (E : spaceGroup rots trans →* Matrix (Fin e) (Fin e) ℂ),
        Spec.IsIrreducible (fun g => E g) → SubducesTo k M Γ.2 E →
          (x.2 = 1 ↔ ∃ (P : Matrix (Fin e) (Fin e) ℂ) (R : spaceGroup rots trans → Matrix (Fin e) (Fin e) ℝ), IsUnit P ∧
            ∀ g, E g * P = P * (R g).map Complex.ofReal)) S l := by
  obtain ⟨l, S, h1, h2, h3⟩ := c120_sign h h2k ha ha5 hnm ho hsmall hrun
  exact ⟨l, S, h1, h2, h3.imp fun _ _ q => ⟨q.1, fun e E hE hs => (q.2 e E hE hs).1.trans (real_iff_symmetry _)⟩⟩

/-- Non-vacuity of `c120_sign` and `c120_real` (the same hypotheses): the group 23 at the zone centre, with a representation of the whole group. -/
example : ∃ (o : Oracles) (M : List (Fin 12)) (l : List (AnyRep M.length × ℤ)) (x : AnyRep M.length × ℤ) (d e : ℕ)
    (Γ : RepArr M.length d) (E : spaceGroup rots23 (fun _ _ => 0) →* Matrix (Fin e) (Fin e) ℂ),
    irrepsFromPrimitive o rots23 (fun _ _ => 0) (kAxis 0 0) false .neto 1e-5 1e-8 9 = .ok ⟨M, .complex l, false⟩ ∧ x ∈ l ∧
    Spec.IsIrreducible (fun g => E g) ∧ SubducesTo (kAxis 0 0) M Γ E ∧
    (x.2 = 1 ↔ ∃ T : Matrix (Fin e) (Fin e) ℂ, T * T.map star = 1 ∧ ∀ g, E g * T = T * (E g).map star) := by
  have hnm := noMiss23 0 0 (atol := 1e-8) (by norm_num) (by norm_num)
  have hall : ∀ i, FixesK (rots23 i) (kAxis 0 0) := fun i a => ⟨0, by simp [kAxis]⟩
  obtain ⟨o, M, out, hlen, hc, hrun⟩ := run_fixed (by norm_num) rots23_group hnm hall pointgroup_23
  obtain ⟨l, S, rfl, hL, h2⟩ := c120_sign group23 (fun a => ⟨0, by simp [kAxis]⟩) (by norm_num) (by norm_num) hnm hc
    (by norm_num; nlinarith) hrun
  have hpos : 0 < l.length := by
    obtain ⟨rfl, e1⟩ := primitive_ok hrun
    have hM := little_lists (rots := rots23) (atol := 1e-8) (by norm_num) hnm
    obtain ⟨l', S', hl, q1, -, -, -, q5⟩ := small_reps_complete (little_spaceGroup group23 (atol := 1e-8) (by norm_num) hnm)
      (fun i => (hM.2 _).1 (List.get_mem _ i)) o hc (by norm_num) (by nlinarith) 9 e1
    obtain rfl : l = l' := by simpa using hl
    rcases Nat.eq_zero_or_pos l.length with h0 | h0
    · exfalso
      have h3 : S'.length = 0 := by rw [q1.length_eq, h0]
      rw [List.length_eq_zero_iff.1 h3] at q5
      have h4 := List.length_pos_of_mem ((hM.2 0).2 (hall 0))
      simp at q5
      omega
    · exact h0
  have hposS : 0 < S.length := by rw [h2.length_eq]; exact hpos
  obtain ⟨e, E, hE, hs⟩ := hL.occurs_fin ⟨0, hposS⟩
  have h3 := (List.forall₂_iff_get.1 h2).2 0 hposS hpos
  exact ⟨o, M, l, _, _, e, _, E, hrun, List.get_mem l ⟨0, hpos⟩, hE, hs, (h3.2 e E hE hs).1⟩

end Spgrep
