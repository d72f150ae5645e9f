/-
C91: the user-level functions succeed with probability one.
-/
import Verif.Proofs.ConvRuns
import Verif.Props.Magnetic

namespace Spgrep

open Spec Matrix

variable {n : ℕ}

/-- **C91.** For the operations of a space group in a conventional cell (first occurrences of rotations before repetitions)
and a k-point, rational or not, at which the phases are signs (all symmorphic groups, all groups at Γ, ...), and every answer of
`get_pointgroup` within its contract, there is for each size a set of draws of probability zero such that, whenever the draws
`p d` are outside these sets, there is a positive tolerance up to which every run of `get_spacegroup_irreps` with the default
method and with `p d` among its draws of size `d` returns without a warning, whatever the lattice. -/
theorem c91_irreps_almost_surely {hallType : ℤ → SpacegroupType} {dataset : Dataset n} {kc : V3} {P : R3}
    (hP : getPrimitiveTransformationMatrix hallType dataset.hallNumber = .ok P)
    (hconv : IsConventionalGroup P dataset.rotations dataset.translations)
    (horder : ∀ i j, i ≤ j → FirstOcc dataset.rotations j → FirstOcc dataset.rotations i)
    (hsign : SignPhases P dataset.rotations dataset.translations kc)
    {pg : PgSymbol × Matrix (Fin 3) (Fin 3) ℝ}
    (ho : ∀ (u : ℕ) (R : Fin u → M3), IsLittleOf P dataset.rotations kc R → PointgroupContract pg R) :
    ∃ N : ∀ d, Set (DrawPair d), (∀ d, uniformLaw d (N d) = 0) ∧ ∀ p : ∀ d, DrawPair d, (∀ d, p d ∉ N d) →
      ∃ atol0 : ℝ, 0 < atol0 ∧ ∀ (o : Oracles) (lattice : R3) (k : V3) (reciprocal : Option R3) (rtol atol : ℝ) (maxGen : ℕ),
        kpointConv lattice reciprocal k = .ok kc → o.pointgroup = pg →
        (∀ d, ∃ t < maxGen, o.random d t = drawOf (p d)) → 0 ≤ rtol → rtol < 1 / 2 → 0 < atol → atol ≤ atol0 →
        ∃ m mapping irreps, getSpacegroupIrreps o hallType lattice dataset k .neto reciprocal rtol atol maxGen =
          .ok (⟨m, mapping, irreps⟩, false) := by
  have hd := getPrimitive_det hP
  obtain ⟨r', t', k', uR, uT, mapTo, m, htr, hu, hm, hsg, hfix, hlit, -, hid, -, hsafe⟩ :=
    conv_runs_setup hd hconv horder (kc := kc)
  obtain ⟨δ, hδ, hnm⟩ := exists_noNearMiss P dataset.rotations kc
  have hsafe := hsafe hsign
  have hcon := ho _ _ hlit
  obtain ⟨T, e, hT, hTg, he, hc, hn, h1⟩ := small_setup hsg hfix
  obtain ⟨V, Q, hVf, -, hV0, hQc, hraw⟩ := raw_forms hsg.1 hT hc hn he h1 hcon
  obtain ⟨M, hM, hav⟩ := almost_sure_draws hVf hV0
  refine ⟨M, hM, fun p hp => ?_⟩
  obtain ⟨a, ha, hD⟩ := hav p hp
  refine ⟨min a (min (1 / 5 / (m.length + 1)) (min (δ / 2) (1 / 2))), by positivity,
    fun o lattice k reciprocal rtol atol maxGen hkc hpg hr hr0 hr1 h0 hle => ?_⟩
  have hD := hD o.random atol maxGen hr (hle.trans (min_le_left _ _))
  have hna : m.length * atol ≤ 1 / 5 := by
    have h2 := hle.trans ((min_le_right _ _).trans (min_le_left _ _))
    rw [le_div_iff₀ (by positivity)] at h2
    linarith
  have hat2 : atol ≤ min (δ / 2) (1 / 2) := hle.trans ((min_le_right _ _).trans (min_le_right _ _))
  have hat : atol < δ := (hat2.trans (min_le_left _ _)).trans_lt (half_lt_self hδ)
  have hat3 : atol ≤ 1 / 2 := hat2.trans (min_le_right _ _)
  obtain ⟨L, w, hL, hLQ, hw⟩ := hraw o rtol atol maxGen hpg h0.le
  obtain rfl := hw hD
  obtain ⟨hf1, hf2⟩ := small_indicators hsg hfix hT hTg hc hn hsafe h0 hna (hQc L (hLQ rfl))
  obtain ⟨l, hl, -⟩ := withIndicators_ok hf2
  have hrun := smallReps_run hL hf1 false
  simp only [hl, Bool.false_eq_true, if_false, Except.map] at hrun
  have hcheck : primitiveCheck uR.get (fun i => uT.getD i 0) rtol atol = .ok () := by
    rw [primitiveCheck_eq h0.le hr0 (by linarith), if_neg]
    rintro ⟨i, hi, x, h⟩
    rw [hid i hi] at h
    simp at h
    linarith
  have hm' := hm atol h0.le (hnm atol hat)
  clear hm
  subst hm'
  have hprim : irrepsFromPrimitive o uR.get (fun i => uT.getD i 0) k' false .neto rtol atol maxGen =
      .ok ⟨littleMapping uR.get k' atol, .complex l, false⟩ := by
    unfold irrepsFromPrimitive
    rw [hcheck]
    simp only [bind, Except.bind, pure, Except.pure]
    rw [hrun]
  have e1 : uR = (uniquePrimitiveSymmetry r' t').1 := by rw [hu]
  have e2 : uT = (uniquePrimitiveSymmetry r' t').2.1 := by rw [hu]
  subst e1 e2
  unfold getSpacegroupIrreps
  simp only [hkc, hP, htr, bind, Except.bind, pure, Except.pure]
  rw [hprim]
  exact ⟨_, _, _, rfl⟩

/-- **C91** for `get_spacegroup_spinor_irreps` without magnetic moments; the null sets depend neither on the lattice nor on the
answers of the eigen-solver. -/
theorem c91_spinor_almost_surely {hallType : ℤ → SpacegroupType} {dataset : Dataset n} {kc : V3} {P : R3}
    (hP : getPrimitiveTransformationMatrix hallType dataset.hallNumber = .ok P)
    (hconv : IsConventionalGroup P dataset.rotations dataset.translations)
    (horder : ∀ i j, i ≤ j → FirstOcc dataset.rotations j → FirstOcc dataset.rotations i)
    (hsign : SignResiduals P dataset.rotations dataset.translations kc)
    {pg : PgSymbol × Matrix (Fin 3) (Fin 3) ℝ}
    (ho : ∀ (u : ℕ) (R : Fin u → M3), IsLittleOf P dataset.rotations kc R → PointgroupContract pg R) :
    ∃ N : ∀ d, Set (DrawPair d), (∀ d, uniformLaw d (N d) = 0) ∧ ∀ p : ∀ d, DrawPair d, (∀ d, p d ∉ N d) →
      ∃ atol0 : ℝ, 0 < atol0 ∧ ∀ (o : Oracles) (lattice : R3) (k : V3) (reciprocal : Option R3) (rtol atol : ℝ) (maxGen : ℕ),
        SymmEigContract o.eig → lattice.det ≠ 0 → (∀ i, PreservesMetric lattice (dataset.rotations i)) →
        kpointConv lattice reciprocal k = .ok kc → o.pointgroup = pg →
        (∀ d, ∃ t < maxGen, o.random d t = drawOf (p d)) → 0 ≤ rtol → rtol < 1 / 2 → 0 < atol → atol ≤ atol0 →
        ∃ out, getSpacegroupSpinorIrreps o hallType lattice dataset k .neto reciprocal rtol atol maxGen = .ok (out, false) := by
  have hd := getPrimitive_det hP
  obtain ⟨r', t', k', uR, uT, mapTo, m, htr, hu, hm, hsg, hfix, hlit, hmet, hid, hres, -⟩ :=
    conv_runs_setup hd hconv horder (kc := kc)
  obtain ⟨δ, hδ, hnm⟩ := exists_noNearMiss P dataset.rotations kc
  obtain ⟨M, hM, hav⟩ := c88_spinor_almost_surely hsg hfix (fun i j => expPhase_sign (hres hsign i j)) (ho _ _ hlit)
  refine ⟨M, hM, fun p hp => ?_⟩
  obtain ⟨a, ha, hD⟩ := hav p hp
  refine ⟨min a (min (δ / 2) (1 / 2)), by positivity,
    fun o lattice k reciprocal rtol atol maxGen he hL hml hkc hpg hr hr0 hr1 h0 hle => ?_⟩
  have hat2 : atol ≤ min (δ / 2) (1 / 2) := hle.trans (min_le_right _ _)
  have hat : atol < δ := (hat2.trans (min_le_left _ _)).trans_lt (half_lt_self hδ)
  have hat3 : atol ≤ 1 / 2 := hat2.trans (min_le_right _ _)
  have hL' : (P.transpose * lattice).det ≠ 0 := by
    rw [Matrix.det_mul, Matrix.det_transpose]
    exact mul_ne_zero hd hL
  obtain ⟨irreps, z, U, hsmall⟩ := hD o (P.transpose * lattice) rtol atol maxGen he hL' (hmet lattice hml) hpg hr h0
    (hle.trans (min_le_left _ _))
  have hcheck : primitiveCheck uR.get (fun i => uT.getD i 0) rtol atol = .ok () := by
    rw [primitiveCheck_eq h0.le hr0 (by linarith), if_neg]
    rintro ⟨i, hi, x, h⟩
    rw [hid i hi] at h
    simp at h
    linarith
  have hm' := hm atol h0.le (hnm atol hat)
  clear hm
  subst hm'
  have hprim : spinorIrrepsFromPrimitive o (P.transpose * lattice) uR.get (fun i => uT.getD i 0) k' .neto rtol atol maxGen =
      .ok ⟨littleMapping uR.get k' atol, (irreps, z, U), false⟩ := by
    unfold spinorIrrepsFromPrimitive
    rw [hcheck]
    simp only [bind, Except.bind, pure, Except.pure]
    rw [hsmall]
  have e1 : uR = (uniquePrimitiveSymmetry r' t').1 := by rw [hu]
  have e2 : uT = (uniquePrimitiveSymmetry r' t').2.1 := by rw [hu]
  subst e1 e2
  unfold getSpacegroupSpinorIrreps
  simp only [hkc, hP, htr, bind, Except.bind, pure, Except.pure]
  rw [hprim]
  exact ⟨_, rfl⟩

/-- **C91** for `get_crystallographic_pointgroup_spinor_irreps_from_symmetry` without time reversals. -/
theorem c91_pointgroup_spinor_almost_surely {rots : Fin n → M3} (h : EnumeratesGroup rots)
    {pg : PgSymbol × Matrix (Fin 3) (Fin 3) ℝ} (ho : PointgroupContract pg rots) :
    ∃ N : ∀ d, Set (DrawPair d), (∀ d, uniformLaw d (N d) = 0) ∧ ∀ p : ∀ d, DrawPair d, (∀ d, p d ∉ N d) →
      ∃ atol0 : ℝ, 0 < atol0 ∧ ∀ (o : Oracles) (L : R3) (rtol atol : ℝ) (maxGen : ℕ), SymmEigContract o.eig →
        L.det ≠ 0 → (∀ i, PreservesMetric L (rots i)) → o.pointgroup = pg →
        (∀ d, ∃ t < maxGen, o.random d t = drawOf (p d)) → 0 < atol → atol ≤ atol0 →
        ∃ irreps z U, pointgroupSpinorIrreps o L rots .neto rtol atol maxGen = .ok ((irreps, z, U), false) := by
  simp only [pointgroupSpinor_eq]
  exact c88_spinor_almost_surely ⟨h, fun _ _ _ _ _ => ⟨0, by simp⟩⟩ (fun i a => ⟨0, by simp⟩)
    (fun i j => .inl (factor_gamma _ _ _)) ho

/-- **C91** for `get_crystallographic_pointgroup_spinor_irreps_from_symmetry` with time reversals: outside the null sets the
function returns the complete list of irreducible co-representations (C81). -/
theorem c91_pointgroup_coreps_almost_surely {rots : Fin n → M3} {trs : Fin n → ℤ} (h : EnumeratesMagneticGroup rots trs)
    (htr : ∃ i, trs i = 1) (hb : ∀ i a b, |rots i a b| ≤ 99999) {pg : PgSymbol × Matrix (Fin 3) (Fin 3) ℝ}
    (ho : ∀ xsg : List (Fin n), xsg.Nodup → (∀ i, i ∈ xsg ↔ trs i = 0) →
      PointgroupContract pg fun u => rots (xsg.get u)) :
    ∃ N : ∀ d, Set (DrawPair d), (∀ d, uniformLaw d (N d) = 0) ∧ ∀ p : ∀ d, DrawPair d, (∀ d, p d ∉ N d) →
      ∃ atol0 : ℝ, 0 < atol0 ∧ ∀ (o : Oracles) (randomI : ∀ d, ℕ → Matrix (Fin d) (Fin d) ℂ) (L : R3) (rtol atol : ℝ)
        (maxGen : ℕ), SymmEigContract o.eig → L.det ≠ 0 → (∀ i, PreservesMetric L (rots i)) → o.pointgroup = pg →
        (∀ d, ∃ t < maxGen, o.random d t = drawOf (p d)) → 0 < atol → atol ≤ atol0 →
        ∃ (out : CorepOut n) (w : Bool) (T : Fin n → Fin n → Fin n) (K : List (AnyRep n)),
          pointgroupSpinorCoreps o randomI L rots trs .neto rtol atol maxGen = .ok (out, w) ∧
          (∀ i j, IsProduct rots trs i j (T i j)) ∧ (∀ i, out.antiLinear i = true ↔ trs i = 1) ∧
          IsCompleteCoreps T out.antiLinear out.spinorFactor K ∧
          List.Forall₂ (fun x E => ∃ A : RepArr n E.1, x = ⟨E.1, A⟩ ∧ ∀ i, trs i = 0 → ∀ r q,
            ‖E.2 i r q - A i r q‖ ≤ atol) out.coreps K := by
  obtain ⟨V, hVf, hV0, hV⟩ := unitaryPart_forms h ho
  obtain ⟨M, hM, hav⟩ := almost_sure_draws hVf hV0
  refine ⟨M, hM, fun p hp => ?_⟩
  obtain ⟨a, ha, hD⟩ := hav p hp
  refine ⟨min a (1 / 5 / ((n : ℝ) ^ 2 + 1)), by positivity,
    fun o randomI L rtol atol maxGen he hL hm hpg hr h0 hle => ?_⟩
  have hD := hD o.random atol maxGen hr (hle.trans (min_le_left _ _))
  have hna : (n : ℝ) ^ 2 * atol ≤ 1 / 5 := by
    have h2 := hle.trans (min_le_right _ _)
    rw [le_div_iff₀ (by positivity)] at h2
    linarith
  exact c81_pointgroup_coreps h htr hb he hL hm (fun xsg h1 h2 => hpg ▸ ho xsg h1 h2) rtol h0 hna randomI
    (.inr (.inl (hV o rtol atol maxGen hpg h0.le hD)))

/-- **C91** for `get_spacegroup_spinor_irreps` with magnetic moments, for groups of type III (the time reversals are a
homomorphism on the rotations) with an anti-linear operation in the little group: outside the null sets the function returns,
whatever the lattice, the answers of the eigen-solver and the draws for the intertwiners of the co-representations. -/
theorem c91_coreps_almost_surely {hallType : ℤ → SpacegroupType} {dataset : MagneticDataset n} {kc : V3} {P : R3}
    (hP : getPrimitiveTransformationMatrix hallType dataset.hallNumber = .ok P)
    (hconv : IsConventionalGroup P dataset.rotations dataset.translations)
    (horder : ∀ i j, i ≤ j → FirstOcc dataset.rotations j → FirstOcc dataset.rotations i)
    (htrs : ∀ i, dataset.timeReversals i = 0 ∨ dataset.timeReversals i = 1)
    (hhom : ∀ i j l, dataset.rotations i * dataset.rotations j = dataset.rotations l →
      dataset.timeReversals l = if dataset.timeReversals i = dataset.timeReversals j then 0 else 1)
    (hanti : ∃ i, dataset.timeReversals i = 1 ∧ FixesKLattice P (dataset.rotations i) kc)
    (hsign : SignResiduals P dataset.rotations dataset.translations kc)
    (hb : ∀ (u : ℕ) (R : Fin u → M3), IsLittleOf P dataset.rotations kc R → ∀ i a b, |R i a b| ≤ 99999)
    {pg : PgSymbol × Matrix (Fin 3) (Fin 3) ℝ}
    (ho : ∀ (u : ℕ) (R : Fin u → M3), Function.Injective R → (∀ S : M3, (∃ j, R j = S) ↔
      ∃ i, dataset.timeReversals i = 0 ∧ FixesKLattice P (dataset.rotations i) kc ∧
        (dataset.rotations i).map (fun x => (x : ℝ)) * P = P * S.map (fun x => (x : ℝ))) → PointgroupContract pg R) :
    ∃ N : ∀ d, Set (DrawPair d), (∀ d, uniformLaw d (N d) = 0) ∧ ∀ p : ∀ d, DrawPair d, (∀ d, p d ∉ N d) →
      ∃ atol0 : ℝ, 0 < atol0 ∧ ∀ (o : Oracles) (randomI : ∀ d, ℕ → Matrix (Fin d) (Fin d) ℂ) (lattice : R3) (k : V3)
        (reciprocal : Option R3) (rtol atol : ℝ) (maxGen : ℕ),
        SymmEigContract o.eig → lattice.det ≠ 0 → (∀ i, PreservesMetric lattice (dataset.rotations i)) →
        kpointConv lattice reciprocal k = .ok kc → o.pointgroup = pg →
        (∀ d, ∃ t < maxGen, o.random d t = drawOf (p d)) → 0 ≤ rtol → rtol < 1 / 2 → 0 < atol → atol ≤ atol0 →
        ∃ out w, getSpacegroupSpinorCoreps o randomI hallType lattice dataset k .neto reciprocal rtol atol maxGen =
          .ok (out, w) := by
  have hd := getPrimitive_det hP
  obtain ⟨r', t', k', uR, uT, mapTo, m, htr, hu, hm, hsg, hfix, hlit, hmet, hid, hres, -⟩ :=
    conv_runs_setup hd hconv horder (kc := kc)
  obtain ⟨δ, hδ, hnm⟩ := exists_noNearMiss P dataset.rotations kc
  obtain ⟨r'', t'', k'', uR', uT', mapTo', p', htr', hu', hp', hpr', hsurj, hpi, hPr, -⟩ :=
    conv_little_near_miss hd hconv horder (noNearMiss_zero P _ kc) le_rfl
  obtain ⟨rfl, h2⟩ := Prod.mk.inj (Except.ok.inj (htr.symm.trans htr'))
  obtain ⟨rfl, rfl⟩ := Prod.mk.inj h2
  obtain ⟨rfl, h2⟩ := Prod.mk.inj (hu.symm.trans hu')
  obtain ⟨rfl, rfl⟩ := Prod.mk.inj h2
  obtain ⟨r'', t'', k'', uR', uT', mapTo', p, htr', hu', hk', hp, hpr, -, -, hfix', -, -, hx⟩ :=
    conv_rotations hd dataset.translations kc hconv.2.1 horder
  obtain ⟨rfl, h2⟩ := Prod.mk.inj (Except.ok.inj (htr.symm.trans htr'))
  obtain ⟨rfl, rfl⟩ := Prod.mk.inj h2
  obtain ⟨rfl, h2⟩ := Prod.mk.inj (hu.symm.trans hu')
  obtain ⟨rfl, rfl⟩ := Prod.mk.inj h2
  obtain rfl : p' = p := funext fun i => Fin.ext (by exact_mod_cast (hp' i).symm.trans (hp i))
  choose f hf1 hf2 hf3 using hx
  have hcancel : ∀ A B : M3, P * realMat A = P * realMat B → A = B := by
    intro A B hAB
    apply realMat_injective
    have h3 := congrArg (fun M => P⁻¹ * M) hAB
    rwa [← mul_assoc, ← mul_assoc, Matrix.nonsing_inv_mul _ (isUnit_iff_ne_zero.2 hd), one_mul, one_mul] at h3
  have hcancel' : ∀ A B : M3, realMat A * P = realMat B * P → A = B := by
    intro A B hAB
    apply realMat_injective
    have h3 := congrArg (fun M => M * P⁻¹) hAB
    simpa only [mul_assoc, Matrix.mul_nonsing_inv _ (isUnit_iff_ne_zero.2 hd), mul_one] using h3
  have huf : ∀ x, uR.get x = r' (f x) := fun x => by rw [← hpr', hf3]
  have hmulr : ∀ i j l, r' i * r' j = r' l → dataset.rotations i * dataset.rotations j = dataset.rotations l := by
    intro i j l h
    apply hcancel'
    rw [realMat_mul, mul_assoc, ← hPr j, ← mul_assoc, ← hPr i, mul_assoc, ← realMat_mul, h, hPr l]
  have hmag : IsMagneticSpaceGroup (fun l => uR.get (m.get l)) (fun l => uT.getD (m.get l) 0)
      (fun l => dataset.timeReversals (f (m.get l))) := by
    refine magnetic_of_hom hsg (fun l => htrs _) fun i j l h => hhom _ _ _ (hmulr _ _ _ ?_)
    simp only [← huf]
    exact h
  have hfl : ∀ i j, dataset.rotations i = dataset.rotations j → dataset.timeReversals i = dataset.timeReversals j := by
    intro i j hij
    obtain ⟨H, hH⟩ := hconv.1
    obtain ⟨e, hee⟩ : (1 : M3) ∈ Set.range dataset.rotations := by
      rw [hH]
      exact ⟨1, H.one_mem, rfl⟩
    have he0 : dataset.timeReversals e = 0 := by
      have := hhom e e e (by rw [hee, mul_one])
      rwa [if_pos rfl] at this
    have h1 := hhom i e j (by rw [hee, mul_one, hij])
    rw [he0] at h1
    rcases htrs i with h2 | h2 <;> rw [h2] at h1 ⊢ <;> rw [h1] <;> decide
  obtain ⟨i1, hi1, hi1f⟩ := hanti
  have hmemi : ∀ i, FixesKLattice P (dataset.rotations i) kc → p' i ∈ m := by
    intro i hi
    rw [← hm 0 le_rfl (noNearMiss_zero P _ kc), mem_littleMapping, hpr']
    exact (inLittle_of_noNearMiss le_rfl (noNearMiss_zero P _ kc) (hPr i) hk' (hfix' i)).2 ((hfix' i).1 hi)
  have htf : ∀ i, dataset.timeReversals (f (p' i)) = dataset.timeReversals i := fun i =>
    hfl _ _ ((hpi _ _).1 (hf3 _))
  obtain ⟨l1, hl1⟩ := List.mem_iff_get.1 (hmemi i1 hi1f)
  have hcon : ∀ xsg : List (Fin m.length), xsg.Nodup → (∀ l, l ∈ xsg ↔ dataset.timeReversals (f (m.get l)) = 0) →
      PointgroupContract pg fun u => uR.get (m.get (xsg.get u)) := by
    intro xsg hxn hxm
    refine ho _ _ (fun a b hab => (List.nodup_iff_injective_get.1 hxn) (hsg.1.1 hab)) fun S => ?_
    constructor
    · rintro ⟨j, rfl⟩
      refine ⟨f (m.get (xsg.get j)), (hxm _).1 (List.get_mem _ _), ?_, ?_⟩
      · rw [hfix', ← huf]
        exact hfix _
      · have := (hPr (f (m.get (xsg.get j)))).symm
        rw [← huf] at this
        exact this
    · rintro ⟨i, hi0, hif, hiS⟩
      obtain ⟨l, hl⟩ := List.mem_iff_get.1 (hmemi i hif)
      obtain ⟨j, hj⟩ := List.mem_iff_get.1 ((hxm l).2 (by rw [hl, htf, hi0]))
      refine ⟨j, ?_⟩
      rw [hj, hl, hpr']
      exact hcancel _ _ ((hPr i).trans hiS)
  obtain ⟨V, hVf, hV0, hV⟩ := unitaryPart_forms hmag.1 hcon
  obtain ⟨M, hM, hav⟩ := almost_sure_draws hVf hV0
  refine ⟨M, hM, fun p hp => ?_⟩
  obtain ⟨a, ha, hD⟩ := hav p hp
  refine ⟨min a (min (1 / 5 / ((m.length : ℝ) ^ 2 + 1)) (min (δ / 2) (1 / 2))), by positivity,
    fun o randomI lattice k reciprocal rtol atol maxGen he hL hml hkc hpg hr hr0 hr1 h0 hle => ?_⟩
  have hD := hD o.random atol maxGen hr (hle.trans (min_le_left _ _))
  have hna : (m.length : ℝ) ^ 2 * atol ≤ 1 / 5 := by
    have h2 := hle.trans ((min_le_right _ _).trans (min_le_left _ _))
    rw [le_div_iff₀ (by positivity)] at h2
    linarith
  have hat2 : atol ≤ min (δ / 2) (1 / 2) := hle.trans ((min_le_right _ _).trans (min_le_right _ _))
  have hat : atol < δ := (hat2.trans (min_le_left _ _)).trans_lt (half_lt_self hδ)
  have hat3 : atol ≤ 1 / 2 := hat2.trans (min_le_right _ _)
  have hL' : (P.transpose * lattice).det ≠ 0 := by
    rw [Matrix.det_mul, Matrix.det_transpose]
    exact mul_ne_zero hd hL
  obtain ⟨-, -, -, -, -, -, -, -, -, -, -, -, -, -, -, -, out, w, hrun, -⟩ := coreps_forward (o := o) hmag
    ⟨l1, by rw [hl1, htf, hi1]⟩ (hb _ _ hlit) hfix (fun i j => expPhase_sign (hres hsign i j)) he hL' (hmet lattice hml)
    (fun xsg hxn hxm => hpg ▸ hcon xsg hxn hxm) rtol (maxGen := maxGen) h0 hna randomI
    (.inr (.inl (hV o rtol atol maxGen hpg h0.le hD)))
  have hcheck : primitiveCheck uR.get (fun i => uT.getD i 0) rtol atol = .ok () := by
    rw [primitiveCheck_eq h0.le hr0 (by linarith), if_neg]
    rintro ⟨i, hi, x, h⟩
    rw [hid i hi] at h
    simp at h
    linarith
  have hm' := hm atol h0.le (hnm atol hat)
  clear hm
  subst hm'
  refine ⟨⟨_, (adjustPhase t' k' (fun i => uT.getD i 0) mapTo (littleMapping uR.get k' atol) out.coreps).2.1,
        (adjustPhase t' k' (fun i => uT.getD i 0) mapTo (littleMapping uR.get k' atol) out.coreps).2.2,
        (littleMapping uR.get k' atol).length, out.spinorFactor, out.unitary, out.antiLinear⟩, w, ?_⟩
  rw [spacegroupCoreps_eq hP hkc htr hu hp' hf1 hf3, hcheck, hrun]
  rfl

/-! ### Non-vacuity -/

/-- The contract of `get_pointgroup` does not depend on the order of the rotations. -/
theorem PointgroupContract.reindex {pg : PgSymbol × Matrix (Fin 3) (Fin 3) ℝ} {rots : Fin n → M3} (h : PointgroupContract pg rots)
    (hinj : Function.Injective rots) {u : ℕ} {R : Fin u → M3} (hR : Function.Injective R)
    (hr : ∀ S, (∃ j, R j = S) ↔ ∃ i, rots i = S) : PointgroupContract pg R := by
  obtain ⟨h1, std, hstd, σ, hσ⟩ := h
  choose f hf using fun j => (hr (R j)).1 ⟨j, rfl⟩
  have hbij : Function.Bijective f := by
    refine ⟨fun a b hab => hR ?_, fun i => ?_⟩
    · rw [← hf, ← hf, hab]
    · obtain ⟨j, hj⟩ := (hr (rots i)).2 ⟨i, rfl⟩
      exact ⟨j, hinj ((hf j).trans hj)⟩
  refine ⟨h1, std, hstd, (Equiv.ofBijective f hbij).trans σ, fun i => ?_⟩
  rw [← hf, hσ]
  rfl

/-- A space group in a primitive basis is a conventional group for the unit matrix. -/
theorem conventional_of_primitive {rots : Fin n → M3} {trans : Fin n → V3} (h : IsSpaceGroup rots trans) :
    IsConventionalGroup 1 rots trans := by
  refine ⟨h.1.2, fun i => ⟨rots i, by rw [mul_one, one_mul]⟩, fun i j l hl => ?_⟩
  choose m hm using h.2 i j l hl
  refine ⟨m, fun a => (hm a).trans ?_⟩
  simp [Matrix.one_apply]

theorem littleOf_gamma {rots : Fin n → M3} {u : ℕ} {R : Fin u → M3} (h : IsLittleOf 1 rots 0 R) :
    ∀ S, (∃ j, R j = S) ↔ ∃ i, rots i = S := by
  intro S
  rw [h.2]
  simp only [mul_one, one_mul]
  constructor
  · rintro ⟨i, -, hi⟩
    exact ⟨i, realMat_injective hi⟩
  · rintro ⟨i, rfl⟩
    exact ⟨i, fun x _ => ⟨0, by simp⟩, rfl⟩

/-- The operations of I2₁2₁2₁ in a primitive basis. -/
noncomputable def datasetI24 : Dataset 4 := ⟨rotsI24, transI24, 4⟩

/-- Non-vacuity of C91: I2₁2₁2₁, where some translations are not lattice vectors, at Γ, with and without spin.  With the
default number of generations the good draws come last. -/
example : (∃ i, datasetI24.translations i ∉ columnLattice 1) ∧
    SignPhases 1 datasetI24.rotations datasetI24.translations 0 ∧
    ∃ (o : Oracles) (atol : ℝ), 0 < atol ∧ SymmEigContract o.eig ∧ (∀ d, ∀ t < 3, o.random d t = 0) ∧
      (∃ m mapping irreps, getSpacegroupIrreps o (fun _ => ⟨[], ['P', ' ', '2']⟩) latticeBcc datasetI24 0 .neto none 1e-5 atol =
        .ok (⟨m, mapping, irreps⟩, false)) ∧
      ∃ out, getSpacegroupSpinorIrreps o (fun _ => ⟨[], ['P', ' ', '2']⟩) latticeBcc datasetI24 0 .neto none 1e-5 atol =
        .ok (out, false) := by
  have hsign : SignPhases 1 datasetI24.rotations datasetI24.translations 0 :=
    .inr ⟨fun x _ => ⟨0, by simp⟩, fun i j _ _ => ⟨0, by simp⟩⟩
  refine ⟨?_, hsign, ?_⟩
  · by_contra hno
    push Not at hno
    obtain ⟨m, hm⟩ := hno 1
    have h0 := hm 0
    simp [datasetI24, transI24, trans2I24, Matrix.one_apply] at h0
    have h1 : (1 : ℤ) = 2 * m 0 := by
      have : (1 : ℝ) = 2 * m 0 := by linarith
      exact_mod_cast this
    omega
  have hconv : IsConventionalGroup 1 datasetI24.rotations datasetI24.translations := conventional_of_primitive isSpaceGroup_I24
  have horder : ∀ i j, i ≤ j → FirstOcc datasetI24.rotations j → FirstOcc datasetI24.rotations i := by
    change ∀ i j, i ≤ j → FirstOcc rotsI24 j → FirstOcc rotsI24 i
    intro i j _ _ i' hi' heq
    exact hi'.ne (rotsI24_group.1 heq)
  have ho : ∀ (u : ℕ) (R : Fin u → M3), IsLittleOf 1 datasetI24.rotations 0 R →
      PointgroupContract (PgSymbol.pg_222, trafoI24.map fun x : ℤ => (x : ℝ)) R := fun u R h =>
    pointgroup_I24.reindex rotsI24_group.1 h.1 (littleOf_gamma h)
  obtain ⟨N, hN, hall⟩ := c91_irreps_almost_surely (dataset := datasetI24) (kc := 0) primP2 hconv horder hsign ho
  obtain ⟨N', hN', hall'⟩ := c91_spinor_almost_surely (dataset := datasetI24) (kc := 0) primP2 hconv horder
    (SignPhases.residuals hsign) ho
  obtain ⟨p, hp⟩ := exists_draws_outside (N := fun d => N d ∪ N' d) fun d => MeasureTheory.measure_union_null (hN d) (hN' d)
  obtain ⟨a, ha, hrun⟩ := hall p fun d hd => hp d (.inl hd)
  obtain ⟨a', ha', hrun'⟩ := hall' p fun d hd => hp d (.inr hd)
  obtain ⟨eig, he⟩ := symmEigContract_exists
  obtain ⟨o, hpg, hX0, hX, he⟩ : ∃ o : Oracles, o.pointgroup = (PgSymbol.pg_222, trafoI24.map fun x : ℤ => (x : ℝ)) ∧
      (∀ d, ∀ t < 3, o.random d t = 0) ∧ (∀ d, o.random d 3 = drawOf (p d)) ∧ SymmEigContract o.eig :=
    ⟨⟨fun d t => if t = 3 then drawOf (p d) else 0, eig, fun _ _ => (0, 0), fun _ _ _ => 0, _⟩, rfl,
      fun _ t ht => if_neg ht.ne, fun _ => rfl, he⟩
  have hkc := (c52_kpoint_basis latticeBcc latticeBcc_det 0).1
  refine ⟨o, min a a', by positivity, he, hX0, ?_, ?_⟩
  · exact hrun o latticeBcc 0 none 1e-5 (min a a') 4 hkc hpg (fun d => ⟨3, by norm_num, hX d⟩) (by norm_num) (by norm_num)
      (by positivity) (min_le_left _ _)
  · exact hrun' o latticeBcc 0 none 1e-5 (min a a') 4 he latticeBcc_det metric_I24 hkc hpg (fun d => ⟨3, by norm_num, hX d⟩)
      (by norm_num) (by norm_num) (by positivity) (min_le_right _ _)

/-- Non-vacuity of C91 with time reversals: the group C2' of type III in its centred cell at a general k-point. -/
example : ∃ (o : Oracles) (atol : ℝ), 0 < atol ∧ SymmEigContract o.eig ∧ (∀ d, ∀ t < 3, o.random d t = 0) ∧
    (∃ i, datasetC2III.timeReversals i = 1 ∧ FixesKLattice primC (datasetC2III.rotations i) kC2) ∧
    ∀ randomI, ∃ out w, getSpacegroupSpinorCoreps o randomI (fun _ => ⟨[], ['C', ' ', '2', 'y']⟩) 1 datasetC2III kC2 .neto none
      1e-5 atol = .ok (out, w) := by
  have h1 : (1 : R3).det ≠ 0 := by rw [Matrix.det_one]; exact one_ne_zero
  have htrs : ∀ i, datasetC2III.timeReversals i = 0 ∨ datasetC2III.timeReversals i = 1 := by
    change ∀ i : Fin 4, (![0, 1, 0, 1] : Fin 4 → ℤ) i = 0 ∨ (![0, 1, 0, 1] : Fin 4 → ℤ) i = 1
    decide
  have hkc := (c52_kpoint_basis 1 h1 kC2).1
  obtain ⟨N, hN, hall⟩ := c91_coreps_almost_surely (dataset := datasetC2III) (kc := kC2) primC2 convC2 orderC2 htrs (by
      change ∀ i j l : Fin 4, rotsC2 i * rotsC2 j = rotsC2 l → (![0, 1, 0, 1] : Fin 4 → ℤ) l =
        if (![0, 1, 0, 1] : Fin 4 → ℤ) i = (![0, 1, 0, 1] : Fin 4 → ℤ) j then 0 else 1
      decide +kernel)
    ⟨1, rfl, fixesC2 1⟩ (SignPhases.residuals (.inl transC2_mem)) (fun u R h => boundC2 h)
    (fun u R hinj h => contractC2III hinj h)
  obtain ⟨p, hp⟩ := exists_draws_outside hN
  obtain ⟨a, ha, hrun⟩ := hall p hp
  obtain ⟨eig, he⟩ := symmEigContract_exists
  obtain ⟨o, hpg, hX0, hX, he⟩ : ∃ o : Oracles, o.pointgroup = (PgSymbol.pg_1, (1 : M3).map fun x : ℤ => (x : ℝ)) ∧
      (∀ d, ∀ t < 3, o.random d t = 0) ∧ (∀ d, o.random d 3 = drawOf (p d)) ∧ SymmEigContract o.eig :=
    ⟨⟨fun d t => if t = 3 then drawOf (p d) else 0, eig, fun _ _ => (0, 0), fun _ _ _ => 0, _⟩, rfl,
      fun _ t ht => if_neg ht.ne, fun _ => rfl, he⟩
  exact ⟨o, a, ha, he, hX0, ⟨1, rfl, fixesC2 1⟩, fun randomI => hrun o randomI 1 kC2 none 1e-5 a 4 he h1 metricC2 hkc hpg
    (fun d => ⟨3, by norm_num, hX d⟩) (by norm_num) (by norm_num) ha le_rfl⟩

/-- Non-vacuity of C91 for point groups: the co-representations of the grey group 21'. -/
example : EnumeratesMagneticGroup rotsGrey2 trsGrey2 ∧ ∃ (o : Oracles) (atol : ℝ), 0 < atol ∧
    SymmEigContract o.eig ∧ (∀ d, ∀ t < 3, o.random d t = 0) ∧
    ∀ randomI, ∃ out w, pointgroupSpinorCoreps o randomI 1 rotsGrey2 trsGrey2 .neto 1e-5 atol = .ok (out, w) := by
  obtain ⟨N, hN, hall⟩ := c91_pointgroup_coreps_almost_surely grey2_group ⟨2, rfl⟩ (by decide +kernel) grey2_contract
  obtain ⟨p, hp⟩ := exists_draws_outside hN
  obtain ⟨a, ha, hrun⟩ := hall p hp
  obtain ⟨eig, he⟩ := symmEigContract_exists
  obtain ⟨o, hpg, hX0, hX, he⟩ : ∃ o : Oracles, o.pointgroup =
      (PgSymbol.pg_2, (1 : M3).map fun x : ℤ => (x : ℝ)) ∧ (∀ d, ∀ t < 3, o.random d t = 0) ∧ (∀ d, o.random d 3 = drawOf (p d)) ∧ SymmEigContract o.eig :=
    ⟨⟨fun d t => if t = 3 then drawOf (p d) else 0, eig, fun _ _ => (0, 0), fun _ _ _ => 0, _⟩, rfl,
      fun _ t ht => if_neg ht.ne, fun _ => rfl, he⟩
  refine ⟨grey2_group, o, a, ha, he, hX0, fun randomI => ?_⟩
  obtain ⟨out, w, -, -, h, -⟩ := hrun o randomI 1 1e-5 a 4 he (by simp) grey2_metric hpg (fun d => ⟨3, by norm_num, hX d⟩) ha le_rfl
  exact ⟨out, w, h⟩

/-- Non-vacuity of C91 for point groups: the spinors of 432, whose 24 elements exceed the bound on the group order implied by
`RichDraws` with the default four generations. -/
example : EnumeratesGroup rots432 ∧ ∃ (o : Oracles) (atol : ℝ), 0 < atol ∧
    SymmEigContract o.eig ∧ (∀ d, ∀ t < 3, o.random d t = 0) ∧
    ∃ irreps z U, pointgroupSpinorIrreps o 1 rots432 .neto 1e-5 atol = .ok ((irreps, z, U), false) := by
  obtain ⟨N, hN, hall⟩ := c91_pointgroup_spinor_almost_surely rots432_group contract_432
  obtain ⟨p, hp⟩ := exists_draws_outside hN
  obtain ⟨a, ha, hrun⟩ := hall p hp
  obtain ⟨eig, he⟩ := symmEigContract_exists
  obtain ⟨o, hpg, hX0, hX, he⟩ : ∃ o : Oracles, o.pointgroup =
      (PgSymbol.pg_432, (1 : M3).map fun x : ℤ => (x : ℝ)) ∧ (∀ d, ∀ t < 3, o.random d t = 0) ∧ (∀ d, o.random d 3 = drawOf (p d)) ∧
      SymmEigContract o.eig :=
    ⟨⟨fun d t => if t = 3 then drawOf (p d) else 0, eig, fun _ _ => (0, 0), fun _ _ _ => 0, _⟩, rfl,
      fun _ t ht => if_neg ht.ne, fun _ => rfl, he⟩
  have hmet : ∀ i, PreservesMetric 1 (rots432 i) := by
    have h : ∀ i, (rots432 i).transpose * ((1 : M3) * (1 : M3).transpose) * rots432 i = (1 : M3) * (1 : M3).transpose := by
      decide +kernel
    intro i
    have := metric_of_int (h i)
    rwa [show ((1 : M3).map fun x : ℤ => (x : ℝ)) = 1 from Matrix.map_one _ Int.cast_zero Int.cast_one] at this
  exact ⟨rots432_group, o, a, ha, he, hX0, hrun o 1 1e-5 a 4 he (by simp) hmet hpg (fun d => ⟨3, by norm_num, hX d⟩) ha le_rfl⟩

end Spgrep
