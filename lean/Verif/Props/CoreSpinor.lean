/-
C62, C63, C55: the spinor functions of core.py.
-/
import Verif.Proofs.CoreSpinor

namespace Spgrep

open Spec Matrix

variable {n : ℕ}

/-! ### C62 -/

theorem spinorPrimitive_ok {o : Oracles} {L : R3} {rots : Fin n → M3} {trans : Fin n → V3} {k : V3} {method : IrrepMethod}
    {rtol atol : ℝ} {maxGen : ℕ} {v} (h : spinorIrrepsFromPrimitive o L rots trans k method rtol atol maxGen = .ok v) :
    ∃ out w, enumerateSpinorSmallReps o L (fun i => rots ((littleMapping rots k atol).get i))
      (fun i => trans ((littleMapping rots k atol).get i)) k method rtol atol maxGen = .ok (out, w) ∧
      v = ⟨littleMapping rots k atol, out, w⟩ := by
  unfold spinorIrrepsFromPrimitive at h
  simp only [bind, Except.bind, pure, Except.pure] at h
  split at h
  · cases h
  · split at h
    · cases h
    · rename_i v' hv
      exact ⟨v'.1, v'.2, hv, (Except.ok.inj h).symm⟩

theorem spacegroupSpinor_ok {o : Oracles} {hallType : ℤ → SpacegroupType} {lattice : R3} {dataset : Dataset n}
    {k kc : V3} {method : IrrepMethod} {reciprocal : Option R3} {rtol atol : ℝ} {maxGen : ℕ} {P : R3}
    (hP : getPrimitiveTransformationMatrix hallType dataset.hallNumber = .ok P)
    (hkc : kpointConv lattice reciprocal k = .ok kc) {r' : Fin n → M3} {t' : Fin n → V3} {k' : V3}
    (htr : transformSymmetryAndKpoint P dataset.rotations dataset.translations kc = .ok (r', t', k'))
    {uR : List M3} {uT : List V3} {mapTo : Fin n → ℤ} (hu : uniquePrimitiveSymmetry r' t' = (uR, uT, mapTo))
    {out : SpinorOut n} {w : Bool}
    (hrun : getSpacegroupSpinorIrreps o hallType lattice dataset k method reciprocal rtol atol maxGen = .ok (out, w)) :
    ∃ irreps z U, enumerateSpinorSmallReps o (P.transpose * lattice)
        (fun i => uR.get ((littleMapping uR.get k' atol).get i))
        (fun i => uT.getD ((littleMapping uR.get k' atol).get i) 0) k' method rtol atol maxGen = .ok ((irreps, z, U), w) ∧
      out = ⟨_, (adjustPhase t' k' (fun i => uT.getD i 0) mapTo (littleMapping uR.get k' atol) irreps).2.1, (adjustPhase t' k' (fun i => uT.getD i 0) mapTo (littleMapping uR.get k' atol) irreps).2.2,
        (littleMapping uR.get k' atol).length, z, U, fun _ => false⟩ := by
  obtain ⟨rfl, h'⟩ := Prod.mk.inj hu
  obtain ⟨rfl, rfl⟩ := Prod.mk.inj h'
  unfold getSpacegroupSpinorIrreps at hrun
  simp only [hkc, hP, htr, bind, Except.bind, pure, Except.pure] at hrun
  split at hrun
  · cases hrun
  · rename_i v hv
    obtain ⟨⟨irreps, z, U⟩, w', h1, rfl⟩ := spinorPrimitive_ok hv
    obtain ⟨h2, rfl⟩ := Prod.mk.inj (Except.ok.inj hrun)
    exact ⟨irreps, z, U, h1, h2.symm⟩

/-- `_adjust_phase_for_centering_translations` keeps arrays close to exact ones. -/
theorem adjustPhase_near {u : ℕ} {t' : Fin n → V3} {k' : V3} {uTrans : Fin u → V3} {mapTo : Fin n → ℤ}
    {mapping : List (Fin u)} {S irreps : List (AnyRep mapping.length)} {δ : ℝ}
    (h : List.Forall₂ (fun Γ x => ∃ A : RepArr mapping.length Γ.1, x = ⟨Γ.1, A⟩ ∧ ∀ g i j, ‖Γ.2 g i j - A g i j‖ ≤ δ)
      S irreps) :
    List.Forall₂ (fun Γ E => ∃ A : RepArr (keptOps mapTo mapping).length Γ.1, E = ⟨Γ.1, A⟩ ∧
      ∀ g i j, ‖Γ.2 g i j - A g i j‖ ≤ δ + 1e-8)
      (S.map fun Γ => (⟨Γ.1, adjusted t' k' uTrans mapTo mapping Γ.2⟩ : AnyRep (keptOps mapTo mapping).length))
      (adjustPhase t' k' uTrans mapTo mapping irreps).2.2 := by
  unfold adjustPhase
  rw [List.forall₂_map_left_iff, List.forall₂_map_right_iff]
  refine h.imp fun Γ x => ?_
  rintro ⟨A, hA, hnear⟩
  refine ⟨purifyIrrepValue (adjusted t' k' uTrans mapTo mapping A) 1e-8, ?_, adjusted_near hnear⟩
  rw [hA]
  rfl

/-- C62 for every k-point without near misses. -/
theorem c62_near_miss {o : Oracles} (he : SymmEigContract o.eig) {hallType : ℤ → SpacegroupType} {lattice : R3}
    (hL : lattice.det ≠ 0) {dataset : Dataset n} (hm : ∀ i, PreservesMetric lattice (dataset.rotations i))
    {k kc : V3} {method : IrrepMethod} {reciprocal : Option R3} {rtol atol : ℝ} {maxGen : ℕ} {P : R3}
    (hP : getPrimitiveTransformationMatrix hallType dataset.hallNumber = .ok P)
    (hkc : kpointConv lattice reciprocal k = .ok kc)
    (hconv : IsConventionalGroup P dataset.rotations dataset.translations)
    (horder : ∀ i j, i ≤ j → FirstOcc dataset.rotations j → FirstOcc dataset.rotations i)
    (hnm : NoNearMiss P dataset.rotations kc atol)
    (ha : 0 < atol) (ha5 : atol ≤ 1 / 5)
    (ho : ∀ (u : ℕ) (R : Fin u → M3), IsLittleOf P dataset.rotations kc R → MethodContract o method rtol R)
    {out : SpinorOut n}
    (hrun : getSpacegroupSpinorIrreps o hallType lattice dataset k method reciprocal rtol atol maxGen = .ok (out, false)) :
    StrictMono out.mapping ∧
    (∀ i, (∃ q, out.mapping q = i) ↔ FixesKLattice P (dataset.rotations i) kc) ∧
    ∃ pos : Fin out.order → Fin out.primOrder, Function.Surjective pos ∧
      (∀ q q', pos q = pos q' ↔ dataset.rotations (out.mapping q) = dataset.rotations (out.mapping q')) ∧
      (∀ q, IsSU2 (out.unitary (pos q)) ∧ ∀ Q C, (Q = dataset.rotations (out.mapping q) ∨
        Q = -dataset.rotations (out.mapping q)) → Q.det = 1 → IsCartesianOf lattice Q C →
          InducesRotation (out.unitary (pos q)) C) ∧
      (∀ i j, out.spinorFactor i j = 1 ∨ out.spinorFactor i j = -1) ∧
      (∀ q q' q'', dataset.rotations (out.mapping q) * dataset.rotations (out.mapping q') =
          dataset.rotations (out.mapping q'') →
        out.unitary (pos q) * out.unitary (pos q') = out.spinorFactor (pos q) (pos q') • out.unitary (pos q'')) ∧
      ∃ S : List (AnyRep out.order),
        List.Forall₂ (fun Γ E => ∃ A : RepArr out.order Γ.1, E = ⟨Γ.1, A⟩ ∧
          ∀ g i j, ‖Γ.2 g i j - A g i j‖ ≤ atol + 1e-8) S out.irreps ∧
        (∀ Γ ∈ S, SpaceGroupLaw (fun q => dataset.rotations (out.mapping q)) (fun q => dataset.translations (out.mapping q))
          kc (fun q q' => out.spinorFactor (pos q) (pos q')) Γ.2 ∧ IsUnitaryRep Γ.2 ∧ Spec.IsIrreducible Γ.2) ∧
        S.Pairwise (fun Γ Γ' => ¬ AreEquivalent Γ.2 Γ'.2) ∧
        (∀ (e : ℕ) (E : RepArr out.order e), SpaceGroupLaw (fun q => dataset.rotations (out.mapping q))
            (fun q => dataset.translations (out.mapping q)) kc (fun q q' => out.spinorFactor (pos q) (pos q')) E →
          (∀ g, IsUnit (E g)) → Spec.IsIrreducible E → ∃ Γ ∈ S, AreEquivalent E Γ.2) ∧
        (S.map fun Γ => Γ.1 ^ 2).sum = out.primOrder := by
  have hd := getPrimitive_det hP
  obtain ⟨r', t', k', uR, uT, mapTo, p, htr, hu, hp, hpr, hsurj, hpi, hPr, hsg, hfix, hlit, hs, hlist, hone, -, hback⟩ :=
    conv_little_near_miss hd hconv horder hnm ha.le
  obtain ⟨irreps, z, U, hsmall, rfl⟩ := spacegroupSpinor_ok hP hkc htr hu hrun
  have hL' : (P.transpose * lattice).det ≠ 0 := by
    rw [Matrix.det_mul, Matrix.det_transpose]
    exact mul_ne_zero hd hL
  have hm' : ∀ l, PreservesMetric (P.transpose * lattice) (uR.get ((littleMapping uR.get k' atol).get l)) := by
    intro l
    obtain ⟨i, hi⟩ := hsurj ((littleMapping uR.get k' atol).get l)
    rw [← hi, hpr]
    exact preservesMetric_primitive (hPr i) (hm i)
  obtain ⟨hzU, S, hS1, hS2, hS3, hS4, hS5⟩ := c45_spinor_small_reps hsg hfix he hL' hm' (ho _ _ hlit) ha ha5 hsmall
  obtain ⟨z', U', hzU', hU, hz, hmul, hzc, hz1, -⟩ := c44_spinor_factor_system he hL' hsg.1 hm'
  obtain ⟨rfl, rfl⟩ := Prod.mk.inj (Except.ok.inj (hzU.symm.trans hzU'))
  have hnd := List.nodup_iff_injective_get.1 (littleMapping_nodup uR.get k' atol)
  clear hsmall hrun hzU hzU'
  generalize littleMapping uR.get k' atol = mapping at *
  have hget := keptOps_get (mapping := mapping) hp
  have hrot : ∀ q, uR.get (mapping.get ((keptOps mapTo mapping).get q).2) =
      r' ((keptOps mapTo mapping).get q).1 := fun q => by rw [hget, hpr]
  have hcancel : ∀ A B : M3, P * realMat A = P * realMat B → A = B := by
    intro A B hAB
    apply realMat_injective
    have h3 := congrArg (fun M => P⁻¹ * M) hAB
    rwa [← mul_assoc, ← mul_assoc, Matrix.nonsing_inv_mul _ (isUnit_iff_ne_zero.2 hd), one_mul, one_mul] at h3
  have hmulr : ∀ i j l, dataset.rotations i * dataset.rotations j = dataset.rotations l → r' i * r' j = r' l := by
    intro i j l h
    apply hcancel
    have hmm : ∀ A B : M3, realMat (A * B) = realMat A * realMat B := fun A B => by
      unfold realMat
      exact Matrix.map_mul (f := Int.castRingHom ℝ)
    rw [hmm, ← mul_assoc, hPr, mul_assoc, hPr, ← mul_assoc, ← hmm, h, hPr]
  refine ⟨keptOps_strictMono _ _, hlist, fun q => ((keptOps mapTo mapping).get q).2, hs, ?_, ?_, hz, ?_, ?_⟩
  · intro q q'
    change ((keptOps mapTo mapping).get q).2 = ((keptOps mapTo mapping).get q').2 ↔
      dataset.rotations ((keptOps mapTo mapping).get q).1 =
        dataset.rotations ((keptOps mapTo mapping).get q').1
    rw [← hpi, ← hget q, ← hget q']
    exact hnd.eq_iff.symm
  · intro (q : Fin (keptOps mapTo mapping).length)
    obtain ⟨h1, h2⟩ := hU ((keptOps mapTo mapping).get q).2
    refine ⟨h1, ?_⟩
    rw [hrot, spinorRotation_primitive o.eig hd hL (hPr _)] at h2
    obtain ⟨V, hV, -, hV3, -⟩ := c43_spinor_rotation_partial he hL
      (hm ((keptOps mapTo mapping).get q).1)
    obtain rfl := Except.ok.inj (h2.symm.trans hV)
    exact hV3
  · intro (q : Fin (keptOps mapTo mapping).length) (q' : Fin (keptOps mapTo mapping).length)
      (q'' : Fin (keptOps mapTo mapping).length) h
    refine hmul _ _ _ ((congrArg₂ (· * ·) (hrot q) (hrot q')).trans ((hmulr _ _ _ h).trans (hrot q'').symm))
  · obtain ⟨b1, b2, b3⟩ := hback z (fun l e he => ((hz1 e he).2 l).2) S ⟨hS2, hS3, hS4⟩
    refine ⟨_, ?_, b1, b2, b3, ?_⟩
    · exact adjustPhase_near hS1
    · exact (congrArg List.sum (List.map_map (l := S) (f := fun Γ : AnyRep mapping.length =>
        (⟨Γ.1, adjusted t' k' (fun i : Fin uR.length => uT.getD i 0) mapTo mapping Γ.2⟩ : AnyRep (keptOps mapTo mapping).length))
        (g := fun Γ : AnyRep (keptOps mapTo mapping).length => Γ.1 ^ 2))).trans hS5

/-- **C62**: if `get_spacegroup_spinor_irreps` (without magnetic moments) returns without warning for the operations of a
space group in a conventional cell, listed so that the first occurrences of all rotations precede repetitions, then the
listed operations are exactly those fixing the k-point; each of them has a row of the spinor factor system and of the SU(2)
matrices, shared exactly by operations with the same rotation; the SU(2) matrices turn spins as the conventional rotations
turn the Cartesian axes and multiply with the returned signs; and the returned arrays are, up to the purification
tolerances, a complete list of inequivalent unitary irreducible families obeying the multiplication law with these signs. -/
theorem c62_end_to_end {o : Oracles} (he : SymmEigContract o.eig) {hallType : ℤ → SpacegroupType} {lattice : R3}
    (hL : lattice.det ≠ 0) {dataset : Dataset n} (hm : ∀ i, PreservesMetric lattice (dataset.rotations i))
    {k kc : V3} {method : IrrepMethod} {reciprocal : Option R3} {rtol atol : ℝ} {maxGen : ℕ} {P : R3}
    (hP : getPrimitiveTransformationMatrix hallType dataset.hallNumber = .ok P)
    (hkc : kpointConv lattice reciprocal k = .ok kc)
    (hconv : IsConventionalGroup P dataset.rotations dataset.translations)
    (horder : ∀ i j, i ≤ j → FirstOcc dataset.rotations j → FirstOcc dataset.rotations i)
    {N : ℕ} (hN : 0 < N) (hk : ∀ a, ∃ c : ℤ, (N : ℝ) * ∑ b, P b a * kc b = c)
    (ha : 0 < atol) (ha5 : atol ≤ 1 / 5) (hat : atol < 1 / N)
    (ho : ∀ (u : ℕ) (R : Fin u → M3), IsLittleOf P dataset.rotations kc R → MethodContract o method rtol R)
    {out : SpinorOut n}
    (hrun : getSpacegroupSpinorIrreps o hallType lattice dataset k method reciprocal rtol atol maxGen = .ok (out, false)) :
    StrictMono out.mapping ∧
    (∀ i, (∃ q, out.mapping q = i) ↔ FixesKLattice P (dataset.rotations i) kc) ∧
    ∃ pos : Fin out.order → Fin out.primOrder, Function.Surjective pos ∧
      (∀ q q', pos q = pos q' ↔ dataset.rotations (out.mapping q) = dataset.rotations (out.mapping q')) ∧
      (∀ q, IsSU2 (out.unitary (pos q)) ∧ ∀ Q C, (Q = dataset.rotations (out.mapping q) ∨
        Q = -dataset.rotations (out.mapping q)) → Q.det = 1 → IsCartesianOf lattice Q C →
          InducesRotation (out.unitary (pos q)) C) ∧
      (∀ i j, out.spinorFactor i j = 1 ∨ out.spinorFactor i j = -1) ∧
      (∀ q q' q'', dataset.rotations (out.mapping q) * dataset.rotations (out.mapping q') =
          dataset.rotations (out.mapping q'') →
        out.unitary (pos q) * out.unitary (pos q') = out.spinorFactor (pos q) (pos q') • out.unitary (pos q'')) ∧
      ∃ S : List (AnyRep out.order),
        List.Forall₂ (fun Γ E => ∃ A : RepArr out.order Γ.1, E = ⟨Γ.1, A⟩ ∧
          ∀ g i j, ‖Γ.2 g i j - A g i j‖ ≤ atol + 1e-8) S out.irreps ∧
        (∀ Γ ∈ S, SpaceGroupLaw (fun q => dataset.rotations (out.mapping q)) (fun q => dataset.translations (out.mapping q))
          kc (fun q q' => out.spinorFactor (pos q) (pos q')) Γ.2 ∧ IsUnitaryRep Γ.2 ∧ Spec.IsIrreducible Γ.2) ∧
        S.Pairwise (fun Γ Γ' => ¬ AreEquivalent Γ.2 Γ'.2) ∧
        (∀ (e : ℕ) (E : RepArr out.order e), SpaceGroupLaw (fun q => dataset.rotations (out.mapping q))
            (fun q => dataset.translations (out.mapping q)) kc (fun q q' => out.spinorFactor (pos q) (pos q')) E →
          (∀ g, IsUnit (E g)) → Spec.IsIrreducible E → ∃ Γ ∈ S, AreEquivalent E Γ.2) ∧
        (S.map fun Γ => Γ.1 ^ 2).sum = out.primOrder :=
  c62_near_miss he hL hm hP hkc hconv horder (noNearMiss_of_rational hconv.2.1 hN hk ha.le hat) ha ha5 ho hrun

/-- Runs without warning exist for every k-point without near misses. -/
theorem c62_runs_near_miss {o : Oracles} (he : SymmEigContract o.eig) {hallType : ℤ → SpacegroupType} {lattice : R3}
    (hL : lattice.det ≠ 0) {dataset : Dataset n} (hm : ∀ i, PreservesMetric lattice (dataset.rotations i))
    {k kc : V3} {reciprocal : Option R3} {rtol atol : ℝ} {maxGen : ℕ} {P : R3}
    (hP : getPrimitiveTransformationMatrix hallType dataset.hallNumber = .ok P)
    (hkc : kpointConv lattice reciprocal k = .ok kc)
    (hconv : IsConventionalGroup P dataset.rotations dataset.translations)
    (hsym : ∀ i, dataset.translations i ∈ columnLattice P)
    (horder : ∀ i j, i ≤ j → FirstOcc dataset.rotations j → FirstOcc dataset.rotations i)
    (hnm : NoNearMiss P dataset.rotations kc atol)
    (ha : 0 < atol) (hna : n * atol ≤ 1 / 5) (hr : 0 ≤ rtol) (hr1 : atol + rtol < 1)
    (ho : ∀ (u : ℕ) (R : Fin u → M3), IsLittleOf P dataset.rotations kc R → PointgroupContract o.pointgroup R)
    (hrich : RichDraws n o.random atol maxGen) :
    ∃ out, getSpacegroupSpinorIrreps o hallType lattice dataset k .neto reciprocal rtol atol maxGen = .ok (out, false) := by
  have hd := getPrimitive_det hP
  obtain ⟨r', t', k', uR, uT, mapTo, p, htr, hu, hp, hpr, hsurj, hpi, hPr, hsg, hfix, hlit, hs, hlist, hone, hzero, -⟩ :=
    conv_little_near_miss hd hconv horder hnm ha.le
  have hzero := hzero hsym
  have hL' : (P.transpose * lattice).det ≠ 0 := by
    rw [Matrix.det_mul, Matrix.det_transpose]
    exact mul_ne_zero hd hL
  have hm' : ∀ l, PreservesMetric (P.transpose * lattice) (uR.get ((littleMapping uR.get k' atol).get l)) := by
    intro l
    obtain ⟨i, hi⟩ := hsurj ((littleMapping uR.get k' atol).get l)
    rw [← hi, hpr]
    exact preservesMetric_primitive (hPr i) (hm i)
  have hlen : (littleMapping uR.get k' atol).length ≤ n := by
    have h1 := Fintype.card_le_of_surjective p hsurj
    have h2 := Fintype.card_le_of_injective _
      (List.nodup_iff_injective_get.1 (littleMapping_nodup uR.get k' atol))
    simp only [Fintype.card_fin] at h1 h2
    exact h2.trans h1
  obtain ⟨irreps, z, U, hsmall⟩ := c45_runs (rtol := rtol) (maxGen := maxGen) hsg hfix (fun i j => .inl (by
    unfold getFactorSystem
    dsimp only
    rw [hzero]
    have : ∀ v : V3, dot3 v 0 = 0 := fun v => by unfold dot3; simp
    rw [this, expPhase_zero])) he hL' hm' (ho _ _ hlit) ha
    (le_trans (mul_le_mul_of_nonneg_right (by exact_mod_cast hlen) ha.le) hna) (fun d hdl => hrich d (hdl.trans hlen))
  have hcheck : primitiveCheck uR.get (fun i => uT.getD i 0) rtol atol = .ok () := by
    rw [primitiveCheck_eq ha.le hr hr1, if_neg]
    rintro ⟨i, -, a, h⟩
    rw [hzero] at h
    simp at h
    linarith
  have hprim : spinorIrrepsFromPrimitive o (P.transpose * lattice) uR.get (fun i => uT.getD i 0) k' .neto rtol atol maxGen =
      .ok ⟨littleMapping uR.get k' atol, (irreps, z, U), false⟩ := by
    unfold spinorIrrepsFromPrimitive
    rw [hcheck]
    simp only [bind, Except.bind, pure, Except.pure]
    rw [hsmall]
  have e1 : uR = (uniquePrimitiveSymmetry r' t').1 := by rw [hu]
  have e2 : uT = (uniquePrimitiveSymmetry r' t').2.1 := by rw [hu]
  subst e1 e2
  unfold getSpacegroupSpinorIrreps
  simp only [hkc, hP, htr, bind, Except.bind, pure, Except.pure]
  rw [hprim]
  exact ⟨_, rfl⟩

/-- Runs without warning exist: for operations without fractional translations (symmorphic groups) the Neto method
succeeds for every rational k-point if the draws determine the intertwiners. -/
theorem c62_runs {o : Oracles} (he : SymmEigContract o.eig) {hallType : ℤ → SpacegroupType} {lattice : R3}
    (hL : lattice.det ≠ 0) {dataset : Dataset n} (hm : ∀ i, PreservesMetric lattice (dataset.rotations i))
    {k kc : V3} {reciprocal : Option R3} {rtol atol : ℝ} {maxGen : ℕ} {P : R3}
    (hP : getPrimitiveTransformationMatrix hallType dataset.hallNumber = .ok P)
    (hkc : kpointConv lattice reciprocal k = .ok kc)
    (hconv : IsConventionalGroup P dataset.rotations dataset.translations)
    (hsym : ∀ i, dataset.translations i ∈ columnLattice P)
    (horder : ∀ i j, i ≤ j → FirstOcc dataset.rotations j → FirstOcc dataset.rotations i)
    {N : ℕ} (hN : 0 < N) (hk : ∀ a, ∃ c : ℤ, (N : ℝ) * ∑ b, P b a * kc b = c)
    (ha : 0 < atol) (hna : n * atol ≤ 1 / 5) (hat : atol < 1 / N) (hr : 0 ≤ rtol) (hr1 : atol + rtol < 1)
    (ho : ∀ (u : ℕ) (R : Fin u → M3), IsLittleOf P dataset.rotations kc R → PointgroupContract o.pointgroup R)
    (hrich : RichDraws n o.random atol maxGen) :
    ∃ out, getSpacegroupSpinorIrreps o hallType lattice dataset k .neto reciprocal rtol atol maxGen = .ok (out, false) :=
  c62_runs_near_miss he hL hm hP hkc hconv hsym horder (noNearMiss_of_rational hconv.2.1 hN hk ha.le hat) ha hna hr hr1 ho hrich

theorem metricC2 (i : Fin 4) : PreservesMetric 1 (rotsC2 i) := by
  have h : ∀ i, (rotsC2 i).transpose * ((1 : M3) * (1 : M3).transpose) * rotsC2 i = (1 : M3) * (1 : M3).transpose := by
    decide +kernel
  have := metric_of_int (h i)
  rwa [show ((1 : M3).map fun x : ℤ => (x : ℝ)) = 1 from Matrix.map_one _ Int.cast_zero Int.cast_one] at this

/-- Non-vacuity of C62: a run for C2 at `(0, 1/2, 1/2)` that returns without warning, with all hypotheses. -/
example : ∃ o : Oracles, ∃ out : SpinorOut 4, SymmEigContract o.eig ∧ (∀ i, PreservesMetric 1 (datasetC2.rotations i)) ∧
    getSpacegroupSpinorIrreps o (fun _ => ⟨[], ['C', ' ', '2', 'y']⟩) 1 datasetC2 kC2 = .ok (out, false) ∧
    IsConventionalGroup primC datasetC2.rotations datasetC2.translations ∧
    (∀ i j, i ≤ j → FirstOcc datasetC2.rotations j → FirstOcc datasetC2.rotations i) ∧
    (∀ a, ∃ c : ℤ, ((4 : ℕ) : ℝ) * ∑ b, primC b a * kC2 b = c) ∧
    ∀ (u : ℕ) (R : Fin u → M3), IsLittleOf primC datasetC2.rotations kC2 R → MethodContract o .neto 1e-5 R := by
  obtain ⟨random, hr⟩ := exists_richDraws 1e-8 4 4 fun d hd => hd
  obtain ⟨eig, he⟩ := symmEigContract_exists
  have hk : ∀ a, ∃ c : ℤ, ((4 : ℕ) : ℝ) * ∑ b, primC b a * kC2 b = c := by
    intro a
    fin_cases a
    · exact ⟨-1, by simp [primC, kC2, Fin.sum_univ_three]; norm_num⟩
    · exact ⟨1, by simp [primC, kC2, Fin.sum_univ_three]; norm_num⟩
    · exact ⟨2, by simp [primC, kC2, Fin.sum_univ_three]; norm_num⟩
  let o : Oracles := { random := random, eig := eig, eigh := fun d _ => (fun _ => 0, 0),
                       qr := fun _ _ _ => 0, pointgroup := (PgSymbol.pg_2, trafoC2.map fun x : ℤ => (x : ℝ)) }
  have h1 : (1 : R3).det ≠ 0 := by rw [Matrix.det_one]; exact one_ne_zero
  obtain ⟨out, hrun⟩ := c62_runs (o := o) he h1 (dataset := datasetC2) metricC2 (k := kC2) (kc := kC2)
    (reciprocal := none) (rtol := 1e-5) (atol := 1e-8) (maxGen := 4) primC2 (c52_kpoint_basis 1 h1 kC2).1
    convC2 transC2_mem orderC2 (N := 4) (by norm_num) hk (by norm_num) (by norm_num) (by norm_num) (by norm_num)
    (by norm_num) (fun u R h => contractC2 h) hr
  exact ⟨o, out, he, metricC2, hrun, convC2, orderC2, hk, fun u R h => contractC2 h⟩

/-! ### C63 -/

theorem factor_gamma (rots : Fin n → M3) (i j : Fin n) : getFactorSystem rots (fun _ _ => 0) 0 i j = 1 := by
  unfold getFactorSystem
  have : ∀ v : V3, dot3 v (fun _ => 0) = 0 := fun v => by unfold dot3; simp
  rw [this, expPhase_zero]

theorem phaseMul_gamma {d : ℕ} (D : RepArr n d) : phaseMul (fun _ _ => 0) 0 D = D := by
  unfold phaseMul
  funext i
  have : ∀ v : V3, dot3 v (fun _ => 0) = 0 := fun v => by unfold dot3; simp
  rw [this, expPhase_zero, one_smul]

/-- The point-group function agrees with the space-group function at the Γ point without translations. -/
theorem pointgroupSpinor_eq (o : Oracles) (L : R3) (rots : Fin n → M3) (method : IrrepMethod) (rtol atol : ℝ) (maxGen : ℕ) :
    pointgroupSpinorIrreps o L rots method rtol atol maxGen =
      enumerateSpinorSmallReps o L rots (fun _ _ => 0) 0 method rtol atol maxGen := by
  unfold pointgroupSpinorIrreps enumerateSpinorSmallReps
  simp only [factor_gamma, mul_one, phaseMul_gamma]
  rfl

theorem law_gamma {rots : Fin n → M3} {z : Fin n → Fin n → ℂ} {d : ℕ} {D : RepArr n d} :
    SpaceGroupLaw rots (fun _ _ => 0) 0 z D ↔ ∀ i j l, rots i * rots j = rots l → D i * D j = z i j • D l := by
  unfold SpaceGroupLaw
  simp

/-- **C63**: for every crystallographic point group acting by isometries of the lattice, if
`get_crystallographic_pointgroup_spinor_irreps_from_symmetry` (without time reversals) returns without warning, the returned
matrices are in SU(2), induce the rotations and multiply with the returned signs, and the returned arrays are, up to the
purification tolerance, a complete list of pairwise inequivalent unitary irreducible representations with these signs. -/
theorem c63_pointgroup_spinor {rots : Fin n → M3} (h : EnumeratesGroup rots) {o : Oracles} (he : SymmEigContract o.eig)
    {L : R3} (hL : L.det ≠ 0) (hm : ∀ i, PreservesMetric L (rots i)) {method : IrrepMethod} {rtol : ℝ}
    (ho : MethodContract o method rtol rots) {atol : ℝ} (ha : 0 < atol) (ha5 : atol ≤ 1 / 5) {maxGen : ℕ}
    {irreps : List (AnyRep n)} {z : Fin n → Fin n → ℂ} {U : Fin n → Matrix (Fin 2) (Fin 2) ℂ}
    (hrun : pointgroupSpinorIrreps o L rots method rtol atol maxGen = .ok ((irreps, z, U), false)) :
    (∀ i, IsSU2 (U i) ∧ ∀ Q C, (Q = rots i ∨ Q = -rots i) → Q.det = 1 → IsCartesianOf L Q C → InducesRotation (U i) C) ∧
    (∀ i j, z i j = 1 ∨ z i j = -1) ∧ (∀ i j l, rots i * rots j = rots l → U i * U j = z i j • U l) ∧
    ∃ S : List (AnyRep n),
      List.Forall₂ (fun Γ x => ∃ A : RepArr n Γ.1, x = ⟨Γ.1, A⟩ ∧ ∀ g i j, ‖Γ.2 g i j - A g i j‖ ≤ atol) S irreps ∧
      (∀ Γ ∈ S, (∀ i j l, rots i * rots j = rots l → Γ.2 i * Γ.2 j = z i j • Γ.2 l) ∧ IsUnitaryRep Γ.2 ∧
        Spec.IsIrreducible Γ.2) ∧
      S.Pairwise (fun Γ Γ' => ¬ AreEquivalent Γ.2 Γ'.2) ∧
      (∀ (e : ℕ) (E : RepArr n e), (∀ i j l, rots i * rots j = rots l → E i * E j = z i j • E l) → (∀ g, IsUnit (E g)) →
        Spec.IsIrreducible E → ∃ Γ ∈ S, AreEquivalent E Γ.2) ∧
      (S.map fun Γ => Γ.1 ^ 2).sum = n := by
  rw [pointgroupSpinor_eq] at hrun
  have hs : IsSpaceGroup rots (fun _ _ => 0) := ⟨h, fun _ _ _ _ _ => ⟨0, by simp⟩⟩
  obtain ⟨hzU, S, hS1, hS2, hS3, hS4, hS5⟩ := c45_spinor_small_reps hs (fun i a => ⟨0, by simp⟩) he hL hm ho ha ha5 hrun
  obtain ⟨z', U', hzU', hU, hz, hmul, -⟩ := c44_spinor_factor_system he hL h hm
  obtain ⟨rfl, rfl⟩ := Prod.mk.inj (Except.ok.inj (hzU.symm.trans hzU'))
  refine ⟨fun i => ⟨(hU i).1, ?_⟩, hz, hmul, S, hS1, fun Γ hΓ => ?_, hS3, fun e E hE => hS4 e E (law_gamma.2 hE), hS5⟩
  · obtain ⟨V, hV, -, hV3, -⟩ := c43_spinor_rotation_partial he hL (hm i)
    obtain rfl := Except.ok.inj ((hU i).2.symm.trans hV)
    exact hV3
  · obtain ⟨h1, h2, h3⟩ := hS2 Γ hΓ
    exact ⟨law_gamma.1 h1, h2, h3⟩

/-- C63, the Neto method returns without a warning for every point group and suitable draws. -/
theorem c63_runs {rots : Fin n → M3} (h : EnumeratesGroup rots) {o : Oracles} (he : SymmEigContract o.eig)
    {L : R3} (hL : L.det ≠ 0) (hm : ∀ i, PreservesMetric L (rots i)) {rtol : ℝ} (ho : PointgroupContract o.pointgroup rots)
    {atol : ℝ} (ha : 0 < atol) (hna : n * atol ≤ 1 / 5) {maxGen : ℕ} (hr : RichDraws n o.random atol maxGen) :
    ∃ irreps z U, pointgroupSpinorIrreps o L rots .neto rtol atol maxGen = .ok ((irreps, z, U), false) := by
  simp only [pointgroupSpinor_eq]
  exact c45_runs ⟨h, fun _ _ _ _ _ => ⟨0, by simp⟩⟩ (fun i a => ⟨0, by simp⟩) (fun i j => .inl (factor_gamma _ _ _)) he hL hm
    ho ha hna hr

/-- Non-vacuity of C63: the point group 222 in a body-centred primitive cell. -/
example : ∃ (o : Oracles) (irreps : List (AnyRep 4)) (z : Fin 4 → Fin 4 → ℂ) (U : Fin 4 → Matrix (Fin 2) (Fin 2) ℂ),
    SymmEigContract o.eig ∧ MethodContract o .neto 1e-5 rotsI24 ∧ EnumeratesGroup rotsI24 ∧
    (∀ i, PreservesMetric latticeBcc (rotsI24 i)) ∧
    pointgroupSpinorIrreps o latticeBcc rotsI24 .neto 1e-5 1e-8 4 = .ok ((irreps, z, U), false) := by
  obtain ⟨eig, he⟩ := symmEigContract_exists
  obtain ⟨random, hr⟩ := exists_richDraws 1e-8 4 4 fun d hd => hd
  let o : Oracles := { random := random, eig := eig, eigh := fun d _ => (fun _ => 0, 0), qr := fun _ _ _ => 0,
                       pointgroup := (PgSymbol.pg_222, trafoI24.map fun x : ℤ => (x : ℝ)) }
  obtain ⟨irreps, z, U, hrun⟩ := c63_runs (o := o) (rtol := 1e-5) (atol := 1e-8) (maxGen := 4) rotsI24_group he
    latticeBcc_det metric_I24 pointgroup_I24 (by norm_num) (by norm_num) hr
  exact ⟨o, irreps, z, U, he, pointgroup_I24, rotsI24_group, metric_I24, hrun⟩

end Spgrep
