/-
From the primitive little group to the operations of a conventional cell, with a spinor factor system.
-/
import Verif.Model.CoreSpinor
import Verif.Props.Conventional
import Verif.Props.Spinor

namespace Spgrep

open Spec Matrix

variable {n : ℕ}

/-- A complete list of inequivalent unitary irreducible families obeying the multiplication law with factors `z`. -/
def CompleteSmall (rots : Fin n → M3) (trans : Fin n → V3) (k : V3) (z : Fin n → Fin n → ℂ) (S : List (AnyRep n)) : Prop :=
  (∀ Γ ∈ S, SpaceGroupLaw rots trans k z Γ.2 ∧ IsUnitaryRep Γ.2 ∧ Spec.IsIrreducible Γ.2) ∧
  S.Pairwise (fun Γ Γ' => ¬ AreEquivalent Γ.2 Γ'.2) ∧
  ∀ (e : ℕ) (E : RepArr n e), SpaceGroupLaw rots trans k z E → (∀ g, IsUnit (E g)) →
    Spec.IsIrreducible E → ∃ Γ ∈ S, AreEquivalent E Γ.2

/-- Going from the primitive little group back to the operations of the conventional cell keeps completeness. -/
theorem adjusted_complete {u : ℕ} {rots r' : Fin n → M3} {trans t' : Fin n → V3} {kc k' : V3} {uRots : Fin u → M3}
    {uTrans : Fin u → V3} {mapTo : Fin n → ℤ} {mapping : List (Fin u)} {p : Fin n → Fin u}
    (hp : ∀ i, mapTo i = ((p i : ℕ) : ℤ)) (hpr : ∀ i, uRots (p i) = r' i)
    (hpt : ∀ i a, ∃ m : ℤ, t' i a - uTrans (p i) a = m)
    (hfixl : ∀ l, FixesK (uRots (mapping.get l)) k')
    (hs : ∀ l, ∃ q, ((keptOps mapTo mapping).get q).2 = l)
    (hmul : ∀ i j l, r' i * r' j = r' l ↔ rots i * rots j = rots l)
    (hexp : ∀ i j l, lawExp r' t' k' i j l = lawExp rots trans kc i j l)
    {e : Fin (keptOps mapTo mapping).length} (he : r' ((keptOps mapTo mapping).get e).1 = 1)
    (het : ∀ a, ∃ m : ℤ, t' ((keptOps mapTo mapping).get e).1 a = m)
    {z : Fin mapping.length → Fin mapping.length → ℂ} (hz : ∀ l, z l ((keptOps mapTo mapping).get e).2 = 1)
    {S : List (AnyRep mapping.length)}
    (hS : CompleteSmall (fun l => uRots (mapping.get l)) (fun l => uTrans (mapping.get l)) k' z S) :
    CompleteSmall (fun q => rots ((keptOps mapTo mapping).get q).1) (fun q => trans ((keptOps mapTo mapping).get q).1) kc
      (fun q q' => z ((keptOps mapTo mapping).get q).2 ((keptOps mapTo mapping).get q').2)
      (S.map fun Γ => ⟨Γ.1, adjusted t' k' uTrans mapTo mapping Γ.2⟩) := by
  have hlaw : ∀ (d : ℕ) (D : RepArr (keptOps mapTo mapping).length d),
      SpaceGroupLaw (fun q => r' ((keptOps mapTo mapping).get q).1) (fun q => t' ((keptOps mapTo mapping).get q).1) k'
        (fun q q' => z ((keptOps mapTo mapping).get q).2 ((keptOps mapTo mapping).get q').2) D ↔
      SpaceGroupLaw (fun q => rots ((keptOps mapTo mapping).get q).1)
        (fun q => trans ((keptOps mapTo mapping).get q).1) kc
        (fun q q' => z ((keptOps mapTo mapping).get q).2 ((keptOps mapTo mapping).get q').2) D := by
    intro d D
    rw [spaceGroupLaw_exp, spaceGroupLaw_exp]
    refine forall_congr' fun a => forall_congr' fun b => forall_congr' fun c => imp_congr (hmul _ _ _) ?_
    have := hexp ((keptOps mapTo mapping).get a).1 ((keptOps mapTo mapping).get b).1 ((keptOps mapTo mapping).get c).1
    unfold lawExp at this ⊢
    rw [this]
  obtain ⟨hS2, hS3, hS4⟩ := hS
  refine ⟨?_, ?_, ?_⟩
  · intro Γ' hΓ'
    obtain ⟨Γ, hΓ, rfl⟩ := List.mem_map.1 hΓ'
    obtain ⟨q1, q2, q3⟩ := hS2 Γ hΓ
    exact ⟨(hlaw _ _).1 (adjust_law hp hpr hpt hfixl q1), adjusted_unitary q2, (adjusted_irreducible hs).2 q3⟩
  · rw [List.pairwise_map]
    exact hS3.imp fun h h' => h ((adjusted_equivalent hs).1 h')
  · intro d E hE hEu hEi
    obtain ⟨E', rfl, hu', hl'⟩ := adjusted_surj (e := e) hp hpr hpt hfixl hs he het hz hEu ((hlaw _ _).2 hE)
    obtain ⟨Γ, hΓ, heq⟩ := hS4 d E' hl' hu' ((adjusted_irreducible hs).1 hEi)
    exact ⟨_, List.mem_map.2 ⟨Γ, hΓ, rfl⟩, (adjusted_equivalent hs).2 heq⟩

/-- The primitive little group behind a conventional list, and the way back, at a k-point without near misses. -/
theorem conv_little_near_miss {P : R3} (hd : P.det ≠ 0) {rots : Fin n → M3} {trans : Fin n → V3} {kc : V3}
    (hconv : IsConventionalGroup P rots trans) (horder : ∀ i j, i ≤ j → FirstOcc rots j → FirstOcc rots i)
    {atol : ℝ} (hnm : NoNearMiss P rots kc atol) (h0 : 0 ≤ atol) :
    ∃ (r' : Fin n → M3) (t' : Fin n → V3) (k' : V3) (uR : List M3) (uT : List V3) (mapTo : Fin n → ℤ)
      (p : Fin n → Fin uR.length),
      transformSymmetryAndKpoint P rots trans kc = .ok (r', t', k') ∧
      uniquePrimitiveSymmetry r' t' = (uR, uT, mapTo) ∧
      (∀ i, mapTo i = ((p i : ℕ) : ℤ)) ∧ (∀ i, uR.get (p i) = r' i) ∧ Function.Surjective p ∧
      (∀ i j, p i = p j ↔ rots i = rots j) ∧
      (∀ i, P * realMat (r' i) = realMat (rots i) * P) ∧
      IsSpaceGroup (fun l => uR.get ((littleMapping uR.get k' atol).get l))
        (fun l => uT.getD ((littleMapping uR.get k' atol).get l) 0) ∧
      (∀ l, FixesK (uR.get ((littleMapping uR.get k' atol).get l)) k') ∧
      IsLittleOf P rots kc (fun l => uR.get ((littleMapping uR.get k' atol).get l)) ∧
      (∀ l, ∃ q, ((keptOps mapTo (littleMapping uR.get k' atol)).get q).2 = l) ∧
      (∀ i, (∃ q, ((keptOps mapTo (littleMapping uR.get k' atol)).get q).1 = i) ↔ FixesKLattice P (rots i) kc) ∧
      (∀ i, rots i = 1 ↔ r' i = 1) ∧
      ((∀ i, trans i ∈ columnLattice P) → ∀ q : Fin uR.length, uT.getD q 0 = 0) ∧
      ∀ (z : Fin (littleMapping uR.get k' atol).length → Fin (littleMapping uR.get k' atol).length → ℂ),
        (∀ l e, uR.get ((littleMapping uR.get k' atol).get e) = 1 → z l e = 1) →
        ∀ S : List (AnyRep (littleMapping uR.get k' atol).length),
        CompleteSmall (fun l => uR.get ((littleMapping uR.get k' atol).get l))
          (fun l => uT.getD ((littleMapping uR.get k' atol).get l) 0) k' z S →
        CompleteSmall (fun q => rots ((keptOps mapTo (littleMapping uR.get k' atol)).get q).1)
          (fun q => trans ((keptOps mapTo (littleMapping uR.get k' atol)).get q).1) kc
          (fun q q' => z ((keptOps mapTo (littleMapping uR.get k' atol)).get q).2
            ((keptOps mapTo (littleMapping uR.get k' atol)).get q').2)
          (S.map fun Γ => ⟨Γ.1, adjusted t' k' (fun i : Fin uR.length => uT.getD i 0) mapTo (littleMapping uR.get k' atol) Γ.2⟩) := by
  obtain ⟨r', t', k', p, htr, hk', hp, hpr, hpt, hsurj, hpi, hmul, hone, hfix, hdot, hexp, hPr, hPt⟩ :=
    conv_setup hd kc (conventional_of_group hd hconv) horder
  obtain ⟨hsg, hint1, ⟨e1, he1⟩, hid⟩ := conv_spacegroup hd hconv hpr hpt hsurj hmul hone hPr hPt
  have hzero : (∀ i, trans i ∈ columnLattice P) → ∀ q : Fin (uniquePrimitiveSymmetry r' t').1.length,
      (uniquePrimitiveSymmetry r' t').2.1.getD q 0 = 0 := by
    intro hsym q
    obtain ⟨-, -, hlen, hv, -⟩ := c38_unique_partial r' t'
    have hq' : (q : ℕ) < (uniquePrimitiveSymmetry r' t').2.1.length := by rw [hlen]; exact q.2
    have hget : (uniquePrimitiveSymmetry r' t').2.1[(q : ℕ)]? =
        some ((uniquePrimitiveSymmetry r' t').2.1.getD q 0) := by
      rw [List.getD_eq_getElem?_getD, List.getElem?_eq_getElem hq']
      rfl
    obtain ⟨j, -, -, hjv⟩ := hv q _ _ (List.getElem?_eq_getElem q.2) hget
    funext a
    obtain ⟨h0, h1, m, hm⟩ := hjv a
    obtain ⟨m', hm'⟩ := (columnLattice_iff hd).1 (hsym j) a
    rw [hPt] at hm
    have h3 : (uniquePrimitiveSymmetry r' t').2.1.getD q 0 a = ((m' - m : ℤ) : ℝ) := by
      push_cast
      linarith
    rw [h3] at h0 h1 ⊢
    have h4 : (0 : ℤ) ≤ m' - m := by exact_mod_cast h0
    have h5 : m' - m < 1 := by exact_mod_cast h1
    have : m' - m = 0 := by omega
    rw [this]
    simp
  have hU : uniquePrimitiveSymmetry r' t' =
    ((uniquePrimitiveSymmetry r' t').1, (uniquePrimitiveSymmetry r' t').2.1, (uniquePrimitiveSymmetry r' t').2.2) := rfl
  refine ⟨r', t', k', _, _, _, p, htr, hU, hp, hpr, hsurj, hpi, hPr, ?_⟩
  clear hU
  generalize (uniquePrimitiveSymmetry r' t').2.2 = mapTo at *
  generalize (uniquePrimitiveSymmetry r' t').2.1 = uT at *
  generalize (uniquePrimitiveSymmetry r' t').1 = uR at *
  have hlitI : ∀ i, InLittle (uR.get i) k' atol ↔ FixesK (uR.get i) k' := by
    intro i
    obtain ⟨j, rfl⟩ := hsurj i
    rw [hpr]
    exact inLittle_of_noNearMiss h0 hnm (hPr j) hk' (hfix j)
  have hlit : ∀ i, i ∈ littleMapping uR.get k' atol ↔ FixesK (uR.get i) k' := fun i => by rw [mem_littleMapping, hlitI]
  have hEnum := little_enumerates hsg.1 hlitI
  have hfixl : ∀ l, FixesK (uR.get ((littleMapping uR.get k' atol).get l)) k' := fun l => (hlit _).1 (List.get_mem _ l)
  have hlsg : IsSpaceGroup (fun l => uR.get ((littleMapping uR.get k' atol).get l))
      (fun l => uT.getD ((littleMapping uR.get k' atol).get l) 0) := ⟨hEnum, fun i j l h => hsg.2 _ _ _ h⟩
  have hs : ∀ l, ∃ q, ((keptOps mapTo (littleMapping uR.get k' atol)).get q).2 = l := by
    intro l
    obtain ⟨i, hi⟩ := hsurj ((littleMapping uR.get k' atol).get l)
    obtain ⟨q, hq⟩ := (keptOps_exists hp i).2 (by rw [hi]; exact List.get_mem _ _)
    refine ⟨q, ?_⟩
    have h2 := keptOps_get hp q
    rw [hq, hi] at h2
    exact List.nodup_iff_injective_get.1 (littleMapping_nodup uR.get k' atol) h2
  refine ⟨hlsg, hfixl, little_isLittleOf hd hpr hsurj hsg.1.1 hlit hfix hPr, hs, fun i => ?_, fun i => (hone i).symm, hzero,
    fun z hz S hS => ?_⟩
  · rw [keptOps_exists hp, hlit, hpr, hfix]
  obtain ⟨e, he⟩ := (keptOps_exists (mapping := littleMapping uR.get k' atol) hp e1).2 (by
    rw [hlit, hpr, (hone e1).2 he1]
    exact FixesK.one k')
  exact adjusted_complete (uRots := uR.get) (uTrans := fun i : Fin uR.length => uT.getD i 0) hp hpr hpt hfixl hs hmul hexp
    (e := e) (by rw [he]; exact (hone e1).2 he1) (by rw [he]; exact hint1 e1 he1) (fun l => hz l _ (by
      rw [keptOps_get hp, hpr, he]
      exact (hone e1).2 he1)) hS

/-- The primitive little group behind a conventional list, and the way back. -/
theorem conv_little {P : R3} (hd : P.det ≠ 0) {rots : Fin n → M3} {trans : Fin n → V3} {kc : V3}
    (hconv : IsConventionalGroup P rots trans) (horder : ∀ i j, i ≤ j → FirstOcc rots j → FirstOcc rots i)
    {N : ℕ} (hN : 0 < N) (hk : ∀ a, ∃ c : ℤ, (N : ℝ) * ∑ b, P b a * kc b = c) {atol : ℝ} (h0 : 0 ≤ atol)
    (hat : atol < 1 / N) :
    ∃ (r' : Fin n → M3) (t' : Fin n → V3) (k' : V3) (uR : List M3) (uT : List V3) (mapTo : Fin n → ℤ)
      (p : Fin n → Fin uR.length),
      transformSymmetryAndKpoint P rots trans kc = .ok (r', t', k') ∧
      uniquePrimitiveSymmetry r' t' = (uR, uT, mapTo) ∧
      (∀ i, mapTo i = ((p i : ℕ) : ℤ)) ∧ (∀ i, uR.get (p i) = r' i) ∧ Function.Surjective p ∧
      (∀ i j, p i = p j ↔ rots i = rots j) ∧
      (∀ i, P * realMat (r' i) = realMat (rots i) * P) ∧
      IsSpaceGroup (fun l => uR.get ((littleMapping uR.get k' atol).get l))
        (fun l => uT.getD ((littleMapping uR.get k' atol).get l) 0) ∧
      (∀ l, FixesK (uR.get ((littleMapping uR.get k' atol).get l)) k') ∧
      IsLittleOf P rots kc (fun l => uR.get ((littleMapping uR.get k' atol).get l)) ∧
      (∀ l, ∃ q, ((keptOps mapTo (littleMapping uR.get k' atol)).get q).2 = l) ∧
      (∀ i, (∃ q, ((keptOps mapTo (littleMapping uR.get k' atol)).get q).1 = i) ↔ FixesKLattice P (rots i) kc) ∧
      (∀ i, rots i = 1 ↔ r' i = 1) ∧
      ((∀ i, trans i ∈ columnLattice P) → ∀ q : Fin uR.length, uT.getD q 0 = 0) ∧
      ∀ (z : Fin (littleMapping uR.get k' atol).length → Fin (littleMapping uR.get k' atol).length → ℂ),
        (∀ l e, uR.get ((littleMapping uR.get k' atol).get e) = 1 → z l e = 1) →
        ∀ S : List (AnyRep (littleMapping uR.get k' atol).length),
        CompleteSmall (fun l => uR.get ((littleMapping uR.get k' atol).get l))
          (fun l => uT.getD ((littleMapping uR.get k' atol).get l) 0) k' z S →
        CompleteSmall (fun q => rots ((keptOps mapTo (littleMapping uR.get k' atol)).get q).1)
          (fun q => trans ((keptOps mapTo (littleMapping uR.get k' atol)).get q).1) kc
          (fun q q' => z ((keptOps mapTo (littleMapping uR.get k' atol)).get q).2
            ((keptOps mapTo (littleMapping uR.get k' atol)).get q').2)
          (S.map fun Γ => ⟨Γ.1, adjusted t' k' (fun i : Fin uR.length => uT.getD i 0) mapTo (littleMapping uR.get k' atol) Γ.2⟩) :=
  conv_little_near_miss hd hconv horder (noNearMiss_of_rational hconv.2.1 hN hk h0 hat) h0

/-- Rotations in the primitive basis preserve the metric of the primitive lattice. -/
theorem preservesMetric_primitive {P L : R3} {R R' : M3} (h : P * realMat R' = realMat R * P) (hm : PreservesMetric L R) :
    PreservesMetric (P.transpose * L) R' := by
  unfold PreservesMetric at hm ⊢
  change (realMat R).transpose * (L * L.transpose) * realMat R = L * L.transpose at hm
  change (realMat R').transpose * (P.transpose * L * (P.transpose * L).transpose) * realMat R' = _
  have h1 : (realMat R').transpose * P.transpose = P.transpose * (realMat R).transpose := by
    rw [← Matrix.transpose_mul, h, Matrix.transpose_mul]
  rw [Matrix.transpose_mul, Matrix.transpose_transpose]
  calc _ = (realMat R').transpose * P.transpose * (L * L.transpose) * (P * realMat R') := by
        simp only [Matrix.mul_assoc]
    _ = P.transpose * ((realMat R).transpose * (L * L.transpose) * realMat R) * P := by
        rw [h1, h]
        simp only [Matrix.mul_assoc]
    _ = _ := by rw [hm]; simp only [Matrix.mul_assoc]

/-- The SU(2) matrix does not depend on the basis. -/
theorem spinorRotation_primitive (eig : EigOracle) {P L : R3} (hd : P.det ≠ 0) (hL : L.det ≠ 0) {R R' : M3}
    (h : P * realMat R' = realMat R * P) :
    getSpinorUnitaryRotation eig (P.transpose * L) R' = getSpinorUnitaryRotation eig L R := by
  have hdet : R'.det = R.det := by
    have h1 := congrArg Matrix.det h
    rw [Matrix.det_mul, Matrix.det_mul, mul_comm] at h1
    have h2 := mul_right_cancel₀ hd h1
    have h3 : ∀ M : M3, (realMat M).det = ((M.det : ℤ) : ℝ) := fun M => by
      unfold realMat
      exact (RingHom.map_det (Int.castRingHom ℝ) M).symm
    rw [h3, h3] at h2
    exact_mod_cast h2
  have hP : IsUnit P.det := hd.isUnit
  have hLt : L.transpose.det ≠ 0 := by rw [Matrix.det_transpose]; exact hL
  have hPL : (P.transpose * L).transpose.det ≠ 0 := by
    rw [Matrix.transpose_mul, Matrix.transpose_transpose, Matrix.det_mul]
    exact mul_ne_zero hLt hd
  have hsc : ∀ (s : ℤ) (M : M3), realMat (s • M) = (s : ℝ) • realMat M := by
    intro s M
    ext a b
    simp only [realMat, Matrix.map_apply, Matrix.smul_apply, smul_eq_mul]
    push_cast
    rfl
  unfold getSpinorUnitaryRotation
  rw [linInv_ok hPL, linInv_ok hLt, hdet]
  simp only [bind, Except.bind, hsc, Matrix.mul_smul, Matrix.smul_mul]
  have key : (P.transpose * L).transpose * realMat R' * ((P.transpose * L).transpose)⁻¹ =
      L.transpose * realMat R * (L.transpose)⁻¹ := by
    rw [Matrix.transpose_mul, Matrix.transpose_transpose, Matrix.mul_inv_rev]
    calc _ = L.transpose * (P * realMat R') * P⁻¹ * (L.transpose)⁻¹ := by simp only [Matrix.mul_assoc]
      _ = L.transpose * realMat R * (P * P⁻¹) * (L.transpose)⁻¹ := by rw [h]; simp only [Matrix.mul_assoc]
      _ = _ := by rw [Matrix.mul_nonsing_inv _ hP, Matrix.mul_one]
  rw [key]

end Spgrep
