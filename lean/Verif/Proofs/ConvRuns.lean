/-
The primitive little group behind a conventional list does not depend on the tolerance; the phases in it.
-/
import Verif.Spec.ConvPhases
import Verif.Proofs.CoreSpinor
import Verif.Props.CoreSpinor
import Verif.Props.AlmostSure
import Mathlib.Data.Set.Finite.List

namespace Spgrep

open Spec Matrix

variable {n : ℕ}

theorem SignPhases.residuals {P : R3} {rots : Fin n → M3} {trans : Fin n → V3} {kc : V3} (h : SignPhases P rots trans kc) :
    SignResiduals P rots trans kc := by
  rcases h with h | h
  · intro i j hi _
    obtain ⟨m, hm⟩ := hi _ (h j)
    exact ⟨2 * m, by rw [hm]; push_cast; ring⟩
  · exact h.2

/-- Products of reciprocal lattice vectors `kR - k` with translations do not depend on the basis. -/
theorem residual_primitive {P : R3} (hd : P.det ≠ 0) {R R' : M3} {kc k' w : V3} (h : P * realMat R' = realMat R * P)
    (hk' : ∀ a, k' a = ∑ b, P b a * kc b) : dot3 (residual R' k') (P⁻¹ *ᵥ w) = dot3 (residual R kc) w := by
  have hu : IsUnit P.det := isUnit_iff_ne_zero.2 hd
  have hk : k' = kc ᵥ* P := by
    funext a
    rw [hk']
    simp only [Matrix.vecMul, dotProduct, mul_comm]
  rw [dot3_eq, dot3_eq, residual_eq, residual_eq, hk, Matrix.vecMul_vecMul, h, ← Matrix.vecMul_vecMul, ← Matrix.sub_vecMul,
    ← Matrix.dotProduct_mulVec, Matrix.mulVec_mulVec, Matrix.mul_nonsing_inv _ hu, Matrix.one_mulVec]

/-- The primitive little group behind a conventional list, with everything that does not depend on the tolerance. -/
theorem conv_runs_setup {P : R3} (hd : P.det ≠ 0) {rots : Fin n → M3} {trans : Fin n → V3} {kc : V3}
    (hconv : IsConventionalGroup P rots trans) (horder : ∀ i j, i ≤ j → FirstOcc rots j → FirstOcc rots i) :
    ∃ (r' : Fin n → M3) (t' : Fin n → V3) (k' : V3) (uR : List M3) (uT : List V3) (mapTo : Fin n → ℤ)
      (m : List (Fin uR.length)),
      transformSymmetryAndKpoint P rots trans kc = .ok (r', t', k') ∧
      uniquePrimitiveSymmetry r' t' = (uR, uT, mapTo) ∧
      (∀ atol : ℝ, 0 ≤ atol → NoNearMiss P rots kc atol → littleMapping uR.get k' atol = m) ∧
      IsSpaceGroup (fun l => uR.get (m.get l)) (fun l => uT.getD (m.get l) 0) ∧
      (∀ l, FixesK (uR.get (m.get l)) k') ∧
      IsLittleOf P rots kc (fun l => uR.get (m.get l)) ∧
      (∀ L : R3, (∀ i, PreservesMetric L (rots i)) → ∀ l, PreservesMetric (P.transpose * L) (uR.get (m.get l))) ∧
      (∀ q : Fin uR.length, uR.get q = 1 → uT.getD q 0 = 0) ∧
      (SignResiduals P rots trans kc → ∀ i j : Fin m.length, ∃ c : ℤ,
        2 * dot3 (residual (uR.get (m.get i)) k') (uT.getD (m.get j) 0) = c) ∧
      (SignPhases P rots trans kc → SafeCase (fun l => uR.get (m.get l)) (fun l => uT.getD (m.get l) 0) k') := by
  obtain ⟨r', t', k', p, htr, hk', hp, hpr, hpt, hsurj, hpi, hmul, hone, hfix, hdot, hexp, hPr, hPt⟩ :=
    conv_setup hd kc (conventional_of_group hd hconv) horder
  obtain ⟨hsg, hint1, ⟨e1, he1⟩, hid⟩ := conv_spacegroup hd hconv hpr hpt hsurj hmul hone hPr hPt
  obtain ⟨r2, t2, k2, uR2, uT2, mapTo2, p2, htr2, hu2, -, -, -, -, -, -, -, -, -, -, -, hzero, -⟩ :=
    conv_little_near_miss hd hconv horder (noNearMiss_zero P rots kc) le_rfl
  rw [htr] at htr2
  obtain ⟨rfl, h3⟩ := Prod.mk.inj (Except.ok.inj htr2)
  obtain ⟨rfl, rfl⟩ := Prod.mk.inj h3
  have hU : uniquePrimitiveSymmetry r' t' =
    ((uniquePrimitiveSymmetry r' t').1, (uniquePrimitiveSymmetry r' t').2.1, (uniquePrimitiveSymmetry r' t').2.2) := rfl
  rw [hU] at hu2
  obtain ⟨rfl, h4⟩ := Prod.mk.inj hu2
  obtain ⟨rfl, rfl⟩ := Prod.mk.inj h4
  refine ⟨r', t', k', _, _, _, littleMapping (uniquePrimitiveSymmetry r' t').1.get k' 0, htr, hU, ?_⟩
  clear hU hu2 h3 h4
  generalize (uniquePrimitiveSymmetry r' t').2.2 = mapTo at *
  generalize (uniquePrimitiveSymmetry r' t').2.1 = uT at *
  generalize (uniquePrimitiveSymmetry r' t').1 = uR at *
  have hlitA : ∀ atol : ℝ, 0 ≤ atol → NoNearMiss P rots kc atol → ∀ i, InLittle (uR.get i) k' atol ↔ FixesK (uR.get i) k' := by
    intro atol h0 hnm i
    obtain ⟨j, rfl⟩ := hsurj i
    rw [hpr]
    exact inLittle_of_noNearMiss h0 hnm (hPr j) hk' (hfix j)
  have hlitI := hlitA 0 le_rfl (noNearMiss_zero P rots kc)
  have hlit : ∀ i, i ∈ littleMapping uR.get k' 0 ↔ FixesK (uR.get i) k' := fun i => by rw [mem_littleMapping, hlitI]
  have hEnum := little_enumerates hsg.1 hlitI
  have hfixl : ∀ l, FixesK (uR.get ((littleMapping uR.get k' 0).get l)) k' := fun l => (hlit _).1 (List.get_mem _ l)
  have hlsg : IsSpaceGroup (fun l => uR.get ((littleMapping uR.get k' 0).get l))
      (fun l => uT.getD ((littleMapping uR.get k' 0).get l) 0) := ⟨hEnum, fun i j l h => hsg.2 _ _ _ h⟩
  have hres : SignResiduals P rots trans kc → ∀ i j : Fin (littleMapping uR.get k' 0).length, ∃ c : ℤ,
        2 * dot3 (residual (uR.get ((littleMapping uR.get k' 0).get i)) k') (uT.getD ((littleMapping uR.get k' 0).get j) 0) =
          c := by
    intro hs i j
    obtain ⟨a, ha⟩ := hsurj ((littleMapping uR.get k' 0).get i)
    obtain ⟨b, hb⟩ := hsurj ((littleMapping uR.get k' 0).get j)
    have hfa : FixesK (r' a) k' := by rw [← hpr, ha]; exact hfixl i
    have hfb : FixesK (r' b) k' := by rw [← hpr, hb]; exact hfixl j
    obtain ⟨c, hc⟩ := hs a b ((hfix a).2 hfa) ((hfix b).2 hfb)
    obtain ⟨c', hc'⟩ := dot3_int (x := residual (r' a) k') (y := fun x => t' b x - uT.getD (p b) 0 x) hfa (hpt b)
    have h1 : dot3 (residual (r' a) k') (t' b) = dot3 (residual (rots a) kc) (trans b) := by
      rw [hPt]
      exact residual_primitive hd (hPr a) hk'
    have h2 : dot3 (residual (r' a) k') (uT.getD (p b) 0) = dot3 (residual (r' a) k') (t' b) - c' := by
      rw [← hc']
      unfold dot3
      simp only [Fin.sum_univ_three]
      ring
    have hc2 : 2 * dot3 (residual (rots a) kc) (trans b) = c := hc
    refine ⟨c - 2 * c', ?_⟩
    rw [← ha, ← hb, hpr, h2, h1]
    push_cast
    linarith
  refine ⟨fun atol h0 hat => ?_, hlsg, hfixl, little_isLittleOf hd hpr hsurj hsg.1.1 hlit hfix hPr, fun L hL l => ?_, hid, hres,
    fun hs => ?_⟩
  · unfold littleMapping
    refine List.filter_congr fun i _ => ?_
    rw [decide_eq_decide]
    exact (hlitA atol h0 hat i).trans (hlitI i).symm
  · obtain ⟨i, hi⟩ := hsurj ((littleMapping uR.get k' 0).get l)
    rw [← hi, hpr]
    exact preservesMetric_primitive (hPr i) (hL i)
  · rcases hs with h0 | ⟨h2k, hr⟩
    · exact .of_symmorphic fun i a => by rw [hzero h0]; rfl
    · refine .of_half hlsg (fun a => ?_) (hres hr)
      obtain ⟨m, hm⟩ := h2k (fun b => P b a) ⟨Pi.single a 1, fun b => by simp [Pi.single_apply]⟩
      exact ⟨m, by rw [← hm, hk']; simp only [mul_comm]⟩

/-- The forms for the irreps of the unitary part, for all factor systems of signs at once. -/
theorem unitaryPart_forms {rots : Fin n → M3} {trs : Fin n → ℤ} (h : EnumeratesMagneticGroup rots trs)
    {pg : PgSymbol × Matrix (Fin 3) (Fin 3) ℝ}
    (ho : ∀ xsg : List (Fin n), xsg.Nodup → (∀ i, i ∈ xsg ↔ trs i = 0) →
      PointgroupContract pg fun u => rots (xsg.get u)) :
    ∃ V : Set (Σ d, Matrix (Fin d) (Fin d) ℂ), V.Finite ∧ (∀ v ∈ V, v.2 ≠ 0) ∧
      ∀ (o : Oracles) (rtol atol : ℝ) (maxGen : ℕ), o.pointgroup = pg → 0 ≤ atol → DrawsAvoid V o.random atol maxGen →
        UnitaryPartRuns o rots trs rtol atol maxGen := by
  classical
  let X : Set (List (Fin n)) := {xsg | xsg.Nodup ∧ ∀ i, i ∈ xsg ↔ trs i = 0}
  have hX : X.Finite := by
    refine (List.finite_length_le (Fin n) n).subset fun xsg hx => ?_
    have := List.Nodup.length_le_card hx.1
    rwa [Fintype.card_fin] at this
  have key : ∀ xsg ∈ X, ∃ V : Set (Σ d, Matrix (Fin d) (Fin d) ℂ), V.Finite ∧ (∀ v ∈ V, v.2 ≠ 0) ∧
      ∀ z : Fin xsg.length → Fin xsg.length → ℂ, (∀ i j, z i j = 1 ∨ z i j = -1) →
        (∀ T, getCayleyTable (fun u => rots (xsg.get u)) = .ok T → IsCocycle T z) →
        (∀ e, rots (xsg.get e) = 1 → z e e = 1) →
        ∀ (o : Oracles) (rtol atol : ℝ) (maxGen : ℕ), o.pointgroup = pg → 0 ≤ atol → DrawsAvoid V o.random atol maxGen →
          ∃ L, rawIrreps o (fun u => rots (xsg.get u)) z .neto rtol atol maxGen = .ok (L, false) := by
    intro xsg hx
    obtain ⟨V, h1, h2, h3⟩ := spinor_forms (trans := fun _ _ => 0) (k := 0)
      ⟨enumerates_linear h hx.1 hx.2, fun _ _ _ _ _ => ⟨0, by simp⟩⟩ (fun i a => ⟨0, by simp⟩) (ho xsg hx.1 hx.2)
    refine ⟨V, h1, h2, fun z hz hzc hz1 o rtol atol maxGen hpg h0 hD => ?_⟩
    have := h3 z hz hzc hz1 o rtol atol maxGen hpg h0 hD
    simpa only [factor_gamma, mul_one] using this
  choose! V hVf hV0 hV using key
  refine ⟨⋃ x ∈ X, V x, hX.biUnion hVf, fun v hv => ?_, fun o rtol atol maxGen hpg h0 hD xsg hn hmem z hz hzc hz1 => ?_⟩
  · obtain ⟨x, hx, hv⟩ := Set.mem_iUnion₂.1 hv
    exact hV0 x hx v hv
  · exact hV xsg ⟨hn, hmem⟩ z hz hzc hz1 o rtol atol maxGen hpg h0 fun v hv =>
      hD v (Set.mem_biUnion (show xsg ∈ X from ⟨hn, hmem⟩) hv)

end Spgrep
