/-
C61: get_spacegroup_irreps from end to end.
-/
import Verif.Props.Core
import Verif.Props.SmallReps
import Verif.Props.Random

namespace Spgrep

open Spec Matrix

variable {n : ℕ}

theorem columnLattice_iff {P : R3} (hd : P.det ≠ 0) {x : V3} :
    x ∈ columnLattice P ↔ ∀ a, ∃ m : ℤ, (P⁻¹ *ᵥ x) a = m := by
  have hu : IsUnit P.det := isUnit_iff_ne_zero.2 hd
  have hx : ∀ m : V3, (∀ a, x a = ∑ b, P a b * m b) ↔ P⁻¹ *ᵥ x = m := by
    intro m
    constructor
    · intro h
      have : x = P *ᵥ m := funext h
      rw [this, Matrix.mulVec_mulVec, Matrix.nonsing_inv_mul P hu, Matrix.one_mulVec]
    · intro h a
      have : P *ᵥ (P⁻¹ *ᵥ x) = x := by rw [Matrix.mulVec_mulVec, Matrix.mul_nonsing_inv P hu, Matrix.one_mulVec]
      rw [h] at this
      exact (congrFun this a).symm
  constructor
  · rintro ⟨m, hm⟩ a
    exact ⟨m a, congrFun ((hx _).1 hm) a⟩
  · intro h
    choose m hm using h
    exact ⟨m, (hx fun a => (m a : ℝ)).2 (funext hm)⟩

theorem intVec_mulVec (S : M3) {v : V3} (hv : ∀ a, ∃ m : ℤ, v a = m) (a : Fin 3) :
    ∃ m : ℤ, (realMat S *ᵥ v) a = m := by
  choose m hm using hv
  refine ⟨∑ b, S a b * m b, ?_⟩
  change ∑ b, (S a b : ℝ) * v b = _
  push_cast
  simp only [hm]

theorem conventional_of_group {P : R3} (hd : P.det ≠ 0) {rots : Fin n → M3} {trans : Fin n → V3}
    (h : IsConventionalGroup P rots trans) : IsConventional P rots trans := by
  obtain ⟨⟨H, hH⟩, hint, hmul⟩ := h
  have hu : IsUnit P.det := isUnit_iff_ne_zero.2 hd
  refine ⟨hint, fun i j hij => ?_⟩
  obtain ⟨e, he⟩ : ∃ e, rots e = 1 := by
    have : (1 : M3) ∈ Set.range rots := by
      rw [hH]
      exact ⟨1, H.one_mem, by simp⟩
    exact this
  have h1 := (columnLattice_iff hd).1 (hmul e e e (by rw [he, one_mul]))
  have h2 := (columnLattice_iff hd).1 (hmul i e j (by rw [he, mul_one, hij]))
  have he' : (fun a => (∑ b, (rots e a b : ℝ) * trans e b) + trans e a - trans e a) = trans e := by
    funext a
    rw [he]
    simp [Matrix.one_apply]
  rw [he'] at h1
  obtain ⟨S, hS⟩ := hint i
  have hS' : P⁻¹ * realMat (rots i) = realMat S * P⁻¹ := by
    have h3 : realMat (rots i) * P = P * realMat S := hS
    calc P⁻¹ * realMat (rots i) = P⁻¹ * (realMat (rots i) * P) * P⁻¹ := by
          rw [mul_assoc, mul_assoc, Matrix.mul_nonsing_inv P hu, mul_one]
      _ = _ := by rw [h3, ← mul_assoc, Matrix.nonsing_inv_mul P hu, one_mul]
  rw [columnLattice_iff hd]
  intro a
  have hsplit : (fun a => (∑ b, (rots i a b : ℝ) * trans e b) + trans i a - trans j a) =
      realMat (rots i) *ᵥ trans e + (trans i - trans j) := by
    funext a
    change _ = (∑ b, (rots i a b : ℝ) * trans e b) + (trans i a - trans j a)
    ring
  rw [hsplit] at h2
  obtain ⟨m2, hm2⟩ := h2 a
  rw [Matrix.mulVec_add, Matrix.mulVec_mulVec, hS', ← Matrix.mulVec_mulVec, Pi.add_apply] at hm2
  obtain ⟨m1, hm1⟩ := intVec_mulVec S h1 a
  refine ⟨m2 - m1, ?_⟩
  push_cast
  rw [← hm2, ← hm1]
  ring

/-- The unique primitive operations behind a conventional list form a space group in a primitive basis. -/
theorem conv_spacegroup {P : R3} (hd : P.det ≠ 0) {rots r' : Fin n → M3} {trans t' : Fin n → V3}
    (h : IsConventionalGroup P rots trans) {p : Fin n → Fin (uniquePrimitiveSymmetry r' t').1.length}
    (hpr : ∀ i, (uniquePrimitiveSymmetry r' t').1.get (p i) = r' i)
    (hpt : ∀ i a, ∃ m : ℤ, t' i a - (uniquePrimitiveSymmetry r' t').2.1.getD (p i) 0 a = m)
    (hsurj : Function.Surjective p)
    (hmul : ∀ i j l, r' i * r' j = r' l ↔ rots i * rots j = rots l)
    (hone : ∀ i, r' i = 1 ↔ rots i = 1)
    (hPr : ∀ i, P * realMat (r' i) = realMat (rots i) * P) (hPt : ∀ i, t' i = P⁻¹ *ᵥ trans i) :
    IsSpaceGroup (uniquePrimitiveSymmetry r' t').1.get
      (fun i => (uniquePrimitiveSymmetry r' t').2.1.getD i 0) ∧
    (∀ i, rots i = 1 → ∀ a, ∃ m : ℤ, t' i a = m) ∧
    (∃ i, rots i = 1) ∧
    ∀ q, (uniquePrimitiveSymmetry r' t').1.get q = 1 → (uniquePrimitiveSymmetry r' t').2.1.getD q 0 = 0 := by
  obtain ⟨⟨H, hH⟩, hint, hlat⟩ := h
  have hu : IsUnit P.det := isUnit_iff_ne_zero.2 hd
  obtain ⟨hnodup, -, hlen, hv, -⟩ := c38_unique_partial r' t'
  have hmem : ∀ M : M3, (∃ i, rots i = M) ↔ ∃ g ∈ H, ((g : GL (Fin 3) ℤ) : M3) = M := by
    intro M
    have : M ∈ Set.range rots ↔ M ∈ (fun g : GL (Fin 3) ℤ => (g : M3)) '' H := by rw [hH]
    simpa using this
  obtain ⟨e, he⟩ := (hmem 1).2 ⟨1, H.one_mem, by simp⟩
  have hinv : ∀ i, ∃ j, rots i * rots j = 1 := by
    intro i
    obtain ⟨g, hg, hgi⟩ := (hmem (rots i)).1 ⟨i, rfl⟩
    obtain ⟨j, hj⟩ := (hmem ((g⁻¹ : GL (Fin 3) ℤ) : M3)).2 ⟨g⁻¹, H.inv_mem hg, rfl⟩
    exact ⟨j, by rw [hj, ← hgi, ← Units.val_mul, mul_inv_cancel, Units.val_one]⟩
  have hprod : ∀ i j, ∃ l, rots i * rots j = rots l := by
    intro i j
    obtain ⟨g, hg, hgi⟩ := (hmem (rots i)).1 ⟨i, rfl⟩
    obtain ⟨g', hg', hgj⟩ := (hmem (rots j)).1 ⟨j, rfl⟩
    obtain ⟨l, hl⟩ := (hmem ((g * g' : GL (Fin 3) ℤ) : M3)).2 ⟨g * g', H.mul_mem hg hg', rfl⟩
    exact ⟨l, by rw [hl, ← hgi, ← hgj, Units.val_mul]⟩
  have hr1 : r' e = 1 := (hone e).2 he
  have hrinv : ∀ i, ∃ j, r' i * r' j = 1 := by
    intro i
    obtain ⟨j, hj⟩ := hinv i
    exact ⟨j, by rw [← hr1, hmul, hj, he]⟩
  -- the primitive translation of a product
  have hexp : ∀ i j l, rots i * rots j = rots l → ∀ a, ∃ m : ℤ,
      (realMat (r' i) *ᵥ t' j) a + t' i a - t' l a = m := by
    intro i j l hl a
    have h1 := (columnLattice_iff hd).1 (hlat i j l hl) a
    have hsplit : (fun a => (∑ b, (rots i a b : ℝ) * trans j b) + trans i a - trans l a) =
        realMat (rots i) *ᵥ trans j + trans i - trans l := rfl
    have hPi : P⁻¹ * realMat (rots i) = realMat (r' i) * P⁻¹ := by
      calc P⁻¹ * realMat (rots i) = P⁻¹ * (realMat (rots i) * P) * P⁻¹ := by
            rw [mul_assoc, mul_assoc, Matrix.mul_nonsing_inv P hu, mul_one]
        _ = _ := by rw [← hPr, ← mul_assoc, Matrix.nonsing_inv_mul P hu, one_mul]
    rw [hsplit, Matrix.mulVec_sub, Matrix.mulVec_add, Matrix.mulVec_mulVec, hPi, ← Matrix.mulVec_mulVec, ← hPt, ← hPt,
      ← hPt] at h1
    exact h1
  have hint1 : ∀ i, rots i = 1 → ∀ a, ∃ m : ℤ, t' i a = m := by
    intro i hi a
    obtain ⟨m, hm⟩ := hexp i i i (by rw [hi, one_mul]) a
    refine ⟨m, ?_⟩
    rw [← hm, (hone i).2 hi, realMat_one, Matrix.one_mulVec]
    ring
  refine ⟨⟨⟨List.nodup_iff_injective_get.1 hnodup, ⟨⟨⟨{g | ∃ i, r' i = (g : M3)}, ?_⟩, ?_⟩, ?_⟩, ?_⟩, ?_⟩, hint1,
    ⟨e, he⟩, ?_⟩
  · rintro g g' ⟨i, hi⟩ ⟨j, hj⟩
    obtain ⟨l, hl⟩ := hprod i j
    exact ⟨l, by rw [← (hmul i j l).2 hl, hi, hj, Units.val_mul]⟩
  · exact ⟨e, by rw [hr1, Units.val_one]⟩
  · rintro g ⟨i, hi⟩
    obtain ⟨j, hj⟩ := hrinv i
    refine ⟨j, ?_⟩
    rw [hi] at hj
    calc r' j = ((g⁻¹ : GL (Fin 3) ℤ) : M3) * ((g : M3) * r' j) := by
          rw [← mul_assoc, ← Units.val_mul, inv_mul_cancel, Units.val_one, one_mul]
      _ = _ := by rw [hj, mul_one]
  · ext M
    constructor
    · rintro ⟨q, rfl⟩
      obtain ⟨i, rfl⟩ := hsurj q
      obtain ⟨j, hj⟩ := hrinv i
      refine ⟨Units.mkOfMulEqOne _ _ hj, ⟨i, rfl⟩, ?_⟩
      rw [hpr]
      rfl
    · rintro ⟨g, ⟨i, hi⟩, rfl⟩
      exact ⟨p i, (hpr i).trans hi⟩
  · intro q1 q2 q3 hq a
    obtain ⟨i, rfl⟩ := hsurj q1
    obtain ⟨j, rfl⟩ := hsurj q2
    obtain ⟨l, rfl⟩ := hsurj q3
    rw [hpr, hpr, hpr, hmul] at hq
    obtain ⟨m, hm⟩ := hexp i j l hq a
    obtain ⟨m1, hm1⟩ := intVec_mulVec (r' i) (hpt j) a
    obtain ⟨m2, hm2⟩ := hpt i a
    obtain ⟨m3, hm3⟩ := hpt l a
    refine ⟨m - m1 - m2 + m3, ?_⟩
    push_cast
    rw [← hm, ← hm1, ← hm2, ← hm3, hpr]
    change (∑ b, (r' i a b : ℝ) * (uniquePrimitiveSymmetry r' t').2.1.getD (p j) 0 b) + _ - _ =
      (∑ b, (r' i a b : ℝ) * t' j b) + t' i a - t' l a -
        (∑ b, (r' i a b : ℝ) * (t' j b - (uniquePrimitiveSymmetry r' t').2.1.getD (p j) 0 b)) - _ + _
    simp only [mul_sub, Finset.sum_sub_distrib]
    ring
  · intro q hq
    obtain ⟨i, hi⟩ := hsurj q
    have hq' : (q : ℕ) < (uniquePrimitiveSymmetry r' t').2.1.length := by rw [hlen]; exact q.2
    have hget : (uniquePrimitiveSymmetry r' t').2.1[(q : ℕ)]? =
        some ((uniquePrimitiveSymmetry r' t').2.1.getD q 0) := by
      rw [List.getD_eq_getElem?_getD, List.getElem?_eq_getElem hq']
      rfl
    obtain ⟨j, -, hj, hjv⟩ := hv q _ _ (List.getElem?_eq_getElem q.2) hget
    funext a
    obtain ⟨h0, h1, m, hm⟩ := hjv a
    have hj1 : r' j = 1 := hj.trans hq
    obtain ⟨m', hm'⟩ := hint1 j ((hone j).1 hj1) a
    have h3 : (uniquePrimitiveSymmetry r' t').2.1.getD q 0 a = ((m' - m : ℤ) : ℝ) := by
      push_cast
      linarith
    rw [h3] at h0 h1 ⊢
    have h4 : (0 : ℤ) ≤ m' - m := by exact_mod_cast h0
    have h5 : m' - m < 1 := by exact_mod_cast h1
    have : m' - m = 0 := by omega
    rw [this]
    simp

/-- `R` lists, without repetition, the rotations that fix `k`, written in the primitive basis `P`. -/
def IsLittleOf {u : ℕ} (P : R3) (rots : Fin n → M3) (kc : V3) (R : Fin u → M3) : Prop :=
  Function.Injective R ∧ ∀ S : M3, (∃ j, R j = S) ↔ ∃ i, FixesKLattice P (rots i) kc ∧
    (rots i).map (fun x => (x : ℝ)) * P = P * S.map (fun x => (x : ℝ))

theorem little_isLittleOf {P : R3} (hd : P.det ≠ 0) {u : ℕ} {rots r' : Fin n → M3} {uR : Fin u → M3} {kc k' : V3}
    {atol : ℝ} {p : Fin n → Fin u} (hpr : ∀ i, uR (p i) = r' i) (hsurj : Function.Surjective p)
    (hinj : Function.Injective uR) (hlit : ∀ i, i ∈ littleMapping uR k' atol ↔ FixesK (uR i) k')
    (hfix : ∀ i, FixesKLattice P (rots i) kc ↔ FixesK (r' i) k')
    (hPr : ∀ i, P * realMat (r' i) = realMat (rots i) * P) :
    IsLittleOf P rots kc fun i => uR ((littleMapping uR k' atol).get i) := by
  refine ⟨fun a b hab => List.nodup_iff_injective_get.1 (littleMapping_nodup uR k' atol) (hinj hab), fun S => ?_⟩
  constructor
  · rintro ⟨j, rfl⟩
    obtain ⟨i, hi⟩ := hsurj ((littleMapping uR k' atol).get j)
    refine ⟨i, ?_, ?_⟩
    · rw [hfix, ← hpr, hi]
      exact (hlit _).1 (List.get_mem _ j)
    · dsimp only
      rw [← hi, hpr]
      exact (hPr i).symm
  · rintro ⟨i, hi, hS⟩
    have hri : r' i = S := by
      apply realMat_injective
      have h2 : P * realMat (r' i) = P * realMat S := (hPr i).trans hS
      have h3 := congrArg (fun M => P⁻¹ * M) h2
      simpa only [← mul_assoc, Matrix.nonsing_inv_mul P (isUnit_iff_ne_zero.2 hd), one_mul] using h3
    rw [hfix, ← hpr] at hi
    obtain ⟨j, hj⟩ := List.get_of_mem ((hlit _).2 hi)
    exact ⟨j, by dsimp only; rw [hj, hpr, hri]⟩

/-- What is assumed about the outside routines used by the two methods, for the rotations `R`. -/
def MethodContract {u : ℕ} (o : Oracles) (method : IrrepMethod) (rtol : ℝ) (R : Fin u → M3) : Prop :=
  match method with
  | .neto => PointgroupContract o.pointgroup R
  | .random => EigenContract o.eigh o.qr ∧ 0 ≤ rtol ∧ rtol ≤ 1 / 2
  | .other => True

/-- C56 and C60 in one statement. -/
theorem small_reps_complete {rots : Fin n → M3} {trans : Fin n → V3} {k : V3} (h : IsSpaceGroup rots trans)
    (hk : ∀ i, FixesK (rots i) k) (o : Oracles) {method : IrrepMethod} {rtol : ℝ}
    (ho : MethodContract o method rtol rots) {atol : ℝ}
    (ha : 0 < atol) (ha5 : atol ≤ 1 / 5) (maxGen : ℕ) {out : IrrepsOut n}
    (hrun : enumerateSmallReps o rots trans k false method rtol atol maxGen = .ok (out, false)) :
    ∃ (l : List (AnyRep n × ℤ)) (S : List (AnyRep n)), out = .complex l ∧
      List.Forall₂ (fun Γ x => ∃ A : RepArr n Γ.1, x.1 = ⟨Γ.1, A⟩ ∧ ∀ g i j, ‖Γ.2 g i j - A g i j‖ ≤ atol) S l ∧
      (∀ Γ ∈ S, SpaceGroupLaw rots trans k (fun _ _ => 1) Γ.2 ∧ IsUnitaryRep Γ.2 ∧ Spec.IsIrreducible Γ.2) ∧
      S.Pairwise (fun Γ Γ' => ¬ AreEquivalent Γ.2 Γ'.2) ∧
      (∀ (e : ℕ) (E : RepArr n e), SpaceGroupLaw rots trans k (fun _ _ => 1) E → (∀ g, IsUnit (E g)) →
        Spec.IsIrreducible E → ∃ Γ ∈ S, AreEquivalent E Γ.2) ∧
      (S.map fun Γ => Γ.1 ^ 2).sum = n := by
  cases method with
  | neto => exact c56_small_reps_complete h hk o ho rtol ha ha5 maxGen hrun
  | random => exact c60_small_reps_random h hk o ho.1 ho.2.1 ho.2.2 ha ha5 maxGen hrun
  | other => cases hrun

/-- C61 for every k-point without near misses. -/
theorem c61_near_miss {o : Oracles} {hallType : ℤ → SpacegroupType} {lattice : R3} {dataset : Dataset n}
    {k kc : V3} {method : IrrepMethod} {reciprocal : Option R3} {rtol atol : ℝ} {maxGen : ℕ} {P : R3}
    (hP : getPrimitiveTransformationMatrix hallType dataset.hallNumber = .ok P)
    (hkc : kpointConv lattice reciprocal k = .ok kc)
    (hconv : IsConventionalGroup P dataset.rotations dataset.translations)
    (horder : ∀ i j, i ≤ j → FirstOcc dataset.rotations j → FirstOcc dataset.rotations i)
    (hnm : NoNearMiss P dataset.rotations kc atol)
    (ha : 0 < atol) (ha5 : atol ≤ 1 / 5)
    (ho : ∀ (u : ℕ) (R : Fin u → M3), IsLittleOf P dataset.rotations kc R → MethodContract o method rtol R)
    {m : ℕ} {mapping : Fin m → Fin n} {irreps : List (AnyRep m)}
    (hrun : getSpacegroupIrreps o hallType lattice dataset k method reciprocal rtol atol maxGen =
      .ok (⟨m, mapping, irreps⟩, false)) :
    ∃ S : List (AnyRep m),
      List.Forall₂ (fun Γ E => ∃ A : RepArr m Γ.1, E = ⟨Γ.1, A⟩ ∧
        ∀ g i j, ‖Γ.2 g i j - A g i j‖ ≤ atol + 1e-8) S irreps ∧
      (∀ Γ ∈ S, SpaceGroupLaw (fun q => dataset.rotations (mapping q)) (fun q => dataset.translations (mapping q)) kc
        (fun _ _ => 1) Γ.2 ∧ IsUnitaryRep Γ.2 ∧ Spec.IsIrreducible Γ.2) ∧
      S.Pairwise (fun Γ Γ' => ¬ AreEquivalent Γ.2 Γ'.2) ∧
      (∀ (e : ℕ) (E : RepArr m e), SpaceGroupLaw (fun q => dataset.rotations (mapping q))
          (fun q => dataset.translations (mapping q)) kc (fun _ _ => 1) E → (∀ g, IsUnit (E g)) →
        Spec.IsIrreducible E → ∃ Γ ∈ S, AreEquivalent E Γ.2) ∧
      (S.map fun Γ => Γ.1 ^ 2).sum = (Finset.univ.image fun q => dataset.rotations (mapping q)).card := by
  have hd := getPrimitive_det hP
  obtain ⟨r', t', k', p, htr, hk', hp, hpr, hpt, hsurj, hpi, hmul, hone, hfix, hdot, hexp, hPr, hPt⟩ :=
    conv_setup hd kc (conventional_of_group hd hconv) horder
  obtain ⟨l, hprim, hsmall, hout⟩ := spacegroupIrreps_ok hP hkc htr hrun
  obtain ⟨hsg, hint1, ⟨e1, he1⟩, -⟩ := conv_spacegroup hd hconv hpr hpt hsurj hmul hone hPr hPt
  generalize hU : (uniquePrimitiveSymmetry r' t').1.get = uR at *
  generalize hV : (fun i : Fin (uniquePrimitiveSymmetry r' t').1.length =>
    (uniquePrimitiveSymmetry r' t').2.1.getD i 0) = uT at *
  have hpt : ∀ i a, ∃ m : ℤ, t' i a - uT (p i) a = m := by rw [← hV]; exact hpt
  have hV' : ∀ i : Fin (uniquePrimitiveSymmetry r' t').1.length, (uniquePrimitiveSymmetry r' t').2.1.getD i 0 = uT i :=
    fun i => by rw [← hV]
  simp only [hV'] at hsmall
  generalize (uniquePrimitiveSymmetry r' t').2.2 = mapTo at *
  have hlitI : ∀ i, InLittle (uR i) k' atol ↔ FixesK (uR i) k' := by
    intro i
    obtain ⟨j, rfl⟩ := hsurj i
    rw [hpr]
    exact inLittle_of_noNearMiss ha.le hnm (hPr j) hk' (hfix j)
  have hlit : ∀ i, i ∈ littleMapping uR k' atol ↔ FixesK (uR i) k' := fun i => by rw [mem_littleMapping, hlitI]
  have hEnum := little_enumerates hsg.1 hlitI
  have hfixl : ∀ l, FixesK (uR ((littleMapping uR k' atol).get l)) k' := fun l => (hlit _).1 (List.get_mem _ l)
  have hlsg : IsSpaceGroup (fun i => uR ((littleMapping uR k' atol).get i))
      (fun i => uT ((littleMapping uR k' atol).get i)) := ⟨hEnum, fun i j l h => hsg.2 _ _ _ h⟩
  have hcontract : MethodContract o method rtol fun i => uR ((littleMapping uR k' atol).get i) := 
    ho _ _ (little_isLittleOf hd hpr hsurj hsg.1.1 hlit hfix hPr)
  obtain ⟨l', S, hl, hS1, hS2, hS3, hS4, hS5⟩ := small_reps_complete hlsg hfixl o hcontract ha ha5 maxGen hsmall
  obtain rfl : l = l' := IrrepsOut.complex.inj hl
  have hs : ∀ l, ∃ q, ((keptOps mapTo (littleMapping uR k' atol)).get q).2 = l := by
    intro l
    obtain ⟨i, hi⟩ := hsurj ((littleMapping uR k' atol).get l)
    obtain ⟨q, hq⟩ := (keptOps_exists hp i).2 (by rw [hi]; exact List.get_mem _ _)
    refine ⟨q, ?_⟩
    have h2 := keptOps_get hp q
    rw [hq, hi] at h2
    exact List.nodup_iff_injective_get.1 (littleMapping_nodup uR k' atol) h2
  obtain ⟨e, he⟩ := (keptOps_exists (mapping := littleMapping uR k' atol) hp e1).2 (by
    rw [hlit, hpr, (hone e1).2 he1]
    exact FixesK.one k')
  unfold adjustPhase at hout
  obtain ⟨rfl, h2⟩ := Sigma.mk.inj_iff.1 hout
  obtain ⟨rfl, rfl⟩ := Prod.mk.inj (eq_of_heq h2)
  have hlaw : ∀ (d : ℕ) (D : RepArr (keptOps mapTo (littleMapping uR k' atol)).length d),
      SpaceGroupLaw (fun q => r' ((keptOps mapTo (littleMapping uR k' atol)).get q).1)
        (fun q => t' ((keptOps mapTo (littleMapping uR k' atol)).get q).1) k' (fun _ _ => 1) D ↔
      SpaceGroupLaw (fun q => dataset.rotations ((keptOps mapTo (littleMapping uR k' atol)).get q).1)
        (fun q => dataset.translations ((keptOps mapTo (littleMapping uR k' atol)).get q).1) kc (fun _ _ => 1) D := by
    intro d D
    rw [spaceGroupLaw_exp, spaceGroupLaw_exp]
    refine forall_congr' fun a => forall_congr' fun b => forall_congr' fun c => imp_congr (hmul _ _ _) ?_
    have := hexp ((keptOps mapTo (littleMapping uR k' atol)).get a).1
      ((keptOps mapTo (littleMapping uR k' atol)).get b).1 ((keptOps mapTo (littleMapping uR k' atol)).get c).1
    unfold lawExp at this ⊢
    rw [this]
  refine ⟨S.map fun Γ => ⟨Γ.1, adjusted t' k' uT mapTo (littleMapping uR k' atol) Γ.2⟩, ?_, ?_, ?_, ?_, ?_⟩
  · rw [List.forall₂_map_left_iff, List.forall₂_map_right_iff, List.forall₂_map_right_iff]
    refine hS1.imp fun Γ x => ?_
    rintro ⟨A, hA, hnear⟩
    refine ⟨purifyIrrepValue (adjusted t' k' uT mapTo (littleMapping uR k' atol) A) 1e-8, ?_, adjusted_near hnear⟩
    rw [hA]
    rfl
  · intro Γ' hΓ'
    obtain ⟨Γ, hΓ, rfl⟩ := List.mem_map.1 hΓ'
    obtain ⟨q1, q2, q3⟩ := hS2 Γ hΓ
    exact ⟨(hlaw _ _).1 (adjust_law hp hpr hpt hfixl q1), adjusted_unitary q2, (adjusted_irreducible hs).2 q3⟩
  · rw [List.pairwise_map]
    exact hS3.imp fun h h' => h ((adjusted_equivalent hs).1 h')
  · intro d E hE hEu hEi
    obtain ⟨E', rfl, hu', hl'⟩ := adjusted_surj (e := e) (z := fun _ _ => 1) hp hpr hpt hfixl hs (by rw [he]; exact (hone e1).2 he1)
      (by rw [he]; exact hint1 e1 he1) (fun _ => rfl) hEu ((hlaw _ _).2 hE)
    obtain ⟨Γ, hΓ, heq⟩ := hS4 d E' hl' hu' ((adjusted_irreducible hs).1 hEi)
    exact ⟨_, List.mem_map.2 ⟨Γ, hΓ, rfl⟩, (adjusted_equivalent hs).2 heq⟩
  · rw [List.map_map]
    refine Eq.trans hS5 ?_
    choose sec hsec using hs
    have hker : ∀ q q', dataset.rotations ((keptOps mapTo (littleMapping uR k' atol)).get q).1 =
        dataset.rotations ((keptOps mapTo (littleMapping uR k' atol)).get q').1 ↔
        ((keptOps mapTo (littleMapping uR k' atol)).get q).2 = ((keptOps mapTo (littleMapping uR k' atol)).get q').2 := by
      intro q q'
      rw [← hpi, ← keptOps_get hp q, ← keptOps_get hp q']
      exact (List.nodup_iff_injective_get.1 (littleMapping_nodup uR k' atol)).eq_iff
    have himg : (Finset.univ.image fun q => dataset.rotations ((keptOps mapTo (littleMapping uR k' atol)).get q).1) =
        Finset.univ.image fun l => dataset.rotations ((keptOps mapTo (littleMapping uR k' atol)).get (sec l)).1 := by
      ext M
      simp only [Finset.mem_image, Finset.mem_univ, true_and]
      constructor
      · rintro ⟨q, rfl⟩
        exact ⟨((keptOps mapTo (littleMapping uR k' atol)).get q).2, (hker _ _).2 (hsec _)⟩
      · rintro ⟨l, rfl⟩
        exact ⟨_, rfl⟩
    rw [himg, Finset.card_image_of_injective, Finset.card_univ, Fintype.card_fin]
    intro a b hab
    have := (hker _ _).1 hab
    rwa [hsec, hsec] at this

/-- C61: if `get_spacegroup_irreps` returns without warning for the operations of a space group in a conventional
cell (first occurrences of rotations before repetitions), the returned arrays are, within `atol + 1e-8`, a complete
list of pairwise inequivalent unitary irreducible families obeying the multiplication law of the listed operations at
the user's k-point, and the squared dimensions sum to the number of distinct rotations in the little group. -/
theorem c61_end_to_end {o : Oracles} {hallType : ℤ → SpacegroupType} {lattice : R3} {dataset : Dataset n}
    {k kc : V3} {method : IrrepMethod} {reciprocal : Option R3} {rtol atol : ℝ} {maxGen : ℕ} {P : R3}
    (hP : getPrimitiveTransformationMatrix hallType dataset.hallNumber = .ok P)
    (hkc : kpointConv lattice reciprocal k = .ok kc)
    (hconv : IsConventionalGroup P dataset.rotations dataset.translations)
    (horder : ∀ i j, i ≤ j → FirstOcc dataset.rotations j → FirstOcc dataset.rotations i)
    {N : ℕ} (hN : 0 < N) (hk : ∀ a, ∃ c : ℤ, (N : ℝ) * ∑ b, P b a * kc b = c)
    (ha : 0 < atol) (ha5 : atol ≤ 1 / 5) (hat : atol < 1 / N)
    (ho : ∀ (u : ℕ) (R : Fin u → M3), IsLittleOf P dataset.rotations kc R → MethodContract o method rtol R)
    {m : ℕ} {mapping : Fin m → Fin n} {irreps : List (AnyRep m)}
    (hrun : getSpacegroupIrreps o hallType lattice dataset k method reciprocal rtol atol maxGen =
      .ok (⟨m, mapping, irreps⟩, false)) :
    ∃ S : List (AnyRep m),
      List.Forall₂ (fun Γ E => ∃ A : RepArr m Γ.1, E = ⟨Γ.1, A⟩ ∧
        ∀ g i j, ‖Γ.2 g i j - A g i j‖ ≤ atol + 1e-8) S irreps ∧
      (∀ Γ ∈ S, SpaceGroupLaw (fun q => dataset.rotations (mapping q)) (fun q => dataset.translations (mapping q)) kc
        (fun _ _ => 1) Γ.2 ∧ IsUnitaryRep Γ.2 ∧ Spec.IsIrreducible Γ.2) ∧
      S.Pairwise (fun Γ Γ' => ¬ AreEquivalent Γ.2 Γ'.2) ∧
      (∀ (e : ℕ) (E : RepArr m e), SpaceGroupLaw (fun q => dataset.rotations (mapping q))
          (fun q => dataset.translations (mapping q)) kc (fun _ _ => 1) E → (∀ g, IsUnit (E g)) →
        Spec.IsIrreducible E → ∃ Γ ∈ S, AreEquivalent E Γ.2) ∧
      (S.map fun Γ => Γ.1 ^ 2).sum = (Finset.univ.image fun q => dataset.rotations (mapping q)).card :=
  c61_near_miss hP hkc hconv horder (noNearMiss_of_rational hconv.2.1 hN hk ha.le hat) ha ha5 ho hrun

/-- Runs without warning exist for every k-point without near misses. -/
theorem c61_runs_near_miss {o : Oracles} {hallType : ℤ → SpacegroupType} {lattice : R3} {dataset : Dataset n}
    {k kc : V3} {reciprocal : Option R3} {rtol atol : ℝ} {maxGen : ℕ} {P : R3}
    (hP : getPrimitiveTransformationMatrix hallType dataset.hallNumber = .ok P)
    (hkc : kpointConv lattice reciprocal k = .ok kc)
    (hconv : IsConventionalGroup P dataset.rotations dataset.translations)
    (hsym : ∀ i, dataset.translations i ∈ columnLattice P)
    (horder : ∀ i j, i ≤ j → FirstOcc dataset.rotations j → FirstOcc dataset.rotations i)
    (hnm : NoNearMiss P dataset.rotations kc atol)
    (ha : 0 < atol) (hna : n * atol ≤ 1 / 5) (hr : 0 ≤ rtol) (hr1 : atol + rtol < 1)
    (ho : ∀ (u : ℕ) (R : Fin u → M3), IsLittleOf P dataset.rotations kc R → PointgroupContract o.pointgroup R)
    (hrich : RichDraws n o.random atol maxGen) :
    ∃ m mapping irreps, getSpacegroupIrreps o hallType lattice dataset k .neto reciprocal rtol atol maxGen =
      .ok (⟨m, mapping, irreps⟩, false) := by
  have hd := getPrimitive_det hP
  obtain ⟨r', t', k', p, htr, hk', hp, hpr, hpt, hsurj, hpi, hmul, hone, hfix, hdot, hexp, hPr, hPt⟩ :=
    conv_setup hd kc (conventional_of_group hd hconv) horder
  obtain ⟨hsg, -, -, hid⟩ := conv_spacegroup hd hconv hpr hpt hsurj hmul hone hPr hPt
  have hzero : ∀ q : Fin (uniquePrimitiveSymmetry r' t').1.length,
      (uniquePrimitiveSymmetry r' t').2.1.getD q 0 = 0 := by
    intro q
    obtain ⟨-, -, hlen, hv, -⟩ := c38_unique_partial r' t'
    have hq' : (q : ℕ) < (uniquePrimitiveSymmetry r' t').2.1.length := by rw [hlen]; exact q.2
    have hget : (uniquePrimitiveSymmetry r' t').2.1[(q : ℕ)]? =
        some ((uniquePrimitiveSymmetry r' t').2.1.getD q 0) := by
      rw [List.getD_eq_getElem?_getD, List.getElem?_eq_getElem hq']
      rfl
    obtain ⟨j, -, -, hjv⟩ := hv q _ _ (List.getElem?_eq_getElem q.2) hget
    funext a
    obtain ⟨h0, h1, m, hm⟩ := hjv a
    obtain ⟨m', hm'⟩ := (columnLattice_iff hd).1 (hsym j) a
    rw [hPt] at hm
    have h3 : (uniquePrimitiveSymmetry r' t').2.1.getD q 0 a = ((m' - m : ℤ) : ℝ) := by
      push_cast
      linarith
    rw [h3] at h0 h1 ⊢
    have h4 : (0 : ℤ) ≤ m' - m := by exact_mod_cast h0
    have h5 : m' - m < 1 := by exact_mod_cast h1
    have : m' - m = 0 := by omega
    rw [this]
    simp
  have hlitI : ∀ i, InLittle ((uniquePrimitiveSymmetry r' t').1.get i) k' atol ↔
      FixesK ((uniquePrimitiveSymmetry r' t').1.get i) k' := by
    intro i
    obtain ⟨j, rfl⟩ := hsurj i
    rw [hpr]
    exact inLittle_of_noNearMiss ha.le hnm (hPr j) hk' (hfix j)
  have hlit : ∀ i, i ∈ littleMapping (uniquePrimitiveSymmetry r' t').1.get k' atol ↔
      FixesK ((uniquePrimitiveSymmetry r' t').1.get i) k' := fun i => by rw [mem_littleMapping, hlitI]
  have hlen : (littleMapping (uniquePrimitiveSymmetry r' t').1.get k' atol).length ≤ n := by
    have h1 := Fintype.card_le_of_surjective p hsurj
    have h2 := Fintype.card_le_of_injective _
      (List.nodup_iff_injective_get.1 (littleMapping_nodup (uniquePrimitiveSymmetry r' t').1.get k' atol))
    simp only [Fintype.card_fin] at h1 h2
    exact h2.trans h1
  obtain ⟨L, w, -, hw, hrw⟩ := c18_small_reps_partial
    (rots := fun i => (uniquePrimitiveSymmetry r' t').1.get
      ((littleMapping (uniquePrimitiveSymmetry r' t').1.get k' atol).get i))
    (trans := fun i => (uniquePrimitiveSymmetry r' t').2.1.getD
      ((littleMapping (uniquePrimitiveSymmetry r' t').1.get k' atol).get i) 0) (k := k')
    ⟨little_enumerates hsg.1 hlitI, fun i j l h => hsg.2 _ _ _ h⟩ (fun l => (hlit _).1 (List.get_mem _ l))
    (.of_symmorphic fun i a => by rw [hzero]; rfl) o
    (ho _ _ (little_isLittleOf hd hpr hsurj hsg.1.1 hlit hfix hPr)) rtol ha
    (le_trans (mul_le_mul_of_nonneg_right (by exact_mod_cast hlen) ha.le) hna) maxGen false
  obtain ⟨out, hrun⟩ := hw (hrw fun d hdl => hrich d (hdl.trans hlen))
  have hcheck : primitiveCheck (uniquePrimitiveSymmetry r' t').1.get
      (fun i => (uniquePrimitiveSymmetry r' t').2.1.getD i 0) rtol atol = .ok () := by
    rw [primitiveCheck_eq ha.le hr hr1, if_neg]
    rintro ⟨i, -, a, h⟩
    rw [hzero] at h
    simp at h
    linarith
  have hprim : irrepsFromPrimitive o (uniquePrimitiveSymmetry r' t').1.get
      (fun i => (uniquePrimitiveSymmetry r' t').2.1.getD i 0) k' false .neto rtol atol maxGen =
        .ok ⟨littleMapping (uniquePrimitiveSymmetry r' t').1.get k' atol, out, false⟩ := by
    unfold irrepsFromPrimitive
    rw [hcheck]
    simp only [bind, Except.bind, pure, Except.pure]
    rw [hrun]
  unfold getSpacegroupIrreps
  simp only [hkc, hP, htr, bind, Except.bind, pure, Except.pure]
  rw [hprim]
  cases out with
  | real l =>
    exfalso
    unfold enumerateSmallReps at hrun
    simp only [bind, Except.bind, pure, Except.pure] at hrun
    split at hrun
    · cases hrun
    · split at hrun
      · cases hrun
      · rw [if_neg (by simp)] at hrun
        split at hrun
        · cases hrun
        · cases hrun
  | complex l => exact ⟨_, _, _, rfl⟩

/-- Runs without warning exist: for operations without fractional translations (symmorphic groups) the Neto method
succeeds for every k-point if the draws determine the intertwiners. -/
theorem c61_runs {o : Oracles} {hallType : ℤ → SpacegroupType} {lattice : R3} {dataset : Dataset n}
    {k kc : V3} {reciprocal : Option R3} {rtol atol : ℝ} {maxGen : ℕ} {P : R3}
    (hP : getPrimitiveTransformationMatrix hallType dataset.hallNumber = .ok P)
    (hkc : kpointConv lattice reciprocal k = .ok kc)
    (hconv : IsConventionalGroup P dataset.rotations dataset.translations)
    (hsym : ∀ i, dataset.translations i ∈ columnLattice P)
    (horder : ∀ i j, i ≤ j → FirstOcc dataset.rotations j → FirstOcc dataset.rotations i)
    {N : ℕ} (hN : 0 < N) (hk : ∀ a, ∃ c : ℤ, (N : ℝ) * ∑ b, P b a * kc b = c)
    (ha : 0 < atol) (hna : n * atol ≤ 1 / 5) (hat : atol < 1 / N) (hr : 0 ≤ rtol) (hr1 : atol + rtol < 1)
    (ho : ∀ (u : ℕ) (R : Fin u → M3), IsLittleOf P dataset.rotations kc R → PointgroupContract o.pointgroup R)
    (hrich : RichDraws n o.random atol maxGen) :
    ∃ m mapping irreps, getSpacegroupIrreps o hallType lattice dataset k .neto reciprocal rtol atol maxGen =
      .ok (⟨m, mapping, irreps⟩, false) :=
  c61_runs_near_miss hP hkc hconv hsym horder (noNearMiss_of_rational hconv.2.1 hN hk ha.le hat) ha hna hr hr1 ho hrich

/-! ### Non-vacuity of C41 and C61: C2 at `k = (0, 1/2, 1/2)` -/

/-- Rotations of C2 (unique axis b) in the conventional cell, in the order of spglib. -/
def rotsC2 : Fin 4 → M3 :=
  ![!![1, 0, 0; 0, 1, 0; 0, 0, 1], !![-1, 0, 0; 0, 1, 0; 0, 0, -1], !![1, 0, 0; 0, 1, 0; 0, 0, 1],
    !![-1, 0, 0; 0, 1, 0; 0, 0, -1]]

/-- Twice the translations of C2. -/
def trans2C2 : Fin 4 → Fin 3 → ℤ := ![![0, 0, 0], ![0, 0, 0], ![1, 1, 0], ![1, 1, 0]]

/-- Translations of C2. -/
noncomputable def transC2 (i : Fin 4) (a : Fin 3) : ℝ := trans2C2 i a / 2

/-- The dataset of C2 (Hall number 9). -/
noncomputable def datasetC2 : Dataset 4 := ⟨rotsC2, transC2, 9⟩

/-- The operations of C2 in the order `E, E', R, R'`. -/
noncomputable def datasetC2' : Dataset 4 :=
  ⟨fun i => rotsC2 (Equiv.swap 1 2 i), fun i => transC2 (Equiv.swap 1 2 i), 9⟩

/-- The primitive basis of a C-centred cell. -/
noncomputable def primC : R3 := !![1 / 2, 1 / 2, 0; -1 / 2, 1 / 2, 0; 0, 0, 1]

/-- The k-point of the example. -/
noncomputable def kC2 : V3 := ![0, 1 / 2, 1 / 2]

/-- The primitive rotations of C2. -/
def primRotsC2 : Fin 2 → M3 := ![!![1, 0, 0; 0, 1, 0; 0, 0, 1], !![0, -1, 0; -1, 0, 0; 0, 0, -1]]

theorem lattice_half {x : Fin 3 → ℤ} {y : V3} (hy : ∀ a, y a = (x a : ℝ) / 2)
    (h : (∀ a, 2 ∣ x a) ∨ (∀ a, 2 ∣ x a - ![1, 1, 0] a)) : y ∈ columnLattice primC := by
  rw [show primC = !![1 / 2, 1 / 2, 0; -1 / 2, 1 / 2, 0; 0, 0, 1] from rfl, centred_C.2.1]
  rcases h with h | h
  · refine ⟨0, .inl rfl, fun a => ?_⟩
    obtain ⟨m, hm⟩ := h a
    exact ⟨m, by rw [hy, hm]; push_cast; simp⟩
  · refine ⟨![1 / 2, 1 / 2, 0], .inr (by simp [Centring.vectors]), fun a => ?_⟩
    obtain ⟨m, hm⟩ := h a
    refine ⟨m, ?_⟩
    have h2 : (x a : ℝ) = ((![1, 1, 0] : Fin 3 → ℤ) a : ℝ) + 2 * m := by
      have : x a = (![1, 1, 0] : Fin 3 → ℤ) a + 2 * m := by omega
      rw [this]
      push_cast
      rfl
    rw [hy, h2]
    fin_cases a <;> simp <;> ring

theorem transC2_mem (i : Fin 4) : transC2 i ∈ columnLattice primC := by
  refine lattice_half (fun a => rfl) ?_
  revert i
  decide +kernel

theorem primC_rots (i : Fin 4) : ∃ j : Fin 2, (rotsC2 i).map (fun x => (x : ℝ)) * primC =
    primC * (primRotsC2 j).map (fun x => (x : ℝ)) ∧ (j : ℕ) = (i : ℕ) % 2 := by
  fin_cases i
  · refine ⟨0, ?_, rfl⟩
    ext a b
    fin_cases a <;> fin_cases b <;> simp [rotsC2, primC, primRotsC2, Matrix.mul_apply, Fin.sum_univ_three] <;> norm_num
  · refine ⟨1, ?_, rfl⟩
    ext a b
    fin_cases a <;> fin_cases b <;> simp [rotsC2, primC, primRotsC2, Matrix.mul_apply, Fin.sum_univ_three] <;> norm_num
  · refine ⟨0, ?_, rfl⟩
    ext a b
    fin_cases a <;> fin_cases b <;> simp [rotsC2, primC, primRotsC2, Matrix.mul_apply, Fin.sum_univ_three] <;> norm_num
  · refine ⟨1, ?_, rfl⟩
    ext a b
    fin_cases a <;> fin_cases b <;> simp [rotsC2, primC, primRotsC2, Matrix.mul_apply, Fin.sum_univ_three] <;> norm_num

theorem convC2 : IsConventionalGroup primC rotsC2 transC2 := by
  refine ⟨?_, fun i => ?_, fun i j l hl => ?_⟩
  · have h : EnumeratesGroup (fun i : Fin 2 => rotsC2 (i.castLE (by norm_num))) := by
      apply enumerates_of_isMatrixGroup (by norm_num)
      · decide +kernel
      · decide +kernel
    obtain ⟨-, H, hH⟩ := h
    refine ⟨H, ?_⟩
    rw [← hH]
    ext M
    constructor
    · rintro ⟨i, rfl⟩
      have : ∀ i : Fin 4, ∃ j : Fin 2, rotsC2 (j.castLE (by norm_num)) = rotsC2 i := by decide +kernel
      exact this i
    · rintro ⟨j, rfl⟩
      exact ⟨_, rfl⟩
  · obtain ⟨j, hj, -⟩ := primC_rots i
    exact ⟨_, hj⟩
  · refine lattice_half (x := fun a => (∑ b, rotsC2 i a b * trans2C2 j b) + trans2C2 i a - trans2C2 l a) (fun a => ?_) ?_
    · simp only [transC2]
      push_cast
      rw [sub_div, add_div, Finset.sum_div]
      simp only [mul_div_assoc]
    · revert i j l
      decide +kernel

theorem fixesC2 (i : Fin 4) : FixesKLattice primC (rotsC2 i) kC2 := by
  rintro x ⟨m, hm⟩
  have h2 : x 2 = m 2 := by
    rw [hm]
    simp [primC, Fin.sum_univ_three]
  fin_cases i
  · exact ⟨0, by simp [rotsC2, kC2, Fin.sum_univ_three]⟩
  · refine ⟨-m 2, ?_⟩
    simp [rotsC2, kC2, Fin.sum_univ_three, h2]
    ring
  · exact ⟨0, by simp [rotsC2, kC2, Fin.sum_univ_three]⟩
  · refine ⟨-m 2, ?_⟩
    simp [rotsC2, kC2, Fin.sum_univ_three, h2]
    ring

/-- Transformation from the standard setting of the point group 2 to the primitive cell of C2. -/
def trafoC2 : M3 := !![1, 1, 0; 1, -1, 0; 0, 0, 1]

theorem contractC2 {u : ℕ} {R : Fin u → M3} (h : IsLittleOf primC rotsC2 kC2 R) :
    PointgroupContract (PgSymbol.pg_2, trafoC2.map fun x : ℤ => (x : ℝ)) R := by
  obtain ⟨hinj, hR⟩ := h
  have hd : primC.det ≠ 0 := centred_C.1
  have hcancel : ∀ A B : M3, primC * A.map (fun x => (x : ℝ)) = primC * B.map (fun x => (x : ℝ)) → A = B := by
    intro A B hAB
    apply realMat_injective
    have h3 := congrArg (fun M => primC⁻¹ * M) hAB
    rwa [← mul_assoc, ← mul_assoc, Matrix.nonsing_inv_mul _ (isUnit_iff_ne_zero.2 hd), one_mul, one_mul] at h3
  have h1 : ∀ i, ∃ j, R i = primRotsC2 j := by
    intro i
    obtain ⟨l, -, hl⟩ := (hR (R i)).1 ⟨i, rfl⟩
    obtain ⟨j, hj, -⟩ := primC_rots l
    exact ⟨j, hcancel _ _ (hl.symm.trans hj)⟩
  choose f hf using h1
  have hbinj : Function.Injective primRotsC2 := by decide +kernel
  have hbij : Function.Bijective f := by
    constructor
    · intro a b hab
      exact hinj (by rw [hf, hf, hab])
    · intro j
      obtain ⟨l, hl, hlj⟩ := primC_rots (j.castLE (by norm_num))
      have hlj' : l = j := Fin.ext (by
        rw [hlj, Fin.val_castLE]
        omega)
      subst hlj'
      obtain ⟨i, hi⟩ := (hR (primRotsC2 l)).2 ⟨_, fixesC2 _, hl⟩
      exact ⟨i, hbinj (by rw [← hf, hi])⟩
  refine contract_of_int (s := .pg_2) (std := pgData_2[1]) (by decide +kernel)
    (show pgData_2[1] ∈ pgData_2 from List.getElem_mem _) (Equiv.ofBijective f hbij) fun i => ?_
  rw [hf]
  change primRotsC2 (f i) * trafoC2 = trafoC2 * (pgData_2[1].get (f i)).toM3
  generalize f i = j
  revert j
  decide +kernel

theorem orderC2 : ∀ i j, i ≤ j → FirstOcc rotsC2 j → FirstOcc rotsC2 i := by
  unfold FirstOcc
  decide +kernel

theorem primC2 : getPrimitiveTransformationMatrix (fun _ => ⟨[], ['C', ' ', '2', 'y']⟩) 9 = .ok primC := by
  unfold getPrimitiveTransformationMatrix
  rw [show getCrystalSystem 9 = .ok .monoclinic from by decide]
  rfl

theorem primC2' : getPrimitiveTransformationMatrix (fun _ => ⟨[], ['C', ' ', '2', 'y']⟩) datasetC2'.hallNumber =
    .ok primC := primC2

/-- Non-vacuity of C41 and C61: a run for C2 at `(0, 1/2, 1/2)` that returns without warning, with all hypotheses. -/
example : ∃ o : Oracles, ∃ m mapping irreps,
    getSpacegroupIrreps o (fun _ => ⟨[], ['C', ' ', '2', 'y']⟩) 1 datasetC2 kC2 = .ok (⟨m, mapping, irreps⟩, false) ∧
    IsConventionalGroup primC datasetC2.rotations datasetC2.translations ∧
    (∀ i j, i ≤ j → FirstOcc datasetC2.rotations j → FirstOcc datasetC2.rotations i) ∧
    (∀ a, ∃ c : ℤ, ((4 : ℕ) : ℝ) * ∑ b, primC b a * kC2 b = c) ∧
    ∀ (u : ℕ) (R : Fin u → M3), IsLittleOf primC datasetC2.rotations kC2 R → MethodContract o .neto 1e-5 R := by
  obtain ⟨random, hr⟩ := exists_richDraws 1e-8 4 4 fun d hd => hd
  have hk : ∀ a, ∃ c : ℤ, ((4 : ℕ) : ℝ) * ∑ b, primC b a * kC2 b = c := by
    intro a
    fin_cases a
    · exact ⟨-1, by simp [primC, kC2, Fin.sum_univ_three]; norm_num⟩
    · exact ⟨1, by simp [primC, kC2, Fin.sum_univ_three]; norm_num⟩
    · exact ⟨2, by simp [primC, kC2, Fin.sum_univ_three]; norm_num⟩
  let o : Oracles := { random := random, eig := fun d _ => (fun _ => 0, 0), eigh := fun d _ => (fun _ => 0, 0),
                       qr := fun _ _ _ => 0, pointgroup := (PgSymbol.pg_2, trafoC2.map fun x : ℤ => (x : ℝ)) }
  obtain ⟨m, mapping, irreps, hrun⟩ := c61_runs (o := o) (lattice := 1) (dataset := datasetC2) (k := kC2) (kc := kC2)
    (reciprocal := none) (rtol := 1e-5) (atol := 1e-8) (maxGen := 4) primC2
    (c52_kpoint_basis 1 (by rw [Matrix.det_one]; exact one_ne_zero) kC2).1
    convC2 transC2_mem orderC2 (N := 4) (by norm_num) hk (by norm_num) (by norm_num) (by norm_num) (by norm_num)
    (by norm_num) (fun u R h => contractC2 h) hr
  exact ⟨o, m, mapping, irreps, hrun, convC2, orderC2, hk, fun u R h => contractC2 h⟩

/-! ### C41 refuted -/

theorem unique_interleaved {A B : M3} (hAB : A ≠ B) (trans : Fin 4 → V3) :
    uniquePrimitiveSymmetry ![A, A, B, B] trans =
      ([A, B], [fun a => Int.fract (trans 0 a), fun a => Int.fract (trans 2 a)], ![0, 0, 2, 1]) := by
  have hBA : ¬ B = A := fun h => hAB h.symm
  unfold uniquePrimitiveSymmetry
  rw [show List.finRange 4 = [0, 1, 2, 3] from rfl]
  have e1 : ∀ s : UniqueState 4, s.ints = [] → uniqueStep ![A, A, B, B] trans s 0 =
      ⟨[A], s.rots ++ [A], s.trans ++ [fun a => Int.fract (trans 0 a)], Function.update s.mapping 0 0⟩ := by
    intro s hs
    simp [uniqueStep, hs]
  have e2 : ∀ s : UniqueState 4, s.ints = [A] → uniqueStep ![A, A, B, B] trans s 1 =
      ⟨[A], s.rots, s.trans, Function.update s.mapping 1 0⟩ := by
    intro s hs
    obtain ⟨i, r, t, m⟩ := s
    dsimp only at hs
    subst hs
    simp [uniqueStep, List.idxOf?_cons]
  have e3 : ∀ s : UniqueState 4, s.ints = [A] → uniqueStep ![A, A, B, B] trans s 2 =
      ⟨[A, B], s.rots ++ [B], s.trans ++ [fun a => Int.fract (trans 2 a)], Function.update s.mapping 2 2⟩ := by
    intro s hs
    simp [uniqueStep, hs, List.idxOf?_cons, hAB]
  have e4 : ∀ s : UniqueState 4, s.ints = [A, B] → uniqueStep ![A, A, B, B] trans s 3 =
      ⟨[A, B], s.rots, s.trans, Function.update s.mapping 3 1⟩ := by
    intro s hs
    obtain ⟨i, r, t, m⟩ := s
    dsimp only at hs
    subst hs
    simp [uniqueStep, List.idxOf?_cons, hAB]
  simp only [List.foldl_cons, List.foldl_nil]
  rw [e1 _ rfl, e2 _ rfl, e3 _ rfl, e4 _ rfl]
  simp only [List.nil_append, List.cons_append]
  congr 2
  funext i
  fin_cases i <;> simp [Function.update]

/-- **C38 refuted as stated**: for the operations `E, E', R, R'` in this order the entry of the map for `R` is 2,
but there are only two unique rotations, and the entry for `R'` is 1. -/
theorem c38_unique_refuted {A B : M3} (hAB : A ≠ B) (trans : Fin 4 → V3) :
    (uniquePrimitiveSymmetry ![A, A, B, B] trans).1.length = 2 ∧
    (uniquePrimitiveSymmetry ![A, A, B, B] trans).2.2 2 = 2 ∧
    (uniquePrimitiveSymmetry ![A, A, B, B] trans).2.2 3 = 1 := by
  rw [unique_interleaved hAB]
  exact ⟨rfl, rfl, rfl⟩

theorem convC2' : IsConventionalGroup primC datasetC2'.rotations datasetC2'.translations := by
  obtain ⟨⟨H, hH⟩, h2, h3⟩ := convC2
  refine ⟨⟨H, ?_⟩, fun i => h2 _, fun i j l h => h3 _ _ _ h⟩
  rw [← hH]
  exact (Equiv.swap (1 : Fin 4) 2).surjective.range_comp rotsC2

theorem transformC2' : transformSymmetryAndKpoint primC datasetC2'.rotations datasetC2'.translations 0 =
    .ok (![primRotsC2 0, primRotsC2 0, primRotsC2 1, primRotsC2 1],
      fun i => primC⁻¹ *ᵥ datasetC2'.translations i, 0) := by
  have hd : primC.det ≠ 0 := centred_C.1
  rw [transform_ok hd]
  have h : ∀ i : Fin 4, ∀ j : Fin 2, (j : ℕ) = (i : ℕ) % 2 →
      (primC⁻¹ * realMat (rotsC2 i) * primC).map rint = primRotsC2 j := by
    intro i j hij
    obtain ⟨j', h1, h2⟩ := primC_rots i
    obtain rfl : j = j' := Fin.ext (hij.trans h2.symm)
    have h1 : realMat (rotsC2 i) * primC = primC * realMat (primRotsC2 j) := h1
    rw [mul_assoc, h1, ← mul_assoc, Matrix.nonsing_inv_mul _ (isUnit_iff_ne_zero.2 hd), one_mul, map_rint_realMat]
  congr 2
  · funext i
    fin_cases i
    · exact h 0 0 rfl
    · exact h 2 0 rfl
    · exact h 1 1 rfl
    · exact h 3 1 rfl
  · rw [Matrix.mulVec_zero]

/-- **C41 refuted as stated**: for the operations of C2 in the order `E, E', R, R'`, at `k = 0`, the function returns
without warning but the little group it returns does not contain operation number 2 (the twofold rotation), which
fixes `k`. -/
theorem c41_conventional_refuted :
    IsConventionalGroup primC datasetC2'.rotations datasetC2'.translations ∧
    FixesKLattice primC (datasetC2'.rotations 2) 0 ∧
    (∀ o m mapping irreps w, getSpacegroupIrreps o (fun _ => ⟨[], ['C', ' ', '2', 'y']⟩) 1 datasetC2' 0 =
      .ok (⟨m, mapping, irreps⟩, w) → ∀ q, mapping q ≠ 2) ∧
    ∃ o m mapping irreps, getSpacegroupIrreps o (fun _ => ⟨[], ['C', ' ', '2', 'y']⟩) 1 datasetC2' 0 =
      .ok (⟨m, mapping, irreps⟩, false) := by
  have hkc := (c52_kpoint_basis 1 (by rw [Matrix.det_one]; exact one_ne_zero) 0).1
  have hne : primRotsC2 0 ≠ primRotsC2 1 := by decide +kernel
  refine ⟨convC2', fun x hx => ⟨0, by simp⟩, ?_, ?_⟩
  · intro o m mapping irreps w hrun q
    obtain ⟨l, -, -, hout⟩ := spacegroupIrreps_ok primC2' hkc transformC2' hrun
    unfold adjustPhase at hout
    obtain ⟨rfl, h2⟩ := Sigma.mk.inj_iff.1 hout
    obtain ⟨rfl, rfl⟩ := Prod.mk.inj (eq_of_heq h2)
    intro hq
    have h3 := remap_some (keptOps_mem.1 (List.get_mem _ q))
    dsimp only at hq
    rw [hq, (c38_unique_refuted hne _).2.1] at h3
    have h4 := ((littleMapping (uniquePrimitiveSymmetry ![primRotsC2 0, primRotsC2 0, primRotsC2 1, primRotsC2 1]
      fun i => primC⁻¹ *ᵥ datasetC2'.translations i).1.get 0 1e-8).get
        ((keptOps (uniquePrimitiveSymmetry ![primRotsC2 0, primRotsC2 0, primRotsC2 1, primRotsC2 1]
          fun i => primC⁻¹ *ᵥ datasetC2'.translations i).2.2 _).get q).2).2
    have h5 := (c38_unique_refuted hne fun i => primC⁻¹ *ᵥ datasetC2'.translations i).1
    have h6 := lt_of_lt_of_eq h4 h5
    omega
  · obtain ⟨random, hr⟩ := exists_richDraws 1e-8 4 4 fun d hd => hd
    let o : Oracles := { random := random, eig := fun d _ => (fun _ => 0, 0), eigh := fun d _ => (fun _ => 0, 0),
                         qr := fun _ _ _ => 0, pointgroup := (PgSymbol.pg_2, trafoC2.map fun x : ℤ => (x : ℝ)) }
    have hz : ∀ i a, Int.fract ((primC⁻¹ *ᵥ datasetC2'.translations i) a) = 0 := by
      intro i a
      obtain ⟨m, hm⟩ := (columnLattice_iff (P := primC) centred_C.1).1 (transC2_mem (Equiv.swap 1 2 i)) a
      change Int.fract ((primC⁻¹ *ᵥ transC2 (Equiv.swap 1 2 i)) a) = 0
      rw [hm, Int.fract_intCast]
    have hG : EnumeratesGroup [primRotsC2 0, primRotsC2 1].get := by
      apply enumerates_of_isMatrixGroup (by norm_num)
      · decide +kernel
      · decide +kernel
    have hlitI : ∀ i, InLittle ([primRotsC2 0, primRotsC2 1].get i) 0 1e-8 ↔
        FixesK ([primRotsC2 0, primRotsC2 1].get i) 0 := fun i =>
      inLittle_iff_fixesK (N := 1) one_pos (fun a => ⟨0, by simp⟩) (by norm_num) (by norm_num)
    have hfix : ∀ i, FixesK ([primRotsC2 0, primRotsC2 1].get i) 0 := fun i a => ⟨0, by simp⟩
    have hlit : ∀ i, i ∈ littleMapping [primRotsC2 0, primRotsC2 1].get 0 1e-8 := fun i => by
      rw [mem_littleMapping, hlitI]
      exact hfix i
    have hzero : ∀ i : Fin 2, List.getD [fun a => Int.fract ((primC⁻¹ *ᵥ datasetC2'.translations 0) a),
        fun a => Int.fract ((primC⁻¹ *ᵥ datasetC2'.translations 2) a)] (i : ℕ) 0 = 0 := by
      intro i
      fin_cases i
      · exact funext fun a => hz 0 a
      · exact funext fun a => hz 2 a
    have hlittle : IsLittleOf primC rotsC2 kC2 fun i => [primRotsC2 0, primRotsC2 1].get
        ((littleMapping [primRotsC2 0, primRotsC2 1].get 0 1e-8).get i) := by
      refine ⟨(little_enumerates hG hlitI).1, fun S => ⟨?_, ?_⟩⟩
      · rintro ⟨j, rfl⟩
        dsimp only
        generalize (littleMapping [primRotsC2 0, primRotsC2 1].get 0 1e-8).get j = q
        obtain ⟨j', h1, h2⟩ := primC_rots ((show Fin 2 from q).castLE (by norm_num))
        refine ⟨_, fixesC2 _, h1.trans ?_⟩
        obtain rfl : (show Fin 2 from q) = j' := Fin.ext (by
          rw [h2, Fin.val_castLE]
          have := q.2
          simp at this
          change (q : ℕ) = (q : ℕ) % 2
          omega)
        have : ∀ q : Fin 2, primRotsC2 q = [primRotsC2 0, primRotsC2 1].get q := by decide +kernel
        exact congrArg (fun M : M3 => primC * M.map fun x => (x : ℝ)) (this q)
      · rintro ⟨i, -, hS⟩
        obtain ⟨j', h1, h2⟩ := primC_rots i
        have hSj : S = primRotsC2 j' := by
          apply realMat_injective
          have h3 := congrArg (fun M => primC⁻¹ * M) (hS.symm.trans h1)
          have hd : primC.det ≠ 0 := centred_C.1
          rwa [← mul_assoc, ← mul_assoc, Matrix.nonsing_inv_mul _ (isUnit_iff_ne_zero.2 hd), one_mul,
            one_mul] at h3
        obtain ⟨j, hj⟩ := List.get_of_mem (hlit j')
        refine ⟨j, ?_⟩
        dsimp only
        rw [hj, hSj]
        have : ∀ q : Fin 2, [primRotsC2 0, primRotsC2 1].get q = primRotsC2 q := by decide +kernel
        exact this j'
    obtain ⟨L, w, -, hw, hrw⟩ := c18_small_reps_partial
      (rots := fun i => [primRotsC2 0, primRotsC2 1].get
        ((littleMapping [primRotsC2 0, primRotsC2 1].get 0 1e-8).get i))
      (trans := fun i => List.getD [fun a => Int.fract ((primC⁻¹ *ᵥ datasetC2'.translations 0) a),
        fun a => Int.fract ((primC⁻¹ *ᵥ datasetC2'.translations 2) a)]
          ((littleMapping [primRotsC2 0, primRotsC2 1].get 0 1e-8).get i) 0) (k := 0)
      ⟨little_enumerates hG hlitI, fun i j l h a => ⟨0, by simp only [hzero]; simp⟩⟩ (fun l => hfix _)
      (.of_symmorphic fun i a => by rw [hzero]; rfl) o (contractC2 hlittle) 1e-5 (atol := 1e-8) (by norm_num)
      (by
        have h2 := Fintype.card_le_of_injective _ (List.nodup_iff_injective_get.1
          (littleMapping_nodup [primRotsC2 0, primRotsC2 1].get 0 1e-8))
        simp only [Fintype.card_fin] at h2
        have h3 : ((littleMapping [primRotsC2 0, primRotsC2 1].get 0 1e-8).length : ℝ) ≤ 2 := by exact_mod_cast h2
        linarith) 4 false
    have hlen := Fintype.card_le_of_injective _ (List.nodup_iff_injective_get.1
          (littleMapping_nodup [primRotsC2 0, primRotsC2 1].get 0 1e-8))
    simp only [Fintype.card_fin] at hlen
    obtain ⟨out, hrun⟩ := hw (hrw fun d hdl => hr d (hdl.trans (hlen.trans (by simp))))
    have hcheck : primitiveCheck [primRotsC2 0, primRotsC2 1].get
        (fun i => List.getD [fun a => Int.fract ((primC⁻¹ *ᵥ datasetC2'.translations 0) a),
          fun a => Int.fract ((primC⁻¹ *ᵥ datasetC2'.translations 2) a)] (i : ℕ) 0) 1e-5 1e-8 = .ok () := by
      rw [primitiveCheck_eq (by norm_num) (by norm_num) (by norm_num), if_neg]
      rintro ⟨i, -, a, h⟩
      rw [hzero] at h
      norm_num at h
    obtain ⟨l, rfl⟩ : ∃ l, out = .complex l := by
      cases out with
      | complex l => exact ⟨l, rfl⟩
      | real l =>
        exfalso
        unfold enumerateSmallReps at hrun
        simp only [bind, Except.bind, pure, Except.pure] at hrun
        split at hrun
        · cases hrun
        · split at hrun
          · cases hrun
          · rw [if_neg (by simp)] at hrun
            split at hrun
            · cases hrun
            · cases hrun
    refine ⟨o, ?_⟩
    unfold getSpacegroupIrreps
    simp only [hkc, primC2', transformC2', bind, Except.bind, pure, Except.pure]
    rw [unique_interleaved hne]
    unfold irrepsFromPrimitive
    simp only [bind, Except.bind, pure, Except.pure]
    rw [hcheck]
    dsimp only
    rw [hrun]
    exact ⟨_, _, _, rfl⟩

end Spgrep
