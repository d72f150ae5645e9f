/-
The multiplication law of the small representations does not depend on the setting.
-/
import Verif.Spec.Setting
import Verif.Proofs.SmallReps
import Verif.Proofs.RandomDraw

namespace Spgrep

open Spec

variable {n : ℕ} {rots rots' : Fin n → M3} {trans trans' : Fin n → V3} {k k' : V3} {U V : M3} {x₀ : V3}
  {π : Equiv.Perm (Fin n)} {m : Fin n → Fin 3 → ℤ} {G : Fin 3 → ℤ}


theorem castMat_mul (A B : M3) : (A * B).map (fun x : ℤ => (x : ℝ)) = A.map (fun x : ℤ => (x : ℝ)) * B.map (fun x : ℤ => (x : ℝ)) := by
  ext i j
  simp [Matrix.mul_apply]

theorem castMat_one : (1 : M3).map (fun x : ℤ => (x : ℝ)) = 1 := by
  ext i j
  simp only [Matrix.map_apply, Matrix.one_apply]
  split <;> simp

theorem castMat_mulVec (A : M3) (x : V3) (a : Fin 3) :
    (A.map (fun x : ℤ => (x : ℝ))).mulVec x a = ∑ b, (A a b : ℝ) * x b := by
  simp [Matrix.mulVec, dotProduct]

theorem castMat_mulVec_int (A : M3) (x : Fin 3 → ℤ) (a : Fin 3) :
    ∃ c : ℤ, (A.map (fun x : ℤ => (x : ℝ))).mulVec (fun b => (x b : ℝ)) a = c :=
  ⟨∑ b, A a b * x b, by rw [castMat_mulVec]; push_cast; rfl⟩

theorem Spec.ChangeOfSetting.inv' (h : ChangeOfSetting rots trans k rots' trans' k' U V x₀ π m G) : V * U = 1 :=
  mul_eq_one_comm.1 h.inv

theorem Spec.ChangeOfSetting.mul_iff (h : ChangeOfSetting rots trans k rots' trans' k' U V x₀ π m G) (i j l : Fin n) :
    rots' i * rots' j = rots' l ↔ rots (π i) * rots (π j) = rots (π l) := by
  rw [h.rot, h.rot, h.rot]
  have e : V * rots (π i) * U * (V * rots (π j) * U) = V * (rots (π i) * rots (π j)) * U := by
    calc _ = V * rots (π i) * (U * V) * rots (π j) * U := by simp only [mul_assoc]
      _ = _ := by rw [h.inv, mul_one]; simp only [mul_assoc]
  rw [e]
  refine ⟨fun h1 => ?_, fun h1 => by rw [h1]⟩
  have h2 := congrArg (fun X => U * X * V) h1
  have e2 : ∀ X : M3, U * (V * X * U) * V = X := fun X => by
    calc _ = (U * V) * X * (U * V) := by simp only [mul_assoc]
      _ = X := by rw [h.inv, one_mul, mul_one]
  simpa only [e2] using h2

theorem Spec.ChangeOfSetting.enumerates (h : ChangeOfSetting rots trans k rots' trans' k' U V x₀ π m G)
    (hE : EnumeratesGroup rots) : EnumeratesGroup rots' := by
  let u : GL (Fin 3) ℤ := ⟨U, V, h.inv, h.inv'⟩
  obtain ⟨hinj, H, hH⟩ := hE
  refine ⟨fun i j hij => ?_, H.map (MulAut.conj u⁻¹).toMonoidHom, ?_⟩
  · rw [h.rot, h.rot] at hij
    have h2 := congrArg (fun X => U * X * V) hij
    have e2 : ∀ X : M3, U * (V * X * U) * V = X := fun X => by
      calc _ = (U * V) * X * (U * V) := by simp only [mul_assoc]
        _ = X := by rw [h.inv, one_mul, mul_one]
    simp only [e2] at h2
    exact π.injective (hinj h2)
  · ext X
    constructor
    · rintro ⟨i, rfl⟩
      have : rots (π i) ∈ Set.range rots := ⟨_, rfl⟩
      rw [hH] at this
      obtain ⟨g, hg, hg'⟩ := this
      refine ⟨u⁻¹ * g * u, ⟨g, hg, by simp⟩, ?_⟩
      rw [h.rot, ← hg']
      rfl
    · rintro ⟨_, ⟨g, hg, rfl⟩, rfl⟩
      have : (g : M3) ∈ Set.range rots := by rw [hH]; exact ⟨g, hg, rfl⟩
      obtain ⟨i, hi⟩ := this
      refine ⟨π.symm i, ?_⟩
      rw [h.rot, Equiv.apply_symm_apply, hi]
      simp only [MulEquiv.coe_toMonoidHom, MulAut.conj_apply, inv_inv]
      rfl

theorem Spec.ChangeOfSetting.trans_vec (h : ChangeOfSetting rots trans k rots' trans' k' U V x₀ π m G) (i : Fin n) :
    trans' i = (V.map (fun x : ℤ => (x : ℝ))).mulVec (trans (π i) + (fun b => (m i b : ℝ)) +
      ((rots (π i)).map (fun x : ℤ => (x : ℝ))).mulVec x₀ - x₀) := by
  funext a
  rw [h.trans, castMat_mulVec]
  refine Finset.sum_congr rfl fun b _ => ?_
  simp only [Pi.sub_apply, Pi.add_apply, castMat_mulVec]

theorem Spec.ChangeOfSetting.k_vec (h : ChangeOfSetting rots trans k rots' trans' k' U V x₀ π m G) :
    k' = (U.map (fun x : ℤ => (x : ℝ))).transpose.mulVec k + fun a => (G a : ℝ) := by
  funext a
  rw [h.kpt, Pi.add_apply]
  simp [Matrix.mulVec, dotProduct]

/-- The lattice translation of a product, in the new basis. -/
theorem Spec.ChangeOfSetting.lattice (h : ChangeOfSetting rots trans k rots' trans' k' U V x₀ π m G) {i j l : Fin n}
    (hl : rots' i * rots' j = rots' l) :
    (fun a => (∑ b, (rots' i a b : ℝ) * trans' j b) + trans' i a - trans' l a) =
      (V.map (fun x : ℤ => (x : ℝ))).mulVec ((fun a => (∑ b, (rots (π i) a b : ℝ) * trans (π j) b) + trans (π i) a -
        trans (π l) a) + (((rots (π i)).map (fun x : ℤ => (x : ℝ))).mulVec (fun b => (m j b : ℝ)) +
          (fun b => (m i b : ℝ)) - fun b => (m l b : ℝ))) := by
  have h1 := (h.mul_iff i j l).1 hl
  have e1 : (fun a => (∑ b, (rots' i a b : ℝ) * trans' j b) + trans' i a - trans' l a) =
      ((rots' i).map (fun x : ℤ => (x : ℝ))).mulVec (trans' j) + trans' i - trans' l := by
    funext a
    simp only [Pi.sub_apply, Pi.add_apply, castMat_mulVec]
  have e2 : (fun a => (∑ b, (rots (π i) a b : ℝ) * trans (π j) b) + trans (π i) a - trans (π l) a) =
      ((rots (π i)).map (fun x : ℤ => (x : ℝ))).mulVec (trans (π j)) + trans (π i) - trans (π l) := by
    funext a
    simp only [Pi.sub_apply, Pi.add_apply, castMat_mulVec]
  rw [e1, e2, h.trans_vec i, h.trans_vec j, h.trans_vec l, h.rot i, castMat_mul, castMat_mul, Matrix.mulVec_mulVec]
  have e3 : V.map (fun x : ℤ => (x : ℝ)) * (rots (π i)).map (fun x : ℤ => (x : ℝ)) * U.map (fun x : ℤ => (x : ℝ)) *
      V.map (fun x : ℤ => (x : ℝ)) = V.map (fun x : ℤ => (x : ℝ)) * (rots (π i)).map (fun x : ℤ => (x : ℝ)) := by
    rw [Matrix.mul_assoc _ (U.map _), ← castMat_mul U V, h.inv, castMat_one, Matrix.mul_one]
  rw [e3, ← Matrix.mulVec_mulVec, ← Matrix.mulVec_add, ← Matrix.mulVec_sub, ← h1, castMat_mul]
  refine congrArg _ ?_
  rw [Matrix.mulVec_sub, Matrix.mulVec_add, Matrix.mulVec_add, Matrix.mulVec_mulVec]
  abel

theorem Spec.ChangeOfSetting.isSpaceGroup (h : ChangeOfSetting rots trans k rots' trans' k' U V x₀ π m G)
    (hs : IsSpaceGroup rots trans) : IsSpaceGroup rots' trans' := by
  refine ⟨h.enumerates hs.1, fun i j l hl a => ?_⟩
  choose c hc using hs.2 _ _ _ ((h.mul_iff i j l).1 hl)
  choose c' hc' using castMat_mulVec_int (rots (π i)) (m j)
  obtain ⟨q, hq⟩ := castMat_mulVec_int V (fun b => c b + (c' b + m i b - m l b)) a
  refine ⟨q, (congrFun (h.lattice hl) a).trans ?_⟩
  rw [← hq]
  congr 2
  funext b
  simp only [Pi.add_apply, Pi.sub_apply, hc, hc']
  push_cast
  ring

theorem Spec.ChangeOfSetting.fixesK (h : ChangeOfSetting rots trans k rots' trans' k' U V x₀ π m G)
    (hk : ∀ i, FixesK (rots i) k) (i : Fin n) : FixesK (rots' i) k' := by
  intro a
  choose c hc using hk (π i)
  have e0 : ∀ (A : M3) (x : V3) a, (∑ b, (A b a : ℝ) * x b) = (A.map (fun x : ℤ => (x : ℝ))).transpose.mulVec x a := by
    intro A x a
    simp [Matrix.mulVec, dotProduct]
  have hc' : ((rots (π i)).map (fun x : ℤ => (x : ℝ))).transpose.mulVec k = k + fun a => (c a : ℝ) := by
    funext a
    rw [← e0, Pi.add_apply, ← hc]
    ring
  obtain ⟨q1, hq1⟩ := castMat_mulVec_int U.transpose c a
  obtain ⟨q2, hq2⟩ := castMat_mulVec_int (rots' i).transpose G a
  refine ⟨q1 + q2 - G a, ?_⟩
  rw [e0]
  have e1 : ((rots' i).map (fun x : ℤ => (x : ℝ))).transpose.mulVec k' =
      (U.map (fun x : ℤ => (x : ℝ))).transpose.mulVec (k + fun a => (c a : ℝ)) +
        ((rots' i).map (fun x : ℤ => (x : ℝ))).transpose.mulVec (fun a => (G a : ℝ)) := by
    rw [h.k_vec, Matrix.mulVec_add, ← hc', Matrix.mulVec_mulVec, Matrix.mulVec_mulVec]
    congr 2
    rw [← Matrix.transpose_mul, ← Matrix.transpose_mul, h.rot, castMat_mul, castMat_mul, ← Matrix.mul_assoc,
      ← Matrix.mul_assoc, ← castMat_mul U V, h.inv, castMat_one, Matrix.one_mul]
  rw [e1, h.k_vec, Matrix.mulVec_add]
  simp only [Pi.add_apply]
  rw [Matrix.transpose_map] at hq1 hq2
  rw [hq1, hq2]
  push_cast
  ring

/-- The answer of `spglib.get_pointgroup` carried to the new basis. -/
theorem Spec.ChangeOfSetting.contract (h : ChangeOfSetting rots trans k rots' trans' k' U V x₀ π m G)
    {spg : PgSymbol × Matrix (Fin 3) (Fin 3) ℝ} (hc : PointgroupContract spg rots) :
    PointgroupContract (spg.1, V.map (fun x : ℤ => (x : ℝ)) * spg.2) rots' := by
  obtain ⟨h1, std, hstd, σ, hσ⟩ := hc
  have hU : U.map (fun x : ℤ => (x : ℝ)) * V.map (fun x : ℤ => (x : ℝ)) = 1 := by rw [← castMat_mul, h.inv, castMat_one]
  have hVi : (V.map (fun x : ℤ => (x : ℝ)))⁻¹ = U.map (fun x : ℤ => (x : ℝ)) := Matrix.inv_eq_left_inv hU
  refine ⟨?_, std, hstd, π.trans σ, fun i => ?_⟩
  · rw [Matrix.det_mul]
    refine mul_ne_zero (fun h0 => ?_) h1
    have := congrArg Matrix.det hU
    rw [Matrix.det_mul, h0, mul_zero, Matrix.det_one] at this
    exact zero_ne_one this
  · rw [h.rot, castMat_mul, castMat_mul, hσ, Matrix.mul_inv_rev, hVi]
    simp only [Matrix.mul_assoc]
    rfl

/-- Phase factor of the lattice vector `m i` at `k`. -/
noncomputable def settingPhase (k : V3) (m : Fin n → Fin 3 → ℤ) (i : Fin n) : ℂ :=
  Complex.exp (-2 * Real.pi * Complex.I * ((∑ a, k a * (m i a : ℝ) : ℝ) : ℂ))

theorem settingPhase_norm (k : V3) (m : Fin n → Fin 3 → ℤ) (i : Fin n) : ‖settingPhase k m i‖ = 1 := by
  unfold settingPhase
  rw [show -2 * (Real.pi : ℂ) * Complex.I * ((∑ a, k a * (m i a : ℝ) : ℝ) : ℂ) =
    ((-2 * Real.pi * (∑ a, k a * (m i a : ℝ)) : ℝ) : ℂ) * Complex.I by push_cast; ring, Complex.norm_exp_ofReal_mul_I]

theorem exp_lattice (x : ℝ) (q : ℤ) : Complex.exp (-2 * Real.pi * Complex.I * ((x + q : ℝ) : ℂ)) =
    Complex.exp (-2 * Real.pi * Complex.I * (x : ℂ)) := by
  rw [Complex.exp_eq_exp_iff_exists_int]
  exact ⟨-q, by push_cast; ring⟩

/-- A small representation in the old setting is one in the new setting, also with a further factor system. -/
theorem Spec.ChangeOfSetting.law_factor (h : ChangeOfSetting rots trans k rots' trans' k' U V x₀ π m G) (hs : IsSpaceGroup rots trans)
    (hk : ∀ i, FixesK (rots i) k) {z : Fin n → Fin n → ℂ} {d : ℕ} {Γ : RepArr n d} (hΓ : SpaceGroupLaw rots trans k z Γ) :
    SpaceGroupLaw rots' trans' k' (fun i j => z (π i) (π j)) fun i => settingPhase k m i • Γ (π i) := by
  intro i j l hl
  have h1 := (h.mul_iff i j l).1 hl
  have h2 := hΓ _ _ _ h1
  dsimp only
  rw [Matrix.smul_mul, Matrix.mul_smul, h2, smul_smul, smul_smul, smul_smul]
  congr 1
  rw [mul_left_comm, mul_assoc (z _ _)]
  congr 1
  choose c hc using hs.2 _ _ _ h1
  choose c' hc' using castMat_mulVec_int (rots (π i)) (m j)
  choose r hr using hk (π i)
  have hw : ∀ a, ∃ q : ℤ, (∑ b, (rots' i a b : ℝ) * trans' j b) + trans' i a - trans' l a = q :=
    (h.isSpaceGroup hs).2 i j l hl
  choose w hw using hw
  have e1 : (∑ a, k' a * ((∑ b, (rots' i a b : ℝ) * trans' j b) + trans' i a - trans' l a)) =
      (∑ a, k a * ((∑ b, (rots (π i) a b : ℝ) * trans (π j) b) + trans (π i) a - trans (π l) a)) +
      (∑ a, k a * (m i a : ℝ)) + (∑ a, k a * (m j a : ℝ)) - (∑ a, k a * (m l a : ℝ)) +
        ((∑ a, G a * w a + ∑ a, r a * m j a : ℤ) : ℝ) := by
    have e2 : (∑ a, k' a * ((∑ b, (rots' i a b : ℝ) * trans' j b) + trans' i a - trans' l a)) =
        k' ⬝ᵥ fun a => (∑ b, (rots' i a b : ℝ) * trans' j b) + trans' i a - trans' l a := rfl
    have e3 : (fun a => (G a : ℝ)) ⬝ᵥ (fun a => (∑ b, (rots' i a b : ℝ) * trans' j b) + trans' i a - trans' l a) =
        ((∑ a, G a * w a : ℤ) : ℝ) := by
      unfold dotProduct
      push_cast
      exact Finset.sum_congr rfl fun a _ => by rw [hw]
    have e4 : k ⬝ᵥ ((rots (π i)).map (fun x : ℤ => (x : ℝ))).mulVec (fun b => (m j b : ℝ)) =
        (∑ a, k a * (m j a : ℝ)) + ((∑ a, r a * m j a : ℤ) : ℝ) := by
      rw [Matrix.dotProduct_mulVec]
      have : Matrix.vecMul k ((rots (π i)).map (fun x : ℤ => (x : ℝ))) = fun a => k a + r a := by
        funext a
        rw [← hr a]
        simp [Matrix.vecMul, dotProduct, mul_comm]
      rw [this]
      unfold dotProduct
      push_cast
      rw [← Finset.sum_add_distrib]
      exact Finset.sum_congr rfl fun a _ => by ring
    rw [e2]
    conv_lhs => rw [h.k_vec]
    rw [add_dotProduct, e3, h.lattice hl, Matrix.mulVec_transpose, ← Matrix.dotProduct_mulVec, Matrix.mulVec_mulVec,
      ← castMat_mul, h.inv, castMat_one, Matrix.one_mulVec, dotProduct_add, dotProduct_sub, dotProduct_add, e4]
    have e5 : ∀ x : V3, k ⬝ᵥ x = ∑ a, k a * x a := fun _ => rfl
    rw [e5, e5, e5]
    push_cast
    ring
  rw [e1, exp_lattice]
  unfold settingPhase
  rw [← Complex.exp_add, ← Complex.exp_add, ← Complex.exp_add]
  congr 1
  push_cast
  ring

/-- A small representation in the old setting is one in the new setting. -/
theorem Spec.ChangeOfSetting.law (h : ChangeOfSetting rots trans k rots' trans' k' U V x₀ π m G) (hs : IsSpaceGroup rots trans)
    (hk : ∀ i, FixesK (rots i) k) {d : ℕ} {Γ : RepArr n d} (hΓ : SpaceGroupLaw rots trans k (fun _ _ => 1) Γ) :
    SpaceGroupLaw rots' trans' k' (fun _ _ => 1) fun i => settingPhase k m i • Γ (π i) :=
  h.law_factor hs hk hΓ

/-- The change of setting on families of matrices. -/
noncomputable def settingRep (k : V3) (π : Equiv.Perm (Fin n)) (m : Fin n → Fin 3 → ℤ) {d : ℕ} (Γ : RepArr n d) :
    RepArr n d := fun i => settingPhase k m i • Γ (π i)

theorem settingPhase_ne (k : V3) (m : Fin n → Fin 3 → ℤ) (i : Fin n) : settingPhase k m i ≠ 0 := by
  rw [← norm_pos_iff, settingPhase_norm]; exact one_pos

theorem settingRep_unit {d : ℕ} {Γ : RepArr n d} (h : IsUnitaryRep Γ) (i : Fin n) : IsUnit (settingRep k π m Γ i) := by
  have h1 : IsUnit (Γ (π i)) := IsUnit.of_mul_eq_one _ (h _)
  exact h1.smul (Units.mk0 _ (settingPhase_ne k m i))

theorem settingRep_irreducible {d : ℕ} {Γ : RepArr n d} (h : Spec.IsIrreducible Γ) :
    Spec.IsIrreducible (settingRep k π m Γ) := by
  refine ⟨h.1, fun W hW => h.2 W fun g v hv => ?_⟩
  have h1 := hW (π.symm g) v hv
  unfold settingRep at h1
  rw [Equiv.apply_symm_apply, Matrix.smul_mulVec] at h1
  have h2 := W.smul_mem (settingPhase k m (π.symm g))⁻¹ h1
  rwa [smul_smul, inv_mul_cancel₀ (settingPhase_ne _ _ _), one_smul] at h2

theorem settingRep_equiv {d e : ℕ} {Γ : RepArr n d} {Δ : RepArr n e}
    (h : AreEquivalent (settingRep k π m Γ) (settingRep k π m Δ)) : AreEquivalent Γ Δ := by
  obtain ⟨S, S', h1, h2, h3⟩ := h
  refine ⟨S, S', h1, h2, fun g => ?_⟩
  have h4 := h3 (π.symm g)
  unfold settingRep at h4
  rw [Equiv.apply_symm_apply, Matrix.smul_mul, Matrix.mul_smul] at h4
  exact smul_right_injective _ (settingPhase_ne k m (π.symm g)) h4

/-- A map between families that reflects equivalence and lands in a list whose squared dimensions have the same sum
is a bijection of the lists. -/
theorem bijection_of_sum_sq {S S' : List (AnyRep n)} (f : ∀ {d : ℕ}, RepArr n d → RepArr n d)
    (hf : ∀ {d e : ℕ} {Γ : RepArr n d} {Δ : RepArr n e}, AreEquivalent (f Γ) (f Δ) → AreEquivalent Γ Δ)
    (hS : S.Pairwise fun Γ Γ' => ¬ AreEquivalent Γ.2 Γ'.2) (hin : ∀ Γ ∈ S, ∃ Γ' ∈ S', AreEquivalent (f Γ.2) Γ'.2)
    (hpos : ∀ Γ ∈ S', 0 < Γ.1) (hsum : (S.map fun Γ => Γ.1 ^ 2).sum = (S'.map fun Γ => Γ.1 ^ 2).sum) :
    ∃ σ : Fin S.length ≃ Fin S'.length, ∀ a, AreEquivalent (f (S.get a).2) (S'.get (σ a)).2 := by
  have h' : ∀ a : Fin S.length, ∃ b : Fin S'.length, AreEquivalent (f (S.get a).2) (S'.get b).2 := by
    intro a
    obtain ⟨F, hF, hE⟩ := hin _ (List.get_mem S a)
    obtain ⟨b, rfl⟩ := List.get_of_mem hF
    exact ⟨b, hE⟩
  choose g hg using h'
  have hinj : Function.Injective g := by
    intro a b hab
    by_contra hne
    have h1 : AreEquivalent (S.get a).2 (S.get b).2 :=
      hf (AreEquivalent.trans (hg a) (AreEquivalent.symm (hab ▸ hg b)))
    rcases lt_or_gt_of_ne hne with hlt | hlt
    · exact List.pairwise_iff_get.1 hS a b hlt h1
    · exact List.pairwise_iff_get.1 hS b a hlt (AreEquivalent.symm h1)
  have e1 : ∀ M : List (AnyRep n), (M.map fun E => E.1 ^ 2).sum = ∑ a, (M.get a).1 ^ 2 := by
    intro M
    conv_lhs => rw [← List.ofFn_get M, List.map_ofFn, List.sum_ofFn]
    rfl
  have hsurj : Function.Surjective g := by
    by_contra hns
    unfold Function.Surjective at hns
    push Not at hns
    obtain ⟨b, hb⟩ := hns
    rw [e1, e1] at hsum
    have h2 : ∑ a, (S.get a).1 ^ 2 = ∑ b ∈ Finset.univ.image g, (S'.get b).1 ^ 2 := by
      rw [Finset.sum_image fun a _ b _ h => hinj h]
      exact Finset.sum_congr rfl fun a _ => by rw [AreEquivalent.dim_eq (hg a)]
    have h3 : ∑ b ∈ Finset.univ.image g, (S'.get b).1 ^ 2 < ∑ b, (S'.get b).1 ^ 2 := by
      refine Finset.sum_lt_sum_of_subset (Finset.subset_univ _) (Finset.mem_univ b) ?_
        (pow_pos (hpos _ (List.get_mem _ _)) 2) fun _ _ _ => Nat.zero_le _
      simp only [Finset.mem_image, Finset.mem_univ, true_and, not_exists]
      exact hb
    omega
  exact ⟨Equiv.ofBijective g ⟨hinj, hsurj⟩, hg⟩

end Spgrep
