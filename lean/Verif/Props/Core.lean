/-
Properties of core.py: C41, C42, C52.
-/
import Verif.Model.Core
import Verif.Proofs.Core
import Verif.Proofs.NearMiss
import Verif.Props.Transform
import Verif.Props.Group

namespace Spgrep

open Spec Matrix

variable {n : ℕ}

/-! ### C52 -/

/-- C52: for an invertible lattice the transformed k-point has the same Cartesian coordinates as the given one,
`k·t` is the Cartesian product of the k-vector and the translation, two descriptions of the same k-vector give the
same result, and without a reciprocal basis the k-point is not changed. -/
theorem c52_kpoint_basis (lattice : R3) (h : lattice.det ≠ 0) (k : V3) :
    kpointConv lattice none k = .ok k ∧
    ∀ B : R3, ∃ kc, kpointConv lattice (some B) k = .ok kc ∧
      (∀ x, ∑ a, kc a * (lattice⁻¹)ᵀ a x = ∑ a, k a * B a x) ∧
      (∀ t : V3, dot3 kc t = ∑ x, (∑ a, k a * B a x) * (∑ a, t a * lattice a x)) ∧
      ∀ (B' : R3) (k' : V3), (∀ x, ∑ a, k' a * B' a x = ∑ a, k a * B a x) →
        kpointConv lattice (some B') k' = .ok kc := by
  have hu : IsUnit lattice.det := isUnit_iff_ne_zero.2 h
  have hd : (lattice⁻¹)ᵀ.det ≠ 0 := by
    rw [Matrix.det_transpose]
    exact (Matrix.isUnit_nonsing_inv_det lattice hu).ne_zero
  have hud : IsUnit (lattice⁻¹)ᵀ.det := isUnit_iff_ne_zero.2 hd
  have hinv : ((lattice⁻¹)ᵀ)⁻¹ = latticeᵀ := by
    rw [← Matrix.transpose_nonsing_inv, Matrix.nonsing_inv_nonsing_inv _ hu]
  have key : ∀ B k, kpointConv lattice B k =
      .ok ((k ᵥ* B.getD (lattice⁻¹)ᵀ) ᵥ* latticeᵀ) := by
    intro B k
    unfold kpointConv
    rw [linInv_ok h]
    simp only [bind, Except.bind, linInv_ok hd, pure, Except.pure, vecMat_eq, hinv]
  have hlat : (lattice⁻¹)ᵀ * latticeᵀ = 1 := by
    rw [← Matrix.transpose_mul, Matrix.mul_nonsing_inv _ hu, Matrix.transpose_one]
  refine ⟨?_, fun B => ⟨_, key _ _, ?_, ?_, ?_⟩⟩
  · rw [key, Option.getD_none, Matrix.vecMul_vecMul, hlat, Matrix.vecMul_one]
  · intro x
    rw [Option.getD_some]
    have : ((k ᵥ* B) ᵥ* latticeᵀ) ᵥ* (lattice⁻¹)ᵀ = k ᵥ* B := by
      rw [Matrix.vecMul_vecMul, mul_eq_one_comm.1 hlat, Matrix.vecMul_one]
    exact congrFun this x
  · intro t
    rw [Option.getD_some, dot3_eq]
    change _ = (k ᵥ* B) ⬝ᵥ (t ᵥ* lattice)
    rw [← Matrix.dotProduct_mulVec, Matrix.mulVec_transpose]
  · intro B' k' hk'
    rw [key, Option.getD_some, Option.getD_some]
    have : k' ᵥ* B' = k ᵥ* B := funext hk'
    rw [this]

/-- Non-vacuity of C52: a hexagonal lattice. -/
example : (!![1, 0, 0; -1 / 2, Real.sqrt 3 / 2, 0; 0, 0, 2] : R3).det ≠ 0 := by
  rw [Matrix.det_fin_three]
  simp

/-! ### C42 -/

/-- C42, the part that holds: for tolerances with `atol + rtol < 1` the function raises at the check exactly when
some identity rotation has a translation component above `atol`; otherwise its result is that of the enumeration for
the little group.  Translations within `atol` of those of a primitive set are accepted.  Missing: large tolerances
and the way through `get_spacegroup_irreps` (`c42_primitive_check_refuted`). -/
theorem c42_primitive_check_partial (o : Oracles) (rots : Fin n → M3) (trans : Fin n → V3) (k : V3) (real : Bool)
    (method : IrrepMethod) {rtol atol : ℝ} (h0 : 0 ≤ atol) (hr : 0 ≤ rtol) (h1 : atol + rtol < 1) (maxGen : ℕ) :
    ((∃ i, rots i = 1 ∧ ∃ a, atol < |trans i a|) →
      irrepsFromPrimitive o rots trans k real method rtol atol maxGen = .error .valueError) ∧
    ((¬ ∃ i, rots i = 1 ∧ ∃ a, atol < |trans i a|) →
      irrepsFromPrimitive o rots trans k real method rtol atol maxGen =
        (enumerateSmallReps o (fun l => rots ((littleMapping rots k atol).get l))
          (fun l => trans ((littleMapping rots k atol).get l)) k real method rtol atol maxGen).map
            fun out => ⟨littleMapping rots k atol, out⟩) ∧
    (∀ trans' : Fin n → V3, (∀ i, rots i = 1 → trans' i = 0) → (∀ i a, |trans i a - trans' i a| ≤ atol) →
      ¬ ∃ i, rots i = 1 ∧ ∃ a, atol < |trans i a|) := by
  have key := primitiveCheck_eq (rots := rots) (trans := trans) h0 hr h1
  refine ⟨fun h => ?_, fun h => ?_, ?_⟩
  · unfold irrepsFromPrimitive
    rw [key, if_pos h]
    rfl
  · unfold irrepsFromPrimitive
    rw [key, if_neg h]
    simp only [bind, Except.bind, pure, Except.pure]
    cases enumerateSmallReps o (fun l => rots ((littleMapping rots k atol).get l))
          (fun l => trans ((littleMapping rots k atol).get l)) k real method rtol atol maxGen <;> rfl
  · rintro trans' h2 h3 ⟨i, hi, a, ha⟩
    have := h3 i a
    rw [h2 i hi] at this
    simp at this
    linarith

/-- Non-vacuity of C42: both cases occur for the identity alone, with translations `(1/2, 0, 0)` and 0. -/
example : (∃ i, (fun _ : Fin 1 => (1 : M3)) i = 1 ∧ ∃ a, (1e-8 : ℝ) < |(![1 / 2, 0, 0] : V3) a|) ∧
    ¬ ∃ i, (fun _ : Fin 1 => (1 : M3)) i = 1 ∧ ∃ a, (1e-8 : ℝ) < |(0 : V3) a| := by
  refine ⟨⟨0, rfl, 0, by norm_num⟩, ?_⟩
  rintro ⟨_, -, a, h⟩
  norm_num at h

theorem unique_one (rots : Fin 1 → M3) (trans : Fin 1 → V3) :
    uniquePrimitiveSymmetry rots trans = ([rots 0], [fun a => Int.fract (trans 0 a)], fun _ => 0) := by
  unfold uniquePrimitiveSymmetry
  rw [show List.finRange 1 = [0] from rfl]
  simp only [List.foldl_cons, List.foldl_nil, uniqueStep, List.idxOf?_nil, List.nil_append]
  congr 2
  funext i
  rw [Subsingleton.elim i 0, Function.update_self]
  rfl

/-- The dataset of P1 with the translation `t` of the identity. -/
def datasetP1 (t : V3) : Dataset 1 := ⟨fun _ => 1, fun _ => t, 1⟩

/-- **C42 refuted as stated.**  The dataset of P1 in which the translation of the identity is off by `-1e-9`, less
than `atol = 1e-8`, is accepted by `get_spacegroup_irreps_from_primitive_symmetry` but makes `get_spacegroup_irreps`
raise, because the translation is first reduced to `1 - 1e-9`.  With `atol = 2` a twofold rotation counts as identity. -/
theorem c42_primitive_check_refuted (o : Oracles) (hallType : ℤ → SpacegroupType)
    (hP : (hallType 1).hallSymbol = ['P', ' ', '1']) :
    (∀ a, |(datasetP1 ![-1e-9, 0, 0]).translations 0 a - (datasetP1 0).translations 0 a| < 1e-8) ∧
    primitiveCheck (datasetP1 ![-1e-9, 0, 0]).rotations (datasetP1 ![-1e-9, 0, 0]).translations 1e-5 1e-8 = .ok () ∧
    getSpacegroupIrreps o hallType 1 (datasetP1 ![-1e-9, 0, 0]) 0 = .error .valueError ∧
    (∃ rots : Fin 1 → M3, ∃ trans, rots 0 ≠ 1 ∧ primitiveCheck rots trans 1e-5 2 = .error .valueError) := by
  refine ⟨?_, ?_, ?_, ?_⟩
  · intro a
    fin_cases a <;> norm_num [datasetP1]
  · rw [primitiveCheck_eq (by norm_num) (by norm_num) (by norm_num), if_neg]
    rintro ⟨i, -, a, ha⟩
    fin_cases a <;> norm_num [datasetP1] at ha
  · have hd : (1 : R3).det ≠ 0 := by rw [Matrix.det_one]; exact one_ne_zero
    unfold getSpacegroupIrreps
    rw [(c52_kpoint_basis 1 hd 0).1]
    have hprim : getPrimitiveTransformationMatrix hallType 1 = .ok 1 := by
      unfold getPrimitiveTransformationMatrix
      simp only [hP]
      rfl
    have hone : (((1 : R3)⁻¹ * realMat 1 * 1).map rint) = 1 := by
      rw [realMat_one, inv_one, one_mul, one_mul, ← realMat_one, map_rint_realMat]
    dsimp only [bind, Except.bind]
    rw [show (datasetP1 ![-1e-9, 0, 0]).hallNumber = 1 from rfl, hprim]
    dsimp only
    rw [transform_ok hd]
    dsimp only
    rw [unique_one]
    dsimp only
    unfold irrepsFromPrimitive
    rw [primitiveCheck_eq (by norm_num) (by norm_num) (by norm_num), if_pos]
    · rfl
    · refine ⟨⟨0, by simp⟩, hone, 0, ?_⟩
      have h1 : Int.fract (-1e-9 : ℝ) = 1 - 1e-9 := by
        rw [Int.fract_eq_iff]
        refine ⟨by norm_num, by norm_num, -1, by norm_num⟩
      have h2 : ((1 : R3)⁻¹ *ᵥ (datasetP1 ![-1e-9, 0, 0]).translations 0) 0 = -1e-9 := by
        rw [inv_one, Matrix.one_mulVec]
        rfl
      change (1e-8 : ℝ) < |Int.fract (((1 : R3)⁻¹ *ᵥ (datasetP1 ![-1e-9, 0, 0]).translations 0) 0)|
      rw [h2, h1]
      norm_num
  · refine ⟨fun _ => !![-1, 0, 0; 0, -1, 0; 0, 0, 1], fun _ => ![3, 0, 0], by decide, ?_⟩
    unfold primitiveCheck
    rw [if_pos]
    refine ⟨0, ?_, ?_⟩
    · rintro ⟨a, b⟩
      fin_cases a <;> fin_cases b <;> norm_num [IsClose, Matrix.cons_val_two, Matrix.vecHead, Matrix.vecTail]
    · intro h
      have := h 0
      norm_num [IsClose] at this

/-! ### C41 -/

theorem getPrimitive_det {hallType : ℤ → SpacegroupType} {hall : ℤ} {P : R3}
    (h : getPrimitiveTransformationMatrix hallType hall = .ok P) : P.det ≠ 0 := by
  obtain ⟨h1, h2⟩ := c39_primitive_matrix hallType hall
  by_cases hr : 1 ≤ hall ∧ hall ≤ 530
  · by_cases hc : ∃ c, DescribesCentring hall (hallType hall).choice (hallType hall).hallSymbol c
    · obtain ⟨c, hc⟩ := hc
      obtain ⟨P', hP', hd, -⟩ := h1 c hr.1 hr.2 hc
      rw [h] at hP'
      rw [Except.ok.inj hP']
      exact hd
    · obtain ⟨e, he⟩ := h2 (.inr hc)
      rw [h] at he
      cases he
  · obtain ⟨e, he⟩ := h2 (.inl hr)
    rw [h] at he
    cases he

theorem integralIn_of {P : R3} (hd : P.det ≠ 0) {R S : M3}
    (h : R.map (fun x => (x : ℝ)) * P = P * S.map (fun x => (x : ℝ))) : IntegralIn P R :=
  ⟨S, by rw [mul_assoc, h, ← mul_assoc, Matrix.nonsing_inv_mul _ (isUnit_iff_ne_zero.2 hd), one_mul]⟩

theorem fixesKLattice_iff {P : R3} {R R' : M3} {k k' : V3}
    (h : ∀ a, residual R' k' a = ∑ b, P b a * residual R k b) : FixesKLattice P R k ↔ FixesK R' k' := by
  have h' : FixesK R' k' ↔ ∀ a, ∃ m : ℤ, residual R' k' a = m := Iff.rfl
  rw [h']
  simp only [h]
  constructor
  · intro hx a
    obtain ⟨m, hm⟩ := hx (fun b => P b a) ⟨Pi.single a 1, fun b => by
      simp [Pi.single_apply]⟩
    exact ⟨m, by rw [← hm]; exact Finset.sum_congr rfl fun b _ => mul_comm _ _⟩
  · intro hx x hxm
    obtain ⟨c, hc⟩ := hxm
    choose m hm using hx
    refine ⟨∑ a, m a * c a, ?_⟩
    push_cast
    simp only [← hm]
    change ∑ a, residual R k a * x a = _
    simp only [hc, Finset.mul_sum, Finset.sum_mul]
    rw [Finset.sum_comm]
    exact Finset.sum_congr rfl fun a _ => Finset.sum_congr rfl fun b _ => by ring

/-- The primitive operations behind a conventional list. -/
theorem conv_setup {P : R3} (hd : P.det ≠ 0) {rots : Fin n → M3} {trans : Fin n → V3} (kc : V3)
    (hconv : IsConventional P rots trans) (horder : ∀ i j, i ≤ j → FirstOcc rots j → FirstOcc rots i) :
    ∃ (r' : Fin n → M3) (t' : Fin n → V3) (k' : V3) (p : Fin n → Fin (uniquePrimitiveSymmetry r' t').1.length),
      transformSymmetryAndKpoint P rots trans kc = .ok (r', t', k') ∧
      (∀ a, k' a = ∑ b, P b a * kc b) ∧
      (∀ i, (uniquePrimitiveSymmetry r' t').2.2 i = ((p i : ℕ) : ℤ)) ∧
      (∀ i, (uniquePrimitiveSymmetry r' t').1.get (p i) = r' i) ∧
      (∀ i a, ∃ m : ℤ, t' i a - (uniquePrimitiveSymmetry r' t').2.1.getD (p i) 0 a = m) ∧
      Function.Surjective p ∧
      (∀ i j, p i = p j ↔ rots i = rots j) ∧
      (∀ i j l, r' i * r' j = r' l ↔ rots i * rots j = rots l) ∧
      (∀ i, r' i = 1 ↔ rots i = 1) ∧
      (∀ i, FixesKLattice P (rots i) kc ↔ FixesK (r' i) k') ∧
      (∀ i, dot3 k' (t' i) = dot3 kc (trans i)) ∧
      (∀ i j l, lawExp r' t' k' i j l = lawExp rots trans kc i j l) ∧
      (∀ i, P * realMat (r' i) = realMat (rots i) * P) ∧
      (∀ i, t' i = P⁻¹ *ᵥ trans i) := by
  have hu : IsUnit P.det := isUnit_iff_ne_zero.2 hd
  have hint : ∀ i, IntegralIn P (rots i) := fun i => by
    obtain ⟨S, hS⟩ := hconv.1 i
    exact integralIn_of hd hS
  have hok := transform_ok hd rots trans kc
  obtain ⟨r', t', k', h1, h2, h3, h4, h5⟩ := c37_transform P hd rots trans kc
  have hPr : ∀ i, P * realMat (r' i) = realMat (rots i) * P := fun i => (h3 i (hint i)).1
  have hinj : ∀ i R, r' i = R ↔ realMat (rots i) * P = P * realMat R := by
    intro i R
    constructor
    · rintro rfl
      exact (hPr i).symm
    · intro h
      have h' : P * realMat (r' i) = P * realMat R := (hPr i).trans h
      apply realMat_injective
      have := congrArg (fun M => P⁻¹ * M) h'
      simpa only [← mul_assoc, Matrix.nonsing_inv_mul _ hu, one_mul] using this
  have hcancel : ∀ A B : R3, A * P = B * P → A = B := by
    intro A B h
    have := congrArg (fun M => M * P⁻¹) h
    simpa only [mul_assoc, Matrix.mul_nonsing_inv _ hu, mul_one] using this
  have hsame : ∀ i j, r' i = r' j ↔ rots i = rots j := by
    intro i j
    rw [hinj, hPr]
    constructor
    · intro h
      exact realMat_injective (hcancel _ _ h)
    · intro h
      rw [h]
  have hfirst : ∀ i, FirstOcc r' i ↔ FirstOcc rots i := by
    intro i
    unfold FirstOcc
    simp only [ne_eq, hsame]
  obtain ⟨u1, u2, u3, u4, u5⟩ := c38_unique_partial r' t'
  have hmap := u5.2 fun i j hij hj => (hfirst i).2 (horder i j hij ((hfirst j).1 hj))
  choose q hq1 hq2 using hmap
  have hqlt : ∀ i, q i < (uniquePrimitiveSymmetry r' t').1.length := fun i => (List.getElem?_eq_some_iff.1 (hq2 i)).1
  have hqget : ∀ i, (uniquePrimitiveSymmetry r' t').1.get ⟨q i, hqlt i⟩ = r' i := fun i =>
    (List.getElem?_eq_some_iff.1 (hq2 i)).2
  rw [hok] at h1
  have ht' : ∀ i, t' i = P⁻¹ *ᵥ trans i := by
    intro i
    have := (Prod.mk.inj (Prod.mk.inj (Except.ok.inj h1)).2).1
    rw [← this]
  have hk' : k' = Pᵀ *ᵥ kc := ((Prod.mk.inj (Prod.mk.inj (Except.ok.inj h1)).2).2).symm
  refine ⟨r', t', k', fun i => ⟨q i, hqlt i⟩, hok.trans h1, fun a => ?_, hq1, hqget, ?_, ?_, ?_, ?_, ?_, ?_, h2,
    ?_, hPr, ht'⟩
  · rw [hk']
    rfl
  · intro i a
    have hlt : q i < (uniquePrimitiveSymmetry r' t').2.1.length := by rw [u3]; exact hqlt i
    obtain ⟨i₀, -, hr, hfr⟩ := u4 (q i) (r' i) _ (hq2 i) (List.getElem?_eq_getElem hlt)
    obtain ⟨-, -, m, hm⟩ := hfr a
    obtain ⟨c, hc⟩ := hconv.2 i i₀ ((hsame _ _).1 hr.symm)
    refine ⟨c a + m, ?_⟩
    have hsub : t' i - t' i₀ = fun b => (c b : ℝ) := by
      rw [ht', ht', ← Matrix.mulVec_sub, show trans i - trans i₀ = P *ᵥ (fun b => (c b : ℝ)) from funext hc,
        Matrix.mulVec_mulVec, Matrix.nonsing_inv_mul _ hu, Matrix.one_mulVec]
    have hsa : t' i a - t' i₀ a = c a := congrFun hsub a
    have hgd : (uniquePrimitiveSymmetry r' t').2.1.getD (q i) 0 = (uniquePrimitiveSymmetry r' t').2.1[q i] := by
      rw [List.getD_eq_getElem?_getD, List.getElem?_eq_getElem hlt, Option.getD_some]
    rw [hgd]
    push_cast
    rw [← hsa, ← hm]
    ring
  · intro x
    obtain ⟨i, hi⟩ := (u2 _).1 (List.get_mem (uniquePrimitiveSymmetry r' t').1 x)
    refine ⟨i, ?_⟩
    exact (List.nodup_iff_injective_get.1 u1) ((hqget i).trans hi)
  · intro i j
    rw [← hsame]
    constructor
    · intro h
      rw [← hqget i, ← hqget j]
      exact congrArg _ h
    · intro h
      apply List.nodup_iff_injective_get.1 u1
      rw [hqget, hqget, h]
  · intro i j l
    constructor
    · intro h
      apply realMat_injective
      apply hcancel
      rw [realMat_mul, mul_assoc, ← hPr j, ← mul_assoc, ← hPr i, mul_assoc, ← realMat_mul, h, hPr l]
    · exact h4 i j l (hint i) (hint j)
  · intro i
    rw [hinj, realMat_one, mul_one]
    constructor
    · intro h
      apply realMat_injective
      apply hcancel
      rw [h, realMat_one, one_mul]
    · intro h
      rw [h, realMat_one, one_mul]
  · intro i
    exact fixesKLattice_iff (h3 i (hint i)).2.1
  · intro i j l
    unfold lawExp
    rw [dot3_eq, dot3_eq, hk']
    have e1 : (fun a => rotVec (rots i) (trans j) a + trans i a - trans l a) =
        P *ᵥ (fun a => rotVec (r' i) (t' j) a + t' i a - t' l a) := by
      have e2 : (fun a => rotVec (r' i) (t' j) a + t' i a - t' l a) =
          realMat (r' i) *ᵥ (t' j) + t' i - t' l := rfl
      rw [e2, Matrix.mulVec_sub, Matrix.mulVec_add, Matrix.mulVec_mulVec, hPr, ht', ht', ht', Matrix.mulVec_mulVec,
        Matrix.mulVec_mulVec, Matrix.mulVec_mulVec, mul_assoc, Matrix.mul_nonsing_inv _ hu, mul_one,
        Matrix.one_mulVec, Matrix.one_mulVec]
      rfl
    rw [e1, Matrix.mulVec_transpose, ← Matrix.dotProduct_mulVec]

/-- What a successful run of `get_spacegroup_irreps` went through. -/
theorem spacegroupIrreps_ok {o : Oracles} {hallType : ℤ → SpacegroupType} {lattice : R3} {dataset : Dataset n}
    {k kc : V3} {method : IrrepMethod} {reciprocal : Option R3} {rtol atol : ℝ} {maxGen : ℕ} {P : R3}
    (hP : getPrimitiveTransformationMatrix hallType dataset.hallNumber = .ok P)
    (hkc : kpointConv lattice reciprocal k = .ok kc) {r' : Fin n → M3} {t' : Fin n → V3} {k' : V3}
    (htr : transformSymmetryAndKpoint P dataset.rotations dataset.translations kc = .ok (r', t', k'))
    {out : (m : ℕ) × (Fin m → Fin n) × List (AnyRep m)} {w : Bool}
    (hrun : getSpacegroupIrreps o hallType lattice dataset k method reciprocal rtol atol maxGen = .ok (out, w)) :
    ∃ l, irrepsFromPrimitive o (uniquePrimitiveSymmetry r' t').1.get
        (fun i => (uniquePrimitiveSymmetry r' t').2.1.getD i 0) k' false method rtol atol maxGen =
          .ok ⟨littleMapping (uniquePrimitiveSymmetry r' t').1.get k' atol, .complex l, w⟩ ∧
      enumerateSmallReps o
        (fun i => (uniquePrimitiveSymmetry r' t').1.get
          ((littleMapping (uniquePrimitiveSymmetry r' t').1.get k' atol).get i))
        (fun i => (uniquePrimitiveSymmetry r' t').2.1.getD
          ((littleMapping (uniquePrimitiveSymmetry r' t').1.get k' atol).get i) 0) k' false method rtol atol maxGen =
            .ok (.complex l, w) ∧
      out = adjustPhase t' k' (fun i => (uniquePrimitiveSymmetry r' t').2.1.getD i 0)
        (uniquePrimitiveSymmetry r' t').2.2 _ (l.map Prod.fst) := by
  unfold getSpacegroupIrreps at hrun
  simp only [hkc, hP, htr, bind, Except.bind] at hrun
  cases hp : irrepsFromPrimitive o (uniquePrimitiveSymmetry r' t').1.get
        (fun i => (uniquePrimitiveSymmetry r' t').2.1.getD i 0) k' false method rtol atol maxGen with
  | error e => rw [hp] at hrun; cases hrun
  | ok res =>
    rw [hp] at hrun
    have hp' := hp
    unfold irrepsFromPrimitive at hp'
    simp only [bind, Except.bind, pure, Except.pure] at hp'
    split at hp'
    · cases hp'
    · split at hp'
      · cases hp'
      · rename_i v hv
        obtain rfl := Except.ok.inj hp'
        obtain ⟨out', w'⟩ := v
        cases out' with
        | real l => cases hrun
        | complex l =>
          obtain ⟨h1, h2⟩ := Prod.mk.inj (Except.ok.inj hrun)
          subst h2
          exact ⟨l, rfl, hv, h1.symm⟩

/-- C41 for every k-point without near misses. -/
theorem c41_near_miss {o : Oracles} {hallType : ℤ → SpacegroupType} {lattice : R3} {dataset : Dataset n}
    {k kc : V3} {method : IrrepMethod} {reciprocal : Option R3} {rtol atol : ℝ} {maxGen : ℕ} {P : R3}
    (hP : getPrimitiveTransformationMatrix hallType dataset.hallNumber = .ok P)
    (hkc : kpointConv lattice reciprocal k = .ok kc)
    (hconv : IsConventional P dataset.rotations dataset.translations)
    (horder : ∀ i j, i ≤ j → FirstOcc dataset.rotations j → FirstOcc dataset.rotations i)
    (hnm : NoNearMiss P dataset.rotations kc atol) (h0 : 0 ≤ atol)
    {m : ℕ} {mapping : Fin m → Fin n} {irreps : List (AnyRep m)} {w : Bool}
    (hrun : getSpacegroupIrreps o hallType lattice dataset k method reciprocal rtol atol maxGen =
      .ok (⟨m, mapping, irreps⟩, w)) :
    StrictMono mapping ∧
    (∀ i, (∃ q, mapping q = i) ↔ FixesKLattice P (dataset.rotations i) kc) ∧
    ∀ δ : ℝ,
      (∀ (r' : Fin n → M3) (t' : Fin n → V3) (k' : V3) (little : List _) (l : List (AnyRep little.length × ℤ)),
        transformSymmetryAndKpoint P dataset.rotations dataset.translations kc = .ok (r', t', k') →
        irrepsFromPrimitive o (uniquePrimitiveSymmetry r' t').1.get
          (fun i => (uniquePrimitiveSymmetry r' t').2.1.getD i 0) k' false method rtol atol maxGen =
            .ok ⟨little, .complex l, w⟩ →
        ∀ x ∈ l, ∃ D : RepArr little.length x.1.1, (∀ g i j, ‖D g i j - x.1.2 g i j‖ ≤ δ) ∧ IsUnitaryRep D ∧
          SpaceGroupLaw (fun i => (uniquePrimitiveSymmetry r' t').1.get (little.get i))
            (fun i => (uniquePrimitiveSymmetry r' t').2.1.getD (little.get i) 0) k' (fun _ _ => 1) D) →
      ∀ E ∈ irreps, ∃ Γ : RepArr m E.1, (∀ g i j, ‖Γ g i j - E.2 g i j‖ ≤ δ + 1e-8) ∧ IsUnitaryRep Γ ∧
        SpaceGroupLaw (fun q => dataset.rotations (mapping q)) (fun q => dataset.translations (mapping q)) kc
          (fun _ _ => 1) Γ ∧
        ∀ q, dataset.rotations (mapping q) = 1 → Γ q =
          Complex.exp (-2 * Real.pi * Complex.I *
            ((∑ a, kc a * dataset.translations (mapping q) a : ℝ) : ℂ)) • (1 : Matrix (Fin E.1) (Fin E.1) ℂ) := by
  have hd := getPrimitive_det hP
  obtain ⟨r', t', k', p, htr, hk', hp, hpr, hpt, hsurj, -, hmul, hone, hfix, hdot, hexp, hPr, -⟩ :=
    conv_setup hd kc hconv horder
  obtain ⟨l, hprim, -, hout⟩ := spacegroupIrreps_ok hP hkc htr hrun
  have hlit : ∀ i, i ∈ littleMapping (uniquePrimitiveSymmetry r' t').1.get k' atol ↔
      FixesK ((uniquePrimitiveSymmetry r' t').1.get i) k' := by
    intro i
    rw [mem_littleMapping]
    obtain ⟨j, rfl⟩ := hsurj i
    rw [hpr]
    exact inLittle_of_noNearMiss h0 hnm (hPr j) hk' (hfix j)
  unfold adjustPhase at hout
  obtain ⟨rfl, h2⟩ := Sigma.mk.inj_iff.1 hout
  obtain ⟨rfl, rfl⟩ := Prod.mk.inj (eq_of_heq h2)
  refine ⟨keptOps_strictMono _ _, fun i => ?_, fun δ hδ E hE => ?_⟩
  · rw [keptOps_exists hp, hlit, hpr, hfix]
  · rw [List.mem_map] at hE
    obtain ⟨D, hD, rfl⟩ := hE
    obtain ⟨x, hx, rfl⟩ := List.mem_map.1 hD
    obtain ⟨D, hnear, hunit, hlaw⟩ := hδ r' t' k' _ l htr hprim x hx
    have hadj := adjust_law (uRots := (uniquePrimitiveSymmetry r' t').1.get)
      (uTrans := fun i => (uniquePrimitiveSymmetry r' t').2.1.getD i 0)
      (mapping := littleMapping (uniquePrimitiveSymmetry r' t').1.get k' atol) (D := D) (z := fun _ _ => 1)
      hp hpr hpt (fun l => (hlit _).1 (List.get_mem _ l)) hlaw
    refine ⟨adjusted t' k' (fun i => (uniquePrimitiveSymmetry r' t').2.1.getD i 0)
      (uniquePrimitiveSymmetry r' t').2.2 _ D, adjusted_near hnear, adjusted_unitary hunit, ?_, fun q hq => ?_⟩
    · rw [spaceGroupLaw_exp] at hadj ⊢
      intro a b c habc
      refine (hadj a b c ((hmul _ _ _).2 habc)).trans ?_
      congr 3
      exact hexp _ _ _
    · have hget := keptOps_get (mapping := littleMapping (uniquePrimitiveSymmetry r' t').1.get k' atol) hp q
      unfold adjusted
      dsimp only at hq ⊢
      generalize (keptOps (uniquePrimitiveSymmetry r' t').2.2 (littleMapping (uniquePrimitiveSymmetry r' t').1.get k'
          atol)).get q = kq at hget hq ⊢
      rw [identity_of_law hlaw (isUnit_of_unitary hunit _) (by rw [hget, hpr]; exact (hone _).2 hq), smul_smul, ← expPhase_add,
        ← expPhase_spec]
      congr 2
      change _ = dot3 kc (dataset.translations kq.1)
      rw [← hdot]
      simp only [dot3, Fin.sum_univ_three]
      ring

/-- C41, for lists in which all first occurrences of a rotation precede all repetitions: `mapping_little_group`
lists, in increasing order, exactly the operations whose rotation fixes `k` modulo the reciprocal of the centred
lattice; if the primitive irreps are within `δ` of unitary families obeying the space group law, the returned arrays
are within `δ + 1e-8` (the purification) of families obeying the law for the conventional operations with the
user's k-point, in which a pure translation is `exp(-2πi k·t)` times the identity.  Missing: other orders
(`c41_conventional_refuted`). -/
theorem c41_conventional_partial {o : Oracles} {hallType : ℤ → SpacegroupType} {lattice : R3} {dataset : Dataset n}
    {k kc : V3} {method : IrrepMethod} {reciprocal : Option R3} {rtol atol : ℝ} {maxGen : ℕ} {P : R3}
    (hP : getPrimitiveTransformationMatrix hallType dataset.hallNumber = .ok P)
    (hkc : kpointConv lattice reciprocal k = .ok kc)
    (hconv : IsConventional P dataset.rotations dataset.translations)
    (horder : ∀ i j, i ≤ j → FirstOcc dataset.rotations j → FirstOcc dataset.rotations i)
    {N : ℕ} (hN : 0 < N) (hk : ∀ a, ∃ c : ℤ, (N : ℝ) * ∑ b, P b a * kc b = c) (h0 : 0 ≤ atol) (hat : atol < 1 / N)
    {m : ℕ} {mapping : Fin m → Fin n} {irreps : List (AnyRep m)} {w : Bool}
    (hrun : getSpacegroupIrreps o hallType lattice dataset k method reciprocal rtol atol maxGen =
      .ok (⟨m, mapping, irreps⟩, w)) :
    StrictMono mapping ∧
    (∀ i, (∃ q, mapping q = i) ↔ FixesKLattice P (dataset.rotations i) kc) ∧
    ∀ δ : ℝ,
      (∀ (r' : Fin n → M3) (t' : Fin n → V3) (k' : V3) (little : List _) (l : List (AnyRep little.length × ℤ)),
        transformSymmetryAndKpoint P dataset.rotations dataset.translations kc = .ok (r', t', k') →
        irrepsFromPrimitive o (uniquePrimitiveSymmetry r' t').1.get
          (fun i => (uniquePrimitiveSymmetry r' t').2.1.getD i 0) k' false method rtol atol maxGen =
            .ok ⟨little, .complex l, w⟩ →
        ∀ x ∈ l, ∃ D : RepArr little.length x.1.1, (∀ g i j, ‖D g i j - x.1.2 g i j‖ ≤ δ) ∧ IsUnitaryRep D ∧
          SpaceGroupLaw (fun i => (uniquePrimitiveSymmetry r' t').1.get (little.get i))
            (fun i => (uniquePrimitiveSymmetry r' t').2.1.getD (little.get i) 0) k' (fun _ _ => 1) D) →
      ∀ E ∈ irreps, ∃ Γ : RepArr m E.1, (∀ g i j, ‖Γ g i j - E.2 g i j‖ ≤ δ + 1e-8) ∧ IsUnitaryRep Γ ∧
        SpaceGroupLaw (fun q => dataset.rotations (mapping q)) (fun q => dataset.translations (mapping q)) kc
          (fun _ _ => 1) Γ ∧
        ∀ q, dataset.rotations (mapping q) = 1 → Γ q =
          Complex.exp (-2 * Real.pi * Complex.I *
            ((∑ a, kc a * dataset.translations (mapping q) a : ℝ) : ℂ)) • (1 : Matrix (Fin E.1) (Fin E.1) ℂ) :=
  c41_near_miss hP hkc hconv horder (noNearMiss_of_rational hconv.1 hN hk h0 hat) h0 hrun

end Spgrep
