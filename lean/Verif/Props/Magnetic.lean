/-
C55: time reversals in get_spacegroup_spinor_irreps.
-/
import Verif.Props.CoreSpinor
import Verif.Props.CorepLaw

namespace Spgrep

open Spec Matrix

variable {n : ℕ}

/-- The reduction to the primitive cell, as far as it only concerns rotations. -/
theorem conv_rotations {P : R3} (hd : P.det ≠ 0) {rots : Fin n → M3} (trans : Fin n → V3) (kc : V3)
    (hint : ∀ i, ∃ S : M3, (rots i).map (fun x => (x : ℝ)) * P = P * S.map (fun x => (x : ℝ)))
    (horder : ∀ i j, i ≤ j → FirstOcc rots j → FirstOcc rots i) :
    ∃ (r' : Fin n → M3) (t' : Fin n → V3) (k' : V3) (uR : List M3) (uT : List V3) (mapTo : Fin n → ℤ)
      (p : Fin n → Fin uR.length),
      transformSymmetryAndKpoint P rots trans kc = .ok (r', t', k') ∧
      uniquePrimitiveSymmetry r' t' = (uR, uT, mapTo) ∧
      (∀ a, k' a = ∑ b, P b a * kc b) ∧ (∀ i, mapTo i = ((p i : ℕ) : ℤ)) ∧ (∀ i, uR.get (p i) = r' i) ∧
      Function.Surjective p ∧ (∀ i j, p i = p j ↔ rots i = rots j) ∧
      (∀ i, FixesKLattice P (rots i) kc ↔ FixesK (r' i) k') ∧ (∀ i, P * realMat (r' i) = realMat (rots i) * P) ∧
      (∀ i, FirstOcc rots i → (p i : ℕ) = i) ∧ ∀ x : Fin uR.length, ∃ i : Fin n, (i : ℕ) = x ∧ FirstOcc rots i ∧ p i = x := by
  have hconv : IsConventional P rots (fun _ => 0) := ⟨hint, fun i j _ => ⟨0, by simp⟩⟩
  have hu : IsUnit P.det := isUnit_iff_ne_zero.2 hd
  have hint' : ∀ i, IntegralIn P (rots i) := fun i => by
    obtain ⟨S, hS⟩ := hint i
    exact integralIn_of hd hS
  obtain ⟨r', t', k', h1, h2, h3, h4, h5⟩ := c37_transform P hd rots trans kc
  have hPr : ∀ i, P * realMat (r' i) = realMat (rots i) * P := fun i => (h3 i (hint' i)).1
  have hsame : ∀ i j, r' i = r' j ↔ rots i = rots j := by
    intro i j
    constructor
    · intro h
      apply realMat_injective
      have h6 : realMat (rots i) * P = realMat (rots j) * P := by rw [← hPr, ← hPr, h]
      have := congrArg (fun M => M * P⁻¹) h6
      simpa only [mul_assoc, Matrix.mul_nonsing_inv _ hu, mul_one] using this
    · intro h
      apply realMat_injective
      have h6 : P * realMat (r' i) = P * realMat (r' j) := by rw [hPr, hPr, h]
      have := congrArg (fun M => P⁻¹ * M) h6
      simpa only [← mul_assoc, Matrix.nonsing_inv_mul _ hu, one_mul] using this
  have hfirst : ∀ i, FirstOcc r' i ↔ FirstOcc rots i := by
    intro i
    unfold FirstOcc
    simp only [ne_eq, hsame]
  obtain ⟨u1, u2, u3, u4, u5⟩ := c38_unique_partial r' t'
  have hmap := u5.2 fun i j hij hj => (hfirst i).2 (horder i j hij ((hfirst j).1 hj))
  choose q hq1 hq2 using hmap
  have hqlt : ∀ i, q i < (uniquePrimitiveSymmetry r' t').1.length := fun i => (List.getElem?_eq_some_iff.1 (hq2 i)).1
  have hqget : ∀ i, (uniquePrimitiveSymmetry r' t').1.get ⟨q i, hqlt i⟩ = r' i := fun i =>
    (List.getElem?_eq_some_iff.1 (hq2 i)).2
  have hk' : k' = Pᵀ *ᵥ kc := by
    rw [transform_ok hd] at h1
    exact ((Prod.mk.inj (Prod.mk.inj (Except.ok.inj h1)).2).2).symm
  have hnew : ∀ i, FirstOcc rots i → q i = i := by
    intro i hi
    obtain ⟨-, -, -, -, h6, -⟩ := uniqueInv_all r' t'
    have h7 := (h6 i i.2 ((hfirst i).2 hi)).1
    have h8 := (hq1 i).symm.trans h7
    exact_mod_cast h8
  refine ⟨r', t', k', (uniquePrimitiveSymmetry r' t').1, (uniquePrimitiveSymmetry r' t').2.1,
    (uniquePrimitiveSymmetry r' t').2.2, fun i => ⟨q i, hqlt i⟩, h1, rfl, fun a => by rw [hk']; rfl, hq1, hqget, ?_, ?_, ?_,
    hPr, hnew, ?_⟩
  · intro x
    obtain ⟨i, hi⟩ := (u2 _).1 (List.get_mem (uniquePrimitiveSymmetry r' t').1 x)
    exact ⟨i, (List.nodup_iff_injective_get.1 u1) ((hqget i).trans hi)⟩
  · intro i j
    rw [← hsame]
    constructor
    · intro h
      rw [← hqget i, ← hqget j]
      exact congrArg _ h
    · intro h
      apply List.nodup_iff_injective_get.1 u1
      rw [hqget, hqget, h]
  · intro i
    exact fixesKLattice_iff (h3 i (hint' i)).2.1
  · intro x
    have hlt : (x : ℕ) < (uniquePrimitiveSymmetry r' t').2.1.length := by rw [u3]; exact x.2
    obtain ⟨i, hi, hr, -⟩ := u4 x _ _ (List.getElem?_eq_getElem x.2) (List.getElem?_eq_getElem hlt)
    have h6 : (⟨q i, hqlt i⟩ : Fin (uniquePrimitiveSymmetry r' t').1.length) = x :=
      (List.nodup_iff_injective_get.1 u1) ((hqget i).trans hr)
    refine ⟨i, ?_, (hfirst i).1 hi, h6⟩
    rw [← hnew i ((hfirst i).1 hi), ← h6]

/-- The flags of `enumerate_spinor_small_corepresentations` are the given time reversals. -/
theorem coreps_antiLinear {o : Oracles} {randomI : ∀ d, ℕ → Matrix (Fin d) (Fin d) ℂ} {L : R3} {rots : Fin n → M3}
    {trans : Fin n → V3} {trs : Fin n → ℤ} {k : V3} {method : IrrepMethod} {rtol atol : ℝ} {maxGen : ℕ} {out : CorepOut n}
    {w : Bool} (h : enumerateSpinorSmallCoreps o randomI L rots trans trs k method rtol atol maxGen = .ok (out, w)) (i : Fin n) :
    out.antiLinear i = decide (trs i = 1) := by
  unfold enumerateSpinorSmallCoreps at h
  split at h
  · rename_i h0
    simp only [bind, Except.bind, pure, Except.pure] at h
    split at h
    · cases h
    · obtain ⟨rfl, -⟩ := Prod.mk.inj (Except.ok.inj h)
      simp [h0 i]
  · simp only [bind, Except.bind, pure, Except.pure] at h
    split at h
    · cases h
    · split at h
      · cases h
      · split at h
        · cases h
        · rename_i v hv
          split at h
          · cases h
          · split at h
            · cases h
            · split at h
              · cases h
              · split at h
                · cases h
                · obtain ⟨rfl, -⟩ := Prod.mk.inj (Except.ok.inj h)
                  unfold getCorepSpinorFactorSystem at hv
                  simp only [bind, Except.bind, pure, Except.pure] at hv
                  split at hv
                  · cases hv
                  · split at hv
                    · cases hv
                    · obtain rfl := Except.ok.inj hv
                      rfl

/-- What `get_spacegroup_spinor_irreps` computes for a magnetic structure: for a unique rotation `x` it takes the time reversal
of the operation number `f x = x` of the input. -/
theorem spacegroupCoreps_eq {o : Oracles} {randomI : ∀ d, ℕ → Matrix (Fin d) (Fin d) ℂ} {hallType : ℤ → SpacegroupType}
    {lattice : R3} {dataset : MagneticDataset n} {k kc : V3} {method : IrrepMethod} {reciprocal : Option R3} {rtol atol : ℝ}
    {maxGen : ℕ} {P : R3} (hP : getPrimitiveTransformationMatrix hallType dataset.hallNumber = .ok P)
    (hkc : kpointConv lattice reciprocal k = .ok kc) {r' : Fin n → M3} {t' : Fin n → V3} {k' : V3}
    (htr : transformSymmetryAndKpoint P dataset.rotations dataset.translations kc = .ok (r', t', k'))
    {uR : List M3} {uT : List V3} {mapTo : Fin n → ℤ} (hu : uniquePrimitiveSymmetry r' t' = (uR, uT, mapTo))
    {p : Fin n → Fin uR.length} (hp : ∀ i, mapTo i = ((p i : ℕ) : ℤ)) {f : Fin uR.length → Fin n}
    (hf : ∀ x, (f x : ℕ) = x) (hpf : ∀ x, p (f x) = x) :
    getSpacegroupSpinorCoreps o randomI hallType lattice dataset k method reciprocal rtol atol maxGen =
      (primitiveCheck uR.get (fun i => uT.getD i 0) rtol atol).bind fun _ =>
      (enumerateSpinorSmallCoreps o randomI (P.transpose * lattice) (fun i => uR.get ((littleMapping uR.get k' atol).get i))
        (fun i => uT.getD ((littleMapping uR.get k' atol).get i) 0)
        (fun i => dataset.timeReversals (f ((littleMapping uR.get k' atol).get i))) k' method rtol atol maxGen).bind fun x =>
      .ok (⟨_, (adjustPhase t' k' (fun i => uT.getD i 0) mapTo (littleMapping uR.get k' atol) x.1.coreps).2.1,
        (adjustPhase t' k' (fun i => uT.getD i 0) mapTo (littleMapping uR.get k' atol) x.1.coreps).2.2,
        (littleMapping uR.get k' atol).length, x.1.spinorFactor, x.1.unitary, x.1.antiLinear⟩, x.2) := by
  have e1 : uR = (uniquePrimitiveSymmetry r' t').1 := by rw [hu]
  have e2 : uT = (uniquePrimitiveSymmetry r' t').2.1 := by rw [hu]
  have e3 : mapTo = (uniquePrimitiveSymmetry r' t').2.2 := by rw [hu]
  subst e1 e2 e3
  clear hu
  have hfp : ∀ i, f (p i) = ⟨p i, by rw [← hf]; exact (f (p i)).2⟩ := fun i => Fin.ext (hf _)
  have h1 : arrayM (fun i => do return dataset.timeReversals (← toIndex n ((uniquePrimitiveSymmetry r' t').2.2 i))) 0 =
      (.ok fun i => dataset.timeReversals (f (p i)) : Except PyErr _) := by
    refine arrayM_ok (fun i => ?_) 0
    have h2 : toIndex n ((uniquePrimitiveSymmetry r' t').2.2 i) = .ok (f (p i)) := by
      have hlt : ((p i : ℕ) : ℤ) < n := by rw [← hf]; exact_mod_cast (f (p i)).2
      unfold toIndex
      rw [dif_pos (by rw [hp]; exact ⟨by positivity, hlt⟩), hfp]
      congr 1
      refine Fin.ext ?_
      simp [hp]
    rw [h2]
    rfl
  have h2 : takeAt (fun i => dataset.timeReversals (f (p i))) (littleMapping (uniquePrimitiveSymmetry r' t').1.get k' atol) =
      .ok fun l => dataset.timeReversals (f ((littleMapping (uniquePrimitiveSymmetry r' t').1.get k' atol).get l)) := by
    unfold takeAt
    refine arrayM_ok (fun l => ?_) 0
    generalize (littleMapping (uniquePrimitiveSymmetry r' t').1.get k' atol).get l = x
    have hlt : (x : ℕ) < n := by rw [← hf]; exact (f x).2
    rw [dif_pos hlt, show (⟨(x : ℕ), hlt⟩ : Fin n) = f x from Fin.ext (hf x).symm]
    dsimp only
    rw [hpf]
  unfold getSpacegroupSpinorCoreps
  simp only [hkc, hP, htr, bind, Except.bind, pure, Except.pure] at h1 ⊢
  rw [h1]
  simp only [corepsFromPrimitive, bind, Except.bind, pure, Except.pure, h2]
  cases primitiveCheck (uniquePrimitiveSymmetry r' t').1.get (fun i => (uniquePrimitiveSymmetry r' t').2.1.getD i 0) rtol atol with
  | error e => rfl
  | ok _ =>
    cases enumerateSpinorSmallCoreps o randomI (P.transpose * lattice)
        (fun i => (uniquePrimitiveSymmetry r' t').1.get ((littleMapping (uniquePrimitiveSymmetry r' t').1.get k' atol).get i))
        (fun i => (uniquePrimitiveSymmetry r' t').2.1.getD ((littleMapping (uniquePrimitiveSymmetry r' t').1.get k' atol).get i) 0)
        (fun i => dataset.timeReversals (f ((littleMapping (uniquePrimitiveSymmetry r' t').1.get k' atol).get i))) k' method rtol
        atol maxGen with
    | error e => rfl
    | ok x => rfl

theorem strictMono_fin {a b : ℕ} (h : a = b) {f : Fin a → Fin b} (hf : StrictMono f) (q : Fin a) : (f q : ℕ) = q := by
  subst h
  exact congrArg Fin.val (le_antisymm hf.apply_le hf.le_apply)

/-- **C55 (partial)**: for a magnetic structure, operations listed so that the first occurrences of all rotations precede
repetitions, and any successful run: the listed operations are exactly those whose rotation fixes the k-point; there is one
anti_linear flag per *distinct rotation* of the little group, and it is the time reversal of the first listed operation with
this rotation.  Consequently the flags are right for all operations exactly when operations of the little group with equal
rotations have equal time reversals (types I and III), and there is one flag per operation, in the same order, when the
rotations are distinct.  Missing: one flag per operation, with its time reversal, for grey groups and type IV, which is false
(`c55_grey_refuted`, `c55_refuted`). -/
theorem c55_time_reversal_partial {o : Oracles} {randomI : ∀ d, ℕ → Matrix (Fin d) (Fin d) ℂ}
    {hallType : ℤ → SpacegroupType} {lattice : R3} {dataset : MagneticDataset n} {k kc : V3} {method : IrrepMethod}
    {reciprocal : Option R3} {rtol atol : ℝ} {maxGen : ℕ} {P : R3}
    (hP : getPrimitiveTransformationMatrix hallType dataset.hallNumber = .ok P)
    (hkc : kpointConv lattice reciprocal k = .ok kc)
    (hint : ∀ i, ∃ S : M3, (dataset.rotations i).map (fun x => (x : ℝ)) * P = P * S.map (fun x => (x : ℝ)))
    (horder : ∀ i j, i ≤ j → FirstOcc dataset.rotations j → FirstOcc dataset.rotations i)
    (htrs : ∀ i, dataset.timeReversals i = 0 ∨ dataset.timeReversals i = 1)
    (hnm : NoNearMiss P dataset.rotations kc atol) (ha : 0 ≤ atol)
    {out : SpinorOut n} {w : Bool}
    (hrun : getSpacegroupSpinorCoreps o randomI hallType lattice dataset k method reciprocal rtol atol maxGen = .ok (out, w)) :
    StrictMono out.mapping ∧
    (∀ i, (∃ q, out.mapping q = i) ↔ FixesKLattice P (dataset.rotations i) kc) ∧
    out.primOrder = (Finset.univ.image fun q => dataset.rotations (out.mapping q)).card ∧
    ∃ pos : Fin out.order → Fin out.primOrder, Function.Surjective pos ∧
      (∀ q q', pos q = pos q' ↔ dataset.rotations (out.mapping q) = dataset.rotations (out.mapping q')) ∧
      (∀ q, FirstOcc dataset.rotations (out.mapping q) →
        (out.antiLinear (pos q) = true ↔ dataset.timeReversals (out.mapping q) = 1)) ∧
      ((∀ q, out.antiLinear (pos q) = true ↔ dataset.timeReversals (out.mapping q) = 1) ↔
        ∀ q q', dataset.rotations (out.mapping q) = dataset.rotations (out.mapping q') →
          dataset.timeReversals (out.mapping q) = dataset.timeReversals (out.mapping q')) ∧
      ((∀ q q', dataset.rotations (out.mapping q) = dataset.rotations (out.mapping q') → q = q') →
        out.order = out.primOrder ∧ ∀ q, (pos q : ℕ) = q) := by
  have hd := getPrimitive_det hP
  obtain ⟨r', t', k', uR, uT, mapTo, p, htr, hu, hk', hp, hpr, hsurj, hpi, hfix, hPr, hfirst, hx⟩ :=
    conv_rotations hd dataset.translations kc hint horder
  choose f hf1 hf2 hf3 using hx
  rw [spacegroupCoreps_eq hP hkc htr hu hp hf1 hf3] at hrun
  have hlit : ∀ x, x ∈ littleMapping uR.get k' atol ↔ FixesK (uR.get x) k' := by
    intro x
    obtain ⟨i, rfl⟩ := hsurj x
    rw [mem_littleMapping, hpr]
    exact inLittle_of_noNearMiss ha hnm (hPr i) hk' (hfix i)
  have hsortL : (littleMapping uR.get k' atol).Pairwise (· < ·) := by
    unfold littleMapping
    exact (List.pairwise_lt_finRange _).filter _
  have hnd := List.nodup_iff_injective_get.1 (littleMapping_nodup uR.get k' atol)
  cases hc : primitiveCheck uR.get (fun i => uT.getD i 0) rtol atol with
  | error e => rw [hc] at hrun; cases hrun
  | ok _ =>
  rw [hc] at hrun
  cases hE : enumerateSpinorSmallCoreps o randomI (P.transpose * lattice)
      (fun i => uR.get ((littleMapping uR.get k' atol).get i))
      (fun i => uT.getD ((littleMapping uR.get k' atol).get i) 0)
      (fun i => dataset.timeReversals (f ((littleMapping uR.get k' atol).get i))) k' method rtol atol maxGen with
  | error e => rw [hE] at hrun; cases hrun
  | ok x =>
  rw [hE] at hrun
  obtain ⟨cout, w'⟩ := x
  have hanti := coreps_antiLinear hE
  obtain ⟨rfl, -⟩ := Prod.mk.inj (Except.ok.inj hrun)
  clear hE hrun hc
  generalize littleMapping uR.get k' atol = mapping at *
  have hget := keptOps_get (mapping := mapping) hp
  have hs : ∀ l, ∃ q, ((keptOps mapTo mapping).get q).2 = l := by
    intro l
    obtain ⟨q, hq⟩ := (keptOps_exists hp (f (mapping.get l))).2 (by rw [hf3]; exact List.get_mem _ _)
    refine ⟨q, hnd ?_⟩
    have h2 := hget q
    rwa [hq, hf3] at h2
  have hker : ∀ q q' : Fin (keptOps mapTo mapping).length, ((keptOps mapTo mapping).get q).2 = ((keptOps mapTo mapping).get q').2 ↔
      dataset.rotations ((keptOps mapTo mapping).get q).1 = dataset.rotations ((keptOps mapTo mapping).get q').1 := by
    intro q q'
    rw [← hpi, ← hget q, ← hget q']
    exact hnd.eq_iff.symm
  have hfl : ∀ q : Fin (keptOps mapTo mapping).length, FirstOcc dataset.rotations ((keptOps mapTo mapping).get q).1 →
      f (mapping.get ((keptOps mapTo mapping).get q).2) = ((keptOps mapTo mapping).get q).1 := by
    intro q hq
    refine Fin.ext ?_
    rw [hf1, hget, hfirst _ hq]
  have hfg : ∀ q : Fin (keptOps mapTo mapping).length,
      ∃ q₀, ((keptOps mapTo mapping).get q₀).2 = ((keptOps mapTo mapping).get q).2 ∧
        f (mapping.get ((keptOps mapTo mapping).get q).2) = ((keptOps mapTo mapping).get q₀).1 := by
    intro q
    obtain ⟨q₀, hq₀⟩ := (keptOps_exists hp (f (mapping.get ((keptOps mapTo mapping).get q).2))).2
      (by rw [hf3]; exact List.get_mem _ _)
    refine ⟨q₀, hnd ?_, hq₀.symm⟩
    rw [hget q₀, hq₀, hf3]
  have hflag : ∀ q : Fin (keptOps mapTo mapping).length, (cout.antiLinear ((keptOps mapTo mapping).get q).2 = true ↔
      dataset.timeReversals (f (mapping.get ((keptOps mapTo mapping).get q).2)) = 1) := by
    intro q
    rw [hanti]
    exact decide_eq_true_iff
  refine ⟨keptOps_strictMono _ _, fun i => ?_, ?_, fun q => ((keptOps mapTo mapping).get q).2, hs, hker, ?_, ?_, ?_⟩
  · change (∃ q, ((keptOps mapTo mapping).get q).1 = i) ↔ _
    rw [keptOps_exists hp, hlit, hpr, hfix]
  · change mapping.length = (Finset.univ.image fun q : Fin (keptOps mapTo mapping).length =>
      dataset.rotations ((keptOps mapTo mapping).get q).1).card
    choose sec hsec using hs
    have himg : (Finset.univ.image fun q => dataset.rotations ((keptOps mapTo mapping).get q).1) =
        Finset.univ.image fun l => dataset.rotations ((keptOps mapTo mapping).get (sec l)).1 := by
      ext M
      simp only [Finset.mem_image, Finset.mem_univ, true_and]
      constructor
      · rintro ⟨q, rfl⟩
        exact ⟨((keptOps mapTo mapping).get q).2, (hker _ _).1 (hsec _)⟩
      · rintro ⟨l, rfl⟩
        exact ⟨_, rfl⟩
    rw [himg, Finset.card_image_of_injective, Finset.card_univ, Fintype.card_fin]
    intro a b hab
    have := (hker _ _).2 hab
    rwa [hsec, hsec] at this
  · intro (q : Fin (keptOps mapTo mapping).length) hq
    have h1 := hflag q
    rw [hfl q hq] at h1
    exact h1
  · change (∀ q : Fin (keptOps mapTo mapping).length, cout.antiLinear ((keptOps mapTo mapping).get q).2 = true ↔
        dataset.timeReversals ((keptOps mapTo mapping).get q).1 = 1) ↔
      ∀ q q' : Fin (keptOps mapTo mapping).length, dataset.rotations ((keptOps mapTo mapping).get q).1 =
        dataset.rotations ((keptOps mapTo mapping).get q').1 →
        dataset.timeReversals ((keptOps mapTo mapping).get q).1 = dataset.timeReversals ((keptOps mapTo mapping).get q').1
    constructor
    · intro h q q' hr
      have h1 := h q
      rw [(hker q q').2 hr, h q'] at h1
      rcases htrs ((keptOps mapTo mapping).get q).1 with h2 | h2 <;> rcases htrs ((keptOps mapTo mapping).get q').1 with h3 | h3
      · rw [h2, h3]
      · rw [h2, h3] at h1
        exact absurd (h1.1 rfl) (by decide)
      · rw [h2, h3] at h1
        exact absurd (h1.2 rfl) (by decide)
      · rw [h2, h3]
    · intro h q
      obtain ⟨q₀, h1, h2⟩ := hfg q
      rw [hflag, h2, h q₀ q ((hker _ _).1 h1)]
  · intro hinj
    have hinj' : Function.Injective fun q : Fin (keptOps mapTo mapping).length => ((keptOps mapTo mapping).get q).2 :=
      fun q q' h => hinj q q' ((hker q q').1 h)
    have hcard : (keptOps mapTo mapping).length = mapping.length := by
      simpa using Fintype.card_of_bijective ⟨hinj', hs⟩
    refine ⟨hcard, fun q => ?_⟩
    have hall : ∀ i, FirstOcc dataset.rotations i ∨ ¬ FixesKLattice P (dataset.rotations i) kc := by
      intro i
      by_contra hcon
      rw [not_or, not_not] at hcon
      obtain ⟨hnf, hfx⟩ := hcon
      unfold FirstOcc at hnf
      push Not at hnf
      obtain ⟨j, hj, hji⟩ := hnf
      obtain ⟨q, hq⟩ := (keptOps_exists (mapping := mapping) hp i).2 ((hlit _).2 (by rw [hpr, ← hfix]; exact hfx))
      obtain ⟨q', hq'⟩ := (keptOps_exists (mapping := mapping) hp j).2 ((hlit _).2 (by
        rw [hpr, ← hfix, hji]; exact hfx))
      have := hinj q q' (by
        change dataset.rotations ((keptOps mapTo mapping).get q).1 = dataset.rotations ((keptOps mapTo mapping).get q').1
        rw [hq, hq', hji])
      rw [this, hq'] at hq
      exact absurd hq (ne_of_lt hj)
    have hmono : StrictMono fun q : Fin (keptOps mapTo mapping).length => ((keptOps mapTo mapping).get q).2 := by
      intro a b hab
      have h1 := keptOps_strictMono mapTo mapping hab
      have hF : ∀ q : Fin (keptOps mapTo mapping).length, FirstOcc dataset.rotations ((keptOps mapTo mapping).get q).1 := by
        intro q
        refine (hall _).resolve_right (not_not.2 ?_)
        rw [hfix, ← hpr, ← hlit, ← hget]
        exact List.get_mem _ _
      have h2 : mapping.get ((keptOps mapTo mapping).get a).2 < mapping.get ((keptOps mapTo mapping).get b).2 := by
        rw [Fin.lt_def, hget, hget, hfirst _ (hF a), hfirst _ (hF b)]
        exact h1
      by_contra hcon
      rcases (not_lt.1 hcon).lt_or_eq with h3 | h3
      · exact absurd (List.pairwise_iff_get.1 hsortL _ _ h3) (not_lt.2 h2.le)
      · exact absurd (hinj' h3.symm) (ne_of_lt hab)
    exact strictMono_fin hcard hmono q

/-- **C55 refuted for grey groups**: whenever the first listed operation of every rotation is linear - so for every grey group
listed with the linear operations first - `get_spacegroup_spinor_irreps` ignores the time reversals: it returns what it
returns without magnetic moments, with no anti-linear flag set. -/
theorem c55_grey_refuted {o : Oracles} {randomI : ∀ d, ℕ → Matrix (Fin d) (Fin d) ℂ}
    {hallType : ℤ → SpacegroupType} {lattice : R3} {dataset : MagneticDataset n} {k kc : V3} {method : IrrepMethod}
    {reciprocal : Option R3} {rtol atol : ℝ} {maxGen : ℕ} {P : R3}
    (hP : getPrimitiveTransformationMatrix hallType dataset.hallNumber = .ok P)
    (hkc : kpointConv lattice reciprocal k = .ok kc)
    (hint : ∀ i, ∃ S : M3, (dataset.rotations i).map (fun x => (x : ℝ)) * P = P * S.map (fun x => (x : ℝ)))
    (horder : ∀ i j, i ≤ j → FirstOcc dataset.rotations j → FirstOcc dataset.rotations i)
    (hgrey : ∀ i, FirstOcc dataset.rotations i → dataset.timeReversals i = 0) :
    getSpacegroupSpinorCoreps o randomI hallType lattice dataset k method reciprocal rtol atol maxGen =
      getSpacegroupSpinorIrreps o hallType lattice dataset.toDataset k method reciprocal rtol atol maxGen ∧
    ∀ out w, getSpacegroupSpinorCoreps o randomI hallType lattice dataset k method reciprocal rtol atol maxGen = .ok (out, w) →
      ∀ x, out.antiLinear x = false := by
  have hd := getPrimitive_det hP
  obtain ⟨r', t', k', uR, uT, mapTo, p, htr, hu, hk', hp, hpr, hsurj, hpi, hfix, hPr, hfirst, hx⟩ :=
    conv_rotations hd dataset.translations kc hint horder
  choose f hf1 hf2 hf3 using hx
  have key : getSpacegroupSpinorCoreps o randomI hallType lattice dataset k method reciprocal rtol atol maxGen =
      getSpacegroupSpinorIrreps o hallType lattice dataset.toDataset k method reciprocal rtol atol maxGen := by
    rw [spacegroupCoreps_eq hP hkc htr hu hp hf1 hf3]
    unfold enumerateSpinorSmallCoreps
    rw [if_pos fun i => hgrey _ (hf2 _)]
    have e1 : uR = (uniquePrimitiveSymmetry r' t').1 := by rw [hu]
    have e2 : uT = (uniquePrimitiveSymmetry r' t').2.1 := by rw [hu]
    have e3 : mapTo = (uniquePrimitiveSymmetry r' t').2.2 := by rw [hu]
    subst e1 e2 e3
    unfold getSpacegroupSpinorIrreps
    simp only [hkc, hP, htr, spinorIrrepsFromPrimitive, bind, Except.bind, pure, Except.pure]
    cases primitiveCheck (uniquePrimitiveSymmetry r' t').1.get (fun i => (uniquePrimitiveSymmetry r' t').2.1.getD i 0) rtol atol with
    | error e => rfl
    | ok _ =>
      cases enumerateSpinorSmallReps o (P.transpose * lattice)
        (fun i => (uniquePrimitiveSymmetry r' t').1.get ((littleMapping (uniquePrimitiveSymmetry r' t').1.get k' atol).get i))
        (fun i => (uniquePrimitiveSymmetry r' t').2.1.getD ((littleMapping (uniquePrimitiveSymmetry r' t').1.get k' atol).get i) 0)
        k' method rtol atol maxGen with
      | error e => rfl
      | ok x => rfl
  refine ⟨key, fun out w h x => ?_⟩
  rw [key] at h
  unfold getSpacegroupSpinorIrreps at h
  simp only [hkc, hP, htr, bind, Except.bind, pure, Except.pure] at h
  split at h
  · cases h
  · obtain ⟨rfl, -⟩ := Prod.mk.inj (Except.ok.inj h)
    rfl

/-! ### The grey group P21' -/

/-- The magnetic dataset of the grey group P21', unique axis c. -/
noncomputable def datasetGrey2 : MagneticDataset 4 :=
  { rotations := rotsGrey2, translations := fun _ _ => 0, hallNumber := 4, timeReversals := trsGrey2 }

theorem primP2 : getPrimitiveTransformationMatrix (fun _ => ⟨[], ['P', ' ', '2']⟩) 4 = .ok 1 := by
  unfold getPrimitiveTransformationMatrix
  rw [show getCrystalSystem 4 = .ok .monoclinic from by decide]
  rfl

theorem convGrey2 : IsConventionalGroup 1 rotsGrey2 (fun _ _ => 0) := by
  refine ⟨?_, fun i => ⟨rotsGrey2 i, by rw [mul_one, one_mul]⟩, fun i j l hl => ⟨0, by simp⟩⟩
  have h : EnumeratesGroup (fun i : Fin 2 => rotsGrey2 (i.castLE (by norm_num))) := by
    apply enumerates_of_isMatrixGroup (by norm_num)
    · decide +kernel
    · decide +kernel
  obtain ⟨-, H, hH⟩ := h
  refine ⟨H, ?_⟩
  rw [← hH]
  ext M
  constructor
  · rintro ⟨i, rfl⟩
    have : ∀ i : Fin 4, ∃ j : Fin 2, rotsGrey2 (j.castLE (by norm_num)) = rotsGrey2 i := by decide +kernel
    exact this i
  · rintro ⟨j, rfl⟩
    exact ⟨_, rfl⟩

theorem orderGrey2 : ∀ i j, i ≤ j → FirstOcc rotsGrey2 j → FirstOcc rotsGrey2 i := by
  unfold FirstOcc
  decide +kernel

theorem firstGrey2 : ∀ i, FirstOcc rotsGrey2 i → trsGrey2 i = 0 := by
  unfold FirstOcc
  decide +kernel

theorem fixes_zero (P : R3) (R : M3) : FixesKLattice P R 0 := fun x _ => ⟨0, by simp⟩

theorem one_cancel {A B : M3} (h : A.map (fun x => (x : ℝ)) * (1 : R3) = 1 * B.map (fun x => (x : ℝ))) : A = B := by
  rw [mul_one, one_mul] at h
  exact realMat_injective h

theorem contractGrey2 {u : ℕ} {R : Fin u → M3} (h : IsLittleOf 1 rotsGrey2 0 R) :
    PointgroupContract (PgSymbol.pg_2, (1 : M3).map fun x : ℤ => (x : ℝ)) R := by
  obtain ⟨hinj, hR⟩ := h
  have h1 : ∀ i, ∃ j : Fin 2, R i = rotsGrey2 (j.castLE (by norm_num)) := by
    intro i
    obtain ⟨l, -, hl⟩ := (hR (R i)).1 ⟨i, rfl⟩
    have : ∀ i : Fin 4, ∃ j : Fin 2, rotsGrey2 i = rotsGrey2 (j.castLE (by norm_num)) := by decide +kernel
    obtain ⟨j, hj⟩ := this l
    exact ⟨j, (one_cancel hl).symm.trans hj⟩
  choose f hf using h1
  have hbinj : Function.Injective fun j : Fin 2 => rotsGrey2 (j.castLE (by norm_num)) := by decide +kernel
  have hbij : Function.Bijective f := by
    constructor
    · intro a b hab
      exact hinj (by rw [hf, hf, hab])
    · intro j
      obtain ⟨i, hi⟩ := (hR (rotsGrey2 (j.castLE (by norm_num)))).2 ⟨_, fixes_zero _ _, by rw [mul_one, one_mul]⟩
      refine ⟨i, hbinj ?_⟩
      dsimp only
      rw [← hf, hi]
  refine contract_of_int (s := .pg_2) (std := pgData_2[2]) (by decide +kernel)
    (show pgData_2[2] ∈ pgData_2 from List.getElem_mem _) (Equiv.ofBijective f hbij) fun i => ?_
  rw [hf]
  change rotsGrey2 ((f i).castLE _) * 1 = 1 * (pgData_2[2].get (f i)).toM3
  generalize f i = j
  revert j
  decide +kernel

/-- **C55 refuted**: for the grey group P21' at Γ, `get_spacegroup_spinor_irreps` returns without warning four little-group
operations, two of them anti-linear, but only two flags, which are both false. -/
theorem c55_refuted : ∃ (o : Oracles) (out : SpinorOut 4), SymmEigContract o.eig ∧
    (∀ randomI, getSpacegroupSpinorCoreps o randomI (fun _ => ⟨[], ['P', ' ', '2']⟩) 1 datasetGrey2 0 = .ok (out, false)) ∧
    out.order = 4 ∧ (∀ i, ∃ q, out.mapping q = i) ∧ (∃ i, datasetGrey2.timeReversals i = 1) ∧
    out.primOrder = 2 ∧ ∀ x, out.antiLinear x = false := by
  obtain ⟨random, hr⟩ := exists_richDraws 1e-8 4 4 fun d hd => hd
  obtain ⟨eig, he⟩ := symmEigContract_exists
  have hk : ∀ a, ∃ c : ℤ, ((1 : ℕ) : ℝ) * ∑ b, (1 : R3) b a * (0 : V3) b = c := fun a => ⟨0, by simp⟩
  let o : Oracles := { random := random, eig := eig, eigh := fun d _ => (fun _ => 0, 0),
                       qr := fun _ _ _ => 0, pointgroup := (PgSymbol.pg_2, (1 : M3).map fun x : ℤ => (x : ℝ)) }
  have h1 : (1 : R3).det ≠ 0 := by rw [Matrix.det_one]; exact one_ne_zero
  have hkc := (c52_kpoint_basis 1 h1 0).1
  obtain ⟨out, hrun⟩ := c62_runs (o := o) he h1 (dataset := datasetGrey2.toDataset) grey2_metric (k := 0) (kc := 0)
    (reciprocal := none) (rtol := 1e-5) (atol := 1e-8) (maxGen := 4) primP2 hkc
    convGrey2 (fun i => ⟨0, by simp [datasetGrey2]⟩) orderGrey2 (N := 1) (by norm_num) hk (by norm_num) (by norm_num)
    (by norm_num) (by norm_num) (by norm_num) (fun u R h => contractGrey2 h) hr
  have hg := fun randomI => c55_grey_refuted (o := o) (randomI := randomI) (dataset := datasetGrey2) (k := 0) (kc := 0)
    (lattice := 1) (method := .neto) (reciprocal := none) (rtol := 1e-5) (atol := 1e-8) (maxGen := 4) primP2 hkc convGrey2.2.1
    orderGrey2 firstGrey2
  have hrun' : ∀ randomI, getSpacegroupSpinorCoreps o randomI (fun _ => ⟨[], ['P', ' ', '2']⟩) 1 datasetGrey2 0 =
      .ok (out, false) := fun randomI => (hg randomI).1.trans hrun
  obtain ⟨hm, hl, hcard, -⟩ := c55_time_reversal_partial (dataset := datasetGrey2) primP2 hkc convGrey2.2.1 orderGrey2
    (by decide) (noNearMiss_of_rational convGrey2.2.1 (N := 1) (by norm_num) hk (by norm_num) (by norm_num)) (by norm_num) (hrun' fun _ _ => 1)
  have hsurj : ∀ i, ∃ q, out.mapping q = i := fun i => (hl i).2 (fixes_zero _ _)
  have hbij : Function.Bijective out.mapping := ⟨hm.injective, hsurj⟩
  refine ⟨o, out, he, hrun', by simpa using Fintype.card_of_bijective hbij, hsurj, ⟨2, rfl⟩, ?_,
    (hg fun _ _ => 1).2 _ _ (hrun' _)⟩
  rw [hcard]
  have himg : (Finset.univ.image fun q => datasetGrey2.rotations (out.mapping q)) = Finset.univ.image rotsGrey2 := by
    ext M
    simp only [Finset.mem_image, Finset.mem_univ, true_and]
    constructor
    · rintro ⟨q, rfl⟩
      exact ⟨_, rfl⟩
    · rintro ⟨i, rfl⟩
      obtain ⟨q, hq⟩ := hsurj i
      exact ⟨q, by rw [hq]; rfl⟩
  rw [himg]
  decide +kernel

/-! ### Groups of type III -/

/-- A space group with time reversals given by a homomorphism on the rotations. -/
theorem magnetic_of_hom {R : Fin n → M3} {t : Fin n → V3} {trs : Fin n → ℤ} (h : IsSpaceGroup R t)
    (h2 : ∀ i, trs i = 0 ∨ trs i = 1) (h3 : ∀ i j l, R i * R j = R l → trs l = if trs i = trs j then 0 else 1) :
    IsMagneticSpaceGroup R t trs := by
  obtain ⟨T, hT, -, hTg⟩ := c01_cayley_table_ordinary h.1
  have hrot : ∀ i j, R (T i j) = R i * R j := fun i j => (cayley_none_spec hT i j).1
  obtain ⟨e, he1, he2, hinv⟩ := hTg.one_inv
  have hRe : R e = 1 := by
    have h4 : R e * R e = R e := by rw [← hrot, he1]
    obtain ⟨-, H, hH⟩ := h.1
    obtain ⟨g, -, hg⟩ : R e ∈ (fun g : GL (Fin 3) ℤ => (g : Matrix _ _ ℤ)) '' H := hH ▸ ⟨e, rfl⟩
    dsimp only at hg
    rw [← hg, ← Units.val_mul] at h4
    have h5 : g * g = g := Units.ext h4
    have h6 : g = 1 := by simpa using h5
    rw [← hg, h6]
    rfl
  have hte : trs e = 0 := by
    have := h3 e e e (by rw [hRe, mul_one])
    rwa [if_pos rfl] at this
  refine ⟨enumeratesMagnetic_of_closed (fun i j hij _ => h.1.1 hij) h2
    (fun i j => ⟨T i j, (hrot i j).symm, h3 _ _ _ (hrot i j).symm⟩) ⟨e, hRe, hte⟩ fun i => ?_, fun i j l hl => h.2 i j l hl.1⟩
  obtain ⟨b, hb, -⟩ := hinv i
  have h4 : R i * R b = 1 := by rw [← hrot, hb, hRe]
  refine ⟨b, h4, ?_⟩
  have h5 := h3 i b e (h4.trans hRe.symm)
  rw [hte] at h5
  by_contra hne
  rw [if_neg hne] at h5
  exact absurd h5 (by decide)

/-- Successful runs exist for groups of type III: time reversals that are a homomorphism on the rotations, an anti-linear
operation in the little group, and no fractional translations. -/
theorem c55_runs {o : Oracles} (he : SymmEigContract o.eig) {hallType : ℤ → SpacegroupType} {lattice : R3}
    (hL : lattice.det ≠ 0) {dataset : MagneticDataset n} (hm : ∀ i, PreservesMetric lattice (dataset.rotations i))
    {k kc : V3} {reciprocal : Option R3} {rtol atol : ℝ} {maxGen : ℕ} {P : R3}
    (hP : getPrimitiveTransformationMatrix hallType dataset.hallNumber = .ok P)
    (hkc : kpointConv lattice reciprocal k = .ok kc)
    (hconv : IsConventionalGroup P dataset.rotations dataset.translations)
    (hsym : ∀ i, dataset.translations i ∈ columnLattice P)
    (horder : ∀ i j, i ≤ j → FirstOcc dataset.rotations j → FirstOcc dataset.rotations i)
    (htrs : ∀ i, dataset.timeReversals i = 0 ∨ dataset.timeReversals i = 1)
    (hhom : ∀ i j l, dataset.rotations i * dataset.rotations j = dataset.rotations l →
      dataset.timeReversals l = if dataset.timeReversals i = dataset.timeReversals j then 0 else 1)
    (hanti : ∃ i, dataset.timeReversals i = 1 ∧ FixesKLattice P (dataset.rotations i) kc)
    (hnm : NoNearMiss P dataset.rotations kc atol)
    (ha : 0 < atol) (hna : (n : ℝ) ^ 2 * atol ≤ 1 / 5) (hr : 0 ≤ rtol) (hr1 : atol + rtol < 1)
    (hb : ∀ (u : ℕ) (R : Fin u → M3), IsLittleOf P dataset.rotations kc R → ∀ i a b, |R i a b| ≤ 99999)
    (ho : ∀ (u : ℕ) (R : Fin u → M3), Function.Injective R → (∀ S : M3, (∃ j, R j = S) ↔
      ∃ i, dataset.timeReversals i = 0 ∧ FixesKLattice P (dataset.rotations i) kc ∧
        (dataset.rotations i).map (fun x => (x : ℝ)) * P = P * S.map (fun x => (x : ℝ))) → PointgroupContract o.pointgroup R)
    (hrich : RichDraws n o.random atol maxGen) (randomI : ∀ d, ℕ → Matrix (Fin d) (Fin d) ℂ) :
    ∃ out w, getSpacegroupSpinorCoreps o randomI hallType lattice dataset k .neto reciprocal rtol atol maxGen = .ok (out, w) := by
  have hd := getPrimitive_det hP
  obtain ⟨r', t', k', uR, uT, mapTo, p, htr, hu, hp, hpr, hsurj, hpi, hPr, hsg, hfix, hlit, hs, hlist, hone, hzero, -⟩ :=
    conv_little_near_miss hd hconv horder hnm ha.le
  obtain ⟨r'', t'', k'', uR', uT', mapTo', p', htr', hu', hk', hp', hpr', -, -, hfix', -, -, hx⟩ :=
    conv_rotations hd dataset.translations kc hconv.2.1 horder
  obtain ⟨rfl, h2⟩ := Prod.mk.inj (Except.ok.inj (htr.symm.trans htr'))
  obtain ⟨rfl, rfl⟩ := Prod.mk.inj h2
  obtain ⟨rfl, h2⟩ := Prod.mk.inj (hu.symm.trans hu')
  obtain ⟨rfl, rfl⟩ := Prod.mk.inj h2
  obtain rfl : p = p' := funext fun i => Fin.ext (by exact_mod_cast (hp i).symm.trans (hp' i))
  choose f hf1 hf2 hf3 using hx
  have hzero := hzero hsym
  have hcancel : ∀ A B : M3, P * realMat A = P * realMat B → A = B := by
    intro A B hAB
    apply realMat_injective
    have h3 := congrArg (fun M => P⁻¹ * M) hAB
    rwa [← mul_assoc, ← mul_assoc, Matrix.nonsing_inv_mul _ (isUnit_iff_ne_zero.2 hd), one_mul, one_mul] at h3
  have hcancel' : ∀ A B : M3, realMat A * P = realMat B * P → A = B := by
    intro A B hAB
    apply realMat_injective
    have h3 := congrArg (fun M => M * P⁻¹) hAB
    simpa only [mul_assoc, Matrix.mul_nonsing_inv _ (isUnit_iff_ne_zero.2 hd), mul_one] using h3
  have huf : ∀ x, uR.get x = r' (f x) := fun x => by rw [← hpr, hf3]
  have hmulr : ∀ i j l, r' i * r' j = r' l → dataset.rotations i * dataset.rotations j = dataset.rotations l := by
    intro i j l h
    apply hcancel'
    rw [realMat_mul, mul_assoc, ← hPr j, ← mul_assoc, ← hPr i, mul_assoc, ← realMat_mul, h, hPr l]
  have hL' : (P.transpose * lattice).det ≠ 0 := by
    rw [Matrix.det_mul, Matrix.det_transpose]
    exact mul_ne_zero hd hL
  have hm' : ∀ l, PreservesMetric (P.transpose * lattice) (uR.get ((littleMapping uR.get k' atol).get l)) := by
    intro l
    rw [huf]
    exact preservesMetric_primitive (hPr _) (hm _)
  have hlen : (littleMapping uR.get k' atol).length ≤ n := by
    have h1 := Fintype.card_le_of_surjective p hsurj
    have h2 := Fintype.card_le_of_injective _
      (List.nodup_iff_injective_get.1 (littleMapping_nodup uR.get k' atol))
    simp only [Fintype.card_fin] at h1 h2
    exact h2.trans h1
  have hcheck : primitiveCheck uR.get (fun i => uT.getD i 0) rtol atol = .ok () := by
    rw [primitiveCheck_eq ha.le hr hr1, if_neg]
    rintro ⟨i, -, a, h⟩
    rw [hzero] at h
    simp at h
    linarith
  have hmag : IsMagneticSpaceGroup (fun l => uR.get ((littleMapping uR.get k' atol).get l))
      (fun l => uT.getD ((littleMapping uR.get k' atol).get l) 0)
      (fun l => dataset.timeReversals (f ((littleMapping uR.get k' atol).get l))) := by
    refine magnetic_of_hom hsg (fun l => htrs _) fun i j l h => hhom _ _ _ (hmulr _ _ _ ?_)
    simp only [← huf]
    exact h
  have hfl : ∀ i j, dataset.rotations i = dataset.rotations j → dataset.timeReversals i = dataset.timeReversals j := by
    intro i j hij
    obtain ⟨H, hH⟩ := hconv.1
    obtain ⟨e, hee⟩ : (1 : M3) ∈ Set.range dataset.rotations := by
      rw [hH]
      exact ⟨1, H.one_mem, rfl⟩
    have he0 : dataset.timeReversals e = 0 := by
      have := hhom e e e (by rw [hee, mul_one])
      rwa [if_pos rfl] at this
    have h1 := hhom i e j (by rw [hee, mul_one, hij])
    rw [he0] at h1
    rcases htrs i with h2 | h2 <;> rw [h2] at h1 ⊢ <;> rw [h1] <;> decide
  obtain ⟨i1, hi1, hi1f⟩ := hanti
  have hmemi : ∀ i, FixesKLattice P (dataset.rotations i) kc → p i ∈ littleMapping uR.get k' atol := by
    intro i hi
    rw [mem_littleMapping, hpr]
    exact (inLittle_of_noNearMiss ha.le hnm (hPr i) hk' (hfix' i)).2 ((hfix' i).1 hi)
  have htf : ∀ i, dataset.timeReversals (f (p i)) = dataset.timeReversals i := fun i =>
    hfl _ _ ((hpi _ _).1 (hf3 _))
  obtain ⟨l1, hl1⟩ := List.mem_iff_get.1 (hmemi i1 hi1f)
  obtain ⟨-, -, -, -, -, -, -, -, -, -, -, -, -, -, -, -, out, w, hrun, -⟩ := coreps_forward (o := o) hmag
    ⟨l1, by rw [hl1, htf, hi1]⟩ (hb _ _ hlit) hfix (fun i j => .inl (by
      unfold getFactorSystem
      dsimp only
      rw [hzero]
      have : ∀ v : V3, dot3 v 0 = 0 := fun v => by unfold dot3; simp
      rw [this, expPhase_zero])) he hL' hm' (fun xsg hxn hxm => by
        refine ho _ _ (fun a b hab => (List.nodup_iff_injective_get.1 hxn) (hsg.1.1 hab)) fun S => ?_
        constructor
        · rintro ⟨j, rfl⟩
          refine ⟨f ((littleMapping uR.get k' atol).get (xsg.get j)), (hxm _).1 (List.get_mem _ _), ?_, ?_⟩
          · rw [hfix', ← huf]
            exact hfix _
          · have := (hPr (f ((littleMapping uR.get k' atol).get (xsg.get j)))).symm
            rw [← huf] at this
            exact this
        · rintro ⟨i, hi0, hif, hiS⟩
          obtain ⟨l, hl⟩ := List.mem_iff_get.1 (hmemi i hif)
          obtain ⟨j, hj⟩ := List.mem_iff_get.1 ((hxm l).2 (by rw [hl, htf, hi0]))
          refine ⟨j, ?_⟩
          rw [hj, hl, hpr]
          exact hcancel _ _ ((hPr i).trans hiS))
    rtol (maxGen := maxGen) ha
    (le_trans (mul_le_mul_of_nonneg_right (pow_le_pow_left₀ (by positivity) (by exact_mod_cast hlen) 2) ha.le) hna)
    randomI (.inl fun d hdl => hrich d (hdl.trans hlen))
  refine ⟨⟨_, (adjustPhase t' k' (fun i => uT.getD i 0) mapTo (littleMapping uR.get k' atol) out.coreps).2.1,
        (adjustPhase t' k' (fun i => uT.getD i 0) mapTo (littleMapping uR.get k' atol) out.coreps).2.2,
        (littleMapping uR.get k' atol).length, out.spinorFactor, out.unitary, out.antiLinear⟩, w, ?_⟩
  rw [spacegroupCoreps_eq hP hkc htr hu hp hf1 hf3, hcheck, hrun]
  rfl

/-- The magnetic dataset of C2' (type III): the two-fold rotations are anti-linear. -/
noncomputable def datasetC2III : MagneticDataset 4 :=
  { rotations := rotsC2, translations := transC2, hallNumber := 9, timeReversals := ![0, 1, 0, 1] }

theorem primC_cancel {A B : M3} (h : primC * A.map (fun x => (x : ℝ)) = primC * B.map (fun x => (x : ℝ))) : A = B := by
  have hd : primC.det ≠ 0 := centred_C.1
  apply realMat_injective
  have h3 := congrArg (fun M => primC⁻¹ * M) h
  rwa [← mul_assoc, ← mul_assoc, Matrix.nonsing_inv_mul _ (isUnit_iff_ne_zero.2 hd), one_mul, one_mul] at h3

theorem boundC2 {u : ℕ} {R : Fin u → M3} (h : IsLittleOf primC rotsC2 kC2 R) (i : Fin u) (a b : Fin 3) :
    |R i a b| ≤ 99999 := by
  obtain ⟨l, -, hl⟩ := (h.2 (R i)).1 ⟨i, rfl⟩
  obtain ⟨j, hj, -⟩ := primC_rots l
  rw [primC_cancel (hl.symm.trans hj)]
  have : ∀ (j : Fin 2) (a b : Fin 3), |primRotsC2 j a b| ≤ 99999 := by decide +kernel
  exact this j a b

/-- The linear operations of C2' are those with the identity as rotation. -/
theorem contractC2III {u : ℕ} {R : Fin u → M3} (hinj : Function.Injective R)
    (hR : ∀ S : M3, (∃ j, R j = S) ↔ ∃ i, datasetC2III.timeReversals i = 0 ∧ FixesKLattice primC (datasetC2III.rotations i) kC2 ∧
        (datasetC2III.rotations i).map (fun x => (x : ℝ)) * primC = primC * S.map (fun x => (x : ℝ))) :
    PointgroupContract (PgSymbol.pg_1, (1 : M3).map fun x : ℤ => (x : ℝ)) R := by
  have hrot : ∀ i, datasetC2III.timeReversals i = 0 → datasetC2III.rotations i = 1 := by
    change ∀ i : Fin 4, (![0, 1, 0, 1] : Fin 4 → ℤ) i = 0 → rotsC2 i = 1
    decide +kernel
  have hone : (1 : M3).map (fun x => (x : ℝ)) * primC = primC * (1 : M3).map (fun x => (x : ℝ)) := by
    have : (1 : M3).map (fun x => (x : ℝ)) = 1 := Matrix.map_one _ Int.cast_zero Int.cast_one
    rw [this, one_mul, mul_one]
  have h1 : ∀ j, R j = 1 := by
    intro j
    obtain ⟨i, hi, -, h⟩ := (hR (R j)).1 ⟨j, rfl⟩
    rw [hrot i hi] at h
    exact (primC_cancel (hone.symm.trans h)).symm
  obtain ⟨j0, -⟩ := (hR 1).2 ⟨0, rfl, fixesC2 0, by rw [hrot 0 rfl]; exact hone⟩
  have hall : ∀ j, j = j0 := fun j => hinj (by rw [h1, h1])
  have hbij : Function.Bijective fun _ : Fin u => (0 : Fin 1) :=
    ⟨fun a b _ => (hall a).trans (hall b).symm, fun x => ⟨j0, (Fin.eq_zero x).symm⟩⟩
  refine contract_of_int (s := .pg_1) (std := pgData_1[0]) (by decide +kernel)
    (show pgData_1[0] ∈ pgData_1 from List.getElem_mem _) (Equiv.ofBijective _ hbij) fun i => ?_
  rw [h1]
  change (1 : M3) * 1 = 1 * (pgData_1[0].get (0 : Fin 1)).toM3
  decide +kernel

/-- A case meeting the hypotheses of `c55_time_reversal_partial` and `c55_runs`: the type-III group C2' in its centred cell,
with an anti-linear rotation in the little group of a general k-point. -/
example : ∃ (o : Oracles) (out : SpinorOut 4) (w : Bool), SymmEigContract o.eig ∧
    (∃ randomI, getSpacegroupSpinorCoreps o randomI (fun _ => ⟨[], ['C', ' ', '2', 'y']⟩) 1 datasetC2III kC2 = .ok (out, w)) ∧
    IsConventionalGroup primC datasetC2III.rotations datasetC2III.translations ∧
    (∀ i j, i ≤ j → FirstOcc datasetC2III.rotations j → FirstOcc datasetC2III.rotations i) ∧
    out.order = 4 ∧ out.primOrder = 2 ∧ ∃ x, out.antiLinear x = true := by
  obtain ⟨random, hr⟩ := exists_richDraws 1e-8 4 4 fun d hd => hd
  obtain ⟨eig, he⟩ := symmEigContract_exists
  have hk : ∀ a, ∃ c : ℤ, ((4 : ℕ) : ℝ) * ∑ b, primC b a * kC2 b = c := by
    intro a
    fin_cases a
    · exact ⟨-1, by simp [primC, kC2, Fin.sum_univ_three]; norm_num⟩
    · exact ⟨1, by simp [primC, kC2, Fin.sum_univ_three]; norm_num⟩
    · exact ⟨2, by simp [primC, kC2, Fin.sum_univ_three]; norm_num⟩
  let o : Oracles := { random := random, eig := eig, eigh := fun d _ => (fun _ => 0, 0),
                       qr := fun _ _ _ => 0, pointgroup := (PgSymbol.pg_1, (1 : M3).map fun x : ℤ => (x : ℝ)) }
  have h1 : (1 : R3).det ≠ 0 := by rw [Matrix.det_one]; exact one_ne_zero
  have htrs : ∀ i, datasetC2III.timeReversals i = 0 ∨ datasetC2III.timeReversals i = 1 := by
    change ∀ i : Fin 4, (![0, 1, 0, 1] : Fin 4 → ℤ) i = 0 ∨ (![0, 1, 0, 1] : Fin 4 → ℤ) i = 1
    decide
  have hkc := (c52_kpoint_basis 1 h1 kC2).1
  obtain ⟨out, w, hrun⟩ := c55_runs (o := o) he h1 (dataset := datasetC2III) metricC2 (k := kC2) (kc := kC2)
    (reciprocal := none) (rtol := 1e-5) (atol := 1e-8) (maxGen := 4) primC2 hkc
    convC2 transC2_mem orderC2 htrs (by
      change ∀ i j l : Fin 4, rotsC2 i * rotsC2 j = rotsC2 l → (![0, 1, 0, 1] : Fin 4 → ℤ) l =
        if (![0, 1, 0, 1] : Fin 4 → ℤ) i = (![0, 1, 0, 1] : Fin 4 → ℤ) j then 0 else 1
      decide +kernel)
    ⟨1, rfl, fixesC2 1⟩ (noNearMiss_of_rational convC2.2.1 (N := 4) (by norm_num) hk (by norm_num) (by norm_num))
    (by norm_num) (by norm_num) (by norm_num)
    (by norm_num) (fun u R h => boundC2 h) (fun u R hinj h => contractC2III hinj h) hr (fun _ _ => 1)
  obtain ⟨hm, hl, hcard, pos, -, -, hflag, -⟩ := c55_time_reversal_partial (dataset := datasetC2III) primC2 hkc convC2.2.1
    orderC2 htrs (noNearMiss_of_rational convC2.2.1 (N := 4) (by norm_num) hk (by norm_num) (by norm_num)) (by norm_num) hrun
  have hsurj : ∀ i, ∃ q, out.mapping q = i := fun i => (hl i).2 (fixesC2 i)
  have hbij : Function.Bijective out.mapping := ⟨hm.injective, hsurj⟩
  refine ⟨o, out, w, he, ⟨_, hrun⟩, convC2, orderC2, by simpa using Fintype.card_of_bijective hbij, ?_, ?_⟩
  · rw [hcard]
    have himg : (Finset.univ.image fun q => datasetC2III.rotations (out.mapping q)) = Finset.univ.image rotsC2 := by
      ext M
      simp only [Finset.mem_image, Finset.mem_univ, true_and]
      constructor
      · rintro ⟨q, rfl⟩
        exact ⟨_, rfl⟩
      · rintro ⟨i, rfl⟩
        obtain ⟨q, hq⟩ := hsurj i
        exact ⟨q, by rw [hq]; rfl⟩
    rw [himg]
    decide +kernel
  · obtain ⟨q, hq⟩ := hsurj 1
    refine ⟨pos q, (hflag q ?_).2 (by rw [hq]; rfl)⟩
    rw [hq]
    change ∀ j < (1 : Fin 4), rotsC2 j ≠ rotsC2 1
    decide +kernel

end Spgrep
