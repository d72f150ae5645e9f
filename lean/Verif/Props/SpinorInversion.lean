/-
C111: the spinor irreps that `get_crystallographic_pointgroup_spinor_irreps_from_symmetry` (/repo/src/spgrep/core.py:596-687)
returns do not see the inversion, but depend on more than the abstract group.
-/
import Verif.Props.AbstractGroup
import Verif.Props.Star

namespace Spgrep

open Spec

variable {n m : ℕ}

/-- **C111, one rotation**: an operation and its product with the inversion get the same SU(2) matrix, or the same error. -/
theorem c111_unitary_rotation (eig : EigOracle) (L : R3) {S : M3} (hS : S.det ≠ 0) :
    getSpinorUnitaryRotation eig L (-S) = getSpinorUnitaryRotation eig L S := by
  have hd : (-S).det = -S.det := by
    rw [Matrix.det_neg, Fintype.card_fin]
    ring
  have hp : (if 0 < (-S).det then (1 : ℤ) else -1) • (-S) = (if 0 < S.det then (1 : ℤ) else -1) • S := by
    rw [hd]
    rcases lt_or_gt_of_ne hS with h | h
    · rw [if_pos (by omega), if_neg (by omega)]
      simp
    · rw [if_neg (by omega), if_pos h]
      simp
  unfold getSpinorUnitaryRotation
  simp only [hp]

theorem preserves_neg {L : R3} {S : M3} (h : PreservesMetric L S) : PreservesMetric L (-S) := by
  unfold PreservesMetric at h ⊢
  have : (-S).map (fun x => (x : ℝ)) = -(S.map fun x => (x : ℝ)) := by
    ext a b
    simp
  rw [this, Matrix.transpose_neg, Matrix.neg_mul, Matrix.neg_mul, Matrix.mul_neg, neg_neg, h]

/-- **C111.** Two point groups of one lattice that are isomorphic by a map which multiplies some operations by the inversion (432
and -43m, 32 and 3m, 2 and m, or one group in two orders) have the same spinor results: the SU(2) matrices and the spinor factor
system of two runs without warnings are equal, the irreps correspond with the same dimensions and, within the tolerances, the
same characters.  Methods, draws, eigen-solvers and tolerances of the two runs are arbitrary. -/
theorem c111_inversion_blind {rots : Fin n → M3} {rots' : Fin m → M3} (h : EnumeratesGroup rots) (h' : EnumeratesGroup rots')
    {φ : Fin n ≃ Fin m} (hφ : IsIsomorphism rots rots' φ) (hneg : ∀ i, rots' (φ i) = rots i ∨ rots' (φ i) = -rots i)
    {o o' : Oracles} (he : SymmEigContract o.eig) (he' : SymmEigContract o'.eig) {L : R3} (hL : L.det ≠ 0)
    (hm : ∀ i, PreservesMetric L (rots i)) {method method' : IrrepMethod} {rtol rtol' : ℝ} (ho : MethodContract o method rtol rots)
    (ho' : MethodContract o' method' rtol' rots') {atol atol' : ℝ} (ha : 0 < atol) (ha' : 0 < atol') (hle : atol ≤ 1 / 5)
    (hle' : atol' ≤ 1 / 5) {maxGen maxGen' : ℕ} {l : List (AnyRep n)} {l' : List (AnyRep m)} {z : Fin n → Fin n → ℂ}
    {z' : Fin m → Fin m → ℂ} {U : Fin n → Matrix (Fin 2) (Fin 2) ℂ} {U' : Fin m → Matrix (Fin 2) (Fin 2) ℂ}
    (hrun : pointgroupSpinorIrreps o L rots method rtol atol maxGen = .ok ((l, z, U), false))
    (hrun' : pointgroupSpinorIrreps o' L rots' method' rtol' atol' maxGen' = .ok ((l', z', U'), false)) :
    (∀ i, U' (φ i) = U i) ∧ (∀ i j, z' (φ i) (φ j) = z i j) ∧
    ∃ σ : Fin l.length ≃ Fin l'.length, ∀ a, (l'.get (σ a)).1 = (l.get a).1 ∧
      ∀ g, ‖((l'.get (σ a)).2 (φ g)).trace - ((l.get a).2 g).trace‖ ≤ (l.get a).1 * (atol + atol') := by
  have hm' : ∀ i, PreservesMetric L (rots' i) := by
    intro i
    obtain ⟨j, rfl⟩ := φ.surjective i
    rcases hneg j with e | e <;> rw [e]
    · exact hm j
    · exact preserves_neg (hm j)
  rw [pointgroupSpinor_eq] at hrun hrun'
  obtain ⟨hzU, S, h1, h2, h3, h4, h5⟩ := c45_spinor_small_reps ⟨h, fun _ _ _ _ _ => ⟨0, by simp⟩⟩ (fun i a => ⟨0, by simp⟩) he hL
    hm ho ha hle hrun
  obtain ⟨hzU', S', h1', h2', h3', h4', h5'⟩ := c45_spinor_small_reps ⟨h', fun _ _ _ _ _ => ⟨0, by simp⟩⟩
    (fun i a => ⟨0, by simp⟩) he' hL hm' ho' ha' hle' hrun'
  obtain ⟨z1, U1, e1, hU, -, hmul, -⟩ := c44_spinor_factor_system he hL h hm
  obtain ⟨rfl, rfl⟩ := Prod.mk.inj (Except.ok.inj (hzU.symm.trans e1))
  obtain ⟨z2, U2, e2, hU', -, hmul', -⟩ := c44_spinor_factor_system he' hL h' hm'
  obtain ⟨rfl, rfl⟩ := Prod.mk.inj (Except.ok.inj (hzU'.symm.trans e2))
  have hUU : ∀ i, U' (φ i) = U i := by
    intro i
    have k1 := (hU' (φ i)).2
    have hd : (rots i).det ≠ 0 := by rcases det_sign hL (hm i) with h | h <;> rw [h] <;> decide
    have k2 : getSpinorUnitaryRotation o'.eig L (rots' (φ i)) = getSpinorUnitaryRotation o.eig L (rots i) := by
      rw [c107_solver_free he he' hL (hm i)]
      rcases hneg i with e | e <;> rw [e]
      exact c111_unitary_rotation _ _ hd
    rw [k2, (hU i).2] at k1
    exact (Except.ok.inj k1).symm
  have hzz : ∀ i j, z' (φ i) (φ j) = z i j := by
    intro i j
    obtain ⟨l, hl⟩ := enum_mul h i j
    have k1 := hmul i j l hl.symm
    have k2 := hmul' _ _ _ (hφ i j l hl.symm)
    rw [hUU, hUU, hUU, k1] at k2
    refine (smul_left_injective ℂ (fun h0 => ?_) k2).symm
    have h6 := (hU l).1.2
    rw [h0, Matrix.det_zero] at h6
    exact zero_ne_one h6
  refine ⟨hUU, hzz, ?_⟩
  obtain ⟨T, hT, hTs, -⟩ := c01_cayley_table_ordinary h
  obtain ⟨T', hT', hTs', -⟩ := c01_cayley_table_ordinary h'
  have hS : IsCompleteSmall rots (fun _ _ => 0) 0 z S := ⟨h2, h3, h4, h5⟩
  have hS' : IsCompleteSmall rots' (fun _ _ => 0) 0 z' S' := ⟨h2', h3', h4', h5'⟩
  obtain ⟨σ, hσ⟩ := complete_iso (iso_table hφ hTs hTs') (fun i j => by unfold smallFactor; simp [hzz]) (hS.irreps h hT)
    (hS'.irreps h' hT')
  have q := h1.length_eq
  have q' := h1'.length_eq
  refine ⟨((finCongr q.symm).trans σ).trans (finCongr q'), fun a => ?_⟩
  obtain ⟨A, hA, hA1⟩ := (List.forall₂_iff_get.1 h1).2 a.1 (by rw [q]; exact a.2) a.2
  obtain ⟨A', hA', hA1'⟩ := (List.forall₂_iff_get.1 h1').2 (σ (a.cast q.symm)).1 (σ (a.cast q.symm)).2
    (by rw [← q']; exact (σ (a.cast q.symm)).2)
  have heq := hσ (a.cast q.symm)
  have g1 : l.get a = ⟨(S.get (a.cast q.symm)).1, A⟩ := hA
  have g2 : l'.get ((((finCongr q.symm).trans σ).trans (finCongr q')) a) = ⟨(S'.get (σ (a.cast q.symm))).1, A'⟩ := hA'
  rw [g1, g2]
  have hd := AreEquivalent.dim_eq heq
  refine ⟨hd.symm, fun g => ?_⟩
  have t1 := trace_near (hA1 g)
  have t2 := trace_near (hA1' (φ g))
  have t3 := AreEquivalent.trace heq g
  have e : (A' (φ g)).trace - (A g).trace = -(((S'.get (σ (a.cast q.symm))).2 (φ g)).trace - (A' (φ g)).trace) +
      (((S.get (a.cast q.symm)).2 g).trace - (A g).trace) := by
    rw [t3]
    ring
  change ‖(A' (φ g)).trace - (A g).trace‖ ≤ (S.get (a.cast q.symm)).1 * (atol + atol')
  rw [e, mul_add, add_comm ((_ : ℝ) * atol)]
  refine (norm_add_le _ _).trans (add_le_add ?_ t1)
  rw [norm_neg]
  refine t2.trans_eq ?_
  have hd' : ((S.get (a.cast q.symm)).1 : ℝ) = (S'.get (σ (a.cast q.symm))).1 := by exact_mod_cast hd
  rw [hd']

/-! ### More than the abstract group -/

theorem metric_unit {rots : Fin n → M3} (h : ∀ i, (rots i).transpose * rots i = 1) (i : Fin n) : PreservesMetric 1 (rots i) := by
  unfold PreservesMetric
  have h2 := congrArg (fun A : M3 => A.map fun x : ℤ => (x : ℝ)) (h i)
  rw [castMat_mul, castMat_one] at h2
  rw [Matrix.transpose_one, Matrix.mul_one, Matrix.mul_one]
  exact h2

/-- The point group 222: the identity and the half turns around z, y, x. -/
def axes222 : Fin 4 → M3 := fun i => (pgData_222.head!.get i).toM3

/-- The point group 2/m: the identity, the half turn around y, the inversion, the mirror plane. -/
def axes2m : Fin 4 → M3 := fun i => (pgData_2_m.head!.get i).toM3

/-- The point group mm2: the identity, the half turn around x, the mirror planes with normals z and y. -/
def axesmm2 : Fin 4 → M3 := fun i => (pgData_mm2.head!.get i).toM3

theorem axes222_group : EnumeratesGroup axes222 := by
  apply enumerates_of_isMatrixGroup (by norm_num)
  · decide +kernel
  · decide +kernel

theorem axes2m_group : EnumeratesGroup axes2m := by
  apply enumerates_of_isMatrixGroup (by norm_num)
  · decide +kernel
  · decide +kernel

theorem axesmm2_group : EnumeratesGroup axesmm2 := by
  apply enumerates_of_isMatrixGroup (by norm_num)
  · decide +kernel
  · decide +kernel

theorem metric_axes222 : ∀ i, PreservesMetric 1 (axes222 i) := metric_unit (by decide +kernel)

theorem metric_axes2m : ∀ i, PreservesMetric 1 (axes2m i) := metric_unit (by decide +kernel)

theorem metric_axesmm2 : ∀ i, PreservesMetric 1 (axesmm2 i) := metric_unit (by decide +kernel)

theorem contract_axes222 : PointgroupContract (PgSymbol.pg_222, (1 : M3).map fun x : ℤ => (x : ℝ)) axes222 :=
  contract_of_int (std := pgData_222.head!) (by decide +kernel) (.head _) (Equiv.refl (Fin 4)) (by decide +kernel)

theorem contract_axes2m : PointgroupContract (PgSymbol.pg_2_m, (1 : M3).map fun x : ℤ => (x : ℝ)) axes2m :=
  contract_of_int (std := pgData_2_m.head!) (by decide +kernel) (.head _) (Equiv.refl (Fin 4)) (by decide +kernel)

theorem contract_axesmm2 : PointgroupContract (PgSymbol.pg_mm2, (1 : M3).map fun x : ℤ => (x : ℝ)) axesmm2 :=
  contract_of_int (std := pgData_mm2.head!) (by decide +kernel) (.head _) (Equiv.refl (Fin 4)) (by decide +kernel)

/-- The correspondence of 222 and mm2: the half turns around z and y become mirror planes. -/
def iso222mm2 : Fin 4 ≃ Fin 4 := ⟨![0, 2, 3, 1], ![0, 3, 1, 2], by decide, by decide⟩

theorem unit_det : (1 : R3).det ≠ 0 := by
  rw [Matrix.det_one]
  exact one_ne_zero

/-- Non-vacuity of C111: the point groups 222 and mm2. -/
example : ∃ (o o' : Oracles) (l l' : List (AnyRep 4)) (z z' : Fin 4 → Fin 4 → ℂ) (U U' : Fin 4 → Matrix (Fin 2) (Fin 2) ℂ),
    IsIsomorphism axes222 axesmm2 iso222mm2 ∧ axesmm2 (iso222mm2 1) = -axes222 1 ∧
    pointgroupSpinorIrreps o 1 axes222 .neto 1e-5 1e-8 4 = .ok ((l, z, U), false) ∧
    pointgroupSpinorIrreps o' 1 axesmm2 .neto 1e-5 1e-8 4 = .ok ((l', z', U'), false) ∧
    (∀ i, U' (iso222mm2 i) = U i) ∧ (∀ i j, z' (iso222mm2 i) (iso222mm2 j) = z i j) ∧ l.length = l'.length := by
  obtain ⟨eig, he⟩ := symmEigContract_exists
  obtain ⟨random, hr⟩ := exists_richDraws 1e-8 4 4 fun d hd => hd
  let o : Oracles := ⟨random, eig, fun _ _ => (0, 0), fun _ _ _ => 0, (PgSymbol.pg_222, (1 : M3).map fun x : ℤ => (x : ℝ))⟩
  let o' : Oracles := ⟨random, eig, fun _ _ => (0, 0), fun _ _ _ => 0, (PgSymbol.pg_mm2, (1 : M3).map fun x : ℤ => (x : ℝ))⟩
  obtain ⟨l, z, U, h1⟩ := c63_runs (o := o) (rtol := 1e-5) (atol := 1e-8) (maxGen := 4) axes222_group he unit_det metric_axes222
    contract_axes222 (by norm_num) (by norm_num) hr
  obtain ⟨l', z', U', h2⟩ := c63_runs (o := o') (rtol := 1e-5) (atol := 1e-8) (maxGen := 4) axesmm2_group he unit_det metric_axesmm2
    contract_axesmm2 (by norm_num) (by norm_num) hr
  have hi : IsIsomorphism axes222 axesmm2 iso222mm2 := by unfold IsIsomorphism; decide +kernel
  obtain ⟨k1, k2, σ, -⟩ := c111_inversion_blind (o := o) (o' := o') (method := .neto) (method' := .neto) axes222_group
    axesmm2_group hi (by decide +kernel) he he unit_det metric_axes222 contract_axes222 contract_axesmm2 (by norm_num) (by norm_num) (by norm_num) (by norm_num) h1 h2
  exact ⟨o, o', l, l', z, z', U, U', hi, by decide +kernel, h1, h2, k1, k2, by simpa using Fintype.card_congr σ⟩

/-- Dimensions with squares adding up to 4. -/
theorem dims_four {ds : List ℕ} (hs : (ds.map fun d => d ^ 2).sum = 4) (h1 : ∀ d ∈ ds, 1 ≤ d) :
    ds = [2] ∨ ds = [1, 1, 1, 1] := by
  have hle : ∀ d ∈ ds, d ≤ 2 := by
    intro d hd
    have : d ^ 2 ≤ 4 := by
      rw [← hs]
      exact List.single_le_sum (fun _ _ => Nat.zero_le _) _ (List.mem_map_of_mem hd)
    by_contra h
    push Not at h
    nlinarith
  match ds, hs, h1, hle with
  | [], hs, _, _ => simp at hs
  | [a], hs, h1, hle =>
    have := h1 a (by simp)
    have := hle a (by simp)
    interval_cases a
    · simp at hs
    · simp
  | [a, b], hs, h1, hle =>
    have := h1 a (by simp)
    have := hle a (by simp)
    have := h1 b (by simp)
    have := hle b (by simp)
    interval_cases a <;> interval_cases b <;> simp at hs
  | [a, b, c], hs, h1, hle =>
    have := h1 a (by simp)
    have := hle a (by simp)
    have := h1 b (by simp)
    have := hle b (by simp)
    have := h1 c (by simp)
    have := hle c (by simp)
    interval_cases a <;> interval_cases b <;> interval_cases c <;> simp at hs
  | a :: b :: c :: d :: t, hs, h1, hle =>
    right
    have ha := h1 a (by simp)
    have hb := h1 b (by simp)
    have hc := h1 c (by simp)
    have hd := h1 d (by simp)
    simp only [List.map_cons, List.sum_cons] at hs
    have pa := Nat.one_le_pow 2 a ha
    have pb := Nat.one_le_pow 2 b hb
    have pc := Nat.one_le_pow 2 c hc
    have pd := Nat.one_le_pow 2 d hd
    have ht : t = [] := by
      cases t with
      | nil => rfl
      | cons e t =>
        have pe := Nat.one_le_pow 2 e (h1 e (by simp))
        simp only [List.map_cons, List.sum_cons] at hs
        omega
    subst ht
    simp only [List.map_nil, List.sum_nil] at hs
    have qa : a = 1 := by nlinarith
    have qb : b = 1 := by nlinarith
    have qc : c = 1 := by nlinarith
    have qd : d = 1 := by nlinarith
    rw [qa, qb, qc, qd]

/-- The SU(2) matrix of a half turn of the unit lattice. -/
theorem half_turn_unit {eig : EigOracle} (he : SymmEigContract eig) {S : M3} (hS : PreservesMetric 1 S) (hd : S.det = 1)
    (ht : S.trace = -1) {U : Matrix (Fin 2) (Fin 2) ℂ} (hU : getSpinorUnitaryRotation eig 1 S = .ok U) :
    ∃ v : V3, (∀ a, ∑ b, (S a b : ℝ) * v b = v a) ∧ ∑ a, v a ^ 2 = 1 ∧ U = halfTurnSpinor v := by
  obtain ⟨V, hV, -, -, -, hv⟩ := c107_convention he unit_det hS (C := S.map fun x => (x : ℝ)) (by
    rw [Matrix.transpose_one, Matrix.mul_one, Matrix.one_mul, hd, Int.cast_one, one_smul])
  obtain rfl := Except.ok.inj (hU.symm.trans hV)
  have htr : (S.map fun x : ℤ => (x : ℝ)).trace = -1 := by
    have h1 : (S.map fun x : ℤ => (x : ℝ)).trace = ((S.trace : ℤ) : ℝ) := by
      simp [Matrix.trace]
    rw [h1, ht]
    norm_num
  obtain ⟨v, h1, h2, -, h3⟩ := hv htr
  exact ⟨v, fun a => congrFun h1 a, h2, h3⟩

theorem near_dims {ε : ℝ} {S l : List (AnyRep n)}
    (h : List.Forall₂ (fun Γ x => ∃ A : RepArr n Γ.1, x = ⟨Γ.1, A⟩ ∧ ∀ g i j, ‖Γ.2 g i j - A g i j‖ ≤ ε) S l) :
    l.map (fun x => x.1) = S.map fun x => x.1 := by
  induction h with
  | nil => rfl
  | cons h _ ih =>
    obtain ⟨A, rfl, -⟩ := h
    rw [List.map_cons, List.map_cons, ih]

/-- 222 has one spinor irrep, of dimension two. -/
theorem spinor_axes222 {o : Oracles} (he : SymmEigContract o.eig) {method : IrrepMethod} {rtol : ℝ}
    (ho : MethodContract o method rtol axes222) {atol : ℝ} (ha : 0 < atol) (hle : atol ≤ 1 / 5) {maxGen : ℕ} {l : List (AnyRep 4)}
    {z : Fin 4 → Fin 4 → ℂ} {U : Fin 4 → Matrix (Fin 2) (Fin 2) ℂ}
    (hrun : pointgroupSpinorIrreps o 1 axes222 method rtol atol maxGen = .ok ((l, z, U), false)) :
    l.map (fun x => x.1) = [2] := by
  have hrun2 := hrun
  obtain ⟨-, hz, hmul, S, hS1, hS2, -, -, hsum⟩ := c63_pointgroup_spinor axes222_group he unit_det metric_axes222 ho ha hle hrun
  rw [pointgroupSpinor_eq] at hrun2
  obtain ⟨hzU, -⟩ := c45_spinor_small_reps ⟨axes222_group, fun _ _ _ _ _ => ⟨0, by simp⟩⟩ (fun i a => ⟨0, by simp⟩) he unit_det
    metric_axes222 ho ha hle hrun2
  obtain ⟨z1, U1, e1, hU, -⟩ := c44_spinor_factor_system he unit_det axes222_group metric_axes222
  obtain ⟨rfl, rfl⟩ := Prod.mk.inj (Except.ok.inj (hzU.symm.trans e1))
  obtain ⟨v, hv1, -, hv⟩ := half_turn_unit he (metric_axes222 1) (by decide +kernel) (by decide +kernel) (hU 1).2
  obtain ⟨w, hw1, -, hw⟩ := half_turn_unit he (metric_axes222 2) (by decide +kernel) (by decide +kernel) (hU 2).2
  have hanti : U 1 * U 2 = -(U 2 * U 1) := by
    have c1 : axes222 1 = !![-1, 0, 0; 0, -1, 0; 0, 0, 1] := by decide +kernel
    have c2 : axes222 2 = !![-1, 0, 0; 0, 1, 0; 0, 0, -1] := by decide +kernel
    rw [c1] at hv1
    rw [c2] at hw1
    have v0 := hv1 0
    have v1 := hv1 1
    have w0 := hw1 0
    have w2 := hw1 2
    simp [Fin.sum_univ_three] at v0 v1 w0 w2
    have v0' : v 0 = 0 := by linarith
    have v1' : v 1 = 0 := by linarith
    have w0' : w 0 = 0 := by linarith
    have w2' : w 2 = 0 := by linarith
    rw [hv, hw]
    unfold halfTurnSpinor
    rw [v0', v1', w0', w2']
    ext a b
    fin_cases a <;> fin_cases b <;> simp [Matrix.mul_apply, Fin.sum_univ_two] <;> ring
  have hzz : z 1 2 = -z 2 1 := by
    have k1 := hmul 1 2 3 (by decide +kernel)
    have k2 := hmul 2 1 3 (by decide +kernel)
    rw [k1, k2, ← neg_smul] at hanti
    refine smul_left_injective ℂ (fun h0 => ?_) hanti
    have h6 := (hU 3).1.2
    rw [h0, Matrix.det_zero] at h6
    exact zero_ne_one h6
  rw [near_dims hS1]
  rcases dims_four (ds := S.map fun x => x.1) (by rw [List.map_map]; exact hsum) (fun d hd => by
    obtain ⟨Γ, hΓ, rfl⟩ := List.mem_map.1 hd
    exact Fin.pos_iff_nonempty.2 (hS2 Γ hΓ).2.2.1) with h | h
  · exact h
  · exfalso
    have h1 : 1 ∈ S.map fun x => x.1 := by rw [h]; simp
    obtain ⟨⟨d, D⟩, hΓ, hd⟩ := List.mem_map.1 h1
    dsimp only at hd
    subst hd
    obtain ⟨hlaw, hun, -⟩ := hS2 _ hΓ
    dsimp only at hlaw hun
    have k1 := congrFun (congrFun (hlaw 1 2 3 (by decide +kernel)) 0) 0
    have k2 := congrFun (congrFun (hlaw 2 1 3 (by decide +kernel)) 0) 0
    have k3 := congrFun (congrFun (hun 3) 0) 0
    simp only [Matrix.mul_apply, Fin.sum_univ_one, Matrix.smul_apply, smul_eq_mul, Matrix.one_apply_eq] at k1 k2 k3
    rw [mul_comm, k2, hzz] at k1
    have h3 : D 3 0 0 = 0 := by
      rcases hz 2 1 with h | h <;> rw [h] at k1
      · linear_combination k1 / 2
      · linear_combination -k1 / 2
    rw [h3, zero_mul] at k3
    exact zero_ne_one k3

/-- The values of a one-dimensional spinor representation of 2/m. -/
noncomputable def charAxes2m : Fin 4 → ℂ := ![1, Complex.I, 1, Complex.I]

/-- 2/m has four spinor irreps, of dimension one. -/
theorem spinor_axes2m {o : Oracles} (he : SymmEigContract o.eig) {method : IrrepMethod} {rtol : ℝ}
    (ho : MethodContract o method rtol axes2m) {atol : ℝ} (ha : 0 < atol) (hle : atol ≤ 1 / 5) {maxGen : ℕ} {l : List (AnyRep 4)}
    {z : Fin 4 → Fin 4 → ℂ} {U : Fin 4 → Matrix (Fin 2) (Fin 2) ℂ}
    (hrun : pointgroupSpinorIrreps o 1 axes2m method rtol atol maxGen = .ok ((l, z, U), false)) :
    l.map (fun x => x.1) = [1, 1, 1, 1] := by
  have hrun2 := hrun
  obtain ⟨-, hz, hmul, S, hS1, hS2, -, hcomp, hsum⟩ := c63_pointgroup_spinor axes2m_group he unit_det metric_axes2m ho ha hle hrun
  rw [pointgroupSpinor_eq] at hrun2
  obtain ⟨hzU, -⟩ := c45_spinor_small_reps ⟨axes2m_group, fun _ _ _ _ _ => ⟨0, by simp⟩⟩ (fun i a => ⟨0, by simp⟩) he unit_det
    metric_axes2m ho ha hle hrun2
  obtain ⟨z1, U1, e1, hU, -, -, -, hone, hneg, -⟩ := c44_spinor_factor_system he unit_det axes2m_group metric_axes2m
  obtain ⟨rfl, rfl⟩ := Prod.mk.inj (Except.ok.inj (hzU.symm.trans e1))
  obtain ⟨v, hv1, hvn, hv⟩ := half_turn_unit he (metric_axes2m 1) (by decide +kernel) (by decide +kernel) (hU 1).2
  have c1 : axes2m 1 = !![-1, 0, 0; 0, 1, 0; 0, 0, -1] := by decide +kernel
  rw [c1] at hv1
  have v0 := hv1 0
  have v2 := hv1 2
  simp [Fin.sum_univ_three] at v0 v2
  have v0' : v 0 = 0 := by linarith
  have v2' : v 2 = 0 := by linarith
  rw [Fin.sum_univ_three, v0', v2'] at hvn
  have hvn' : ((v 1 : ℝ) : ℂ) * v 1 = 1 := by
    have : v 1 * v 1 = 1 := by linarith
    exact_mod_cast this
  -- a common eigenvector
  let x : Fin 2 → ℂ := ![1, -Complex.I * v 1]
  have hx : ∀ i, (U i).mulVec x = charAxes2m i • x := by
    have e0 : U 0 = 1 := (hone 0 (by decide +kernel)).1
    have e2 : U 2 = U 0 := hneg 0 2 (by decide +kernel)
    have e3 : U 3 = U 1 := hneg 1 3 (by decide +kernel)
    have f0 : (U 0).mulVec x = (1 : ℂ) • x := by rw [e0, Matrix.one_mulVec, one_smul]
    have f1 : (U 1).mulVec x = Complex.I • x := by
      rw [hv]
      unfold halfTurnSpinor
      rw [v0', v2']
      funext a
      fin_cases a
      · simp [x, Matrix.mulVec, dotProduct, Fin.sum_univ_two]
        linear_combination Complex.I * hvn'
      · simp [x, Matrix.mulVec, dotProduct, Fin.sum_univ_two]
        linear_combination (v 1 : ℂ) * Complex.I_mul_I
    intro i
    fin_cases i
    · exact f0
    · exact f1
    · rw [show (⟨2, by omega⟩ : Fin 4) = 2 from rfl, e2]; exact f0
    · rw [show (⟨3, by omega⟩ : Fin 4) = 3 from rfl, e3]; exact f1
  have hlaw : ∀ i j p, axes2m i * axes2m j = axes2m p → charAxes2m i * charAxes2m j = z i j * charAxes2m p := by
    intro i j p hp
    have k := congrArg (fun A : Matrix (Fin 2) (Fin 2) ℂ => A.mulVec x 0) (hmul i j p hp)
    rw [← Matrix.mulVec_mulVec, hx, Matrix.mulVec_smul, hx, Matrix.smul_mulVec, hx] at k
    simp only [Pi.smul_apply, smul_eq_mul] at k
    have hx0 : x 0 = 1 := rfl
    rw [hx0] at k
    linear_combination k
  obtain ⟨Γ, hΓ, heq⟩ := hcomp 1 (fun i => charAxes2m i • 1) (fun i j p hp => by
      rw [Matrix.smul_mul, Matrix.one_mul, smul_smul, smul_smul, hlaw i j p hp])
    (fun i => by
      have : charAxes2m i ≠ 0 := by fin_cases i <;> simp [charAxes2m]
      exact isUnit_one.smul (Units.mk0 _ this))
    ⟨⟨0⟩, fun W _ => by
      rcases eq_or_ne W ⊥ with h | h
      · exact .inl h
      · right
        obtain ⟨w, hw, hw0⟩ := W.ne_bot_iff.1 h
        have hw1 : w 0 ≠ 0 := fun h0 => hw0 (funext fun a => by rw [Subsingleton.elim a 0, h0]; rfl)
        rw [Submodule.eq_top_iff']
        intro u
        have : u = (u 0 / w 0) • w := by
          funext a
          rw [Subsingleton.elim a 0, Pi.smul_apply, smul_eq_mul, div_mul_cancel₀ _ hw1]
        rw [this]
        exact W.smul_mem _ hw⟩
  rw [near_dims hS1]
  rcases dims_four (ds := S.map fun x => x.1) (by rw [List.map_map]; exact hsum) (fun d hd => by
    obtain ⟨Γ, hΓ, rfl⟩ := List.mem_map.1 hd
    exact Fin.pos_iff_nonempty.2 (hS2 Γ hΓ).2.2.1) with h | h
  · exfalso
    have h1 : Γ.1 ∈ S.map fun x => x.1 := List.mem_map.2 ⟨Γ, hΓ, rfl⟩
    rw [← AreEquivalent.dim_eq heq, h] at h1
    simp at h1
  · exact h

/-- **C111, not the abstract group**: 222 and 2/m are isomorphic, and all runs without warnings return one spinor irrep of
dimension two for the first and four of dimension one for the second; there are such runs. -/
theorem c111_not_abstract : IsIsomorphism axes222 axes2m (Equiv.refl (Fin 4)) ∧
    (∀ (o : Oracles) (method : IrrepMethod) (rtol atol : ℝ) (maxGen : ℕ) (l : List (AnyRep 4)) (z : Fin 4 → Fin 4 → ℂ)
      (U : Fin 4 → Matrix (Fin 2) (Fin 2) ℂ), SymmEigContract o.eig → MethodContract o method rtol axes222 → 0 < atol →
      atol ≤ 1 / 5 → pointgroupSpinorIrreps o 1 axes222 method rtol atol maxGen = .ok ((l, z, U), false) →
      l.map (fun x => x.1) = [2]) ∧
    (∀ (o : Oracles) (method : IrrepMethod) (rtol atol : ℝ) (maxGen : ℕ) (l : List (AnyRep 4)) (z : Fin 4 → Fin 4 → ℂ)
      (U : Fin 4 → Matrix (Fin 2) (Fin 2) ℂ), SymmEigContract o.eig → MethodContract o method rtol axes2m → 0 < atol →
      atol ≤ 1 / 5 → pointgroupSpinorIrreps o 1 axes2m method rtol atol maxGen = .ok ((l, z, U), false) →
      l.map (fun x => x.1) = [1, 1, 1, 1]) ∧
    ∃ (o o' : Oracles) (l l' : List (AnyRep 4)) (z z' : Fin 4 → Fin 4 → ℂ) (U U' : Fin 4 → Matrix (Fin 2) (Fin 2) ℂ),
      SymmEigContract o.eig ∧ SymmEigContract o'.eig ∧ MethodContract o .neto 1e-5 axes222 ∧ MethodContract o' .neto 1e-5 axes2m ∧
      pointgroupSpinorIrreps o 1 axes222 .neto 1e-5 1e-8 4 = .ok ((l, z, U), false) ∧
      pointgroupSpinorIrreps o' 1 axes2m .neto 1e-5 1e-8 4 = .ok ((l', z', U'), false) := by
  refine ⟨by unfold IsIsomorphism; decide +kernel, fun o method rtol atol maxGen l z U he ho ha hle hrun =>
    spinor_axes222 he ho ha hle hrun, fun o method rtol atol maxGen l z U he ho ha hle hrun => spinor_axes2m he ho ha hle hrun, ?_⟩
  obtain ⟨eig, he⟩ := symmEigContract_exists
  obtain ⟨random, hr⟩ := exists_richDraws 1e-8 4 4 fun d hd => hd
  let o : Oracles := ⟨random, eig, fun _ _ => (0, 0), fun _ _ _ => 0, (PgSymbol.pg_222, (1 : M3).map fun x : ℤ => (x : ℝ))⟩
  let o' : Oracles := ⟨random, eig, fun _ _ => (0, 0), fun _ _ _ => 0, (PgSymbol.pg_2_m, (1 : M3).map fun x : ℤ => (x : ℝ))⟩
  obtain ⟨l, z, U, h1⟩ := c63_runs (o := o) (rtol := 1e-5) (atol := 1e-8) (maxGen := 4) axes222_group he unit_det metric_axes222
    contract_axes222 (by norm_num) (by norm_num) hr
  obtain ⟨l', z', U', h2⟩ := c63_runs (o := o') (rtol := 1e-5) (atol := 1e-8) (maxGen := 4) axes2m_group he unit_det metric_axes2m
    contract_axes2m (by norm_num) (by norm_num) hr
  exact ⟨o, o', l, l', z, z', U, U', he, he, contract_axes222, contract_axes2m, h1, h2⟩

end Spgrep
