/-
C104: how many totally symmetric invariant tensors there are, and what `apply_intrinsic_symmetry` finds of them.
-/
import Verif.Props.TensorRun
import Verif.Props.Intrinsic
import Mathlib.LinearAlgebra.Trace

namespace Spgrep

open Spec

variable {n D p : ℕ} {T : Fin n → Fin n → Fin n}

/-- `Σ_σ tr(A^{⊗p} σ)`: `p!` times the trace of `A` on the totally symmetric tensors of rank `p`. -/
noncomputable def Spec.symTrace (p : ℕ) (A : Matrix (Fin D) (Fin D) ℂ) : ℂ :=
  ∑ σ : Equiv.Perm (Fin p), ∑ a : Fin p → Fin D, ∏ s, A (a (σ s)) (a s)

/-- The totally symmetric tensors that are invariant under all matrices. -/
def Spec.IsSymInvariant (rep : RepArr n D) (t : Tensor D p) : Prop :=
  (∀ τ : Equiv.Perm (Fin p), permTensor τ t = t) ∧ ∀ g, actTensor (rep g) t = t

/-- They form a subspace. -/
noncomputable def symInv (p : ℕ) (rep : RepArr n D) : Submodule ℂ (Tensor D p) where
  carrier := {t | IsSymInvariant rep t}
  add_mem' := by
    intro x y hx hy
    refine ⟨fun τ => ?_, (invTensors p rep).add_mem hx.2 hy.2⟩
    conv_rhs => rw [← hx.1 τ, ← hy.1 τ]
    rfl
  zero_mem' := ⟨fun τ => rfl, (invTensors p rep).zero_mem⟩
  smul_mem' := by
    intro c x hx
    refine ⟨fun τ => ?_, (invTensors p rep).smul_mem c hx.2⟩
    conv_rhs => rw [← hx.1 τ]
    rfl

/-- The matrix of a permutation of the axes followed by the action of `A`. -/
noncomputable def symMat (σ : Equiv.Perm (Fin p)) (A : Matrix (Fin D) (Fin D) ℂ) :
    Matrix (Fin p → Fin D) (Fin p → Fin D) ℂ := Matrix.of fun a c => ∏ s, A (a (σ s)) (c s)

theorem symMat_mulVec (σ : Equiv.Perm (Fin p)) (A : Matrix (Fin D) (Fin D) ℂ) (t : Tensor D p) :
    (symMat σ A).mulVec t = actTensor A (permTensor σ t) := by
  rw [actTensor_perm]
  rfl

/-- The projection to the symmetric invariant tensors. -/
noncomputable def symProj (p : ℕ) (rep : RepArr n D) : Tensor D p →ₗ[ℂ] Tensor D p :=
  ((n : ℂ) * (p.factorial : ℂ))⁻¹ • ∑ g, ∑ σ : Equiv.Perm (Fin p), Matrix.toLin' (symMat σ (rep g))

theorem symProj_apply (rep : RepArr n D) (t : Tensor D p) : symProj p rep t =
    ((n : ℂ) * (p.factorial : ℂ))⁻¹ • ∑ g, ∑ σ : Equiv.Perm (Fin p), actTensor (rep g) (permTensor σ t) := by
  simp only [symProj, LinearMap.smul_apply, LinearMap.sum_apply, Matrix.toLin'_apply, symMat_mulVec]

theorem actTensor_mul (A B : Matrix (Fin D) (Fin D) ℂ) (t : Tensor D p) :
    actTensor A (actTensor B t) = actTensor (A * B) t := by
  have h : ∀ (M : Matrix (Fin D) (Fin D) ℂ) (t : Tensor D p), actTensor M t = (tensorPow p M).mulVec t := fun _ _ => rfl
  rw [h, h, h, Matrix.mulVec_mulVec, tensorPow_mul]

theorem actTensor_finsum {ι : Type*} (s : Finset ι) (A : Matrix (Fin D) (Fin D) ℂ) (f : ι → Tensor D p) :
    actTensor A (∑ i ∈ s, f i) = ∑ i ∈ s, actTensor A (f i) := by
  have h : ∀ t : Tensor D p, actTensor A t = Matrix.toLin' (tensorPow p A) t := fun _ => rfl
  simp only [h, map_sum]

theorem permTensor_finsum {ι : Type*} (s : Finset ι) (τ : Equiv.Perm (Fin p)) (f : ι → Tensor D p) :
    permTensor τ (∑ i ∈ s, f i) = ∑ i ∈ s, permTensor τ (f i) := by
  funext a
  simp only [permTensor, Finset.sum_apply]

theorem permTensor_mul (σ τ : Equiv.Perm (Fin p)) (t : Tensor D p) :
    permTensor σ (permTensor τ t) = permTensor (σ * τ) t := rfl

theorem symProj_isProj (hT : IsGroupTable T) {rep : RepArr n D} (hrep : IsProjRep T (fun _ _ => 1) rep) (hn : 0 < n) :
    LinearMap.IsProj (symInv p rep) (symProj p rep) where
  map_mem t := by
    rw [symProj_apply]
    constructor
    · intro τ
      show (((n : ℂ) * (p.factorial : ℂ))⁻¹ • permTensor τ (∑ g, ∑ σ : Equiv.Perm (Fin p), actTensor (rep g) (permTensor σ t))) = _
      congr 1
      rw [permTensor_finsum]
      refine Finset.sum_congr rfl fun g _ => ?_
      rw [permTensor_finsum]
      conv_rhs => rw [← Equiv.sum_comp (Equiv.mulLeft τ)]
      refine Finset.sum_congr rfl fun σ _ => ?_
      rw [← actTensor_perm, permTensor_mul]
      rfl
    · intro g
      rw [actTensor_smul, actTensor_finsum]
      congr 1
      have hb : Function.Bijective (T g) := by
        exact (Finite.injective_iff_bijective).1 fun a b hab => table_left_cancel hT hab
      conv_rhs => rw [← (Equiv.ofBijective _ hb).sum_comp]
      refine Finset.sum_congr rfl fun h _ => ?_
      rw [actTensor_finsum]
      refine Finset.sum_congr rfl fun σ _ => ?_
      rw [actTensor_mul, hrep g h, one_smul]
      rfl
  map_id t ht := by
    rw [symProj_apply]
    have h1 : ∀ g (σ : Equiv.Perm (Fin p)), actTensor (rep g) (permTensor σ t) = t := fun g σ => by
      rw [ht.1 σ, ht.2 g]
    simp only [h1, Finset.sum_const, Finset.card_univ, Fintype.card_perm, Fintype.card_fin, smul_smul]
    rw [← Nat.cast_smul_eq_nsmul ℂ, smul_smul]
    push_cast
    have h2 : (n : ℂ) ≠ 0 := by exact_mod_cast hn.ne'
    have h3 : (p.factorial : ℂ) ≠ 0 := by exact_mod_cast p.factorial_ne_zero
    rw [inv_mul_cancel₀ (mul_ne_zero h2 h3), one_smul]

/-- The number of independent symmetric invariant tensors, from the matrices. -/
theorem finrank_symInv (hT : IsGroupTable T) {rep : RepArr n D} (hrep : IsProjRep T (fun _ _ => 1) rep) (hn : 0 < n) :
    ((n * p.factorial * Module.finrank ℂ (symInv p rep) : ℕ) : ℂ) = ∑ g, symTrace p (rep g) := by
  have h := (symProj_isProj (p := p) hT hrep hn).trace
  unfold symProj at h
  rw [map_smul, map_sum] at h
  simp only [map_sum, Matrix.trace_toLin'_eq, smul_eq_mul] at h
  have h2 : (n : ℂ) ≠ 0 := by exact_mod_cast hn.ne'
  have h3 : (p.factorial : ℂ) ≠ 0 := by exact_mod_cast p.factorial_ne_zero
  push_cast
  rw [← h, mul_inv_cancel_left₀ (mul_ne_zero h2 h3)]
  rfl

theorem symTrace_one (A : Matrix (Fin D) (Fin D) ℂ) : symTrace 1 A = A.trace := by
  unfold symTrace
  rw [Fintype.sum_unique, ← (Equiv.funUnique (Fin 1) (Fin D)).symm.sum_comp]
  simp [Matrix.trace]

theorem symTrace_two (A : Matrix (Fin D) (Fin D) ℂ) : symTrace 2 A = A.trace ^ 2 + (A ^ 2).trace := by
  unfold symTrace
  have hu : (Finset.univ : Finset (Equiv.Perm (Fin 2))) = {1, Equiv.swap 0 1} := by decide
  rw [hu, Finset.sum_pair (by decide), ← (finTwoArrowEquiv (Fin D)).symm.sum_comp, ← (finTwoArrowEquiv (Fin D)).symm.sum_comp,
    Fintype.sum_prod_type, Fintype.sum_prod_type]
  congr 1
  · simp [Fin.prod_univ_two, Matrix.trace, sq, Finset.sum_mul_sum]
  · simp [Fin.prod_univ_two, Matrix.trace, sq, Matrix.mul_apply, mul_comm]

theorem sum_fin_three {X : Type*} [Fintype X] (f : (Fin 3 → X) → ℂ) :
    ∑ a, f a = ∑ x, ∑ y, ∑ z, f ![x, y, z] := by
  rw [← (Fin.consEquiv fun _ => X).sum_comp, Fintype.sum_prod_type]
  refine Finset.sum_congr rfl fun x _ => ?_
  rw [← (finTwoArrowEquiv X).symm.sum_comp, Fintype.sum_prod_type]
  refine Finset.sum_congr rfl fun y _ => Finset.sum_congr rfl fun z _ => ?_
  rfl

theorem trace_sq_eq (A : Matrix (Fin D) (Fin D) ℂ) : (A ^ 2).trace = ∑ x, ∑ y, A x y * A y x := by
  simp [sq, Matrix.trace, Matrix.mul_apply]

theorem trace_cube_eq (A : Matrix (Fin D) (Fin D) ℂ) : (A ^ 3).trace = ∑ x, ∑ y, ∑ z, A x y * A y z * A z x := by
  rw [pow_succ, sq]
  simp only [Matrix.trace, Matrix.diag_apply, Matrix.mul_apply, Finset.sum_mul]
  exact Finset.sum_congr rfl fun x _ => Finset.sum_comm

theorem symTrace_three (A : Matrix (Fin D) (Fin D) ℂ) :
    symTrace 3 A = A.trace ^ 3 + 3 * A.trace * (A ^ 2).trace + 2 * (A ^ 3).trace := by
  unfold symTrace
  have hu : (Finset.univ : Finset (Equiv.Perm (Fin 3))) = {1, Equiv.swap 0 1, Equiv.swap 0 2, Equiv.swap 1 2,
    finRotate 3, (finRotate 3)⁻¹} := by decide
  rw [hu, Finset.sum_insert (by decide), Finset.sum_insert (by decide), Finset.sum_insert (by decide),
    Finset.sum_insert (by decide), Finset.sum_pair (by decide)]
  have ht : A.trace = ∑ x, A x x := rfl
  have e0 : ∑ a : Fin 3 → Fin D, ∏ s, A (a ((1 : Equiv.Perm (Fin 3)) s)) (a s) = A.trace ^ 3 := by
    rw [← tensorPow_trace]
    rfl
  have e1 : ∑ a : Fin 3 → Fin D, ∏ s, A (a (Equiv.swap 0 1 s)) (a s) = A.trace * (A ^ 2).trace := by
    rw [sum_fin_three, trace_sq_eq, ht, mul_comm, Finset.sum_mul]
    refine Finset.sum_congr rfl fun x _ => ?_
    rw [Finset.sum_mul]
    refine Finset.sum_congr rfl fun y _ => ?_
    rw [Finset.mul_sum]
    refine Finset.sum_congr rfl fun z _ => ?_
    rw [Fin.prod_univ_three]
    show A y x * A x y * A z z = _
    ring
  have e2 : ∑ a : Fin 3 → Fin D, ∏ s, A (a (Equiv.swap 0 2 s)) (a s) = A.trace * (A ^ 2).trace := by
    rw [sum_fin_three, trace_sq_eq, ht, mul_comm, Finset.sum_mul]
    refine Finset.sum_congr rfl fun x _ => ?_
    rw [Finset.sum_comm, Finset.sum_mul]
    refine Finset.sum_congr rfl fun y _ => ?_
    rw [Finset.mul_sum]
    refine Finset.sum_congr rfl fun z _ => ?_
    rw [Fin.prod_univ_three]
    show A y x * A z z * A x y = _
    ring
  have e3 : ∑ a : Fin 3 → Fin D, ∏ s, A (a (Equiv.swap 1 2 s)) (a s) = A.trace * (A ^ 2).trace := by
    rw [sum_fin_three, trace_sq_eq, ht, Finset.sum_mul]
    refine Finset.sum_congr rfl fun x _ => ?_
    rw [Finset.mul_sum]
    refine Finset.sum_congr rfl fun y _ => ?_
    rw [Finset.mul_sum]
    refine Finset.sum_congr rfl fun z _ => ?_
    rw [Fin.prod_univ_three]
    show A x x * A z y * A y z = _
    ring
  have e4 : ∑ a : Fin 3 → Fin D, ∏ s, A (a (finRotate 3 s)) (a s) = (A ^ 3).trace := by
    rw [sum_fin_three, trace_cube_eq]
    refine Finset.sum_congr rfl fun x _ => ?_
    rw [Finset.sum_comm]
    refine Finset.sum_congr rfl fun y _ => Finset.sum_congr rfl fun z _ => ?_
    rw [Fin.prod_univ_three]
    show A z x * A y z * A x y = _
    ring
  have e5 : ∑ a : Fin 3 → Fin D, ∏ s, A (a ((finRotate 3)⁻¹ s)) (a s) = (A ^ 3).trace := by
    rw [sum_fin_three, trace_cube_eq]
    refine Finset.sum_congr rfl fun x _ => Finset.sum_congr rfl fun y _ => Finset.sum_congr rfl fun z _ => ?_
    rw [Fin.prod_univ_three]
    show A z x * A x y * A y z = _
    ring
  rw [e0, e1, e2, e3, e4, e5]
  ring

theorem symSum_eq (t : Tensor D p) : symSum t = ∑ σ : Equiv.Perm (Fin p), permTensor σ t := rfl

theorem span_symSum {rep : RepArr n D} {ts : List (Tensor D p)} (h1 : ∀ t ∈ ts, ∀ g, actTensor (rep g) t = t)
    (h3 : ∀ t : Tensor D p, (∀ g, actTensor (rep g) t = t) → t ∈ Submodule.span ℂ (Set.range ts.get)) :
    Submodule.span ℂ {s | ∃ t ∈ ts, s = symSum t} = symInv p rep := by
  let S : Tensor D p →ₗ[ℂ] Tensor D p :=
    { toFun := symSum
      map_add' := fun x y => by
        simp only [symSum_eq, ← Finset.sum_add_distrib]
        rfl
      map_smul' := fun c x => by
        simp only [symSum_eq, Finset.smul_sum, RingHom.id_apply]
        rfl }
  apply le_antisymm
  · rw [Submodule.span_le]
    rintro _ ⟨t, ht, rfl⟩
    constructor
    · intro τ
      rw [symSum_eq, permTensor_finsum]
      conv_rhs => rw [← Equiv.sum_comp (Equiv.mulLeft τ)]
      rfl
    · intro g
      rw [symSum_eq, actTensor_finsum]
      refine Finset.sum_congr rfl fun σ _ => ?_
      rw [actTensor_perm, h1 t ht g]
  · intro s hs
    have h4 : S s ∈ Submodule.map S (Submodule.span ℂ (Set.range ts.get)) := Submodule.mem_map_of_mem (h3 s hs.2)
    rw [Submodule.map_span] at h4
    have h5 : S s = (p.factorial : ℂ) • s := by
      show symSum s = _
      rw [symSum_eq]
      simp only [hs.1, Finset.sum_const, Finset.card_univ, Fintype.card_perm, Fintype.card_fin]
      rw [← Nat.cast_smul_eq_nsmul ℂ]
    have h6 : Submodule.span ℂ (S '' Set.range ts.get) ≤ Submodule.span ℂ {s | ∃ t ∈ ts, s = symSum t} := by
      apply Submodule.span_mono
      rintro _ ⟨_, ⟨i, rfl⟩, rfl⟩
      exact ⟨_, List.get_mem _ _, rfl⟩
    have h7 := Submodule.smul_mem _ ((p.factorial : ℂ)⁻¹) (h6 h4)
    rwa [h5, smul_smul, inv_mul_cancel₀ (by exact_mod_cast p.factorial_ne_zero), one_smul] at h7

/-- **C104.** Let `get_symmetry_adapted_tensors` (complex irreps) return tensors without a warning for a unitary
representation of a group of rotations.  Then `apply_intrinsic_symmetry` succeeds on them.  It returns linearly independent
totally symmetric invariant tensors; `n p!` times the number `m` of such tensors in a basis of all of them is the sum over
the group of `Σ_σ tr(A^{⊗p} σ)`; not more than `m` are returned, and `m` are returned exactly if they span all of them.

Partial: that always `m` are returned is false, see `c104_refuted`. -/
theorem c104_symmetric_tensors_partial {rots : Fin n → M3} (h : EnumeratesGroup rots) (hT : getCayleyTable rots = .ok T)
    {rep : RepArr n D} (hrep : IsProjRep T (fun _ _ => 1) rep) (hru : IsUnitaryRep rep) (o : Oracles)
    (ho : PointgroupContract o.pointgroup rots) (la : LinAlg) (hla : la.Contract) (rank : ℕ) {atol : ℝ}
    (ha : 0 ≤ atol) (ha2 : atol ≤ 1 / 2) {ts : List (Tensor D (rank - 1 + 1))}
    (hrun : getSymmetryAdaptedTensors o la rep rots rank false atol = .ok (ts, false)) {atol' : ℝ} (ha' : 0 ≤ atol') :
    ∃ (us : List (Tensor D (rank - 1 + 1))) (m : ℕ), applyIntrinsicSymmetry la ts atol' = .ok us ∧
      (∀ u ∈ us, IsSymInvariant rep u) ∧ LinearIndependent ℂ us.get ∧
      ((n * (rank - 1 + 1).factorial * m : ℕ) : ℂ) = ∑ g, symTrace (rank - 1 + 1) (rep g) ∧ us.length ≤ m ∧
      (us.length = m ↔ ∀ t, IsSymInvariant rep t → t ∈ Submodule.span ℂ (Set.range us.get)) := by
  obtain ⟨T', hT', -, hTg⟩ := c01_cayley_table_ordinary h
  rw [hT] at hT'
  obtain rfl := Except.ok.inj hT'
  have hn : 0 < n := by
    obtain ⟨-, e, -⟩ := hTg
    exact Fin.pos e
  obtain ⟨h1, h2, h3⟩ := c58_tensors_basis_partial h hT hrep hru o ho la hla rank false ha ha2 (by simp) hrun
  have h0 : ∀ t ∈ ts, t ≠ 0 := by
    intro t ht
    obtain ⟨i, rfl⟩ := List.get_of_mem ht
    exact h2.ne_zero i
  obtain ⟨us, hus, hli, hprop⟩ := c25_intrinsic_symmetry_partial la hla ha' ts h0
  obtain ⟨us', hus', hle, hlen, heq⟩ := c59_intrinsic_span_partial la hla ha' ts h0
  obtain rfl : us = us' := Except.ok.inj (hus.symm.trans hus')
  rw [span_symSum h1 h3] at hle hlen heq
  refine ⟨us, _, hus, fun u hu => ⟨(hprop u hu).1, fun g => (hprop u hu).2.2.1 _ fun t ht => h1 t ht g⟩, hli,
    finrank_symInv hTg hrep hn, hlen, fun hl t ht => ?_, fun hall => ?_⟩
  · rw [heq hl]
    exact ht
  · have h4 : Submodule.span ℂ (Set.range us.get) = symInv (rank - 1 + 1) rep := le_antisymm hle fun t ht => hall t ht
    rw [← h4, finrank_span_eq_card hli, Fintype.card_fin]

/-- **C104, ranks one to three in terms of characters.** The numbers `Σ_σ tr(A^{⊗p} σ)` are the well-known polynomials in
the traces of the powers of `A`. -/
theorem c104_characters (A : Matrix (Fin D) (Fin D) ℂ) :
    symTrace 1 A = A.trace ∧ symTrace 2 A = A.trace ^ 2 + (A ^ 2).trace ∧
    symTrace 3 A = A.trace ^ 3 + 3 * A.trace * (A ^ 2).trace + 2 * (A ^ 3).trace :=
  ⟨symTrace_one A, symTrace_two A, symTrace_three A⟩

/-- Non-vacuity: the rotations of 4/m acting on vectors; at rank two there are two symmetric tensors, out of three. -/
example : ∃ (o : Oracles) (la : LinAlg) (ts us : List (Tensor 3 2)), EnumeratesGroup rots4m ∧
    PointgroupContract o.pointgroup rots4m ∧ la.Contract ∧
    getSymmetryAdaptedTensors o la (repOfRots rots4m) rots4m 2 = .ok (ts, false) ∧
    applyIntrinsicSymmetry la ts = .ok us ∧ us.length ≤ 2 ∧
    ∑ g, symTrace 2 (repOfRots rots4m g) = 8 * 2 * 2 := by
  obtain ⟨random, hr⟩ := exists_richDraws 1e-8 8 4 fun d hd => by
    have : d ≤ 2 := by by_contra h; push Not at h; nlinarith
    nlinarith
  obtain ⟨la, hla⟩ := exists_linAlg_contract
  let o : Oracles := { random := random, eig := fun d _ => (fun _ => 0, 0), eigh := fun d _ => (fun _ => 0, 0),
                       qr := fun _ _ _ => 0,
                       pointgroup := (PgSymbol.pg_4_m, (1 : M3).map fun x : ℤ => (x : ℝ)) }
  have ho : PointgroupContract o.pointgroup rots4m := pointgroup_4m
  obtain ⟨L, w, hraw, hw2, hw⟩ := c64_exact_entries rots4m_group cayley_4m.1 o ho 1e-5 (atol := 1e-8) (by norm_num)
    (by norm_num) 4
  obtain ⟨l, henum, -⟩ := hw (hw2 hr)
  obtain ⟨ts, h1, -⟩ := c77_tensor_count rots4m_group cayley_4m.1 (repOfRots_proj cayley_4m.1)
    (repOfRots_unitary (by decide +kernel)) o ho la hla 2 (atol := 1e-8) (by norm_num) (by norm_num) ⟨_, henum⟩
    (.inl le_rfl)
  obtain ⟨us, m, hus, -, -, hm, hle, -⟩ := c104_symmetric_tensors_partial rots4m_group cayley_4m.1
    (repOfRots_proj cayley_4m.1) (repOfRots_unitary (by decide +kernel)) o ho la hla 2 (by norm_num) (by norm_num) h1
    (atol' := 1e-6) (by norm_num)
  have h3 : ∑ g : Fin 8, symTrace 2 (repOfRots rots4m g) =
      ((∑ g, ((rots4m g).trace ^ 2 + (rots4m g ^ 2).trace) : ℤ) : ℂ) := by
    push_cast
    refine Finset.sum_congr rfl fun g _ => ?_
    rw [symTrace_two]
    simp [repOfRots, Matrix.trace, Fin.sum_univ_succ, pow_two, Matrix.mul_apply]
  have h4 : ∑ g, ((rots4m g).trace ^ 2 + (rots4m g ^ 2).trace) = 32 := by decide +kernel
  rw [h4] at h3
  have hm2 : m = 2 := by
    have h5 : ((8 * 2 * m : ℕ) : ℂ) = ((32 : ℕ) : ℂ) := by
      refine hm.trans (h3.trans ?_)
      norm_num
    have := Nat.cast_injective h5
    omega
  refine ⟨o, la, ts, us, rots4m_group, ho, hla, h1, hus, by omega, h3.trans (by norm_num)⟩

end Spgrep
