/-
C113: symmetry-adapted tensors of two groups, of two bases, and of two runs.
-/
import Verif.Props.SymmetricCount
import Verif.Props.SpinorInversion

namespace Spgrep

open Spec Matrix

variable {n n' D p : ℕ} {T : Fin n → Fin n → Fin n} {T' : Fin n' → Fin n' → Fin n'}

theorem actTensor_id (t : Tensor D p) : actTensor (1 : Matrix (Fin D) (Fin D) ℂ) t = t := by
  funext a
  unfold actTensor
  rw [Finset.sum_eq_single a]
  · simp
  · intro b _ hb
    obtain ⟨s, hs⟩ : ∃ s, a s ≠ b s := by
      by_contra hc
      push Not at hc
      exact hb (funext fun s => (hc s).symm)
    have h0 : ∏ s, (1 : Matrix (Fin D) (Fin D) ℂ) (a s) (b s) = 0 :=
      Finset.prod_eq_zero (Finset.mem_univ s) (Matrix.one_apply_ne hs)
    exact mul_eq_zero_of_left h0 _
  · intro h
    exact absurd (Finset.mem_univ a) h

theorem actTensor_scalar (c : ℂ) (t : Tensor D p) : actTensor (c • (1 : Matrix (Fin D) (Fin D) ℂ)) t = c ^ p • t := by
  conv_rhs => rw [← actTensor_id t]
  funext a
  simp only [actTensor, Matrix.smul_apply, smul_eq_mul, Pi.smul_apply, Finset.prod_mul_distrib, Finset.prod_const,
    Finset.card_univ, Fintype.card_fin, Finset.mul_sum, mul_assoc]

/-- A change of basis as a linear map of tensors. -/
noncomputable def actLin (p : ℕ) (S : Matrix (Fin D) (Fin D) ℂ) : Tensor D p →ₗ[ℂ] Tensor D p :=
  Matrix.toLin' (tensorPow p S)

theorem actLin_apply (S : Matrix (Fin D) (Fin D) ℂ) (t : Tensor D p) : actLin p S t = actTensor S t := rfl

theorem actTensor_injective {S S' : Matrix (Fin D) (Fin D) ℂ} (h : S' * S = 1) {t u : Tensor D p}
    (htu : actTensor S t = actTensor S u) : t = u := by
  have := congrArg (actTensor S') htu
  rwa [actTensor_mul, actTensor_mul, h, actTensor_id, actTensor_id] at this

/-- Invariance is carried along by a change of basis. -/
theorem act_invariant {A A' S S' : Matrix (Fin D) (Fin D) ℂ} (h : S' * S = 1) (hA : A' * S = S * A) {t : Tensor D p} :
    actTensor A' (actTensor S t) = actTensor S t ↔ actTensor A t = t := by
  rw [actTensor_mul, hA, ← actTensor_mul]
  exact ⟨fun h1 => actTensor_injective h h1, fun h1 => by rw [h1]⟩

/-- C113 (Neumann's principle for the returned tensors).  Two runs of `get_symmetry_adapted_tensors` without warning, for two
groups of rotations with unitary representations such that every matrix of the second one is, after the change of basis
`S`, a matrix of the first one (the second group is a subgroup, the bases and the orders of the lists may differ): the change
of basis maps the tensors of the first run into the span of those of the second run, so that the second run returns at least
as many tensors.  If, conversely, every matrix of the first representation occurs in the second one, the spans correspond to
each other and the numbers of tensors are equal. -/
theorem c113_neumann {rots : Fin n → M3} (h : EnumeratesGroup rots) (hT : getCayleyTable rots = .ok T)
    {rots' : Fin n' → M3} (h' : EnumeratesGroup rots') (hT' : getCayleyTable rots' = .ok T')
    {rep : RepArr n D} (hrep : IsProjRep T (fun _ _ => 1) rep) (hru : IsUnitaryRep rep)
    {rep' : RepArr n' D} (hrep' : IsProjRep T' (fun _ _ => 1) rep') (hru' : IsUnitaryRep rep')
    (o o' : Oracles) (ho : PointgroupContract o.pointgroup rots) (ho' : PointgroupContract o'.pointgroup rots')
    (la la' : LinAlg) (hla : la.Contract) (hla' : la'.Contract) (rank : ℕ) {atol atol' : ℝ}
    (ha : 0 ≤ atol) (ha2 : atol ≤ 1 / 2) (ha' : 0 ≤ atol') (ha2' : atol' ≤ 1 / 2)
    {S : Matrix (Fin D) (Fin D) ℂ} (hS : IsUnit S) (hsub : ∀ g', ∃ g, rep' g' * S = S * rep g)
    {ts ts' : List (Tensor D (rank - 1 + 1))}
    (hrun : getSymmetryAdaptedTensors o la rep rots rank false atol = .ok (ts, false))
    (hrun' : getSymmetryAdaptedTensors o' la' rep' rots' rank false atol' = .ok (ts', false)) :
    (∀ t ∈ Submodule.span ℂ (Set.range ts.get), actTensor S t ∈ Submodule.span ℂ (Set.range ts'.get)) ∧
    ts.length ≤ ts'.length ∧
    ((∀ g, ∃ g', rep' g' * S = S * rep g) →
      (∀ t, actTensor S t ∈ Submodule.span ℂ (Set.range ts'.get) ↔ t ∈ Submodule.span ℂ (Set.range ts.get)) ∧
      ts.length = ts'.length) := by
  obtain ⟨b1, b2, b3⟩ := c58_tensors_basis_partial h hT hrep hru o ho la hla rank false ha ha2 (by simp) hrun
  obtain ⟨c1, c2, c3⟩ := c58_tensors_basis_partial h' hT' hrep' hru' o' ho' la' hla' rank false ha' ha2' (by simp) hrun'
  have hinv : ∀ t, t ∈ Submodule.span ℂ (Set.range ts.get) ↔ ∀ g, actTensor (rep g) t = t := fun t =>
    ⟨fun ht => (Submodule.span_le (p := invTensors (rank - 1 + 1) rep)).2
      (Set.range_subset_iff.2 fun i => b1 _ (List.get_mem _ _)) ht, b3 t⟩
  have hinv' : ∀ t, t ∈ Submodule.span ℂ (Set.range ts'.get) ↔ ∀ g, actTensor (rep' g) t = t := fun t =>
    ⟨fun ht => (Submodule.span_le (p := invTensors (rank - 1 + 1) rep')).2
      (Set.range_subset_iff.2 fun i => c1 _ (List.get_mem _ _)) ht, c3 t⟩
  obtain ⟨S', -, hS'⟩ := isUnit_iff_exists.1 hS
  have hmap : ∀ t ∈ Submodule.span ℂ (Set.range ts.get), actTensor S t ∈ Submodule.span ℂ (Set.range ts'.get) := by
    intro t ht
    rw [hinv']
    intro g'
    obtain ⟨g, hg⟩ := hsub g'
    exact (act_invariant hS' hg).2 ((hinv t).1 ht g)
  have hinj : Function.Injective (actLin (rank - 1 + 1) S) := fun t u htu => actTensor_injective hS' htu
  have hfr : ∀ W : Submodule ℂ (Tensor D (rank - 1 + 1)), Module.finrank ℂ (W.map (actLin _ S)) = Module.finrank ℂ W :=
    fun W => (Submodule.equivMapOfInjective _ hinj W).finrank_eq.symm
  have e1 : Module.finrank ℂ (Submodule.span ℂ (Set.range ts.get)) = ts.length := by
    rw [finrank_span_eq_card b2, Fintype.card_fin]
  have e2 : Module.finrank ℂ (Submodule.span ℂ (Set.range ts'.get)) = ts'.length := by
    rw [finrank_span_eq_card c2, Fintype.card_fin]
  have hle : (Submodule.span ℂ (Set.range ts.get)).map (actLin _ S) ≤ Submodule.span ℂ (Set.range ts'.get) := by
    rintro _ ⟨t, ht, rfl⟩
    exact hmap t ht
  refine ⟨hmap, ?_, fun hsup => ?_⟩
  · rw [← e1, ← e2, ← hfr]
    exact Submodule.finrank_mono hle
  · have hiff : ∀ t, actTensor S t ∈ Submodule.span ℂ (Set.range ts'.get) ↔ t ∈ Submodule.span ℂ (Set.range ts.get) := by
      refine fun t => ⟨fun ht => ?_, hmap t⟩
      rw [hinv]
      intro g
      obtain ⟨g', hg⟩ := hsup g
      exact (act_invariant hS' hg).1 ((hinv' _).1 ht g')
    refine ⟨hiff, ?_⟩
    rw [← e1, ← e2, ← hfr]
    have hW : (Submodule.span ℂ (Set.range ts.get)).map (actLin _ S) = Submodule.span ℂ (Set.range ts'.get) := ?_
    · rw [hW]
    refine le_antisymm hle fun u hu => ?_
    have hSS : S * S' = 1 := mul_eq_one_comm.1 hS'
    have hu' : actTensor S (actTensor S' u) = u := by rw [actTensor_mul, hSS, actTensor_id]
    exact ⟨actTensor S' u, (hiff _).1 (by rwa [hu']), hu'⟩

/-- C113, two runs: whatever the draws, the tolerances and the bases chosen by the linear algebra routines, two runs for the
same matrices return bases of the same space. -/
theorem c113_two_runs {rots : Fin n → M3} (h : EnumeratesGroup rots) (hT : getCayleyTable rots = .ok T)
    {rep : RepArr n D} (hrep : IsProjRep T (fun _ _ => 1) rep) (hru : IsUnitaryRep rep)
    (o o' : Oracles) (ho : PointgroupContract o.pointgroup rots) (ho' : PointgroupContract o'.pointgroup rots)
    (la la' : LinAlg) (hla : la.Contract) (hla' : la'.Contract) (rank : ℕ) {atol atol' : ℝ}
    (ha : 0 ≤ atol) (ha2 : atol ≤ 1 / 2) (ha' : 0 ≤ atol') (ha2' : atol' ≤ 1 / 2)
    {ts ts' : List (Tensor D (rank - 1 + 1))}
    (hrun : getSymmetryAdaptedTensors o la rep rots rank false atol = .ok (ts, false))
    (hrun' : getSymmetryAdaptedTensors o' la' rep rots rank false atol' = .ok (ts', false)) :
    Submodule.span ℂ (Set.range ts.get) = Submodule.span ℂ (Set.range ts'.get) ∧ ts.length = ts'.length := by
  have hsub : ∀ g, ∃ g', rep g' * 1 = 1 * rep g := fun g => ⟨g, by rw [mul_one, one_mul]⟩
  obtain ⟨-, -, h1⟩ := c113_neumann h hT h hT hrep hru hrep hru o o' ho ho' la la' hla hla' rank ha ha2 ha' ha2' isUnit_one
    (fun g => ⟨g, by rw [mul_one, one_mul]⟩) hrun hrun'
  obtain ⟨h2, h3⟩ := h1 hsub
  refine ⟨Submodule.ext fun t => ?_, h3⟩
  rw [← h2 t, actTensor_id]

/-- C113, inversion: if some operation is represented by `c` times the identity with `c ^ rank ≠ 1` (for instance an inversion
acting on vectors, and an odd rank), no tensor is returned. -/
theorem c113_inversion {rots : Fin n → M3} (h : EnumeratesGroup rots) (hT : getCayleyTable rots = .ok T)
    {rep : RepArr n D} (hrep : IsProjRep T (fun _ _ => 1) rep) (hru : IsUnitaryRep rep)
    (o : Oracles) (ho : PointgroupContract o.pointgroup rots) (la : LinAlg) (hla : la.Contract) (rank : ℕ) {atol : ℝ}
    (ha : 0 ≤ atol) (ha2 : atol ≤ 1 / 2) {g : Fin n} {c : ℂ} (hg : rep g = c • 1) (hc : c ^ (rank - 1 + 1) ≠ 1)
    {ts : List (Tensor D (rank - 1 + 1))}
    (hrun : getSymmetryAdaptedTensors o la rep rots rank false atol = .ok (ts, false)) : ts = [] := by
  obtain ⟨b1, b2, -⟩ := c58_tensors_basis_partial h hT hrep hru o ho la hla rank false ha ha2 (by simp) hrun
  cases ts with
  | nil => rfl
  | cons t l =>
    have h1 := b1 t List.mem_cons_self g
    rw [hg, actTensor_scalar] at h1
    have h2 : (c ^ (rank - 1 + 1) - 1) • t = 0 := by rw [sub_smul, h1, one_smul, sub_self]
    exact absurd ((smul_eq_zero.1 h2).resolve_left (sub_ne_zero.2 hc)) (b2.ne_zero (⟨0, by simp⟩ : Fin (t :: l).length))

/-! ### Non-vacuity: 4/m with the axis z, and its subgroup 2/m written with the axis y -/

/-- The cyclic exchange of the axes. -/
def axesCycle : M3 := !![1, 0, 0; 0, 0, 1; 0, 1, 0]

/-- The embedding of 2/m in 4/m. -/
theorem sub2m : ∀ g', ∃ g, axes2m g' * axesCycle = axesCycle * rots4m g := by decide +kernel

theorem four_runs {rots : Fin n → M3} (hn : n ≤ 8) (h : EnumeratesGroup rots) (hT : getCayleyTable rots = .ok T)
    (hu : ∀ g, rots g * (rots g).transpose = 1) {s : PgSymbol × R3} (ho : PointgroupContract s rots) :
    ∃ (o : Oracles) (la : LinAlg), PointgroupContract o.pointgroup rots ∧ la.Contract ∧ ∀ rank : ℕ,
      ∃ ts : List (Tensor 3 (rank - 1 + 1)), getSymmetryAdaptedTensors o la (repOfRots rots) rots rank false = .ok (ts, false) ∧
        (n : ℂ) * ts.length = ∑ g, (repOfRots rots g).trace ^ (rank - 1 + 1) := by
  obtain ⟨random, hr⟩ := exists_richDraws 1e-8 n 4 fun d hd => by
    have : d ≤ 2 := by by_contra h; push Not at h; nlinarith
    nlinarith
  obtain ⟨la, hla⟩ := exists_linAlg_contract
  let o : Oracles := { random := random, eig := fun d _ => (fun _ => 0, 0), eigh := fun d _ => (fun _ => 0, 0),
                       qr := fun _ _ _ => 0, pointgroup := s }
  refine ⟨o, la, ho, hla, fun rank => ?_⟩
  obtain ⟨L, w, hraw, hw2, hw⟩ := c64_exact_entries h hT o ho 1e-5 (atol := 1e-8) (by norm_num) (by norm_num) 4
  obtain ⟨l, henum, -⟩ := hw (hw2 hr)
  obtain ⟨ts, h1, -, -, -, h2⟩ := c77_tensor_count h hT (repOfRots_proj hT) (repOfRots_unitary hu) o ho la hla rank
    (atol := 1e-8) (by norm_num) (by norm_num) ⟨_, henum⟩ (.inl le_rfl)
  exact ⟨ts, h1, h2⟩

/-- Runs for both groups: three tensors of rank two for 4/m are among the five for 2/m, and there are none of rank three. -/
example : ∃ (o o' : Oracles) (la la' : LinAlg) (ts ts' us : List (Tensor 3 2)) (vs : List (Tensor 3 3)),
    getSymmetryAdaptedTensors o la (repOfRots rots4m) rots4m 2 = .ok (ts, false) ∧
    getSymmetryAdaptedTensors o' la' (repOfRots axes2m) axes2m 2 = .ok (ts', false) ∧
    getSymmetryAdaptedTensors o la (repOfRots rots4m) rots4m 3 = .ok (vs, false) ∧
    getSymmetryAdaptedTensors o la (repOfRots rots4m) rots4m 2 = .ok (us, false) ∧
    ts.length = 3 ∧ ts'.length = 5 ∧ vs = [] ∧
    Submodule.span ℂ (Set.range ts.get) = Submodule.span ℂ (Set.range us.get) ∧
    ∀ t ∈ ts, actTensor (axesCycle.map (Int.castRingHom ℂ)) t ∈ Submodule.span ℂ (Set.range ts'.get) := by
  obtain ⟨T', hT', -, -⟩ := c01_cayley_table_ordinary axes2m_group
  have hu := fun g => (show ∀ g, rots4m g * (rots4m g).transpose = 1 by decide +kernel) g
  have hu' := fun g => (show ∀ g, axes2m g * (axes2m g).transpose = 1 by decide +kernel) g
  obtain ⟨o, la, ho, hla, hr⟩ := four_runs le_rfl rots4m_group cayley_4m.1 hu pointgroup_4m
  obtain ⟨o', la', ho', hla', hr'⟩ := four_runs (by norm_num) axes2m_group hT' hu' contract_axes2m
  obtain ⟨ts, h1, h2⟩ := hr 2
  obtain ⟨ts', h1', h2'⟩ := hr' 2
  obtain ⟨vs, h3, -⟩ := hr 3
  have hS : axesCycle * axesCycle = 1 := by decide +kernel
  have hSc : axesCycle.map (Int.castRingHom ℂ) * axesCycle.map (Int.castRingHom ℂ) = 1 := by
    rw [← Matrix.map_mul, hS, Matrix.map_one _ (map_zero _) (map_one _)]
  have hSu : IsUnit (axesCycle.map (Int.castRingHom ℂ)) := isUnit_iff_exists.2 ⟨_, hSc, hSc⟩
  have hsub : ∀ g', ∃ g, repOfRots axes2m g' * axesCycle.map (Int.castRingHom ℂ) =
      axesCycle.map (Int.castRingHom ℂ) * repOfRots rots4m g := by
    intro g'
    obtain ⟨g, hg⟩ := sub2m g'
    refine ⟨g, ?_⟩
    have := congrArg (fun M : M3 => M.map (Int.castRingHom ℂ)) hg
    simp only [Matrix.map_mul] at this
    exact this
  obtain ⟨k1, -, -⟩ := c113_neumann rots4m_group cayley_4m.1 axes2m_group hT' (repOfRots_proj cayley_4m.1)
    (repOfRots_unitary hu) (repOfRots_proj hT') (repOfRots_unitary hu') o o' ho ho' la la' hla hla' 2
    (by norm_num) (by norm_num) (by norm_num) (by norm_num) hSu hsub h1 h1'
  obtain ⟨k2, -⟩ := c113_two_runs rots4m_group cayley_4m.1 (repOfRots_proj cayley_4m.1) (repOfRots_unitary hu) o o ho ho la la
    hla hla 2 (by norm_num) (by norm_num) (by norm_num) (by norm_num) h1 h1
  obtain ⟨g, hg⟩ : ∃ g, rots4m g = -1 := by decide +kernel
  have k3 := c113_inversion rots4m_group cayley_4m.1 (repOfRots_proj cayley_4m.1) (repOfRots_unitary hu) o ho la hla 3
    (by norm_num) (by norm_num) (g := g) (c := -1) (by
      unfold repOfRots
      rw [hg]
      ext a b
      by_cases hab : a = b <;> simp [hab]) (by norm_num) h3
  have htr : ∀ {m : ℕ} (rots : Fin m → M3), ∑ g, (repOfRots rots g).trace ^ (2 - 1 + 1) =
      ((∑ g, (rots g).trace ^ 2 : ℤ) : ℂ) := by
    intro m rots
    push_cast
    refine Finset.sum_congr rfl fun g _ => ?_
    simp [repOfRots, Matrix.trace, Fin.sum_univ_three]
  rw [htr, show (∑ g, (rots4m g).trace ^ 2 : ℤ) = 24 by decide +kernel] at h2
  rw [htr, show (∑ g, (axes2m g).trace ^ 2 : ℤ) = 20 by decide +kernel] at h2'
  have l1 : 8 * ts.length = 24 := by exact_mod_cast h2
  have l2 : 4 * ts'.length = 20 := by exact_mod_cast h2'
  exact ⟨o, o', la, la', ts, ts', ts, vs, h1, h1', h3, h1, by omega, by omega, k3, k2, fun t ht => by
    obtain ⟨i, rfl⟩ := List.get_of_mem ht
    exact k1 _ (Submodule.subset_span ⟨i, rfl⟩)⟩

end Spgrep
