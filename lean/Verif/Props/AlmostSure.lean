/-
C88: the chain enumeration succeeds with probability one.
-/
import Verif.Proofs.AlmostSure
import Verif.Props.PointgroupApi

namespace Spgrep

open Spec

variable {n : ℕ} {T : Fin n → Fin n → Fin n}

/-- **C88.** For every list of rotations that is a group, every answer of `get_pointgroup` within its contract and every
normalised unimodular cocycle there is for each size a set of draws of probability zero such that, whenever the draws `p d`
are outside these sets, there is a positive tolerance up to which every run of the default method with `p d` among its draws
of size `d` returns a complete list of irreps without a warning. -/
theorem c88_irreps_almost_surely {rots : Fin n → M3} (h : EnumeratesGroup rots) (hT : getCayleyTable rots = .ok T)
    {μ : Fin n → Fin n → ℂ} (hc : IsCocycle T μ) (hn : ∀ g h, ‖μ g h‖ = 1) {e : Fin n} (he : rots e = 1) (h1 : μ e e = 1)
    {pg : PgSymbol × Matrix (Fin 3) (Fin 3) ℝ} (ho : PointgroupContract pg rots) :
    ∃ N : ∀ d, Set (DrawPair d), (∀ d, uniformLaw d (N d) = 0) ∧ ∀ p : ∀ d, DrawPair d, (∀ d, p d ∉ N d) →
      ∃ atol0 : ℝ, 0 < atol0 ∧ ∀ (o : Oracles) (rtol atol : ℝ) (maxGen : ℕ), o.pointgroup = pg →
        (∀ d, ∃ t < maxGen, o.random d t = drawOf (p d)) → 0 ≤ atol → atol ≤ atol0 →
        ∃ L, rawIrreps o rots μ .neto rtol atol maxGen = .ok (L, false) ∧ IsCompleteIrreps T μ L := by
  obtain ⟨V, P, hVf, -, hV0, hPc, hraw⟩ := raw_forms h hT hc hn he h1 ho
  obtain ⟨N, hN, hav⟩ := almost_sure_draws hVf hV0
  refine ⟨N, hN, fun p hp => ?_⟩
  obtain ⟨a, ha, hD⟩ := hav p hp
  refine ⟨a, ha, fun o rtol atol maxGen hpg hr h0 hle => ?_⟩
  obtain ⟨L, w, hL, hLP, hw⟩ := hraw o rtol atol maxGen hpg h0
  obtain rfl := hw (hD o.random atol maxGen hr hle)
  exact ⟨L, hL, hPc L (hLP rfl)⟩

/-- **C88** for `get_crystallographic_pointgroup_irreps_from_symmetry`, over the complex and over the real numbers. -/
theorem c88_pointgroup_almost_surely {rots : Fin n → M3} (h : EnumeratesGroup rots) (hT : getCayleyTable rots = .ok T)
    {pg : PgSymbol × Matrix (Fin 3) (Fin 3) ℝ} (ho : PointgroupContract pg rots) :
    ∃ N : ∀ d, Set (DrawPair d), (∀ d, uniformLaw d (N d) = 0) ∧ ∀ p : ∀ d, DrawPair d, (∀ d, p d ∉ N d) →
      ∃ atol0 : ℝ, 0 < atol0 ∧ ∀ (o : Oracles) (rtol atol : ℝ) (maxGen : ℕ), o.pointgroup = pg →
        (∀ d, ∃ t < maxGen, o.random d t = drawOf (p d)) → EigContract o.eig → 0 ≤ atol → atol ≤ atol0 →
        (∃ l, pointgroupIrreps o rots false .neto rtol atol maxGen = .ok (.complex l, false) ∧
          IsCompleteIrreps T (fun _ _ => 1) (l.map Prod.fst)) ∧
        ∃ l, pointgroupIrreps o rots true .neto rtol atol maxGen = .ok (.real l, false) ∧
          IsCompleteRealIrreps T (fun _ _ => 1) (l.map Prod.fst) := by
  obtain ⟨T', hT', -, hTg⟩ := c01_cayley_table_ordinary h
  rw [hT] at hT'
  obtain rfl := Except.ok.inj hT'
  obtain ⟨e, he⟩ : ∃ e, rots e = 1 := by
    obtain ⟨_, H, hH⟩ := h
    have : (1 : M3) ∈ Set.range rots := by rw [hH]; exact ⟨1, H.one_mem, rfl⟩
    exact this
  obtain ⟨V, P, hVf, hPf, hV0, hPc, hraw⟩ := raw_forms (μ := fun _ _ => 1) h hT (fun _ _ _ => by simp) (fun _ _ => by simp) he
    rfl ho
  obtain ⟨V', hVf', hV0', hconj⟩ := conj_forms hTg hPf hPc
  obtain ⟨N, hN, hav⟩ := almost_sure_draws (hVf.union hVf') (fun v hv => hv.elim (hV0 v) (hV0' v))
  refine ⟨N, hN, fun p hp => ?_⟩
  obtain ⟨a, ha, hD⟩ := hav p hp
  refine ⟨min a (1 / 10), by positivity, fun o rtol atol maxGen hpg hr heig h0 hle => ?_⟩
  have hD := hD o.random atol maxGen hr (hle.trans (min_le_left _ _))
  have hle2 := hle.trans (min_le_right _ _)
  obtain ⟨L, w, hL, hLP, hw⟩ := hraw o rtol atol maxGen hpg h0
  obtain rfl := hw fun v hv => hD v (.inl hv)
  have hs := fun D hDL hs => hconj L (hLP rfl) D hDL hs o.random atol maxGen h0 fun v hv => hD v (.inr hv)
  have ho' : PointgroupContract o.pointgroup rots := hpg ▸ ho
  constructor
  · obtain ⟨L', w', hL', -, hok⟩ := c64_exact_entries h hT o ho' rtol h0 (hle2.trans (by norm_num)) maxGen
    obtain ⟨rfl, rfl⟩ := Prod.mk.inj (Except.ok.inj (hL.symm.trans hL'))
    obtain ⟨l, hl, -, hc, -⟩ := hok rfl
    exact ⟨l, hl, hc⟩
  · obtain ⟨L', w', hL', -, hok⟩ := c69_real_irreps h hT o ho' heig rtol h0 hle2 maxGen
    obtain ⟨rfl, rfl⟩ := Prod.mk.inj (Except.ok.inj (hL.symm.trans hL'))
    obtain ⟨l, hl, hc, -⟩ := hok rfl hs
    exact ⟨l, hl, hc⟩

/-- The forms for all sign factor systems at once. -/
theorem spinor_forms {rots : Fin n → M3} {trans : Fin n → V3} {k : V3} (h : IsSpaceGroup rots trans)
    (hk : ∀ i, FixesK (rots i) k) {pg : PgSymbol × Matrix (Fin 3) (Fin 3) ℝ} (ho : PointgroupContract pg rots) :
    ∃ V : Set (Σ d, Matrix (Fin d) (Fin d) ℂ), V.Finite ∧ (∀ v ∈ V, v.2 ≠ 0) ∧
      ∀ z : Fin n → Fin n → ℂ, (∀ i j, z i j = 1 ∨ z i j = -1) → (∀ T, getCayleyTable rots = .ok T → IsCocycle T z) →
        (∀ e, rots e = 1 → z e e = 1) →
        ∀ (o : Oracles) (rtol atol : ℝ) (maxGen : ℕ), o.pointgroup = pg → 0 ≤ atol → DrawsAvoid V o.random atol maxGen →
          ∃ L, rawIrreps o rots (fun i j => z i j * getFactorSystem rots trans k i j) .neto rtol atol maxGen = .ok (L, false) := by
  classical
  let Z : Set (Fin n → Fin n → ℂ) := {z | (∀ i j, z i j = 1 ∨ z i j = -1) ∧
    (∀ T, getCayleyTable rots = .ok T → IsCocycle T z) ∧ ∀ e, rots e = 1 → z e e = 1}
  have hZ : Z.Finite := by
    refine Set.Finite.subset (Set.Finite.pi' (fun i : Fin n => Set.Finite.pi' fun j : Fin n => Set.toFinite {(1 : ℂ), -1})) ?_
    intro z hz i j
    rcases hz.1 i j with h2 | h2 <;> simp [h2]
  have key : ∀ z ∈ Z, ∃ V : Set (Σ d, Matrix (Fin d) (Fin d) ℂ), V.Finite ∧ (∀ v ∈ V, v.2 ≠ 0) ∧
      ∀ (o : Oracles) (rtol atol : ℝ) (maxGen : ℕ), o.pointgroup = pg → 0 ≤ atol → DrawsAvoid V o.random atol maxGen →
          ∃ L, rawIrreps o rots (fun i j => z i j * getFactorSystem rots trans k i j) .neto rtol atol maxGen =
            .ok (L, false) := by
    rintro z ⟨hz, hzc, hz1⟩
    obtain ⟨T, e, hT, hTg, he1, hc, hn, h1⟩ := spinor_setup h hk hz hzc hz1
    obtain ⟨V, P, hVf, -, hV0, -, hraw⟩ := raw_forms h.1 hT hc hn he1 h1 ho
    refine ⟨V, hVf, hV0, fun o rtol atol maxGen hpg h0 hD => ?_⟩
    obtain ⟨L, w, hL, -, hw⟩ := hraw o rtol atol maxGen hpg h0
    obtain rfl := hw hD
    exact ⟨L, hL⟩
  choose! V hVf hV0 hV using key
  refine ⟨⋃ z ∈ Z, V z, hZ.biUnion hVf, fun v hv => ?_, fun z hz hzc hz1 o rtol atol maxGen hpg h0 hD => ?_⟩
  · obtain ⟨z, hz, hv⟩ := Set.mem_iUnion₂.1 hv
    exact hV0 z hz v hv
  · exact hV z ⟨hz, hzc, hz1⟩ o rtol atol maxGen hpg h0 fun v hv => hD v (Set.mem_biUnion (show z ∈ Z from ⟨hz, hzc, hz1⟩) hv)

/-- **C88** for the spinor small representations, when the nonsymmorphic factors are `±1`.  The null sets depend neither on
the lattice nor on the answers of the eigen-solver. -/
theorem c88_spinor_almost_surely {rots : Fin n → M3} {trans : Fin n → V3} {k : V3} (h : IsSpaceGroup rots trans)
    (hk : ∀ i, FixesK (rots i) k) (hμ : ∀ i j, getFactorSystem rots trans k i j = 1 ∨ getFactorSystem rots trans k i j = -1)
    {pg : PgSymbol × Matrix (Fin 3) (Fin 3) ℝ} (ho : PointgroupContract pg rots) :
    ∃ N : ∀ d, Set (DrawPair d), (∀ d, uniformLaw d (N d) = 0) ∧ ∀ p : ∀ d, DrawPair d, (∀ d, p d ∉ N d) →
      ∃ atol0 : ℝ, 0 < atol0 ∧ ∀ (o : Oracles) (A : R3) (rtol atol : ℝ) (maxGen : ℕ), SymmEigContract o.eig →
        A.det ≠ 0 → (∀ i, PreservesMetric A (rots i)) → o.pointgroup = pg →
        (∀ d, ∃ t < maxGen, o.random d t = drawOf (p d)) → 0 < atol → atol ≤ atol0 →
        ∃ irreps z U, enumerateSpinorSmallReps o A rots trans k .neto rtol atol maxGen = .ok ((irreps, z, U), false) := by
  obtain ⟨V, hVf, hV0, hV⟩ := spinor_forms h hk ho
  obtain ⟨N, hN, hav⟩ := almost_sure_draws hVf hV0
  refine ⟨N, hN, fun p hp => ?_⟩
  obtain ⟨a, ha, hD⟩ := hav p hp
  refine ⟨min a (1 / 5 / (n + 1)), by positivity, fun o A rtol atol maxGen he hA hm hpg hr h0 hle => ?_⟩
  have hD := hD o.random atol maxGen hr (hle.trans (min_le_left _ _))
  have hna : n * atol ≤ 1 / 5 := by
    have h2 := hle.trans (min_le_right _ _)
    rw [le_div_iff₀ (by positivity)] at h2
    linarith
  have ho' : PointgroupContract o.pointgroup rots := hpg ▸ ho
  obtain ⟨z, U, hzU, hU, hz, -, hzc, hz1, -⟩ := c44_spinor_factor_system he hA h.1 hm
  have hz1' : ∀ e, rots e = 1 → z e e = 1 := fun e he => ((hz1 e he).2 e).1
  obtain ⟨T, e, hT, hTg, he1, hc, hn, h1⟩ := spinor_setup h hk hz hzc hz1'
  obtain ⟨R, hraw⟩ := hV z hz hzc hz1' o rtol atol maxGen hpg h0.le hD
  have hR := raw_complete h.1 hT hc hn he1 h1 (method := .neto) ho' h0.le hraw
  have hn1 : (1 : ℝ) ≤ n := by exact_mod_cast table_pos hTg
  have ha5 : atol ≤ 1 / 5 := by nlinarith
  have hf : ∀ D ∈ R.map fun D => (⟨D.1, purifyIrrepValue D.2 atol⟩ : AnyRep n),
      ∃ c : ℤ, (c = 1 ∨ c = -1 ∨ c = 0) ∧ frobeniusSchur D.2 = .ok c := by
    intro D' hD'
    obtain ⟨D, hD, rfl⟩ := List.mem_map.1 hD'
    have hd := IsCompleteIrreps.dim_le hTg (ne_zero_of_norm_one hn) hc hR hD
    refine fs_ok hTg (hR.rep D hD) (hR.unitary D hD) (hR.irred D hD) (Or.inr fun i j => ?_)
      hd h0.le hna (near_purify D.2 h0 ha5)
    rcases hz i j with h2 | h2 <;> rcases hμ i j with h3 | h3 <;> simp [h2, h3]
  obtain ⟨l, hl, -⟩ := withIndicators_ok hf
  refine ⟨l.map fun D => ⟨D.1.1, phaseMul trans k D.1.2⟩, z, U, ?_⟩
  unfold enumerateSpinorSmallReps enumerateUnitaryIrreps
  simp only [hzU, Option.getD_some, bind, Except.bind, pure, Except.pure, hraw, Bool.false_eq_true, if_false, hl]

/-- Outside a null set there are draws. -/
theorem exists_draws_outside {N : ∀ d, Set (DrawPair d)} (hN : ∀ d, uniformLaw d (N d) = 0) :
    ∃ p : ∀ d, DrawPair d, ∀ d, p d ∉ N d := by
  have : ∀ d, ∃ p, p ∉ N d := by
    intro d
    by_contra hno
    push Not at hno
    have h2 := hN d
    rw [Set.eq_univ_of_forall hno, uniformLaw_univ] at h2
    exact one_ne_zero h2
  choose p hp using this
  exact ⟨p, hp⟩

/-- Non-vacuity of C88: the law has mass one, so that there are draws outside the null sets, and the group 432 meets the
hypotheses; its irreps are found with the second of two draws good and the first one zero. -/
example : (∀ d, uniformLaw d Set.univ = 1) ∧ ∃ o : Oracles, PointgroupContract o.pointgroup rots432 ∧ EigContract o.eig ∧
    (∀ d, o.random d 0 = 0) ∧
    (∃ l, pointgroupIrreps o rots432 false .neto 1e-5 0 2 = .ok (.complex l, false)) ∧
    ∃ l, pointgroupIrreps o rots432 true .neto 1e-5 0 2 = .ok (.real l, false) := by
  refine ⟨uniformLaw_univ, ?_⟩
  obtain ⟨T, hT, -, hTg⟩ := c01_cayley_table_ordinary rots432_group
  obtain ⟨N, hN, hall⟩ := c88_pointgroup_almost_surely rots432_group hT contract_432
  obtain ⟨p, hp⟩ := exists_draws_outside hN
  obtain ⟨a, ha, hrun⟩ := hall p hp
  obtain ⟨eig, heig⟩ := exists_eigContract
  obtain ⟨o, hpg, hX0, hX, he⟩ : ∃ o : Oracles, o.pointgroup = (PgSymbol.pg_432, (1 : M3).map fun x : ℤ => (x : ℝ)) ∧
      (∀ d, o.random d 0 = 0) ∧ (∀ d, o.random d 1 = drawOf (p d)) ∧ EigContract o.eig :=
    ⟨⟨fun d t => if t = 1 then drawOf (p d) else 0, eig, fun _ _ => (0, 0), fun _ _ _ => 0, _⟩, rfl, fun _ => rfl,
      fun _ => rfl, heig⟩
  obtain ⟨⟨l, hl, -⟩, l', hl', -⟩ := hrun o 1e-5 0 2 hpg (fun d => ⟨1, by norm_num, hX d⟩) he le_rfl ha.le
  exact ⟨o, hpg ▸ contract_432, he, hX0, ⟨l, hl⟩, l', hl'⟩

/-- Non-vacuity of C88 for spinors: I222 at W. -/
example : IsSpaceGroup rotsI24 (fun _ _ => 0) ∧ (∀ i, FixesK (rotsI24 i) kW) ∧
    (∀ i j, getFactorSystem rotsI24 (fun _ _ => 0) kW i j = 1 ∨ getFactorSystem rotsI24 (fun _ _ => 0) kW i j = -1) ∧
    PointgroupContract (PgSymbol.pg_222, trafoI24.map fun x : ℤ => (x : ℝ)) rotsI24 ∧ latticeBcc.det ≠ 0 ∧
    (∀ i, PreservesMetric latticeBcc (rotsI24 i)) := by
  refine ⟨⟨rotsI24_group, fun _ _ _ _ _ => ⟨0, by simp⟩⟩, fixesK_I24, fun i j => .inl ?_, pointgroup_I24, latticeBcc_det, metric_I24⟩
  unfold getFactorSystem
  have : dot3 (residual (rotsI24 i) kW) ((fun _ _ => 0 : Fin 4 → V3) j) = 0 := by unfold dot3; simp
  rw [this, expPhase_zero]

end Spgrep
