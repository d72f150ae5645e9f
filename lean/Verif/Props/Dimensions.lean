/-
C87: dimensions of the enumerated irreps.
-/
import Verif.Proofs.ChainDim
import Verif.Props.Plancherel

set_option linter.unusedSectionVars false

namespace Spgrep

open Spec

variable {n : ℕ} {T : Fin n → Fin n → Fin n} {μ : Fin n → Fin n → ℂ}

/-- Orders of the crystallographic point groups. -/
theorem pgDataset_orders : ∀ s : PgSymbol, ∀ std ∈ pgDataset s, std.length ∈ [1, 2, 3, 4, 6, 8, 12, 16, 24, 48] := by
  intro s
  cases s <;> decide +kernel

theorem dim_of_dvd {m d : ℕ} (hm : m ∈ [1, 2, 3, 4, 6, 8, 12, 16, 24, 48]) (hd : d ∣ m) (hsq : d ^ 2 ≤ m) :
    d ∈ [1, 2, 3, 4, 6] := by
  have hm48 : m ≤ 48 ∧ m ≠ 0 ∧ ¬ 5 ∣ m := by
    simp only [List.mem_cons, List.not_mem_nil, or_false] at hm
    rcases hm with rfl | rfl | rfl | rfl | rfl | rfl | rfl | rfl | rfl | rfl <;> decide
  have hd6 : d ≤ 6 := by by_contra h; push Not at h; nlinarith [hm48.1]
  have hd0 : d ≠ 0 := by rintro rfl; exact hm48.2.1 (Nat.eq_zero_of_zero_dvd hd)
  have hd5 : d ≠ 5 := by rintro rfl; exact hm48.2.2 hd
  interval_cases d <;> simp_all

/-- **C87.** For every crystallographic point group in every setting and order and every normalised unimodular cocycle:
every irreducible family of invertible matrices with this multiplication law has a dimension that divides the group order
and is one of 1, 2, 3, 4, 6. -/
theorem c87_projective_dimensions {rots : Fin n → M3} (h : EnumeratesGroup rots)
    {spg : PgSymbol × Matrix (Fin 3) (Fin 3) ℝ} (hpg : PointgroupContract spg rots) (hT : getCayleyTable rots = .ok T)
    (hc : IsCocycle T μ) (hn : ∀ g h, ‖μ g h‖ = 1) {e : Fin n} (he : rots e = 1) (h1 : μ e e = 1) {d : ℕ} {E : RepArr n d}
    (hE : ∀ i j k, rots i * rots j = rots k → E i * E j = μ i j • E k) (hEu : ∀ g, IsUnit (E g))
    (hEi : IsIrreducible E) : d ∣ n ∧ d ∈ [1, 2, 3, 4, 6] := by
  obtain ⟨T', hT', -, hTg⟩ := c01_cayley_table_ordinary h
  obtain rfl : T' = T := by rw [hT] at hT'; exact (Except.ok.inj hT').symm
  have hrot : ∀ i j, rots (T' i j) = rots i * rots j := fun i j => (cayley_none_spec hT i j).1
  have hT1 : ∀ g, T' e g = g := fun g => h.1 (by rw [hrot, he, Matrix.one_mul])
  obtain ⟨hP, std, hstd, σ, hσ⟩ := hpg
  obtain ⟨gens, -, -, h3⟩ := (c32_chain_generators spg.1 spg.2 hP rots).1 std hstd σ hσ
  obtain ⟨random, hr⟩ := exists_richDraws 0 n n fun d hd => hd
  obtain ⟨L, w, h4, hw, hr'⟩ := enumerateFromChain_spec hTg hc hn hT1 h1 (h3 T' hrot e he) random le_rfl n
  obtain ⟨hL, -⟩ := hw (hr' hr)
  have hdim := enumerateFromChain_dim hTg hc hn hT1 h1 (h3 T' hrot e he) random le_rfl n h4
  obtain ⟨D, hD, heq⟩ := hL.complete d E (fun i j => hE i j _ (hrot i j).symm) hEu hEi
  obtain rfl : d = D.1 := AreEquivalent.dim_eq heq
  have hlen : n = std.length := by simpa using Fintype.card_congr σ
  have hsq := IsCompleteIrreps.dim_le hTg (ne_zero_of_norm_one hn) hc hL hD
  refine ⟨hdim D hD, dim_of_dvd (m := n) ?_ (hdim D hD) hsq⟩
  rw [hlen]
  exact pgDataset_orders spg.1 std hstd

/-- **C87** for `enumerate_unitary_irreps`, both methods, all draws: every array returned without warning has such a
dimension. -/
theorem c87_irrep_dimensions {rots : Fin n → M3} (h : EnumeratesGroup rots)
    {spg : PgSymbol × Matrix (Fin 3) (Fin 3) ℝ} (hpg : PointgroupContract spg rots) (hT : getCayleyTable rots = .ok T)
    {μ? : Option (Fin n → Fin n → ℂ)} (hμ : μ = μ?.getD fun _ _ => 1) (hc : IsCocycle T μ) (hn : ∀ g h, ‖μ g h‖ = 1)
    {e : Fin n} (he : rots e = 1) (h1 : μ e e = 1) {o : Oracles} {method : IrrepMethod} {rtol : ℝ}
    (ho : MethodContract o method rtol rots) {atol : ℝ} (ha : 0 ≤ atol) {maxGen : ℕ} {l : List (AnyRep n × ℤ)}
    (hrun : enumerateUnitaryIrreps o rots μ? false method rtol atol maxGen = .ok (.complex l, false)) :
    ∀ x ∈ l, x.1.1 ∣ n ∧ x.1.1 ∈ [1, 2, 3, 4, 6] := by
  obtain ⟨L, l', hraw, hl', hl⟩ := unitaryIrreps_ok hrun
  obtain rfl : l = l' := by injection hl'
  rw [← hμ] at hraw
  have hL := raw_complete h hT hc hn he h1 ho ha hraw
  intro x hx
  have h2 : x.1 ∈ l.map Prod.fst := List.mem_map_of_mem hx
  rw [hl] at h2
  obtain ⟨D, hD, hxD⟩ := List.mem_map.1 h2
  rw [← hxD]
  refine c87_projective_dimensions h hpg hT hc hn he h1 (fun i j k hk => ?_) (IsUnitaryRep.isUnit (hL.unitary D hD))
    (hL.irred D hD)
  rw [hL.rep D hD i j, show T i j = k from h.1 (((cayley_none_spec hT i j).1).trans hk)]

/-- **C87** for the small representations of a space group at any `k` (`enumerate_small_representations`). -/
theorem c87_small_dimensions {rots : Fin n → M3} {trans : Fin n → V3} {k : V3} (h : IsSpaceGroup rots trans)
    (hk : ∀ i, FixesK (rots i) k) {spg : PgSymbol × Matrix (Fin 3) (Fin 3) ℝ} (hpg : PointgroupContract spg rots)
    {o : Oracles} {method : IrrepMethod} {rtol : ℝ} (ho : MethodContract o method rtol rots) {atol : ℝ} (ha : 0 ≤ atol)
    {maxGen : ℕ} {l : List (AnyRep n × ℤ)}
    (hrun : enumerateSmallReps o rots trans k false method rtol atol maxGen = .ok (.complex l, false)) :
    ∀ x ∈ l, x.1.1 ∣ n ∧ x.1.1 ∈ [1, 2, 3, 4, 6] := by
  obtain ⟨T, e, hT, hTg, he, hc, hn, h1⟩ := small_setup h hk
  obtain ⟨L, hraw, hl0, -⟩ := smallReps_ok hrun
  obtain ⟨l', hout, hl⟩ := hl0 rfl
  obtain rfl : l = l' := by injection hout
  have hL := raw_complete h.1 hT hc hn he h1 ho ha hraw
  intro x hx
  have h2 : x.1 ∈ l.map Prod.fst := List.mem_map_of_mem hx
  rw [withIndicators_fst hl] at h2
  obtain ⟨D, hD, hxD⟩ := List.mem_map.1 h2
  rw [← hxD]
  refine c87_projective_dimensions h.1 hpg hT hc hn he h1 (fun i j k hk => ?_) (IsUnitaryRep.isUnit (hL.unitary D hD))
    (hL.irred D hD)
  rw [hL.rep D hD i j, show T i j = k from h.1.1 (((cayley_none_spec hT i j).1).trans hk)]

/-- **C87** for the spinor small representations. -/
theorem c87_spinor_dimensions {rots : Fin n → M3} {trans : Fin n → V3} {k : V3} (h : IsSpaceGroup rots trans)
    (hk : ∀ i, FixesK (rots i) k) {spg : PgSymbol × Matrix (Fin 3) (Fin 3) ℝ} (hpg : PointgroupContract spg rots)
    {o : Oracles} (he : SymmEigContract o.eig) {A : R3} (hA : A.det ≠ 0) (hm : ∀ i, PreservesMetric A (rots i))
    {method : IrrepMethod} {rtol : ℝ} (ho : MethodContract o method rtol rots) {atol : ℝ} (ha : 0 ≤ atol) {maxGen : ℕ}
    {irreps : List (AnyRep n)} {z : Fin n → Fin n → ℂ} {U : Fin n → Matrix (Fin 2) (Fin 2) ℂ}
    (hrun : enumerateSpinorSmallReps o A rots trans k method rtol atol maxGen = .ok ((irreps, z, U), false)) :
    ∀ x ∈ irreps, x.1 ∣ n ∧ x.1 ∈ [1, 2, 3, 4, 6] := by
  obtain ⟨hzU, R, hraw, rfl⟩ := spinorSmall_ok hrun
  obtain ⟨z', U', hzU', hU, hz, -, hzc, hz1, -⟩ := c44_spinor_factor_system he hA h.1 hm
  obtain ⟨rfl, rfl⟩ := Prod.mk.inj (Except.ok.inj (hzU.symm.trans hzU'))
  obtain ⟨T, e, hT, hTg, he1, hc, hn, h1⟩ := spinor_setup h hk hz hzc fun e he => ((hz1 e he).2 e).1
  have hR := raw_complete h.1 hT hc hn he1 h1 ho ha hraw
  intro x hx
  obtain ⟨D, hD, rfl⟩ := List.mem_map.1 hx
  refine c87_projective_dimensions h.1 hpg hT hc hn he1 h1 (fun i j k hk => ?_) (IsUnitaryRep.isUnit (hR.unitary D hD))
    (hR.irred D hD)
  rw [hR.rep D hD i j, show T i j = k from h.1.1 (((cayley_none_spec hT i j).1).trans hk)]

/-- Non-vacuity of C87: the two-dimensional projective irrep of 222. -/
example : EnumeratesGroup rotsI24 ∧
    PointgroupContract (PgSymbol.pg_222, trafoI24.map fun x : ℤ => (x : ℝ)) rotsI24 ∧
    getCayleyTable rotsI24 = .ok tblV4 ∧ IsCocycle tblV4 μV4 ∧ (∀ g h, ‖μV4 g h‖ = 1) ∧ rotsI24 0 = 1 ∧ μV4 0 0 = 1 ∧
    (∀ i j k, rotsI24 i * rotsI24 j = rotsI24 k → repV4 i * repV4 j = μV4 i j • repV4 k) ∧
    (∀ g, IsUnit (repV4 g)) ∧ Spec.IsIrreducible repV4 := by
  refine ⟨rotsI24_group, pointgroup_I24, cayley_I24, μV4_cocycle, μV4_norm, by decide +kernel, ?_, fun i j k hk => ?_,
    IsUnitaryRep.isUnit (repV4_complete.unitary _ (List.mem_singleton.2 rfl)),
    repV4_complete.irred _ (List.mem_singleton.2 rfl)⟩
  · have : sgnV4 0 0 = 1 := by decide +kernel
    unfold μV4; rw [this]; simp
  · rw [repV4_proj i j, show tblV4 i j = k from rotsI24_group.1 (((cayley_none_spec cayley_I24 i j).1).trans hk)]

/-- Non-vacuity of C87 for small representations: I222 at W, by the random method. -/
example : ∃ (o : Oracles) (l : List (AnyRep 4 × ℤ)), MethodContract o .random 1e-5 rotsI24 ∧
    PointgroupContract (PgSymbol.pg_222, trafoI24.map fun x : ℤ => (x : ℝ)) rotsI24 ∧
    IsSpaceGroup rotsI24 (fun _ _ => 0) ∧ (∀ i, FixesK (rotsI24 i) kW) ∧
    enumerateSmallReps o rotsI24 (fun _ _ => 0) kW false .random 1e-5 1e-8 4 = .ok (.complex l, false) := by
  obtain ⟨o, out, h1, h2⟩ := random_I222
  obtain ⟨L, -, hl0, -⟩ := smallReps_ok h2
  obtain ⟨l, rfl, -⟩ := hl0 rfl
  exact ⟨o, l, ⟨h1, by norm_num, by norm_num⟩, pointgroup_I24, ⟨rotsI24_group, fun _ _ _ _ _ => ⟨0, by simp⟩⟩,
    fixesK_I24, h2⟩

end Spgrep
