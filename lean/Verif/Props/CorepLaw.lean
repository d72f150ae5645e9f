/-
Properties of the co-representations returned by /repo/src/spgrep/corep.py (C48, C49).
-/
import Verif.Proofs.CorepRun

namespace Spgrep

open Spec

variable {n : ℕ}

/-! ### C49 -/

theorem LinearPart.trivial {T : Fin n → Fin n → Fin n} {a : Fin n → Bool} {xsg : List (Fin n)}
    {T' : Fin xsg.length → Fin xsg.length → Fin xsg.length} {a0 : Fin n} {c : Fin xsg.length → Fin xsg.length}
    {s : Fin xsg.length} (h : LinearPart T a xsg T' a0 c s) :
    AntiGroup T a (fun _ _ => (1 : ℂ)) (fun u => xsg.get u) T' a0 c s :=
  h.antiGroup (fun i j k => by unfold conjIf; cases a i <;> simp) fun _ _ => by simp

theorem bar_irreducible_of_norm {m d : ℕ} {F : Fin n → Fin n → ℂ} (hn : ∀ i j, ‖F i j‖ = 1) {xsg : Fin m → Fin n} {a0 : Fin n}
    {c : Fin m → Fin m} (hc : Function.Surjective c) {D : RepArr m d} (hD : Spec.IsIrreducible D) :
    Spec.IsIrreducible (bar F xsg a0 c D) := by
  refine ⟨hD.1, fun W hW => (conj_irreducible hD).2 W fun g v hv => ?_⟩
  obtain ⟨u, rfl⟩ := hc g
  have := W.smul_mem (conjFactor F xsg a0 c u)⁻¹ (hW u v hv)
  have hne : conjFactor F xsg a0 c u ≠ 0 :=
    div_ne_zero (ne_zero_of_norm_one hn _ _) (ne_zero_of_norm_one hn _ _)
  unfold bar at this
  rwa [Matrix.smul_mulVec, smul_smul, inv_mul_cancel₀ hne, one_smul] at this

theorem near_blocks {m d : ℕ} {A B A' B' : RepArr m d} {ε : ℝ} (hε : 0 ≤ ε) (hA : Near ε A A') (hB : Near ε B B') :
    Near ε (fun u => blocks (A u) 0 0 (B u)) (fun u => blocks (A' u) 0 0 (B' u)) := by
  intro u i j
  unfold blocks
  dsimp only
  rw [Matrix.reindex_apply, Matrix.reindex_apply, Matrix.submatrix_apply, Matrix.submatrix_apply]
  rcases finSumFinEquiv.symm i with i | i <;> rcases finSumFinEquiv.symm j with j | j <;>
    simp only [Matrix.fromBlocks_apply₁₁, Matrix.fromBlocks_apply₁₂, Matrix.fromBlocks_apply₂₁, Matrix.fromBlocks_apply₂₂]
  · exact hA u i j
  · simpa using hε
  · simpa using hε
  · exact hB u i j

/-- C49, when the nonsymmorphic factors between operations without time reversal are `±1`: let a magnetic space group (in a
primitive cell) with time-reversed operations fix `k`, and let `enumerate_spinor_small_corepresentations` return without
warning.  There are the list `xsg` of the operations without time reversal, an operation `a0` with time reversal and a
complete list `R` of the unitary irreps of `xsg` with factors `ω μ`, such that every returned co-representation, restricted to
`xsg`, is entrywise within `atol` of the phase `exp(-2πi k·w)` times an irrep `D` from `R` if its indicator is 1, and times
the block-diagonal sum of `D` and its conjugate under `a0` if the indicator is -1 or 0.  The conjugate is a unitary irrep with
the same factors.

Missing: complex factors among the operations without time reversal.  There the conjugate of `D` has the complex conjugate
factors, which are not the computed ones. -/
theorem c49_unitary_part_partial {rots : Fin n → M3} {trans : Fin n → V3} {trs : Fin n → ℤ} {k : V3}
    (h : IsMagneticSpaceGroup rots trans trs) (htr : ∃ i, trs i = 1) (hb : ∀ i a b, |rots i a b| ≤ 99999)
    (hk : ∀ i, FixesK (rots i) k)
    (hμ : ∀ i j, trs i = 0 → trs j = 0 → getFactorSystem rots trans k i j = 1 ∨ getFactorSystem rots trans k i j = -1)
    {o : Oracles} (he : SymmEigContract o.eig) {L : R3} (hL : L.det ≠ 0) (hm : ∀ i, PreservesMetric L (rots i))
    {method : IrrepMethod} {rtol : ℝ} (ho : ∀ xsg : List (Fin n), xsg.Nodup → (∀ i, i ∈ xsg ↔ trs i = 0) →
      MethodContract o method rtol fun u => rots (xsg.get u))
    {atol : ℝ} (ha : 0 < atol) (ha5 : atol ≤ 1 / 5) {randomI : ∀ d, ℕ → Matrix (Fin d) (Fin d) ℂ} {maxGen : ℕ}
    {out : CorepOut n}
    (hrun : enumerateSpinorSmallCoreps o randomI L rots trans trs k method rtol atol maxGen = .ok (out, false)) :
    ∃ (xsg : List (Fin n)) (a0 : Fin n) (T' : Fin xsg.length → Fin xsg.length → Fin xsg.length) (F : Fin n → Fin n → ℂ)
      (R : List (AnyRep xsg.length)), xsg.Nodup ∧ (∀ i, i ∈ xsg ↔ trs i = 0) ∧ trs a0 = 1 ∧
      (∀ u v, rots (xsg.get (T' u v)) = rots (xsg.get u) * rots (xsg.get v)) ∧
      (∀ i j, F i j = out.spinorFactor i j * getFactorSystem rots trans k i j) ∧
      IsCompleteIrreps T' (fun u v => F (xsg.get u) (xsg.get v)) R ∧
      List.Forall₂ (fun ε x => ∃ D ∈ R, ∃ D' : RepArr xsg.length D.1,
        (∀ u v, rots (xsg.get u) * rots a0 = rots a0 * rots (xsg.get v) →
          D' u = (F (xsg.get u) a0 / F a0 (xsg.get v)) • (D.2 v).map star) ∧
        IsProjRep T' (fun u v => F (xsg.get u) (xsg.get v)) D' ∧ IsUnitaryRep D' ∧ Spec.IsIrreducible D' ∧
        ((ε = 1 ∧ ∃ A : RepArr n D.1, x = ⟨D.1, A⟩ ∧
          ∀ u i j, ‖expPhase (dot3 k (trans (xsg.get u))) * D.2 u i j - A (xsg.get u) i j‖ ≤ atol) ∨
        ((ε = -1 ∨ ε = 0) ∧ ∃ A : RepArr n (D.1 + D.1), x = ⟨D.1 + D.1, A⟩ ∧
          ∀ u i j, ‖expPhase (dot3 k (trans (xsg.get u))) * blocks (D.2 u) 0 0 (D' u) i j - A (xsg.get u) i j‖ ≤ atol)))
        out.indicators out.coreps := by
  obtain ⟨xsg, tr, a0, ω, U, a, T, T', c, s, e, hdec, hω, hT, hT', hl, haf, hω1, hnorm, hcoc, hsg, he1, -, hF1, -⟩ :=
    corep_setup h htr hb hk he hL hm
  obtain ⟨h1, h2, h3, R, wR, wC, l, hraw, hwi, hco, hw⟩ := (coreps_ok htr hdec hω hT).1 hrun
  obtain ⟨rfl, rfl⟩ := Bool.or_eq_false_iff.1 hw.symm
  have hmem : ∀ i, i ∈ xsg ↔ trs i = 0 := by
    intro i
    rw [hl.mem]
    rcases h.1.2.1 i with h4 | h4
    · simp only [h4, iff_true]
      cases hai : a i with
      | false => rfl
      | true => rw [(haf i).1 hai] at h4; exact absurd h4 (by decide)
    · rw [(haf i).2 h4, h4]
      decide
  set F : Fin n → Fin n → ℂ := fun i j => ω i j * getFactorSystem rots trans k i j with hF
  have A1 := hl.trivial
  have hsubc : IsCocycle T' fun u v => F (xsg.get u) (xsg.get v) := by
    intro u v w
    dsimp only
    rw [hl.sub, hl.sub]
    exact hcoc _ _ _
  have hxe : ∀ i, T (xsg.get e) i = i := by
    intro i
    have hTs := (c01_cayley_table h.1)
    obtain ⟨T1, hT1, hTs, -⟩ := hTs
    obtain rfl := Except.ok.inj (hT1.symm.trans hT)
    exact (hTs _ _ _).2 ⟨by rw [he1, Matrix.one_mul], by
      rw [(hmem _).1 (List.get_mem xsg e)]
      rcases h.1.2.1 i with h4 | h4 <;> rw [h4] <;> decide⟩
  have hR := raw_complete hsg.1 hT' hsubc (fun u v => hnorm _ _) he1 (hF1 _ hxe) (ho xsg hl.nodup hmem) ha.le hraw
  have hreal : ∀ u v, star (F (xsg.get u) (xsg.get v)) = F (xsg.get u) (xsg.get v) := by
    intro u v
    have h4 := hμ _ _ ((hmem _).1 (List.get_mem xsg u)) ((hmem _).1 (List.get_mem xsg v))
    simp only [hF]
    rcases hω1 (xsg.get u) (xsg.get v) with h5 | h5 <;> rcases h4 with h6 | h6 <;> rw [h5, h6] <;> simp
  obtain ⟨E, hE, hER⟩ := approx_of_complete A1.sub_table (fun u v => hnorm _ _) hsubc hR ha ha5
  obtain ⟨I, hI, hfor⟩ := corepsFromIrreps_inv hl hco
  refine ⟨xsg, a0, T', F, R, hl.nodup, hmem, (haf a0).1 hl.anti, fun u v => (cayley_none_spec hT' u v).1,
    fun i j => by rw [h1], hR, ?_⟩
  rw [hI, List.forall₂_map_left_iff]
  refine hfor.imp fun p x hpx => ?_
  obtain ⟨Y, hY, rfl, -⟩ := hpx
  have hDm : (⟨_, E p.2⟩ : AnyRep xsg.length) ∈ R := by rw [hER]; exact List.get_mem _ _
  refine ⟨⟨_, E p.2⟩, hDm, bar F (fun u => xsg.get u) a0 c (E p.2), ?_,
    bar_projRep_of_real hl hcoc hnorm hreal (hE.rep _), bar_unitary_of_norm hnorm (hE.unitary _),
    bar_irreducible_of_norm hnorm A1.conj_bijective.2 (hE.irred _), ?_⟩
  · intro u v huv
    have hcv : c u = v := by
      apply hsg.1.1
      have h4 : rots a0 * rots (xsg.get (c u)) = rots a0 * rots (xsg.get v) := by
        rw [← huv]
        obtain ⟨T1, hT1, hTs, -⟩ := c01_cayley_table h.1
        obtain rfl := Except.ok.inj (hT1.symm.trans hT)
        rw [((hTs a0 (xsg.get (c u)) _).1 rfl).1, hl.conj, ((hTs (xsg.get u) a0 _).1 rfl).1]
      exact ((Matrix.isUnit_iff_isUnit_det _).2
        ((IsMagneticSpaceGroup.operations (δ := 0) h).det a0)).mul_left_cancel h4
    unfold bar conjFactor
    rw [hcv]
  · have hnear := hE.near p.2
    have hnearb := near_bar (xsg := fun u => xsg.get u) (a0 := a0) (c := c) hnorm hnear
    unfold buildCorep at hY
    split at hY
    next hp1 =>
      obtain rfl := Except.ok.inj hY
      refine .inl ⟨hp1, _, rfl, fun u i j => ?_⟩
      unfold phaseMul
      dsimp only
      rw [Matrix.smul_apply, smul_eq_mul, A1.assemble_lin, ← mul_sub, norm_mul, norm_expPhase, one_mul]
      exact hnear u i j
    next hp1 =>
      split at hY
      next hp2 =>
        obtain rfl := Except.ok.inj hY
        refine .inr ⟨.inl hp2, _, rfl, fun u i j => ?_⟩
        unfold phaseMul
        dsimp only
        rw [Matrix.smul_apply, smul_eq_mul, A1.assemble_lin, ← mul_sub, norm_mul, norm_expPhase, one_mul]
        exact near_blocks ha.le hnear hnearb u i j
      next hp2 =>
        split at hY
        next hp3 =>
          obtain rfl := Except.ok.inj hY
          refine .inr ⟨.inr hp3, _, rfl, fun u i j => ?_⟩
          unfold phaseMul
          dsimp only
          rw [Matrix.smul_apply, smul_eq_mul, A1.assemble_lin, ← mul_sub, norm_mul, norm_expPhase, one_mul]
          exact near_blocks ha.le hnear hnearb u i j
        next => cases hY

/-! ### C48 -/

/-- C48, exactly when it holds: take any group table with a homomorphism `a` marking the anti-linear elements, any anti-linear
cocycle `F` of modulus one, the list `xsg` of the linear elements, an anti-linear `a0`, and a complete list of exact unitary
irreps of the linear elements.  Lines 126-240 of corep.py return, and unless the intertwiner search gave up with a
warning, every returned co-representation is the product of the phases `exp(-2πi k·w)` with a family `E` which obeys the law
`E_i E_j = F(i,j) E_ij` for linear `i` and `j`, and obeys the law for all elements, with `E_j` conjugated after an anti-linear `i`,
if and only if the irrep `D` it was built from consists of real matrices, so does its conjugate `D'` under `a0` when the
indicator is not 1, and `D' = D` when the indicator is -1.

Missing: the law for other irreps is false, see `c48_refuted`; `c48_repaired` says how to repair it. -/
theorem c48_corep_law_partial {T : Fin n → Fin n → Fin n} (hT : IsGroupTable T) {a : Fin n → Bool}
    (ha : ∀ i j, a (T i j) = (a i ^^ a j)) {F : Fin n → Fin n → ℂ} (hF : IsAntiCocycle T a F) (hn : ∀ i j, ‖F i j‖ = 1)
    (h1 : ∀ e, (∀ i, T e i = i) → F e e = 1) {xsg : List (Fin n)} (hnd : xsg.Nodup) (hmem : ∀ i, i ∈ xsg ↔ a i = false)
    {T' : Fin xsg.length → Fin xsg.length → Fin xsg.length}
    (hsub : ∀ u v, xsg.get (T' u v) = T (xsg.get u) (xsg.get v)) {a0 : Fin n} (ha0 : a a0 = true)
    {irreps : List (AnyRep xsg.length)} (hR : IsCompleteIrreps T' (fun u v => F (xsg.get u) (xsg.get v)) irreps)
    (random : ∀ d, ℕ → Matrix (Fin d) (Fin d) ℂ) (trans : Fin n → V3) (k : V3) {atol : ℝ} (hat : 0 ≤ atol) (maxGen : ℕ) :
    ∃ out inds w, corepsFromIrreps random F T trans k xsg a0 irreps atol maxGen = .ok (out, inds, w) ∧ (w = false →
      List.Forall₂ (fun ε x => ∃ D ∈ irreps, ∃ (D' : RepArr xsg.length D.1) (E : RepArr n x.1),
        (∀ u v, T (xsg.get u) a0 = T a0 (xsg.get v) → D' u = (F (xsg.get u) a0 / F a0 (xsg.get v)) • (D.2 v).map star) ∧
        (ε = 1 ∨ ε = -1 ∨ ε = 0) ∧ (ε = 0 ↔ ¬ AreEquivalent D.2 D') ∧
        (∀ i, x.2 i = expPhase (dot3 k (trans i)) • E i) ∧
        (∀ i j, a i = false → a j = false → E i * E j = F i j • E (T i j)) ∧
        (CorepLaw T a F E ↔ (∀ u, (D.2 u).map star = D.2 u) ∧ (ε ≠ 1 → ∀ u, (D' u).map star = D' u) ∧
          (ε = -1 → ∀ u, D' u = D.2 u))) inds out) := by
  obtain ⟨T'', c, s, hl⟩ := linearPart_exists hT ha hnd hmem ha0
  have hinj := List.nodup_iff_injective_get.1 hnd
  obtain rfl : T' = T'' := by
    funext u v
    exact hinj ((hsub u v).trans (hl.sub u v).symm)
  have A := hl.antiGroup hF hn
  have hmR : ∀ i, irreps.get i ∈ irreps := fun i => List.get_mem _ _
  have happ : ApproxIrreps T' (fun u v => F (xsg.get u) (xsg.get v)) 0 irreps fun i => (irreps.get i).2 := by
    refine ⟨fun i g x y => by simp, fun i => hR.rep _ (hmR i), fun i => hR.unitary _ (hmR i), fun i => hR.irred _ (hmR i),
      fun i j hij => ?_, fun e E hE hu hi => ?_,
      fun i => IsCompleteIrreps.dim_le A.sub_table (ne_zero_of_norm_one fun u v => hn _ _) A.sub_cocycle hR (hmR i)⟩
    · have hp := List.pairwise_iff_get.1 hR.inequiv
      rcases lt_trichotomy i j with h | h | h
      · exact absurd hij (hp _ _ h)
      · exact h
      · exact absurd (AreEquivalent.symm hij) (hp _ _ h)
    · obtain ⟨D, hD, heq⟩ := hR.complete e E hE hu hi
      obtain ⟨i, rfl⟩ := List.mem_iff_get.1 hD
      exact ⟨i, heq⟩
  obtain ⟨p, ι, out, w, hrun, hp2, hp1, hι1, hι2, hι3, hfor, -⟩ := corepsFromIrreps_run hl A le_rfl (by simp) happ random trans k atol
    maxGen
  refine ⟨out, _, w, hrun, fun hw => ?_⟩
  rw [List.forall₂_map_left_iff]
  refine hfor.imp fun i x hx => ?_
  obtain ⟨Y, hY, rfl, hY2⟩ := hx
  have hY2 := hY2 hw
  have hD := hR.rep _ (hmR i)
  have hDu := hR.unitary _ (hmR i)
  have hDi := hR.irred _ (hmR i)
  have hpi : AreEquivalent (irreps.get i).2 (bar F (fun u => xsg.get u) a0 c (irreps.get i).2) ↔ p i = i :=
    ⟨fun h => ((hp1 i i).1 (AreEquivalent.symm h)).symm, fun h => AreEquivalent.symm ((hp1 i i).2 h.symm)⟩
  refine ⟨_, hmR i, bar F (fun u => xsg.get u) a0 c (irreps.get i).2, Y.1.2, ?_, hι1 i, ?_, fun _ => rfl, ?_⟩
  · intro u v huv
    have hcv : c u = v := by
      apply hinj
      apply table_left_cancel hT (k := a0)
      rw [hl.conj, huv]
    unfold bar conjFactor
    rw [hcv]
  · rw [hι2, hpi]
  have hq : ∀ u, xsg.get (T' (T' s (c u)) u) = T (T a0 (xsg.get u)) (T a0 (xsg.get u)) := fun u =>
    (A.pos_anti_anti u u).symm
  -- the intertwiner
  have hint := c13_intertwiner A.sub_table (fun u v => hn _ _) hD (A.bar_projRep hD) hDu (A.bar_unitary hDu) hDi
    (A.bar_irreducible hDi) (random _) hat maxGen
  have hm : (xsg.length : ℂ) ≠ 0 := by exact_mod_cast (table_pos A.sub_table).ne'
  have hlin : ∀ {d : ℕ} {X : RepArr xsg.length d} {Z : RepArr xsg.length d},
      IsProjRep T' (fun u v => F (xsg.get u) (xsg.get v)) X → ∀ i j, a i = false → a j = false →
      assemble (fun u => xsg.get u) (fun u => T a0 (xsg.get u)) X Z i *
        assemble (fun u => xsg.get u) (fun u => T a0 (xsg.get u)) X Z j =
      F i j • assemble (fun u => xsg.get u) (fun u => T a0 (xsg.get u)) X Z (T i j) := by
    intro d X Z hX i j hi hj
    obtain ⟨u, rfl⟩ := (A.mem i).2 hi
    obtain ⟨v, rfl⟩ := (A.mem j).2 hj
    rw [A.assemble_lin, A.assemble_lin, ← hl.sub, A.assemble_lin]
    exact hX u v
  unfold buildCorep at hY
  rcases hι1 i with h | h | h
  · rw [h, if_pos rfl] at hY
    obtain rfl := Except.ok.inj hY
    dsimp only at hY2 ⊢
    obtain ⟨hU1, -, hU2⟩ := hint.1 hY2
    obtain ⟨σ, hσ, hsq, hsum⟩ := A.intertwiner_square hD hDu hDi hU2 hU1
    have h2 := (hsum _ hq).symm.trans (hι3 i _ hq)
    rw [h] at h2
    have h3 : σ = 1 := mul_right_cancel₀ hm (by rw [h2]; push_cast; ring)
    refine ⟨hlin hD, ?_⟩
    rw [h3, one_smul] at hsq
    refine Iff.trans (A.law_one_iff h1 hD hDu hU2 hU1 hsq) ?_
    rw [h]
    exact ⟨fun h4 => ⟨h4, fun h5 => absurd rfl h5, fun h5 => absurd h5 (by decide)⟩, fun h4 => h4.1⟩
  · rw [h, if_neg (by decide), if_pos rfl] at hY
    obtain rfl := Except.ok.inj hY
    dsimp only at hY2 ⊢
    obtain ⟨hU1, -, hU2⟩ := hint.1 hY2
    obtain ⟨σ, hσ, hsq, hsum⟩ := A.intertwiner_square hD hDu hDi hU2 hU1
    have h2 := (hsum _ hq).symm.trans (hι3 i _ hq)
    rw [h] at h2
    have h3 : σ = -1 := mul_right_cancel₀ hm (by rw [h2]; push_cast; ring)
    refine ⟨hlin (AntiGroup.blocks_projRep hD (A.bar_projRep hD)), ?_⟩
    rw [h3, neg_one_smul] at hsq
    refine Iff.trans (A.law_neg_iff h1 hD hDu hU2 hU1 hsq) ?_
    rw [h]
    constructor
    · intro h4
      exact ⟨h4.1, fun _ u => by rw [h4.2 u]; exact h4.1 u, fun _ => h4.2⟩
    · intro h4
      exact ⟨h4.1, h4.2.2 rfl⟩
  · rw [h, if_neg (by decide), if_neg (by decide), if_pos rfl] at hY
    obtain rfl := Except.ok.inj hY
    dsimp only at hY2 ⊢
    refine ⟨hlin (AntiGroup.blocks_projRep hD (A.bar_projRep hD)), ?_⟩
    rw [A.law_zero_iff h1 hD hDu, h]
    constructor
    · intro h4
      exact ⟨fun u => (h4 u).1, fun _ u => (h4 u).2, fun h5 => absurd h5 (by decide)⟩
    · intro h4 u
      exact ⟨h4.1 u, h4.2.1 (by decide) u⟩

/-- How the construction of co-representations has to be changed for C48 to hold: the matrices of the linear elements in
`corep[a0 u]` have to be complex conjugated, and for indicator -1 the irrep has to be repeated instead of being joined with its
conjugate. -/
theorem c48_repaired {m d : ℕ} {T : Fin n → Fin n → Fin n} (hT : IsGroupTable T) {a : Fin n → Bool}
    (ha : ∀ i j, a (T i j) = (a i ^^ a j)) {F : Fin n → Fin n → ℂ} (hF : IsAntiCocycle T a F) (hn : ∀ i j, ‖F i j‖ = 1)
    {xsg : Fin m → Fin n} (hinj : Function.Injective xsg) (hmem : ∀ i, (∃ u, xsg u = i) ↔ a i = false)
    {T' : Fin m → Fin m → Fin m} (hsub : ∀ u v, xsg (T' u v) = T (xsg u) (xsg v)) {a0 : Fin n} (ha0 : a a0 = true)
    {c : Fin m → Fin m} (hc : ∀ u, T a0 (xsg (c u)) = T (xsg u) a0) {s : Fin m} (hs : xsg s = T a0 a0)
    {D D' : RepArr m d} (hD : IsProjRep T' (fun u v => F (xsg u) (xsg v)) D) (hDu : IsUnitaryRep D)
    (hDi : Spec.IsIrreducible D) (hD' : ∀ u, D' u = (F (xsg u) a0 / F a0 (xsg (c u))) • (D (c u)).map star)
    {ε : ℤ} (hε : ∑ u, F (T a0 (xsg u)) (T a0 (xsg u)) * (D (T' (T' s (c u)) u)).trace = ((ε * m : ℤ) : ℂ)) :
    (∀ U : Matrix (Fin d) (Fin d) ℂ, U * U.conjTranspose = 1 → (∀ u, D u * U = U * D' u) → ε = 1 → ∀ E : RepArr n d,
      (∀ u, E (xsg u) = D u) → (∀ u, E (T a0 (xsg u)) = star (F a0 (xsg u)) • (U * (D u).map star)) → CorepLaw T a F E) ∧
    (∀ U : Matrix (Fin d) (Fin d) ℂ, U * U.conjTranspose = 1 → (∀ u, D u * U = U * D' u) → ε = -1 → ∀ E : RepArr n (d + d),
      (∀ u, E (xsg u) = blocks (D u) 0 0 (D u)) → (∀ u, E (T a0 (xsg u)) = star (F a0 (xsg u)) •
        (blocks 0 (-U) U 0 * (blocks (D u) 0 0 (D u)).map star)) → CorepLaw T a F E) ∧
    (∀ E : RepArr n (d + d), (∀ u, E (xsg u) = blocks (D u) 0 0 (D' u)) → (∀ u, E (T a0 (xsg u)) = star (F a0 (xsg u)) •
        (blocks 0 (F a0 a0 • D s) 1 0 * (blocks (D u) 0 0 (D' u)).map star)) → CorepLaw T a F E) := by
  have A : AntiGroup T a F xsg T' a0 c s := ⟨hT, ha, hF, hn, hinj, hmem, hsub, ha0, hc, hs⟩
  obtain rfl : D' = bar F xsg a0 c D := funext hD'
  have hm : (m : ℂ) ≠ 0 := by exact_mod_cast (table_pos A.sub_table).ne'
  have hq : ∀ u, xsg (T' (T' s (c u)) u) = T (T a0 (xsg u)) (T a0 (xsg u)) := fun u => (A.pos_anti_anti u u).symm
  have hE : ∀ {d : ℕ} {E : RepArr n d} {X Y : RepArr m d}, (∀ u, E (xsg u) = X u) → (∀ u, E (T a0 (xsg u)) = Y u) →
      E = assemble xsg (fun u => T a0 (xsg u)) X Y := by
    intro d E X Y h1 h2
    funext g
    rcases A.cases g with ⟨u, rfl⟩ | ⟨u, rfl⟩
    · rw [h1, A.assemble_lin]
    · rw [h2, A.assemble_anti]
  refine ⟨fun U hU hUD h1 E hE1 hE2 => ?_, fun U hU hUD h1 E hE1 hE2 => ?_, fun E hE1 hE2 => ?_⟩
  · obtain ⟨σ, -, hsq, hsum⟩ := A.intertwiner_square hD hDu hDi hU hUD
    have h2 := (hsum _ hq).symm.trans hε
    rw [h1] at h2
    have h3 : σ = 1 := mul_right_cancel₀ hm (by rw [h2]; push_cast; ring)
    rw [hE hE1 hE2]
    exact A.law_of_intertwines hD hUD (by rw [hsq, h3, one_smul])
  · obtain ⟨σ, -, hsq, hsum⟩ := A.intertwiner_square hD hDu hDi hU hUD
    have h2 := (hsum _ hq).symm.trans hε
    rw [h1] at h2
    have h3 : σ = -1 := mul_right_cancel₀ hm (by rw [h2]; push_cast; ring)
    rw [h3, neg_one_smul] at hsq
    rw [hE hE1 hE2]
    refine A.law_of_intertwines (AntiGroup.blocks_projRep hD hD) (fun u => ?_) ?_
    · rw [AntiGroup.bar_blocks, blocks_mul, blocks_mul]
      simp only [Matrix.mul_zero, Matrix.zero_mul, add_zero, zero_add, Matrix.mul_neg, Matrix.neg_mul, neg_zero, hUD]
    · rw [blocks_map_star, blocks_mul, blocks_smul, map_star_neg, map_star_zero]
      simp only [Matrix.mul_zero, Matrix.zero_mul, add_zero, zero_add, Matrix.mul_neg, Matrix.neg_mul, hsq, neg_neg, neg_zero, smul_zero]
  · obtain ⟨-, hM2, hM3⟩ := A.zero_matrix hD hDu
    rw [hE hE1 hE2]
    exact A.law_of_intertwines (AntiGroup.blocks_projRep hD (A.bar_projRep hD)) hM2 hM3

theorem grey2_magnetic : IsMagneticSpaceGroup rotsGrey2 (fun _ _ => 0) trsGrey2 :=
  ⟨grey2_group, fun _ _ _ _ _ => ⟨0, by simp⟩⟩

theorem grey2_contract (xsg : List (Fin 4)) (hnd : xsg.Nodup) (hmem : ∀ i, i ∈ xsg ↔ trsGrey2 i = 0) :
    PointgroupContract (PgSymbol.pg_2, (1 : M3).map fun x : ℤ => (x : ℝ)) fun u => rotsGrey2 (xsg.get u) := by
  have h1 : ∀ u, ∃ j : Fin 2, xsg.get u = j.castLE (by norm_num) := by
    intro u
    have h2 := (hmem _).1 (List.get_mem xsg u)
    generalize xsg.get u = x at *
    revert x
    decide
  choose f hf using h1
  have hbij : Function.Bijective f := by
    constructor
    · intro u v huv
      exact (List.nodup_iff_injective_get.1 hnd) (by rw [hf, hf, huv])
    · intro j
      have h2 : (j.castLE (by norm_num) : Fin 4) ∈ xsg := (hmem _).2 (by revert j; decide)
      obtain ⟨u, hu⟩ := List.mem_iff_get.1 h2
      refine ⟨u, ?_⟩
      rw [hf] at hu
      exact Fin.castLE_injective _ hu
  refine contract_of_int (s := .pg_2) (std := pgData_2[2]) (by decide +kernel)
    (show pgData_2[2] ∈ pgData_2 from List.getElem_mem _) (Equiv.ofBijective f hbij) fun u => ?_
  rw [hf]
  change rotsGrey2 ((f u).castLE _) * 1 = 1 * (pgData_2[2].get (f u)).toM3
  generalize f u = j
  revert j
  decide +kernel

theorem twofold_square {V : Matrix (Fin 2) (Fin 2) ℂ} (h : IsSU2 V)
    (hr : InducesRotation V (realMat !![-1, 0, 0; 0, -1, 0; 0, 0, 1])) : V * V = -1 := by
  have h1 : V.conjTranspose * V = 1 := mul_eq_one_comm.1 h.1
  have h2 : ∀ b, V * pauli b = (∑ a, ((realMat !![-1, 0, 0; 0, -1, 0; 0, 0, 1] : R3) a b : ℂ) • pauli a) * V := by
    intro b
    rw [← hr b, Matrix.mul_assoc _ V.conjTranspose V, h1, Matrix.mul_one]
  have hx := h2 0
  have hdet := h.2
  rw [Matrix.det_fin_two] at hdet
  have x00 := congrFun (congrFun hx 0) 0
  have x01 := congrFun (congrFun hx 0) 1
  simp [realMat, pauli, Matrix.mul_apply, Fin.sum_univ_two, Fin.sum_univ_three] at x00 x01
  ext i j
  fin_cases i <;> fin_cases j <;> simp [Matrix.mul_apply, Fin.sum_univ_two]
  · linear_combination -hdet + V 0 0 * x01
  · linear_combination V 0 1 * x01
  · linear_combination V 1 0 * x01
  · linear_combination -hdet + V 1 1 * x01

/-- The spinor factors of the grey group 21' which are needed. -/
theorem grey2_factors {eig : EigOracle} (he : SymmEigContract eig) {ω : Fin 4 → Fin 4 → ℂ}
    {U : Fin 4 → Matrix (Fin 2) (Fin 2) ℂ} {a : Fin 4 → Bool}
    (hω : getCorepSpinorFactorSystem eig 1 rotsGrey2 trsGrey2 = .ok (ω, U, a)) :
    ω 1 1 = -1 ∧ ω 2 2 = -1 ∧ ω 3 3 = 1 := by
  obtain ⟨ω', U', a', hω', ha, hV, -, hlaw, -, hone, htr⟩ := c46_corep_spinor_factor_system he
    (by rw [Matrix.det_one]; exact one_ne_zero) grey2_group grey2_metric
  obtain ⟨rfl, h1⟩ := Prod.mk.inj (Except.ok.inj (hω.symm.trans hω'))
  obtain ⟨rfl, rfl⟩ := Prod.mk.inj h1
  obtain ⟨V, hV1, hV2, hV3, -⟩ := getSpinorUnitaryRotation_spec he (by rw [Matrix.det_one]; exact one_ne_zero) (grey2_metric 1)
  have hsq : V * V = -1 := by
    refine twofold_square hV2 ?_
    have : properPart (rotsGrey2 1) = !![-1, 0, 0; 0, -1, 0; 0, 0, 1] := by
      unfold properPart
      decide +kernel
    rw [this] at hV3
    simpa using hV3
  have hU0 : U 0 = 1 := (hone 0 (by decide +kernel) rfl).1
  obtain ⟨V1, k1, -, k2, -⟩ := hV 1
  obtain rfl := Except.ok.inj (hV1.symm.trans k1)
  obtain ⟨V3, m1, -, -, m2⟩ := hV 3
  have h31 : rotsGrey2 3 = rotsGrey2 1 := by decide +kernel
  rw [h31] at m1
  obtain rfl := Except.ok.inj (hV1.symm.trans m1)
  have ha1 : a 1 = false := by
    cases h : a 1 with
    | false => rfl
    | true => exact absurd ((ha 1).1 h) (by decide)
  have ha3 : a 3 = true := (ha 3).2 rfl
  have l11 := hlaw 1 1 0 ⟨by decide +kernel, by decide⟩
  have l33 := hlaw 3 3 0 ⟨by decide +kernel, by decide⟩
  have hinj : ∀ {x y : ℂ}, x • (1 : Matrix (Fin 2) (Fin 2) ℂ) = y • 1 → x = y := fun h =>
    smul_left_injective ℂ (one_ne_zero : (1 : Matrix (Fin 2) (Fin 2) ℂ) ≠ 0) h
  refine ⟨?_, htr 2 (.inl (by decide +kernel)) rfl, ?_⟩
  · rw [k2 rfl, ha1, hU0] at l11
    change V * V = _ at l11
    rw [hsq] at l11
    exact hinj (by rw [← l11, neg_one_smul])
  · rw [m2 rfl, ha3, hU0] at l33
    change V * timeReversalMatrix * (V * timeReversalMatrix).map star = _ at l33
    rw [map_star_mul, timeReversal_map, ← Matrix.mul_assoc, Matrix.mul_assoc V, su2_conj hV2, Matrix.mul_assoc, Matrix.mul_assoc,
      timeReversal_sq, Matrix.mul_neg, Matrix.mul_one, Matrix.mul_neg, hsq, neg_neg] at l33
    exact hinj (by rw [← l33, one_smul])

/-- A perturbed one-dimensional representation of the twofold rotation is not real. -/
theorem grey2_contra {m d : ℕ} (hd : d = 1) {D D' : RepArr m d} {e u : Fin m} {t : ℝ} (ht0 : 0 ≤ t) (ht : t ≤ 1 / 5)
    (h : Near t D D') (he : D e = 1) (hu : D u * D u = -1) (hlaw : D' e * (D' u).map star = D' u) : False := by
  subst hd
  have e1 := congrFun (congrFun he 0) 0
  have e2 := congrFun (congrFun hu 0) 0
  have e3 := congrFun (congrFun hlaw 0) 0
  have n1 := h e 0 0
  have n2 := h u 0 0
  simp only [Matrix.mul_apply, Finset.univ_unique, Finset.sum_singleton, Matrix.map_apply, Matrix.neg_apply,
    Matrix.one_apply_eq, Fin.default_eq_zero, Fin.isValue] at e1 e2 e3
  rw [e1] at n1
  generalize D u 0 0 = y0 at *
  generalize D' u 0 0 = y at *
  generalize D' e 0 0 = x at *
  have h1 : y0 = Complex.I ∨ y0 = -Complex.I := by
    have : (y0 - Complex.I) * (y0 + Complex.I) = 0 := by
      linear_combination e2 - Complex.I_mul_I
    rcases mul_eq_zero.1 this with h2 | h2
    · exact .inl (sub_eq_zero.1 h2)
    · exact .inr (eq_neg_of_add_eq_zero_left h2)
  have h2 : star y0 = -y0 := by rcases h1 with rfl | rfl <;> simp
  have h3 : ‖y0‖ = 1 := by rcases h1 with rfl | rfl <;> simp
  have h4 : 2 * y0 = (y0 - y) + ((x - 1) * star y + (star y - star y0)) := by
    rw [h2]
    linear_combination -e3
  have h5 : ‖2 * y0‖ = 2 := by rw [norm_mul, h3]; simp
  have h6 : ‖y‖ ≤ 1 + t := by
    calc ‖y‖ = ‖y0 - (y0 - y)‖ := by rw [sub_sub_cancel]
      _ ≤ ‖y0‖ + ‖y0 - y‖ := norm_sub_le _ _
      _ ≤ 1 + t := by rw [h3]; linarith
  have h7 : ‖star y - star y0‖ ≤ t := by rw [← star_sub, norm_star, norm_sub_rev]; exact n2
  have h8 : ‖(x - 1) * star y‖ ≤ t * (1 + t) := by
    rw [norm_mul, norm_star, norm_sub_rev]
    exact mul_le_mul n1 h6 (norm_nonneg _) ht0
  have h9 : (2 : ℝ) ≤ t + (t * (1 + t) + t) := by
    rw [← h5, h4]
    refine (norm_add_le _ _).trans (add_le_add n2 ((norm_add_le _ _).trans (add_le_add h8 h7)))
  nlinarith

/-- C48 is false: for the grey group 21' at `k = 0`, with every choice of oracles obeying their contracts and of random numbers
for which the enumeration of irreps succeeds, `enumerate_spinor_small_corepresentations` returns without warning at least
one co-representation, and none of those it returns obeys the law of co-representations. -/
theorem c48_refuted {o : Oracles} (he : SymmEigContract o.eig)
    (ho : o.pointgroup = (PgSymbol.pg_2, (1 : M3).map fun x : ℤ => (x : ℝ))) (hr : RichDraws 4 o.random 1e-8 4)
    (randomI : ∀ d, ℕ → Matrix (Fin d) (Fin d) ℂ) (rtol : ℝ) :
    ∃ out T, enumerateSpinorSmallCoreps o randomI 1 rotsGrey2 (fun _ _ => 0) trsGrey2 0 .neto rtol 1e-8 4 = .ok (out, false) ∧
      getCayleyTable rotsGrey2 (some trsGrey2) = .ok T ∧ out.coreps ≠ [] ∧
      ∀ x ∈ out.coreps, ¬ CorepLaw T out.antiLinear
        (fun i j => out.spinorFactor i j * getFactorSystem rotsGrey2 (fun _ _ => 0) 0 i j) x.2 := by
  have hμ : ∀ i j, getFactorSystem rotsGrey2 (fun _ _ => 0) 0 i j = 1 := by
    intro i j
    unfold getFactorSystem
    have : dot3 (residual (rotsGrey2 i) 0) ((fun _ _ => 0 : Fin 4 → V3) j) = 0 := by unfold dot3; simp
    rw [this, expPhase_zero]
  obtain ⟨xsg, a0, ω, U, a, T, T', c, s, e, F, R, irreps, E, p, ι, out, w, hrun, hω, rfl, rfl, rfl, hF, hT, hl, hmem, A, hF1,
    he1, he2, hR, hE, hlen, hER, hind, hp2, hp1, hι1, hι2, hι3, hfor, hwarn⟩ := coreps_forward grey2_magnetic ⟨2, rfl⟩
    (by decide +kernel) (fun i b => ⟨0, by simp⟩) (fun i j => .inl (hμ i j)) he (by rw [Matrix.det_one]; exact one_ne_zero)
    grey2_metric (fun xsg h1 h2 => by rw [ho]; exact grey2_contract xsg h1 h2) rtol (atol := 1e-8) (by norm_num) (by norm_num)
    randomI (.inl hr)
  obtain ⟨w11, w22, w33⟩ := grey2_factors he hω
  have hFω : ∀ i j, F i j = out.spinorFactor i j := fun i j => by rw [hF]; dsimp only; rw [hμ, mul_one]
  obtain ⟨T1, hT1, hTs, hTg, -⟩ := c01_cayley_table grey2_group
  obtain rfl := Except.ok.inj (hT1.symm.trans hT)
  have hsqT : ∀ i, T1 i i = 0 := by
    intro i
    refine (hTs i i 0).2 ⟨?_, ?_⟩ <;> revert i <;> decide +kernel
  have hxe : xsg.get e = 0 := by
    have h1 := (hmem _).1 (List.get_mem xsg e)
    generalize xsg.get e = x at he1 h1
    revert x
    decide +kernel
  obtain ⟨u, hu⟩ := List.mem_iff_get.1 ((hmem 1).2 rfl)
  have hinj := List.nodup_iff_injective_get.1 hl.nodup
  have huu : T' u u = e := hinj (by rw [hl.sub, hsqT, hxe])
  have heu : T' e u = u := hinj (by rw [hl.sub, he2])
  have hee : T' e e = e := hinj (by rw [hl.sub, he2])
  have hmlen : xsg.length = 2 := by
    have h1 : xsg.toFinset = Finset.univ.filter fun i => trsGrey2 i = 0 := by
      ext i
      simp [hmem]
    have h2 := List.toFinset_card_of_nodup hl.nodup
    rw [h1] at h2
    rw [← h2]
    decide
  have hE1 : ∀ i, E i e = 1 := by
    intro i
    have h1 : E i e * E i e = _ • E i (T' e e) := hE.rep i e e
    rw [hee, hF1 _ he2, one_smul] at h1
    have h2 : IsUnit (E i e) := IsUnitaryRep.isUnit (hE.unitary i) e
    exact h2.mul_left_cancel (by rw [h1, Matrix.mul_one])
  have hE2 : ∀ i, E i u * E i u = -1 := by
    intro i
    have h1 : E i u * E i u = F (xsg.get u) (xsg.get u) • E i (T' u u) := hE.rep i u u
    rwa [huu, hE1, hu, hFω, w11, neg_one_smul] at h1
  have hd : ∀ i, (irreps.get i).1 = 1 := by
    intro i
    have h1 : (irreps.get i).1 ^ 2 ≤ 2 := (hE.dim i).trans hmlen.le
    have h2 : 0 < (irreps.get i).1 := Fin.pos_iff_nonempty.2 (hE.irred i).1
    nlinarith
  have hanti : ∀ x, trsGrey2 x = 1 ↔ out.antiLinear x = true := by
    intro x
    obtain ⟨ω', U', a', h1, h2, -⟩ := c46_corep_spinor_factor_system he (by rw [Matrix.det_one]; exact one_ne_zero) grey2_group
      grey2_metric
    obtain ⟨-, h7⟩ := Prod.mk.inj (Except.ok.inj (hω.symm.trans h1))
    obtain ⟨-, h8⟩ := Prod.mk.inj h7
    rw [h8, h2]
  -- the indicators vanish
  have hι0 : ∀ i, ι i = 0 := by
    intro i
    have h1 := hι3 i (fun _ => e) fun v => by rw [hsqT, hxe]
    have h2 : ∀ v, F (T1 a0 (xsg.get v)) (T1 a0 (xsg.get v)) * (E i e).trace = F (T1 a0 (xsg.get v)) (T1 a0 (xsg.get v)) := by
      intro v
      rw [hE1, Matrix.trace_one, Fintype.card_fin, hd i]
      simp
    have h3 : ∑ v, F (T1 a0 (xsg.get v)) (T1 a0 (xsg.get v)) = ∑ x ∈ ({2, 3} : Finset (Fin 4)), F x x := by
      have h4 : ({2, 3} : Finset (Fin 4)) = Finset.univ.image fun v => T1 a0 (xsg.get v) := by
        have h5 : ∀ x, x ∈ ({2, 3} : Finset (Fin 4)) ↔ trsGrey2 x = 1 := by decide
        ext x
        rw [h5, hanti]
        rw [Finset.mem_image]
        constructor
        · intro hx
          rcases A.cases x with ⟨v, rfl⟩ | ⟨v, rfl⟩
          · rw [A.linear] at hx
            cases hx
          · exact ⟨v, Finset.mem_univ _, rfl⟩
        · rintro ⟨v, -, rfl⟩
          exact A.anti_a0u v
      rw [h4, Finset.sum_image fun v _ v' _ h => A.a0u_inj h]
    rw [Finset.sum_congr rfl fun v _ => h2 v, h3, Finset.sum_pair (by decide), hFω, hFω, w22, w33, neg_add_cancel, hmlen] at h1
    have h6 : ((ι i * 2 : ℤ) : ℂ) = 0 := h1.symm
    have h7 : ι i * 2 = 0 := by exact_mod_cast h6
    omega
  have hw : w = false := by
    cases hw : w with
    | false => rfl
    | true =>
      obtain ⟨i, Y, hY, hY2⟩ := hwarn hw
      unfold buildCorep at hY
      rw [hι0, if_neg (by decide), if_neg (by decide), if_pos rfl] at hY
      obtain rfl := Except.ok.inj hY
      cases hY2
  subst hw
  have hphase : ∀ {d : ℕ} (D : RepArr 4 d), phaseMul (fun _ _ => 0) 0 D = D := by
    intro d D
    funext g
    unfold phaseMul
    have : dot3 0 ((fun _ _ => 0 : Fin 4 → V3) g) = 0 := by unfold dot3; simp
    rw [this, expPhase_zero, one_smul]
  have hpos : 0 < irreps.length := by
    rw [hlen]
    apply List.length_pos_of_ne_nil
    rintro rfl
    have := IsCompleteIrreps.sum_sq A.sub_table (ne_zero_of_norm_one fun u v => A.norm _ _) A.sub_cocycle hR
    rw [hmlen] at this
    simp at this
  refine ⟨out, T1, hrun, hT1, ?_, ?_⟩
  · intro hnil
    rw [hnil] at hfor
    have h1 := List.forall₂_nil_right_iff.1 hfor
    have h2 : ∀ i, ¬ i ≤ p i := fun i hi => by
      have : i ∈ (List.finRange irreps.length).filter fun i => decide (i ≤ p i) := by simp [hi]
      rw [h1] at this
      cases this
    have h3 := h2 (p ⟨0, hpos⟩)
    rw [hp2] at h3
    have h4 := h2 ⟨0, hpos⟩
    omega
  · intro x hx hlaw
    obtain ⟨i, -, Y, hY, rfl, -⟩ := forall₂_right hfor hx
    dsimp only at hlaw
    rw [hphase] at hlaw
    unfold buildCorep at hY
    rw [hι0, if_neg (by decide), if_neg (by decide), if_pos rfl] at hY
    obtain rfl := Except.ok.inj hY
    have ha0 : T1 a0 (xsg.get e) = a0 := by
      rw [hxe]
      refine (hTs a0 0 a0).2 ⟨?_, ?_⟩ <;> generalize a0 = x <;> revert x <;> decide +kernel
    have hF0 : F a0 (xsg.get e) = 1 := by
      have h2 := A.alin A.anti (xsg.get e) (xsg.get e)
      rw [he2, ha0, hF1 _ he2, star_one] at h2
      exact (mul_left_cancel₀ (A.ne_zero a0 (xsg.get e)) h2).symm
    have h1 := hlaw (T1 a0 (xsg.get e)) (xsg.get u)
    have hsc : out.spinorFactor a0 (xsg.get u) * getFactorSystem rotsGrey2 (fun _ _ => 0) 0 a0 (xsg.get u) =
      F a0 (xsg.get u) := by rw [hF]
    dsimp only at h1
    rw [A.assemble_anti, A.assemble_lin, A.anti_a0u, ha0, A.assemble_anti, hF0, star_one, one_smul, hsc, smul_smul,
      A.mul_star, one_smul] at h1
    simp only [conjIfM, if_true] at h1
    rw [blocks_map_star, blocks_mul, blocks_mul, blocks_mul,
      blocks_inj] at h1
    have h3 := h1.2.2.1
    simp only [Matrix.one_mul, Matrix.zero_mul, Matrix.mul_zero, add_zero, zero_add, map_star_zero] at h3
    exact grey2_contra (hd i) (t := 1e-8) (by norm_num) (by norm_num) (hE.near i) (hE1 i) (hE2 i) h3

/-- The oracles of C48 and C49 exist, for all their results. -/
theorem grey2_oracles : ∃ o : Oracles, SymmEigContract o.eig ∧
    o.pointgroup = (PgSymbol.pg_2, (1 : M3).map fun x : ℤ => (x : ℝ)) ∧ RichDraws 4 o.random 1e-8 4 := by
  obtain ⟨eig, he⟩ := symmEigContract_exists
  obtain ⟨random, hr⟩ := exists_richDraws 1e-8 4 4 fun d hd => hd
  let o : Oracles := { random := random, eig := eig, eigh := fun d _ => (fun _ => 0, 0), qr := fun _ _ _ => 0,
                       pointgroup := (PgSymbol.pg_2, (1 : M3).map fun x : ℤ => (x : ℝ)) }
  exact ⟨o, he, rfl, hr⟩

/-- Non-vacuity of C49: the grey group 21' at `k = 0`. -/
example : ∃ (o : Oracles) (out : CorepOut 4), IsMagneticSpaceGroup rotsGrey2 (fun _ _ => 0) trsGrey2 ∧
    (∃ i, trsGrey2 i = 1) ∧ (∀ i a b, |rotsGrey2 i a b| ≤ 99999) ∧ (∀ i, FixesK (rotsGrey2 i) 0) ∧
    (∀ i j, getFactorSystem rotsGrey2 (fun _ _ => 0) 0 i j = 1) ∧ SymmEigContract o.eig ∧ (1 : R3).det ≠ 0 ∧
    (∀ i, PreservesMetric 1 (rotsGrey2 i)) ∧ (∀ xsg : List (Fin 4), xsg.Nodup → (∀ i, i ∈ xsg ↔ trsGrey2 i = 0) →
      MethodContract o .neto 1e-5 fun u => rotsGrey2 (xsg.get u)) ∧
    enumerateSpinorSmallCoreps o (fun _ _ => 1) 1 rotsGrey2 (fun _ _ => 0) trsGrey2 0 .neto 1e-5 1e-8 4 = .ok (out, false) := by
  obtain ⟨o, he, ho, hr⟩ := grey2_oracles
  obtain ⟨out, T, hrun, -⟩ := c48_refuted he ho hr (fun _ _ => 1) 1e-5
  refine ⟨o, out, grey2_magnetic, ⟨2, rfl⟩, by decide +kernel, fun i b => ⟨0, by simp⟩, fun i j => ?_, he,
    by rw [Matrix.det_one]; exact one_ne_zero, grey2_metric, fun xsg h1 h2 => ?_, hrun⟩
  · unfold getFactorSystem
    have : dot3 (residual (rotsGrey2 i) 0) ((fun _ _ => 0 : Fin 4 → V3) j) = 0 := by unfold dot3; simp
    rw [this, expPhase_zero]
  · change PointgroupContract o.pointgroup _
    rw [ho]
    exact grey2_contract xsg h1 h2

/-- Non-vacuity of C48 and its repair: the factors and irreps of the grey group 21', where the matrices of the twofold rotation
are not real. -/
example : ∃ (T : Fin 4 → Fin 4 → Fin 4) (a : Fin 4 → Bool) (F : Fin 4 → Fin 4 → ℂ) (xsg : List (Fin 4))
    (T' : Fin xsg.length → Fin xsg.length → Fin xsg.length) (a0 : Fin 4) (irreps : List (AnyRep xsg.length)),
    IsGroupTable T ∧ (∀ i j, a (T i j) = (a i ^^ a j)) ∧ IsAntiCocycle T a F ∧ (∀ i j, ‖F i j‖ = 1) ∧
    (∀ e, (∀ i, T e i = i) → F e e = 1) ∧ xsg.Nodup ∧ (∀ i, i ∈ xsg ↔ a i = false) ∧
    (∀ u v, xsg.get (T' u v) = T (xsg.get u) (xsg.get v)) ∧ a a0 = true ∧
    IsCompleteIrreps T' (fun u v => F (xsg.get u) (xsg.get v)) irreps ∧ irreps ≠ [] ∧ F 1 1 = -1 ∧
    ∃ (c : Fin xsg.length → Fin xsg.length) (s : Fin xsg.length), (∀ u, T a0 (xsg.get (c u)) = T (xsg.get u) a0) ∧
      xsg.get s = T a0 a0 ∧ ∀ D ∈ irreps, ∃ ε : ℤ, ∑ u, F (T a0 (xsg.get u)) (T a0 (xsg.get u)) *
        (D.2 (T' (T' s (c u)) u)).trace = ((ε * (xsg.length : ℤ) : ℤ) : ℂ) := by
  obtain ⟨o, he, ho, hr⟩ := grey2_oracles
  have hμ : ∀ i j, getFactorSystem rotsGrey2 (fun _ _ => 0) 0 i j = 1 := by
    intro i j
    unfold getFactorSystem
    have : dot3 (residual (rotsGrey2 i) 0) ((fun _ _ => 0 : Fin 4 → V3) j) = 0 := by unfold dot3; simp
    rw [this, expPhase_zero]
  obtain ⟨xsg, a0, ω, U, a, T, T', c, s, e, F, R, irreps, E, p, ι, out, w, hrun, hω, rfl, rfl, rfl, hF, hT, hl, hmem, A, hF1,
    he1, he2, hR, hE, hlen, hER, hind, hp2, hp1, hι1, hι2, hι3, hfor, hwarn⟩ := coreps_forward grey2_magnetic ⟨2, rfl⟩
    (by decide +kernel) (fun i b => ⟨0, by simp⟩) (fun i j => .inl (hμ i j)) he (by rw [Matrix.det_one]; exact one_ne_zero)
    grey2_metric (fun xsg h1 h2 => by rw [ho]; exact grey2_contract xsg h1 h2) 1e-5 (atol := 1e-8) (by norm_num) (by norm_num)
    (fun _ _ => 1) (.inl hr)
  obtain ⟨w11, -, -⟩ := grey2_factors he hω
  refine ⟨T, _, F, xsg, T', a0, R, A.table, A.hom, A.cocycle, A.norm, hF1, hl.nodup, hl.mem, hl.sub, hl.anti, hR, ?_, ?_,
    c, s, hl.conj, hl.square, fun D hD => ?_⟩
  · rintro rfl
    have h1 := IsCompleteIrreps.sum_sq A.sub_table (ne_zero_of_norm_one fun u v => A.norm _ _) A.sub_cocycle hR
    have h2 := table_pos A.sub_table
    simp at h1
    omega
  · rw [hF]
    dsimp only
    rw [w11, hμ, mul_one]
  · obtain ⟨j, rfl⟩ := List.mem_iff_get.1 hD
    have h1 := hER (j.cast hlen.symm) j rfl
    refine ⟨ι (j.cast hlen.symm), ?_⟩
    rw [← h1]
    exact hι3 _ _ fun u => (A.pos_anti_anti u u).symm

end Spgrep
