/-
C67: the co-representations of a run are in one-to-one correspondence with the irreducible co-representations.
-/
import Verif.Proofs.CorepClass
import Verif.Props.CorepLaw
import Verif.Props.Classes

namespace Spgrep

open Spec

variable {n : ℕ}

theorem irreducible_comp {I J : Type*} {d : ℕ} {D : J → Matrix (Fin d) (Fin d) ℂ} {E : I → Matrix (Fin d) (Fin d) ℂ} (f : J → I)
    (h : ∀ j, E (f j) = D j) (hD : Spec.IsIrreducible D) : Spec.IsIrreducible E :=
  ⟨hD.1, fun W hW => hD.2 W fun g v hv => by rw [← h]; exact hW _ v hv⟩

theorem blocks_equiv {I : Type*} {d : ℕ} (D D' : I → Matrix (Fin d) (Fin d) ℂ) :
    AreEquivalent (fun g => blocks (D g) 0 0 (D' g)) fun g => Matrix.fromBlocks (D g) 0 0 (D' g) := by
  refine ⟨(1 : Matrix (Fin d ⊕ Fin d) (Fin d ⊕ Fin d) ℂ).submatrix finSumFinEquiv.symm id,
    (1 : Matrix (Fin d ⊕ Fin d) (Fin d ⊕ Fin d) ℂ).submatrix id finSumFinEquiv.symm, ?_, ?_, fun g => ?_⟩
  · rw [← Matrix.submatrix_mul _ _ _ id _ Function.bijective_id, Matrix.mul_one, Matrix.submatrix_one_equiv]
  · rw [Matrix.submatrix_mul_equiv, Matrix.mul_one, Matrix.submatrix_id_id]
  · unfold blocks
    dsimp only
    rw [Matrix.reindex_apply, Matrix.submatrix_mul_equiv, Matrix.mul_one]
    conv_rhs => rw [← Matrix.submatrix_id_id (Matrix.fromBlocks (D g) 0 0 (D' g))]
    rw [← Matrix.submatrix_mul _ _ _ id _ Function.bijective_id, Matrix.one_mul]

open Classical in
/-- How a list `K` of co-representations is indexed by the irreps of the linear operations: `q` irreps with dimensions `dm` and
characters `χ`, pairing `p` and indicators `ι`; one co-representation for each pair. -/
def CorepIndexed (trs : Fin n → ℤ) (indicators : List ℤ) (K : List (AnyRep n)) : Prop :=
  ∃ (xsg : List (Fin n)) (q : ℕ) (dm : Fin q → ℕ) (χ : Fin q → Fin xsg.length → ℂ) (p : Fin q → Fin q) (ι : Fin q → ℤ)
    (K' : Fin q → AnyRep n), xsg.Nodup ∧ (∀ i, i ∈ xsg ↔ trs i = 0) ∧
    (∀ i j, ∑ u, χ i u * star (χ j u) = if i = j then (xsg.length : ℂ) else 0) ∧ ∑ i, dm i ^ 2 = xsg.length ∧
    (∀ i, p (p i) = i) ∧ (∀ i, dm (p i) = dm i) ∧ (∀ i, ι i = 1 ∨ ι i = -1 ∨ ι i = 0) ∧ (∀ i, ι i = 0 ↔ p i ≠ i) ∧
    K = ((List.finRange q).filter fun i => decide (i ≤ p i)).map K' ∧
    indicators = ((List.finRange q).filter fun i => decide (i ≤ p i)).map ι ∧
    (∀ i, ι i = 1 → (K' i).1 = dm i ∧ ∀ u, ((K' i).2 (xsg.get u)).trace = χ i u) ∧
    (∀ i, ι i ≠ 1 → (K' i).1 = dm i + dm i ∧ ∀ u, ((K' i).2 (xsg.get u)).trace = χ i u + χ (p i) u)

theorem blocks_trace {d : ℕ} (A B : Matrix (Fin d) (Fin d) ℂ) : (blocks A 0 0 B).trace = A.trace + B.trace := by
  unfold blocks
  rw [Matrix.reindex_apply]
  simp only [Matrix.trace, Matrix.diag, Matrix.submatrix_apply]
  rw [Equiv.sum_comp finSumFinEquiv.symm fun i => Matrix.fromBlocks A 0 0 B i i, Fintype.sum_sum_type]
  simp

open Classical in
/-- The classification of C67 together with its index. -/
theorem corep_classification_full {rots : Fin n → M3} {trans : Fin n → V3} {trs : Fin n → ℤ} {k : V3}
    (h : IsMagneticSpaceGroup rots trans trs) (htr : ∃ i, trs i = 1) (hb : ∀ i a b, |rots i a b| ≤ 99999)
    (hk : ∀ i, FixesK (rots i) k)
    (hμ : ∀ i j, getFactorSystem rots trans k i j = 1 ∨ getFactorSystem rots trans k i j = -1)
    {o : Oracles} (he : SymmEigContract o.eig) {L : R3} (hL : L.det ≠ 0) (hm : ∀ i, PreservesMetric L (rots i))
    (ho : ∀ xsg : List (Fin n), xsg.Nodup → (∀ i, i ∈ xsg ↔ trs i = 0) →
      PointgroupContract o.pointgroup fun u => rots (xsg.get u))
    (rtol : ℝ) {atol : ℝ} (hat : 0 < atol) (hna : (n : ℝ) ^ 2 * atol ≤ 1 / 5) {maxGen : ℕ}
    (randomI : ∀ d, ℕ → Matrix (Fin d) (Fin d) ℂ)
    (hr : RichDraws n o.random atol maxGen ∨ UnitaryPartRuns o rots trs rtol atol maxGen ∨
      ∃ out, enumerateSpinorSmallCoreps o randomI L rots trans trs k .neto rtol atol maxGen = .ok (out, false)) :
    ∃ (out : CorepOut n) (w : Bool) (T : Fin n → Fin n → Fin n) (K : List (AnyRep n)),
      enumerateSpinorSmallCoreps o randomI L rots trans trs k .neto rtol atol maxGen = .ok (out, w) ∧
      (∀ i j, IsProduct rots trs i j (T i j)) ∧ (∀ i, out.antiLinear i = true ↔ trs i = 1) ∧
      IsCompleteCoreps T out.antiLinear (fun i j => out.spinorFactor i j * getFactorSystem rots trans k i j) K ∧
      List.Forall₂ (fun x E => ∃ A : RepArr n E.1, x = ⟨E.1, A⟩ ∧ ∀ i, trs i = 0 → ∀ r q,
        ‖expPhase (dot3 k (trans i)) * E.2 i r q - A i r q‖ ≤ atol) out.coreps K ∧
      List.Forall₂ (fun ε E =>
        (ε = 1 ∧ Spec.IsIrreducible fun i : {i // trs i = 0} => E.2 i) ∨
        ((ε = -1 ∨ ε = 0) ∧ ∃ (d : ℕ) (D D' : {i // trs i = 0} → Matrix (Fin d) (Fin d) ℂ), Spec.IsIrreducible D ∧
          Spec.IsIrreducible D' ∧ AreEquivalent (fun i : {i // trs i = 0} => E.2 i)
            (fun i => Matrix.fromBlocks (D i) 0 0 (D' i)) ∧ (ε = -1 ↔ AreEquivalent D D'))) out.indicators K ∧
      CorepIndexed trs out.indicators K ∧
      ∃ U, getCorepSpinorFactorSystem o.eig L rots trs = .ok (out.spinorFactor, U, out.antiLinear) := by
  obtain ⟨xsg, a0, ω, U, a, T, T', c, s, e, F, R, irreps, E, p, ι, out, w, hrun, hω, rfl, rfl, rfl, hF, hT, hl, hmem, A, hF1,
    he1, he2, hR, hE, hlen, hER, hind, hp2, hp1, hι1, hι2, hι3, hfor, hwarn⟩ := coreps_forward h htr hb hk hμ he hL hm ho rtol hat
    hna randomI hr
  obtain ⟨T1, hT1, hTs, -⟩ := c01_cayley_table h.1
  obtain rfl := Except.ok.inj (hT1.symm.trans hT)
  have H : AntiGroup.PairedIrreps T1 F (fun u => xsg.get u) T' a0 c E p ι :=
    ⟨hE.rep, hE.unitary, hE.irred, hE.inequiv, hE.complete, hp2, hp1, hι1, hι2, hι3⟩
  obtain ⟨K, hK1, hK2, hlaw, hunit, hirr, hineq, hcomp⟩ := A.wigner_classification H
  have hFeq : F = fun i j => out.spinorFactor i j * getFactorSystem rots trans k i j := hF
  have haf : ∀ i, out.antiLinear i = true ↔ trs i = 1 := by
    intro i
    have h1 := hl.mem i
    rw [hmem] at h1
    rcases h.1.2.1 i with h4 | h4
    · rw [h1.1 h4, h4]
      decide
    · rw [h4] at h1
      cases hai : out.antiLinear i with
      | true => simp [h4]
      | false => exact absurd (h1.2 hai) (by decide)
  -- positions of unitary operations
  have hpos : ∀ i : {i // trs i = 0}, ∃ u, xsg.get u = i.1 := fun i => List.mem_iff_get.1 ((hmem i.1).2 i.2)
  have hlin : ∀ u, trs (xsg.get u) = 0 := fun u => (hmem _).1 (List.get_mem xsg u)
  refine ⟨out, w, T1, ((List.finRange irreps.length).filter fun i => decide (i ≤ p i)).map K, hrun,
    fun i j => (hTs i j _).1 rfl, haf, ?_, ?_, ?_, ?_, _, hω⟩
  · rw [← hFeq]
    refine ⟨?_, ?_, ?_, ?_, ?_⟩
    · intro D hD
      obtain ⟨i, -, rfl⟩ := List.mem_map.1 hD
      exact hlaw i
    · intro D hD
      obtain ⟨i, -, rfl⟩ := List.mem_map.1 hD
      exact hunit i
    · intro D hD
      obtain ⟨i, -, rfl⟩ := List.mem_map.1 hD
      exact hirr i
    · rw [List.pairwise_map]
      have h1 : ((List.finRange irreps.length).filter fun i => decide (i ≤ p i)).Pairwise
          fun i j => i < j ∧ i ≤ p i ∧ j ≤ p j := by
        rw [List.pairwise_filter]
        exact (List.pairwise_lt_finRange _).imp fun h hi hj => ⟨h, by simpa using hi, by simpa using hj⟩
      refine h1.imp fun {i j} hij heq => ?_
      rcases hineq i j heq with rfl | rfl
      · exact lt_irrefl _ hij.1
      · have h2 := hij.2.2
        rw [hp2] at h2
        exact absurd hij.1 (not_lt.2 h2)
    · intro e X hX hXu hXi
      obtain ⟨i, hi, heq⟩ := hcomp e X hX hXu hXi
      exact ⟨K i, List.mem_map.2 ⟨i, List.mem_filter.2 ⟨List.mem_finRange _, by simpa using hi⟩, rfl⟩, heq⟩
  · rw [List.forall₂_map_right_iff]
    refine (List.Forall₂.flip hfor).imp fun x i hx => ?_
    obtain ⟨Y, hY, rfl, -⟩ := hx
    have hnear := hE.near i
    have hnearb := near_bar (xsg := fun u => xsg.get u) (a0 := a0) (c := c) A.norm hnear
    unfold buildCorep at hY
    by_cases h1 : ι i = 1
    · rw [if_pos h1] at hY
      obtain rfl := Except.ok.inj hY
      obtain ⟨E', hK, hE'⟩ := hK1 i h1
      rw [hK]
      refine ⟨_, rfl, fun g hg r q => ?_⟩
      obtain ⟨u, rfl⟩ := hpos ⟨g, hg⟩
      unfold phaseMul
      dsimp only
      rw [Matrix.smul_apply, smul_eq_mul, A.assemble_lin, ← mul_sub, norm_mul, norm_expPhase, one_mul, hE']
      exact hnear u r q
    · obtain ⟨E', hK, hE'⟩ := hK2 i h1
      rw [if_neg h1] at hY
      rw [hK]
      rcases hι1 i with h2 | h2 | h2
      · exact absurd h2 h1
      · rw [if_pos h2] at hY
        obtain rfl := Except.ok.inj hY
        refine ⟨_, rfl, fun g hg r q => ?_⟩
        obtain ⟨u, rfl⟩ := hpos ⟨g, hg⟩
        unfold phaseMul
        dsimp only
        rw [Matrix.smul_apply, smul_eq_mul, A.assemble_lin, ← mul_sub, norm_mul, norm_expPhase, one_mul, hE']
        exact near_blocks hat.le hnear hnearb u r q
      · rw [if_neg (by rw [h2]; decide), if_pos h2] at hY
        obtain rfl := Except.ok.inj hY
        refine ⟨_, rfl, fun g hg r q => ?_⟩
        obtain ⟨u, rfl⟩ := hpos ⟨g, hg⟩
        unfold phaseMul
        dsimp only
        rw [Matrix.smul_apply, smul_eq_mul, A.assemble_lin, ← mul_sub, norm_mul, norm_expPhase, one_mul, hE']
        exact near_blocks hat.le hnear hnearb u r q
  · rw [hind, List.forall₂_map_left_iff, List.forall₂_map_right_iff, List.forall₂_same]
    intro i _
    choose f hf using hpos
    have hfl : ∀ u, f ⟨xsg.get u, hlin u⟩ = u := fun u => A.inj (hf _)
    have hres : ∀ {d : ℕ} {B : RepArr n d} {D : RepArr xsg.length d}, (∀ u, B (xsg.get u) = D u) → ∀ g : {i // trs i = 0},
        B g.1 = D (f g) := fun hB g => by rw [← hB, hf]
    have hirr' : ∀ {d : ℕ} {D : RepArr xsg.length d}, Spec.IsIrreducible D →
        Spec.IsIrreducible fun g : {i // trs i = 0} => D (f g) := fun hD =>
      irreducible_comp (fun u => ⟨xsg.get u, hlin u⟩) (fun u => by rw [hfl]) hD
    by_cases h1 : ι i = 1
    · left
      obtain ⟨E', hK, hE'⟩ := hK1 i h1
      refine ⟨h1, ?_⟩
      rw [hK]
      simp only [hres hE']
      exact hirr' (hE.irred i)
    · right
      obtain ⟨E', hK, hE'⟩ := hK2 i h1
      refine ⟨(hι1 i).resolve_left h1, _, fun g => E i (f g), fun g => bar F (fun u => xsg.get u) a0 c (E i) (f g),
        hirr' (hE.irred i), hirr' (A.bar_irreducible (hE.irred i)), ?_, ?_⟩
      · rw [hK]
        simp only [hres hE']
        exact blocks_equiv _ _
      · have h3 : AreEquivalent (fun g => E i (f g)) (fun g => bar F (fun u => xsg.get u) a0 c (E i) (f g)) ↔
            AreEquivalent (E i) (bar F (fun u => xsg.get u) a0 c (E i)) := by
          constructor
          · rintro ⟨S, S', q1, q2, q3⟩
            exact ⟨S, S', q1, q2, fun u => by have := q3 ⟨xsg.get u, hlin u⟩; simp only [hfl] at this; exact this⟩
          · rintro ⟨S, S', q1, q2, q3⟩
            exact ⟨S, S', q1, q2, fun g => q3 _⟩
        rw [h3]
        constructor
        · intro h4
          refine AreEquivalent.symm ((hp1 i i).2 ?_)
          by_contra h5
          rw [(hι2 i).2 (Ne.symm h5)] at h4
          exact absurd h4 (by decide)
        · intro h4
          rcases hι1 i with h5 | h5 | h5
          · exact absurd h5 h1
          · exact h5
          · exact absurd ((hp1 i i).1 (AreEquivalent.symm h4)).symm ((hι2 i).1 h5)
  · have hμ0 : ∀ u v, F (xsg.get u) (xsg.get v) ≠ 0 := ne_zero_of_norm_one fun u v => A.norm _ _
    obtain ⟨-, horth, -, -⟩ := table_classes A.sub_table hμ0 A.sub_cocycle hR
    have hsq := IsCompleteIrreps.sum_sq A.sub_table hμ0 A.sub_cocycle hR
    let φ : Fin irreps.length ≃ Fin R.length := finCongr hlen
    have hER' : ∀ i, (⟨_, E i⟩ : AnyRep xsg.length) = R.get (φ i) := fun i => hER i (φ i) rfl
    have htr' : ∀ i u, (E i u).trace = ((R.get (φ i)).2 u).trace := fun i u => by rw [← hER']
    refine ⟨xsg, irreps.length, fun i => (irreps.get i).1, fun i u => (E i u).trace, p, ι, K, hl.nodup, hmem, fun i j => ?_, ?_,
      hp2, fun i => (AreEquivalent.dim_eq ((hp1 i (p i)).2 rfl)).symm, hι1, hι2, rfl, hind, fun i hi => ?_, fun i hi => ?_⟩
    · simp only [htr']
      rw [horth]
      simp
    · have hd : ∀ i, (irreps.get i).1 = (R.get (φ i)).1 := fun i => by rw [← hER']
      refine Eq.trans ?_ hsq
      simp only [hd]
      rw [Equiv.sum_comp φ fun j => (R.get j).1 ^ 2, ← List.sum_ofFn]
      congr 1
      conv_rhs => rw [← List.ofFn_get R, List.map_ofFn]
      rfl
    · obtain ⟨E', hK, hE'⟩ := hK1 i hi
      rw [hK]
      exact ⟨rfl, fun u => congrArg Matrix.trace (hE' u)⟩
    · obtain ⟨E', hK, hE'⟩ := hK2 i hi
      rw [hK]
      refine ⟨rfl, fun u => ?_⟩
      dsimp only
      rw [hE', blocks_trace, AreEquivalent.trace ((hp1 i (p i)).2 rfl) u]

open Classical in
/-- **C67.** For a magnetic space group with an anti-unitary operation whose nonsymmorphic factors are all ±1 (for instance at
`k = 0`), `enumerate_spinor_small_corepresentations` returns: none of its assertions fails.  There is a complete list `K` of
irreducible co-representations of the magnetic little co-group with the factor system `spinor factor × nonsymmorphic factor`:
unitary, irreducible, no two equivalent, every irreducible co-representation equivalent to one of them.  The returned list has
one entry for each, in the same order: with the same dimension, with matrices for the unitary operations equal (within the
tolerance) to those of `K` times the phases, and with an indicator which says how the restriction to the unitary operations
decomposes: 1, irreducible; -1, twice the same irrep; 0, two different irreps.  Assumed about the draws: they are rich enough for
all groups of this order, or the irreps of the unitary part are found without a warning, or the run gave no warning. -/
theorem c67_corep_classification {rots : Fin n → M3} {trans : Fin n → V3} {trs : Fin n → ℤ} {k : V3}
    (h : IsMagneticSpaceGroup rots trans trs) (htr : ∃ i, trs i = 1) (hb : ∀ i a b, |rots i a b| ≤ 99999)
    (hk : ∀ i, FixesK (rots i) k)
    (hμ : ∀ i j, getFactorSystem rots trans k i j = 1 ∨ getFactorSystem rots trans k i j = -1)
    {o : Oracles} (he : SymmEigContract o.eig) {L : R3} (hL : L.det ≠ 0) (hm : ∀ i, PreservesMetric L (rots i))
    (ho : ∀ xsg : List (Fin n), xsg.Nodup → (∀ i, i ∈ xsg ↔ trs i = 0) →
      PointgroupContract o.pointgroup fun u => rots (xsg.get u))
    (rtol : ℝ) {atol : ℝ} (hat : 0 < atol) (hna : (n : ℝ) ^ 2 * atol ≤ 1 / 5) {maxGen : ℕ}
    (randomI : ∀ d, ℕ → Matrix (Fin d) (Fin d) ℂ)
    (hr : RichDraws n o.random atol maxGen ∨ UnitaryPartRuns o rots trs rtol atol maxGen ∨
      ∃ out, enumerateSpinorSmallCoreps o randomI L rots trans trs k .neto rtol atol maxGen = .ok (out, false)) :
    ∃ (out : CorepOut n) (w : Bool) (T : Fin n → Fin n → Fin n) (K : List (AnyRep n)),
      enumerateSpinorSmallCoreps o randomI L rots trans trs k .neto rtol atol maxGen = .ok (out, w) ∧
      (∀ i j, IsProduct rots trs i j (T i j)) ∧ (∀ i, out.antiLinear i = true ↔ trs i = 1) ∧
      IsCompleteCoreps T out.antiLinear (fun i j => out.spinorFactor i j * getFactorSystem rots trans k i j) K ∧
      List.Forall₂ (fun x E => ∃ A : RepArr n E.1, x = ⟨E.1, A⟩ ∧ ∀ i, trs i = 0 → ∀ r q,
        ‖expPhase (dot3 k (trans i)) * E.2 i r q - A i r q‖ ≤ atol) out.coreps K ∧
      List.Forall₂ (fun ε E =>
        (ε = 1 ∧ Spec.IsIrreducible fun i : {i // trs i = 0} => E.2 i) ∨
        ((ε = -1 ∨ ε = 0) ∧ ∃ (d : ℕ) (D D' : {i // trs i = 0} → Matrix (Fin d) (Fin d) ℂ), Spec.IsIrreducible D ∧
          Spec.IsIrreducible D' ∧ AreEquivalent (fun i : {i // trs i = 0} => E.2 i)
            (fun i => Matrix.fromBlocks (D i) 0 0 (D' i)) ∧ (ε = -1 ↔ AreEquivalent D D'))) out.indicators K := by
  obtain ⟨out, w, T, K, h1, h2, h3, h4, h5, h6, -⟩ := corep_classification_full h htr hb hk hμ he hL hm ho rtol hat hna randomI hr
  exact ⟨out, w, T, K, h1, h2, h3, h4, h5, h6⟩

/-- Non-vacuity: the grey group 21' at `k = 0`. -/
example : ∃ o : Oracles, IsMagneticSpaceGroup rotsGrey2 (fun _ _ => 0) trsGrey2 ∧ (∃ i, trsGrey2 i = 1) ∧
    (∀ i a b, |rotsGrey2 i a b| ≤ 99999) ∧ (∀ i, FixesK (rotsGrey2 i) 0) ∧
    (∀ i j, getFactorSystem rotsGrey2 (fun _ _ => 0) 0 i j = 1) ∧ SymmEigContract o.eig ∧ (1 : R3).det ≠ 0 ∧
    (∀ i, PreservesMetric 1 (rotsGrey2 i)) ∧ (∀ xsg : List (Fin 4), xsg.Nodup → (∀ i, i ∈ xsg ↔ trsGrey2 i = 0) →
      PointgroupContract o.pointgroup fun u => rotsGrey2 (xsg.get u)) ∧ RichDraws 4 o.random 1e-8 4 ∧
    ((4 : ℕ) : ℝ) ^ 2 * 1e-8 ≤ 1 / 5 := by
  obtain ⟨o, he, ho, hr⟩ := grey2_oracles
  refine ⟨o, grey2_magnetic, ⟨2, rfl⟩, by decide +kernel, fun i b => ⟨0, by simp⟩, fun i j => ?_, he,
    by rw [Matrix.det_one]; exact one_ne_zero, grey2_metric, fun xsg h1 h2 => by rw [ho]; exact grey2_contract xsg h1 h2, hr,
    by norm_num⟩
  unfold getFactorSystem
  have : dot3 (residual (rotsGrey2 i) 0) ((fun _ _ => 0 : Fin 4 → V3) j) = 0 := by unfold dot3; simp
  rw [this, expPhase_zero]

end Spgrep
