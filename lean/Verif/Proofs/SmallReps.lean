/-
Helper lemmas about `enumerate_small_representations`.
-/
import Verif.Proofs.Enumerate
import Verif.Props.Chain
import Verif.Props.Reality

namespace Spgrep

open Spec Matrix

variable {n : ℕ} {d : ℕ} {T : Fin n → Fin n → Fin n} {μ : Fin n → Fin n → ℂ}

/-- The factor system of the small representations: the phase of the lattice translation by which a product
of two representatives differs from a representative. -/
noncomputable def latticePhase (rots : Fin n → M3) (T : Fin n → Fin n → Fin n) (trans : Fin n → V3) (k : V3)
    (i j : Fin n) : ℂ :=
  expPhase (dot3 k fun x => rotVec (rots i) (trans j) x + trans i x - trans (T i j) x)

theorem spaceGroupLaw_iff {rots : Fin n → M3} (h : EnumeratesGroup rots) (hT : getCayleyTable rots = .ok T)
    (trans : Fin n → V3) (k : V3) (Γ : RepArr n d) :
    SpaceGroupLaw rots trans k (fun _ _ => 1) Γ ↔ IsProjRep T (latticePhase rots T trans k) Γ := by
  have hTs : ∀ i j l, rots i * rots j = rots l ↔ l = T i j := by
    intro i j l
    have := (cayley_none_spec hT i j).1
    constructor
    · intro hl; exact h.1 (hl.symm.trans this.symm)
    · rintro rfl; exact this.symm
  constructor
  · intro hΓ i j
    have := hΓ i j (T i j) ((hTs i j _).2 rfl)
    rw [this, one_mul, latticePhase, expPhase_spec]
    rfl
  · intro hΓ i j l hl
    rw [hTs] at hl
    subst hl
    rw [hΓ i j, one_mul, latticePhase, expPhase_spec]
    rfl

theorem phaseMul_proj {rots : Fin n → M3} (h : EnumeratesGroup rots) (hT : getCayleyTable rots = .ok T)
    (trans : Fin n → V3) (k : V3) (D : RepArr n d) :
    IsProjRep T (getFactorSystem rots trans k) D ↔
      IsProjRep T (latticePhase rots T trans k) (phaseMul trans k D) := by
  rw [← spaceGroupLaw_iff h hT]
  have := (c10_small_representation h hT trans k (fun _ _ => 1) D).1
  simpa only [one_mul] using this

theorem phaseMul_neg (trans : Fin n → V3) (k : V3) (D : RepArr n d) :
    phaseMul trans k (phaseMul trans (-k) D) = D := by
  funext g
  unfold phaseMul
  rw [smul_smul, ← expPhase_add]
  have : dot3 k (trans g) + dot3 (-k) (trans g) = 0 := by
    unfold dot3; simp [Fin.sum_univ_three]
  rw [this, expPhase_zero, one_smul]

theorem phaseMul_equiv {e : ℕ} {D : RepArr n d} {E : RepArr n e} (trans : Fin n → V3) (k : V3)
    (h : AreEquivalent D E) : AreEquivalent (phaseMul trans k D) (phaseMul trans k E) := by
  obtain ⟨S, S', h1, h2, h3⟩ := h
  refine ⟨S, S', h1, h2, fun g => ?_⟩
  unfold phaseMul
  rw [Matrix.smul_mul, Matrix.mul_smul, h3 g]

theorem phaseMul_equiv_iff {e : ℕ} {D : RepArr n d} {E : RepArr n e} (trans : Fin n → V3) (k : V3) :
    AreEquivalent (phaseMul trans k D) (phaseMul trans k E) ↔ AreEquivalent D E := by
  refine ⟨fun h => ?_, phaseMul_equiv trans k⟩
  have := phaseMul_equiv trans (-k) h
  have hn : ∀ {f : ℕ} (F : RepArr n f), phaseMul trans (-k) (phaseMul trans k F) = F := fun F => by
    have := phaseMul_neg trans (-k) F
    rwa [neg_neg] at this
  rwa [hn, hn] at this

/-- Multiplying a complete list of cogroup irreps with the phases gives a complete list of small
representations. -/
theorem complete_small {rots : Fin n → M3} (h : EnumeratesGroup rots) (hT : getCayleyTable rots = .ok T)
    (trans : Fin n → V3) (k : V3) {L : List (AnyRep n)} (hL : IsCompleteIrreps T (getFactorSystem rots trans k) L) :
    IsCompleteIrreps T (latticePhase rots T trans k)
      (L.map fun D => (⟨D.1, phaseMul trans k D.2⟩ : AnyRep n)) := by
  refine ⟨?_, ?_, ?_, ?_, ?_⟩
  · intro D' hD'
    obtain ⟨D, hD, rfl⟩ := List.mem_map.1 hD'
    exact (phaseMul_proj h hT trans k D.2).1 (hL.rep D hD)
  · intro D' hD'
    obtain ⟨D, hD, rfl⟩ := List.mem_map.1 hD'
    exact (c10_small_representation h hT trans k (fun _ _ => 1) D.2).2.1.1 (hL.unitary D hD)
  · intro D' hD'
    obtain ⟨D, hD, rfl⟩ := List.mem_map.1 hD'
    exact phaseMul_irreducible (hL.irred D hD) trans k
  · rw [List.pairwise_map]
    exact hL.inequiv.imp fun {D E} hDE hc => hDE ((phaseMul_equiv_iff trans k).1 hc)
  · intro e E hE hEu hEi
    have hE' : IsProjRep T (getFactorSystem rots trans k) (phaseMul trans (-k) E) := by
      rw [phaseMul_proj h hT trans k, phaseMul_neg]; exact hE
    obtain ⟨D, hD, hDE⟩ := hL.complete e (phaseMul trans (-k) E) hE' (fun g => by
      unfold phaseMul
      exact (hEu g).smul (Units.mk0 _ (expPhase_ne_zero _))) (phaseMul_irreducible hEi _ _)
    refine ⟨_, List.mem_map.2 ⟨D, hD, rfl⟩, ?_⟩
    have := phaseMul_equiv trans k hDE
    rwa [phaseMul_neg] at this

/-- What is assumed about the answer of `spglib.get_pointgroup`: the rotations are, in some order, the
rotations of a tabulated setting of the reported point group in the basis given by the reported
transformation. -/
def PointgroupContract (spg : PgSymbol × Matrix (Fin 3) (Fin 3) ℝ) (rots : Fin n → M3) : Prop :=
  spg.2.det ≠ 0 ∧ ∃ std ∈ pgDataset spg.1, ∃ σ : Fin n ≃ Fin std.length, ∀ i,
    (rots i).map (fun x : ℤ => (x : ℝ)) = spg.2 * (std.get (σ i)).toM3.map (fun x : ℤ => (x : ℝ)) * spg.2⁻¹

/-- The contract for an integral transformation, checked over the integers. -/
theorem contract_of_int {rots : Fin n → M3} {s : PgSymbol} {P : M3} (hP : P.det ≠ 0) {std : List PgMat}
    (hstd : std ∈ pgDataset s) (σ : Fin n ≃ Fin std.length)
    (h : ∀ i, rots i * P = P * (std.get (σ i)).toM3) :
    PointgroupContract (s, P.map fun x : ℤ => (x : ℝ)) rots := by
  have hdet : (P.map fun x : ℤ => (x : ℝ)).det ≠ 0 := by
    have : (P.map fun x : ℤ => (x : ℝ)).det = ((P.det : ℤ) : ℝ) :=
      ((Int.castRingHom ℝ).map_det P).symm
    rw [this]; exact_mod_cast hP
  refine ⟨hdet, std, hstd, σ, fun i => ?_⟩
  rw [← Matrix.mul_nonsing_inv_cancel_right _ ((rots i).map (fun x : ℤ => (x : ℝ))) (isUnit_iff_ne_zero.2 hdet)]
  congr 1
  have h2 := congrArg (fun M : M3 => M.map (Int.castRingHom ℝ)) (h i)
  simp only [Matrix.map_mul] at h2
  exact h2

theorem mapM_toIndex (gens : List (Fin n)) :
    (gens.map fun j : Fin n => ((j : ℕ) : ℤ)).mapM (toIndex n) = .ok gens := by
  induction gens with
  | nil => rfl
  | cons g gens ih =>
    have hg : toIndex n ((g : ℕ) : ℤ) = .ok g := by
      unfold toIndex
      rw [dif_pos ⟨by omega, by have := g.2; omega⟩]
      simp
    rw [List.map_cons, List.mapM_cons, hg, ih]
    rfl

/-- The Neto method yields all irreps unless an intertwiner search gave up. -/
theorem neto_raw {rots : Fin n → M3} (h : EnumeratesGroup rots) (hT : getCayleyTable rots = .ok T)
    (hTg : IsGroupTable T) (hc : IsCocycle T μ) (hn : ∀ g h, ‖μ g h‖ = 1) {e : Fin n} (he : rots e = 1)
    (h1 : μ e e = 1) (o : Oracles) (ho : PointgroupContract o.pointgroup rots) (rtol : ℝ) {atol : ℝ}
    (ha : 0 ≤ atol) (maxGen : ℕ) :
    ∃ L w, rawIrreps o rots μ .neto rtol atol maxGen = .ok (L, w) ∧ (w = false → IsCompleteIrreps T μ L) ∧
      (RichDraws n o.random atol maxGen → w = false) := by
  obtain ⟨hP, std, hstd, σ, hσ⟩ := ho
  obtain ⟨gens, h2, -, h3⟩ := (c32_chain_generators o.pointgroup.1 o.pointgroup.2 hP rots).1 std hstd σ hσ
  have hrot : ∀ i j, rots (T i j) = rots i * rots j := fun i j => (cayley_none_spec hT i j).1
  have hT1 : ∀ g, T e g = g := fun g => h.1 (by rw [hrot, he, Matrix.one_mul])
  obtain ⟨L, w, h4, hw, hr⟩ := enumerateFromChain_spec hTg hc hn hT1 h1 (h3 T hrot e he) o.random ha maxGen
  refine ⟨L, w, ?_, fun h0 => (hw h0).1, hr⟩
  unfold rawIrreps
  have h2' : getPointgroupChainGenerators o.pointgroup rots = .ok (gens.map fun j : Fin n => ((j : ℕ) : ℤ)) := h2
  simp only [hT, h2', bind, Except.bind, mapM_toIndex, h4]
  simp [pure, Except.pure]

/-- The list of (approximate) small representations built from the raw irreps. -/
noncomputable def smallList (trans : Fin n → V3) (k : V3) (atol : ℝ) (L : List (AnyRep n)) : List (AnyRep n) :=
  L.map fun D => ⟨D.1, phaseMul trans k (purifyIrrepValue D.2 atol)⟩

open Classical in
/-- Lines 129-132: the indicator is overwritten by zero. -/
noncomputable def forceZero (k : V3) : Bool :=
  decide (¬ AllClose 1e-5 1e-8 (fun a => 2 * k a - rint (2 * k a)) fun _ => 0)

theorem smallReps_run {o : Oracles} {rots : Fin n → M3} {trans : Fin n → V3} {k : V3} {method : IrrepMethod}
    {rtol atol : ℝ} {maxGen : ℕ} {L : List (AnyRep n)} {w : Bool}
    (hraw : rawIrreps o rots (getFactorSystem rots trans k) method rtol atol maxGen = .ok (L, w))
    (hfs : ∀ D ∈ L, ∃ c : ℤ, (c = 1 ∨ c = -1 ∨ c = 0) ∧ frobeniusSchur (purifyIrrepValue D.2 atol) = .ok c)
    (real : Bool) :
    enumerateSmallReps o rots trans k real method rtol atol maxGen =
      if real then (realIrreps o (smallList trans k atol L) (forceZero k) atol maxGen).map fun l => (.real l, w)
      else (withIndicators (smallList trans k atol L)).map fun l => (.complex l, w) := by
  obtain ⟨l, hl, hfst, -⟩ := withIndicators_ok
    (L := L.map fun D : AnyRep n => (⟨D.1, purifyIrrepValue D.2 atol⟩ : AnyRep n)) (by
      intro D' hD'
      obtain ⟨D, hD, rfl⟩ := List.mem_map.1 hD'
      exact hfs D hD)
  have h1 : enumerateUnitaryIrreps o rots (some (getFactorSystem rots trans k)) false method rtol atol maxGen =
      .ok (.complex l, w) := by
    unfold enumerateUnitaryIrreps
    simp only [Option.getD_some, hraw, bind, Except.bind, hl]
    rfl
  have h2 : (l.map fun D => (⟨D.1.1, phaseMul trans k D.1.2⟩ : AnyRep n)) = smallList trans k atol L := by
    unfold smallList
    rw [show (fun D : AnyRep n × ℤ => (⟨D.1.1, phaseMul trans k D.1.2⟩ : AnyRep n)) =
      (fun D : AnyRep n => (⟨D.1, phaseMul trans k D.2⟩ : AnyRep n)) ∘ Prod.fst from rfl, ← List.map_map, hfst,
      List.map_map]
    rfl
  unfold enumerateSmallReps
  simp only [h1, bind, Except.bind]
  rw [h2]
  cases real
  · simp only [Bool.false_eq_true, if_false]
    cases withIndicators (smallList trans k atol L) <;> rfl
  · simp only [if_true]
    unfold forceZero
    split
    · next hh => rw [hh]; rfl
    · next hh => rw [hh]; rfl

end Spgrep
