/-
C109: two runs of `enumerate_spinor_small_corepresentations` (/repo/src/spgrep/corep.py) agree, and the orientation of the
crystal matters only through signs.
-/
import Verif.Props.CorepCharacters
import Verif.Props.SpinorFrame

namespace Spgrep

open Spec

variable {n : ℕ}

/-! ### Equivalence of co-representations -/

theorem mapConjIf_mul {ι κ τ : Type*} [Fintype κ] (a : Bool) (A : Matrix ι κ ℂ) (B : Matrix κ τ ℂ) :
    (A * B).map (conjIf a) = A.map (conjIf a) * B.map (conjIf a) := by
  cases a
  · rw [mapConjIf_false, mapConjIf_false, mapConjIf_false]
  · rw [mapConjIf_true, mapConjIf_true, mapConjIf_true, mapStar_mul]

theorem mapConjIf_one {ι : Type*} [DecidableEq ι] (a : Bool) : (1 : Matrix ι ι ℂ).map (conjIf a) = 1 := by
  cases a
  · rw [mapConjIf_false]
  · rw [mapConjIf_true, map_star_one]

section
variable {ι κ τ : Type*} [Fintype ι] [Fintype κ] [Fintype τ] [DecidableEq ι] [DecidableEq κ] [DecidableEq τ]

theorem corepEquiv_symm {a : Fin n → Bool} {D : Fin n → Matrix ι ι ℂ} {E : Fin n → Matrix κ κ ℂ}
    (h : AreCorepEquivalent a D E) : AreCorepEquivalent a E D := by
  obtain ⟨S, S', h1, h2, h3⟩ := h
  refine ⟨S', S, h2, h1, fun i => ?_⟩
  calc E i * S'.map (conjIf (a i)) = S' * S * E i * S'.map (conjIf (a i)) := by rw [h2, Matrix.one_mul]
    _ = S' * (D i * S.map (conjIf (a i))) * S'.map (conjIf (a i)) := by rw [h3, Matrix.mul_assoc S' S]
    _ = S' * D i * (S * S').map (conjIf (a i)) := by rw [mapConjIf_mul]; simp only [Matrix.mul_assoc]
    _ = S' * D i := by rw [h1, mapConjIf_one, Matrix.mul_one]

theorem corepEquiv_trans {a : Fin n → Bool} {D : Fin n → Matrix ι ι ℂ} {E : Fin n → Matrix κ κ ℂ} {F : Fin n → Matrix τ τ ℂ}
    (h : AreCorepEquivalent a D E) (h' : AreCorepEquivalent a E F) : AreCorepEquivalent a D F := by
  obtain ⟨S, S', h1, h2, h3⟩ := h
  obtain ⟨R, R', k1, k2, k3⟩ := h'
  refine ⟨S * R, R' * S', ?_, ?_, fun i => ?_⟩
  · rw [Matrix.mul_assoc, ← Matrix.mul_assoc R, k1, Matrix.one_mul, h1]
  · rw [Matrix.mul_assoc, ← Matrix.mul_assoc S', h2, Matrix.one_mul, k2]
  · rw [mapConjIf_mul, ← Matrix.mul_assoc, h3, Matrix.mul_assoc, k3, Matrix.mul_assoc]

/-- Equivalent co-representations are equivalent as representations of the linear operations. -/
theorem corepEquiv_linear {a : Fin n → Bool} {D : Fin n → Matrix ι ι ℂ} {E : Fin n → Matrix κ κ ℂ}
    (h : AreCorepEquivalent a D E) :
    AreEquivalent (fun i : {i // a i = false} => D i) (fun i : {i // a i = false} => E i) := by
  obtain ⟨S, S', h1, h2, h3⟩ := h
  refine ⟨S, S', h1, h2, fun i => ?_⟩
  have := h3 i.1
  rwa [i.2, mapConjIf_false] at this

end

theorem corepEquiv_dim {a : Fin n → Bool} {d e : ℕ} {D : RepArr n d} {E : RepArr n e} (h : AreCorepEquivalent a D E) :
    d = e := by
  obtain ⟨S, S', h1, h2, -⟩ := h
  exact AreEquivalent.dim_eq (n := 0) (A := fun i => i.elim0) (B := fun i => i.elim0) ⟨S, S', h1, h2, fun i => i.elim0⟩

/-! ### Signs -/

theorem signTwist_corepLaw {T : Fin n → Fin n → Fin n} {a : Fin n → Bool} {F F' : Fin n → Fin n → ℂ} {s : Fin n → ℂ}
    (hs : ∀ g, s g = 1 ∨ s g = -1) (hF : ∀ i j, F' i j * s (T i j) = s i * s j * F i j) {d : ℕ} {D : RepArr n d}
    (h : CorepLaw T a F D) : CorepLaw T a F' fun g => s g • D g := by
  intro i j
  have hc : conjIf (a i) (s j) = s j := by
    unfold conjIf
    rcases hs j with h | h <;> rw [h] <;> simp
  dsimp only
  rw [conjIfM_smul, hc, Matrix.smul_mul, Matrix.mul_smul, smul_smul, h i j, smul_smul, smul_smul, hF]

theorem signTwist_corepIrred {a : Fin n → Bool} {s : Fin n → ℂ} (hs : ∀ g, s g = 1 ∨ s g = -1) {d : ℕ} {D : RepArr n d}
    (h : IsIrreducibleCorep a D) : IsIrreducibleCorep a fun g => s g • D g := by
  refine ⟨h.1, fun W hW => h.2 W fun g v hv => ?_⟩
  have := W.smul_mem (s g) (hW g v hv)
  rwa [Matrix.smul_mulVec, smul_smul, sign_sq hs, one_smul] at this

theorem signTwist_corepEquiv {a : Fin n → Bool} {s : Fin n → ℂ} {d e : ℕ} {D : RepArr n d} {E : RepArr n e}
    (h : AreCorepEquivalent a D E) : AreCorepEquivalent a (fun g => s g • D g) fun g => s g • E g := by
  obtain ⟨A, B, h1, h2, h3⟩ := h
  exact ⟨A, B, h1, h2, fun g => by rw [Matrix.smul_mul, Matrix.mul_smul, h3 g]⟩

theorem isUnit_signTwist {d : ℕ} {s : Fin n → ℂ} (hs : ∀ g, s g = 1 ∨ s g = -1) {D : RepArr n d} (h : IsUnitaryRep D)
    (g : Fin n) : IsUnit (s g • D g) := by
  refine IsUnit.of_mul_eq_one (s g • (D g).conjTranspose) ?_
  rw [Matrix.smul_mul, Matrix.mul_smul, smul_smul, sign_sq hs, one_smul, h g]

/-- Each member of one complete list corresponds to a member of the other. -/
theorem corep_match {T : Fin n → Fin n → Fin n} {a : Fin n → Bool} {F F' : Fin n → Fin n → ℂ} {s : Fin n → ℂ}
    (hs : ∀ g, s g = 1 ∨ s g = -1) (hF : ∀ i j, F' i j * s (T i j) = s i * s j * F i j) {K K' : List (AnyRep n)}
    (hK : IsCompleteCoreps T a F K) (hK' : IsCompleteCoreps T a F' K') :
    ∃ f : Fin K.length → Fin K'.length, Function.Injective f ∧
      ∀ x, AreCorepEquivalent a (fun g => s g • (K.get x).2 g) (K'.get (f x)).2 := by
  have hex : ∀ x : Fin K.length, ∃ y : Fin K'.length,
      AreCorepEquivalent a (fun g => s g • (K.get x).2 g) (K'.get y).2 := by
    intro x
    have hx := List.get_mem K x
    obtain ⟨D, hD, heq⟩ := hK'.complete _ _ (signTwist_corepLaw hs hF (hK.law _ hx)) (isUnit_signTwist hs (hK.unitary _ hx))
      (signTwist_corepIrred hs (hK.irred _ hx))
    obtain ⟨y, rfl⟩ := List.mem_iff_get.1 hD
    exact ⟨y, heq⟩
  choose f hf using hex
  refine ⟨f, fun x y hxy => ?_, hf⟩
  have h1 := hf x
  rw [hxy] at h1
  have h2 := signTwist_corepEquiv (s := s) (corepEquiv_trans h1 (corepEquiv_symm (hf y)))
  rw [signTwist_twice hs (K.get x).2, signTwist_twice hs (K.get y).2] at h2
  by_contra hne
  rcases lt_or_gt_of_ne hne with hlt | hlt
  · exact List.pairwise_iff_get.1 hK.inequiv x y hlt h2
  · exact List.pairwise_iff_get.1 hK.inequiv y x hlt (corepEquiv_symm h2)

theorem corep_matched {T : Fin n → Fin n → Fin n} {a : Fin n → Bool} {F F' : Fin n → Fin n → ℂ} {s : Fin n → ℂ}
    (hs : ∀ g, s g = 1 ∨ s g = -1) (hF : ∀ i j, F' i j * s (T i j) = s i * s j * F i j) {K K' : List (AnyRep n)}
    (hK : IsCompleteCoreps T a F K) (hK' : IsCompleteCoreps T a F' K') :
    ∃ σ : Fin K.length ≃ Fin K'.length, ∀ x, AreCorepEquivalent a (fun g => s g • (K.get x).2 g) (K'.get (σ x)).2 := by
  have hF' : ∀ i j, F i j * s (T i j) = s i * s j * F' i j := by
    intro i j
    have h1 := hF i j
    linear_combination (-(s i * s j) * s (T i j)) * h1 + (F i j * s (T i j)) * (-1 * (sign_sq hs i) * 1) +
      (s i * s j * F' i j) * (sign_sq hs (T i j)) - (F i j * s (T i j) * (s i * s i)) * (sign_sq hs j)
  obtain ⟨f, hf, hfe⟩ := corep_match hs hF hK hK'
  obtain ⟨f', hf', -⟩ := corep_match hs hF' hK' hK
  have hcard : Fintype.card (Fin K.length) = Fintype.card (Fin K'.length) :=
    le_antisymm (Fintype.card_le_of_injective f hf) (Fintype.card_le_of_injective f' hf')
  exact ⟨Equiv.ofBijective f ((Fintype.bijective_iff_injective_and_card f).2 ⟨hf, hcard⟩), hfe⟩

/-! ### The factor systems -/

/-- The data of two results of `get_corep_spinor_factor_system` that differ by a change of basis of the spinors and signs:
for an operation with time reversal the change of basis is conjugated on the right. -/
structure CorepTwist (rots : Fin n → M3) (trs : Fin n → ℤ) (z z' : Fin n → Fin n → ℂ)
    (U U' : Fin n → Matrix (Fin 2) (Fin 2) ℂ) (V : Matrix (Fin 2) (Fin 2) ℂ) (s : Fin n → ℂ) : Prop where
  su2 : IsSU2 V
  sign : ∀ g, s g = 1 ∨ s g = -1
  linear : ∀ g, trs g = 0 → U' g = s g • (V * U g * V.conjTranspose)
  antilinear : ∀ g, trs g = 1 → U' g = s g • (V * U g * V.transpose)
  factor : ∀ i j l, IsProduct rots trs i j l → z' i j * s l = s i * s j * z i j

theorem flags_eq {trs : Fin n → ℤ} {a a' : Fin n → Bool} (h : ∀ i, a i = true ↔ trs i = 1) (h' : ∀ i, a' i = true ↔ trs i = 1) :
    a = a' :=
  funext fun i => Bool.eq_iff_iff.2 ((h i).trans (h' i).symm)

/-- **C109, lattice**: let the rotations of a magnetic point group preserve two lattices.  The unitary matrices and factors
of `get_corep_spinor_factor_system` for the two differ by one common change of basis of the spinors and by signs; the
anti-linear flags are the same. -/
theorem c109_lattice {eig eig' : EigOracle} (he : SymmEigContract eig) (he' : SymmEigContract eig') {L L' : R3}
    (hL : L.det ≠ 0) (hL' : L'.det ≠ 0) {rots : Fin n → M3} {trs : Fin n → ℤ} (h : EnumeratesMagneticGroup rots trs)
    (hm : ∀ i, PreservesMetric L (rots i)) (hm' : ∀ i, PreservesMetric L' (rots i)) {z z' : Fin n → Fin n → ℂ}
    {U U' : Fin n → Matrix (Fin 2) (Fin 2) ℂ} {a a' : Fin n → Bool}
    (hrun : getCorepSpinorFactorSystem eig L rots trs = .ok (z, U, a))
    (hrun' : getCorepSpinorFactorSystem eig' L' rots trs = .ok (z', U', a')) :
    a' = a ∧ ∃ V s, CorepTwist rots trs z z' U U' V s := by
  obtain ⟨W, hW, hframe⟩ := spinor_frame hL hL'
  obtain ⟨z1, U1, a1, hr, ha, hU, -, hmul, -⟩ := c46_corep_spinor_factor_system he hL h hm
  have hr := Except.ok.inj (hrun.symm.trans hr)
  simp only [Prod.mk.injEq] at hr
  obtain ⟨rfl, rfl, rfl⟩ := hr
  obtain ⟨z1, U1, a1, hr, ha', hU', -, hmul', -⟩ := c46_corep_spinor_factor_system he' hL' h hm'
  have hr := Except.ok.inj (hrun'.symm.trans hr)
  simp only [Prod.mk.injEq] at hr
  obtain ⟨rfl, rfl, rfl⟩ := hr
  obtain rfl := flags_eq ha ha'
  refine ⟨rfl, W, ?_⟩
  choose X hX1 hX2 hX3 hX4 using hU
  choose X' hX1' hX2' hX3' hX4' using hU'
  have hs : ∀ g, ∃ x : ℂ, (x = 1 ∨ x = -1) ∧ X' g = x • (W * X g * W.conjTranspose) := by
    intro g
    rcases (hframe he he' (hm g) (hm' g) (hX1 g) (hX1' g)).2.2 with h1 | h1
    · exact ⟨1, .inl rfl, by rw [one_smul, h1]⟩
    · exact ⟨-1, .inr rfl, by rw [h1]; simp⟩
  choose s hs1 hs2 using hs
  have hflag : ∀ g, a g = false → trs g = 0 := by
    intro g hg
    rcases h.2.1 g with h1 | h1
    · exact h1
    · rw [(ha g).2 h1] at hg
      exact absurd hg (by decide)
  have hJ : W.conjTranspose * timeReversalMatrix = timeReversalMatrix * W.transpose := by
    rw [← su2_conj (su2_star hW)]
    congr 1
    ext i j
    simp
  have hl : ∀ g, trs g = 0 → U' g = s g • (W * U g * W.conjTranspose) := fun g hg => by
    rw [hX3 g hg, hX3' g hg, hs2]
  have hal : ∀ g, trs g = 1 → U' g = s g • (W * U g * W.transpose) := fun g hg => by
    rw [hX4 g hg, hX4' g hg, hs2, Matrix.smul_mul]
    change s g • (W * X g * W.conjTranspose * timeReversalMatrix) = s g • (W * (X g * timeReversalMatrix) * W.transpose)
    rw [Matrix.mul_assoc _ W.conjTranspose, hJ]
    simp only [Matrix.mul_assoc]
  have hall : ∀ g, U' g = s g • (W * U g * conjIfM (a g) W.conjTranspose) := by
    intro g
    rcases hag : a g with _ | _
    · exact hl g (hflag g hag)
    · rw [hal g ((ha g).1 hag)]
      congr 2
      ext i j
      simp [conjIfM]
  refine ⟨s, hW, hs1, hl, hal, fun i j l hl => ?_⟩
  have hxor : a l = (a i ^^ a j) := by
    have h1 := hl.2
    rw [← ha l] at h1
    rcases hai : a i with _ | _ <;> rcases haj : a j with _ | _
    · rw [hflag i hai, hflag j haj] at h1
      simpa using h1
    · rw [hflag i hai, (ha j).1 haj] at h1
      simpa using h1
    · rw [(ha i).1 hai, hflag j haj] at h1
      simpa using h1
    · rw [(ha i).1 hai, (ha j).1 haj] at h1
      simpa using h1
  have hWW : W.conjTranspose * W = 1 := mul_eq_one_comm.1 hW.1
  have hc : conjIf (a i) (s j) = s j := by
    unfold conjIf
    rcases hs1 j with h | h <;> rw [h] <;> simp
  have hcW : conjIfM (a i) W.conjTranspose * conjIfM (a i) W = 1 := by
    rw [← conjIfM_mul, hWW]
    cases a i
    · rfl
    · exact map_star_one
  have h1 := hmul' i j l hl
  have h2 : U' i * conjIfM (a i) (U' j) = (s i * s j * z i j) • (W * U l * conjIfM (a l) W.conjTranspose) := by
    rw [hall i, hall j, conjIfM_smul, hc, conjIfM_mul, conjIfM_mul, conjIfM_conjIfM, Matrix.smul_mul, Matrix.mul_smul, smul_smul,
      ← hxor]
    have : W * U i * conjIfM (a i) W.conjTranspose * (conjIfM (a i) W * conjIfM (a i) (U j) * conjIfM (a l) W.conjTranspose) =
        W * (U i * conjIfM (a i) (U j)) * conjIfM (a l) W.conjTranspose := by
      calc _ = W * U i * (conjIfM (a i) W.conjTranspose * conjIfM (a i) W) * conjIfM (a i) (U j) *
            conjIfM (a l) W.conjTranspose := by simp only [Matrix.mul_assoc]
        _ = _ := by rw [hcW, Matrix.mul_one]; simp only [Matrix.mul_assoc]
    rw [this, hmul i j l hl, Matrix.mul_smul, Matrix.smul_mul, smul_smul]
  rw [h2, hall l, smul_smul] at h1
  refine (smul_left_injective ℂ (fun h0 => ?_) h1).symm
  have h3 : U' l = 0 := by rw [hall l, h0, smul_zero]
  have h4 : (U' l).det = 1 := by
    rcases h.2.1 l with h5 | h5
    · rw [hX3' l h5, (hX2' l).2]
    · rw [hX4' l h5, Matrix.det_mul, (hX2' l).2]
      simp
  rw [h3, Matrix.det_zero] at h4
  exact zero_ne_one h4

/-- **C109, eigen-solver**: for the same lattice the result of `get_corep_spinor_factor_system` does not depend on the
eigen-solver. -/
theorem c109_factor_solver_free {eig eig' : EigOracle} (he : SymmEigContract eig) (he' : SymmEigContract eig') {L : R3}
    (hL : L.det ≠ 0) {rots : Fin n → M3} (trs : Fin n → ℤ) (hm : ∀ i, PreservesMetric L (rots i)) :
    getCorepSpinorFactorSystem eig L rots trs = getCorepSpinorFactorSystem eig' L rots trs := by
  unfold getCorepSpinorFactorSystem
  simp only [c107_solver_free he he' hL (hm _)]

/-! ### Two runs -/

theorem corepWeight_inj {x y : ℤ} (hx : x = 1 ∨ x = -1 ∨ x = 0) (hy : y = 1 ∨ y = -1 ∨ y = 0)
    (h : corepWeight x = corepWeight y) : x = y := by
  rcases hx with rfl | rfl | rfl <;> rcases hy with rfl | rfl | rfl <;> first | rfl | (exact absurd h (by decide))

/-- The returned factors, matrices and flags are those of `get_corep_spinor_factor_system`. -/
theorem coreps_run_factor {rots : Fin n → M3} {trans : Fin n → V3} {trs : Fin n → ℤ} {k : V3}
    (h : IsMagneticSpaceGroup rots trans trs) (htr : ∃ i, trs i = 1) (hb : ∀ i a b, |rots i a b| ≤ 99999)
    (hk : ∀ i, FixesK (rots i) k)
    (hμ : ∀ i j, getFactorSystem rots trans k i j = 1 ∨ getFactorSystem rots trans k i j = -1)
    {o : Oracles} (he : SymmEigContract o.eig) {L : R3} (hL : L.det ≠ 0) (hm : ∀ i, PreservesMetric L (rots i))
    (ho : ∀ xsg : List (Fin n), xsg.Nodup → (∀ i, i ∈ xsg ↔ trs i = 0) →
      PointgroupContract o.pointgroup fun u => rots (xsg.get u))
    {rtol atol : ℝ} (hat : 0 < atol) (hna : (n : ℝ) ^ 2 * atol ≤ 1 / 5) {maxGen : ℕ}
    {randomI : ∀ d, ℕ → Matrix (Fin d) (Fin d) ℂ}
    (hr : RichDraws n o.random atol maxGen ∨ UnitaryPartRuns o rots trs rtol atol maxGen ∨
      ∃ out, enumerateSpinorSmallCoreps o randomI L rots trans trs k .neto rtol atol maxGen = .ok (out, false))
    {out : CorepOut n} {w : Bool}
    (hrun : enumerateSpinorSmallCoreps o randomI L rots trans trs k .neto rtol atol maxGen = .ok (out, w)) :
    getCorepSpinorFactorSystem o.eig L rots trs = .ok (out.spinorFactor, out.unitary, out.antiLinear) := by
  obtain ⟨xsg, a0, ω, U, a, T, T', c, s, e, F, R, irreps, E, p, ι, out1, w1, hrun1, hω, rfl, rfl, rfl, -⟩ :=
    coreps_forward h htr hb hk hμ he hL hm ho rtol hat hna randomI hr
  obtain ⟨rfl, rfl⟩ := Prod.mk.inj (Except.ok.inj (hrun1.symm.trans hrun))
  exact hω

open Classical in
/-- **C109, two runs**: two runs of `enumerate_spinor_small_corepresentations` for the same magnetic operations and the same
k-point, with any two lattices that the rotations preserve and any draws, answers of the outside routines and tolerances, such that no
warning was given or the draws are generic, agree up to signs that depend only on the operations (and are 1 when the lattices are the same): corresponding co-representations
have the same dimension, the same indicator and, up to the tolerances, the same characters on the operations without time
reversal; the anti-linear flags are the same. -/
theorem c109_runs_agree {rots : Fin n → M3} {trans : Fin n → V3} {trs : Fin n → ℤ} {k : V3}
    (h : IsMagneticSpaceGroup rots trans trs) (htr : ∃ i, trs i = 1) (hb : ∀ i a b, |rots i a b| ≤ 99999)
    (hk : ∀ i, FixesK (rots i) k)
    (hμ : ∀ i j, getFactorSystem rots trans k i j = 1 ∨ getFactorSystem rots trans k i j = -1)
    {o o' : Oracles} (he : SymmEigContract o.eig) (he' : SymmEigContract o'.eig) {L L' : R3} (hL : L.det ≠ 0)
    (hL' : L'.det ≠ 0) (hm : ∀ i, PreservesMetric L (rots i)) (hm' : ∀ i, PreservesMetric L' (rots i))
    (ho : ∀ xsg : List (Fin n), xsg.Nodup → (∀ i, i ∈ xsg ↔ trs i = 0) →
      PointgroupContract o.pointgroup fun u => rots (xsg.get u))
    (ho' : ∀ xsg : List (Fin n), xsg.Nodup → (∀ i, i ∈ xsg ↔ trs i = 0) →
      PointgroupContract o'.pointgroup fun u => rots (xsg.get u))
    {rtol rtol' atol atol' : ℝ} (hat : 0 < atol) (hat' : 0 < atol') (hna : (n : ℝ) ^ 2 * atol ≤ 1 / 5)
    (hna' : (n : ℝ) ^ 2 * atol' ≤ 1 / 5) {maxGen maxGen' : ℕ} {randomI randomI' : ∀ d, ℕ → Matrix (Fin d) (Fin d) ℂ}
    (hr : RichDraws n o.random atol maxGen ∨ UnitaryPartRuns o rots trs rtol atol maxGen ∨
      ∃ out, enumerateSpinorSmallCoreps o randomI L rots trans trs k .neto rtol atol maxGen = .ok (out, false))
    (hr' : RichDraws n o'.random atol' maxGen' ∨ UnitaryPartRuns o' rots trs rtol' atol' maxGen' ∨
      ∃ out, enumerateSpinorSmallCoreps o' randomI' L' rots trans trs k .neto rtol' atol' maxGen' = .ok (out, false))
    {out out' : CorepOut n} {w w' : Bool}
    (hrun : enumerateSpinorSmallCoreps o randomI L rots trans trs k .neto rtol atol maxGen = .ok (out, w))
    (hrun' : enumerateSpinorSmallCoreps o' randomI' L' rots trans trs k .neto rtol' atol' maxGen' = .ok (out', w')) :
    out'.antiLinear = out.antiLinear ∧ ∃ (V : Matrix (Fin 2) (Fin 2) ℂ) (s : Fin n → ℂ),
      CorepTwist rots trs out.spinorFactor out'.spinorFactor out.unitary out'.unitary V s ∧
      (L = L' → V = 1 ∧ ∀ g, s g = 1) ∧
      ∃ σ : Fin out.coreps.length ≃ Fin out'.coreps.length, ∀ x,
        (out'.coreps.get (σ x)).1 = (out.coreps.get x).1 ∧
        (∃ ε, out.indicators[x.1]? = some ε ∧ out'.indicators[(σ x).1]? = some ε) ∧
        ∀ g, trs g = 0 → ‖s g * ((out.coreps.get x).2 g).trace - ((out'.coreps.get (σ x)).2 g).trace‖ ≤
          (out.coreps.get x).1 * (atol + atol') := by
  obtain ⟨out1, w1, T, K, hrun1, hT, haf, hK, hF, hI, hix, -⟩ := corep_classification_full h htr hb hk hμ he hL hm ho rtol
    hat hna randomI hr
  obtain ⟨rfl, rfl⟩ := Prod.mk.inj (Except.ok.inj (hrun1.symm.trans hrun))
  obtain ⟨out1', w1', T', K', hrun1', hT', haf', hK', hF', hI', hix', -⟩ := corep_classification_full h htr hb hk hμ he' hL' hm'
    ho' rtol' hat' hna' randomI' hr'
  obtain ⟨rfl, rfl⟩ := Prod.mk.inj (Except.ok.inj (hrun1'.symm.trans hrun'))
  have hω := coreps_run_factor h htr hb hk hμ he hL hm ho hat hna hr hrun
  have hω' := coreps_run_factor h htr hb hk hμ he' hL' hm' ho' hat' hna' hr' hrun'
  obtain ⟨hflag, V, s, hV, hLL⟩ : out1'.antiLinear = out1.antiLinear ∧ ∃ V s,
      CorepTwist rots trs out1.spinorFactor out1'.spinorFactor out1.unitary out1'.unitary V s ∧
      (L = L' → V = 1 ∧ ∀ g, s g = 1) := by
    by_cases hLL : L = L'
    · subst hLL
      rw [c109_factor_solver_free he he' hL trs hm, hω'] at hω
      have hω := Except.ok.inj hω
      simp only [Prod.mk.injEq] at hω
      obtain ⟨e1, e2, e3⟩ := hω
      rw [← e1, ← e2, ← e3]
      exact ⟨rfl, 1, fun _ => 1, ⟨⟨by simp, Matrix.det_one⟩, fun _ => .inl rfl, fun g _ => by simp, fun g _ => by simp,
        fun i j l _ => by ring⟩, fun _ => ⟨rfl, fun _ => rfl⟩⟩
    · obtain ⟨hfl, V, s, hV⟩ := c109_lattice he he' hL hL' h.1 hm hm' hω hω'
      exact ⟨hfl, V, s, hV, fun hc => absurd hc hLL⟩
  refine ⟨hflag, V, s, hV, hLL, ?_⟩
  have hTT : T' = T := by
    obtain ⟨T0, -, hTs, -⟩ := c01_cayley_table h.1
    funext i j
    exact ((hTs i j _).2 ⟨(hT' i j).1, (hT' i j).2⟩).symm.trans ((hTs i j _).2 ⟨(hT i j).1, (hT i j).2⟩)
  subst hTT
  rw [hflag] at hK'
  obtain ⟨σ, hσ⟩ := corep_matched hV.sign (fun i j => by
    have := hV.factor i j _ (hT i j)
    linear_combination getFactorSystem rots trans k i j * this) hK hK'
  have hlin : ∀ g, trs g = 0 → out1.antiLinear g = false := by
    intro g hg
    rw [Bool.eq_false_iff]
    intro hc
    rw [(haf g).1 hc] at hg
    exact absurd hg (by decide)
  have htrace : ∀ x g, trs g = 0 → ((K'.get (σ x)).2 g).trace = s g * ((K.get x).2 g).trace := by
    intro x g hg
    have := AreEquivalent.trace (corepEquiv_linear (hσ x)) ⟨g, hlin g hg⟩
    rw [← this]
    exact Matrix.trace_smul (s g) _
  have near : ∀ {δ : ℝ} {X m : List (AnyRep n)}, List.Forall₂ (fun x E => ∃ A : RepArr n E.1, x = ⟨E.1, A⟩ ∧
      ∀ i, trs i = 0 → ∀ r q, ‖expPhase (dot3 k (trans i)) * E.2 i r q - A i r q‖ ≤ δ) m X → ∀ (hl : X.length = m.length)
      (a : Fin X.length), (m.get (a.cast hl)).1 = (X.get a).1 ∧ ∀ g, trs g = 0 →
        ‖((m.get (a.cast hl)).2 g).trace - expPhase (dot3 k (trans g)) * ((X.get a).2 g).trace‖ ≤ (X.get a).1 * δ := by
    intro δ X m hX hl a
    obtain ⟨-, hget⟩ := List.forall₂_iff_get.1 hX
    obtain ⟨F, e1, e2⟩ := hget a (a.cast hl).2 a.2
    have e3 : m.get (a.cast hl) = ⟨(X.get a).1, F⟩ := e1
    rw [e3]
    refine ⟨rfl, fun g hg => ?_⟩
    have := sum_near (fun a' => F g a' a') (fun a' => expPhase (dot3 k (trans g)) * (X.get a).2 g a' a') fun a' => by
      rw [norm_sub_rev]
      exact e2 g hg a' a'
    rw [Fintype.card_fin, ← Finset.mul_sum] at this
    exact this
  have hl : K.length = out1.coreps.length := hF.length_eq.symm
  have hl' : K'.length = out1'.coreps.length := hF'.length_eq.symm
  have key := near hF hl
  have key' := near hF' hl'
  obtain ⟨ε, hε, hnorm, -⟩ := hix.characters
  obtain ⟨ε', hε', hnorm', -⟩ := hix'.characters
  have hval : ∀ {K : List (AnyRep n)} {ind : List ℤ} {ε : Fin K.length → ℤ}, ind = List.ofFn ε →
      (∀ x ∈ ind, x = 1 ∨ x = -1 ∨ x = 0) → ∀ a, ε a = 1 ∨ ε a = -1 ∨ ε a = 0 := fun h1 h2 a =>
    h2 _ (by rw [h1]; exact List.mem_ofFn.2 ⟨a, rfl⟩)
  have hvals : ∀ {K : List (AnyRep n)} {ind : List ℤ} {R : ℤ → AnyRep n → Prop}, List.Forall₂ R ind K →
      (∀ x E, R x E → x = 1 ∨ x = -1 ∨ x = 0) → ∀ x ∈ ind, x = 1 ∨ x = -1 ∨ x = 0 := by
    intro K ind R hR h2
    induction hR with
    | nil => simp
    | cons h3 _ ih =>
      intro x hx
      rcases List.mem_cons.1 hx with rfl | hx
      · exact h2 _ _ h3
      · exact ih x hx
  have hv := hval hε (hvals hI fun x E hx => hx.imp And.left fun h => h.1)
  have hv' := hval hε' (hvals hI' fun x E hx => hx.imp And.left fun h => h.1)
  have hind : ∀ x, ε' (σ x) = ε x := by
    intro x
    refine corepWeight_inj (hv' _) (hv _) ?_
    have h1 := hnorm x x
    have h2 := hnorm' (σ x) (σ x)
    rw [if_pos rfl] at h1 h2
    have h3 : ∑ g : {g // trs g = 0}, ((K'.get (σ x)).2 g).trace * star ((K'.get (σ x)).2 g).trace =
        ∑ g : {g // trs g = 0}, ((K.get x).2 g).trace * star ((K.get x).2 g).trace := by
      refine Finset.sum_congr rfl fun g _ => ?_
      rw [htrace x g g.2]
      rcases hV.sign g with h4 | h4 <;> rw [h4] <;> simp
    rw [h2, h1] at h3
    obtain ⟨e, he0⟩ : ∃ e, trs e = 0 := by
      obtain ⟨i, -⟩ := htr
      refine ⟨T' i i, (h.1.2.1 (T' i i)).resolve_right fun hc => (hT i i).2.1 hc rfl⟩
    have hc : (Fintype.card {g // trs g = 0} : ℂ) ≠ 0 := by
      have : 0 < Fintype.card {g // trs g = 0} := Fintype.card_pos_iff.2 ⟨⟨e, he0⟩⟩
      exact_mod_cast this.ne'
    exact_mod_cast mul_left_cancel₀ hc h3
  refine ⟨((finCongr hl.symm).trans σ).trans (finCongr hl'), fun a => ?_⟩
  obtain ⟨x, rfl⟩ : ∃ x : Fin K.length, a = x.cast hl := ⟨a.cast hl.symm, rfl⟩
  have hσs : (((finCongr hl.symm).trans σ).trans (finCongr hl')) (x.cast hl) = (σ x).cast hl' := rfl
  rw [hσs]
  have hdim : (K.get x).1 = (K'.get (σ x)).1 := corepEquiv_dim (hσ x)
  refine ⟨(key' (σ x)).1.trans (hdim.symm.trans (key x).1.symm), ⟨ε x, ?_, ?_⟩, fun g hg => ?_⟩
  · rw [hε, List.getElem?_ofFn, dif_pos (show (x.cast hl).1 < _ from x.2)]
    rfl
  · rw [hε', List.getElem?_ofFn, dif_pos (show ((σ x).cast hl').1 < _ from (σ x).2), ← hind x]
    rfl
  · have e1 := (key x).2 g hg
    have e2 := (key' (σ x)).2 g hg
    have hd1 : ((out1.coreps.get (x.cast hl)).1 : ℝ) = (K.get x).1 := by exact_mod_cast (key x).1
    have hd2 : ((K'.get (σ x)).1 : ℝ) = (K.get x).1 := by exact_mod_cast hdim.symm
    rw [hd2, htrace x g hg, norm_sub_rev] at e2
    rw [← one_mul ‖_‖, ← sign_norm hV.sign g, ← norm_mul] at e1
    have := norm_add_le _ _ |>.trans (add_le_add e1 e2)
    rw [hd1, mul_add]
    refine le_trans (le_of_eq ?_) this
    congr 1
    ring

theorem grey2_metric_turned (i : Fin 4) : PreservesMetric latticeTurned (rotsGrey2 i) := by
  have h1 := grey2_metric i
  unfold PreservesMetric at h1 ⊢
  rw [latticeTurned_gram]
  rwa [Matrix.transpose_one, Matrix.mul_one] at h1

/-- Non-vacuity of C109: the grey group 21' at `k = 0` on a cubic lattice and on the same lattice turned by 90 degrees. -/
example : ∃ (o : Oracles) (out out' : CorepOut 4) (w w' : Bool), (1 : R3) ≠ latticeTurned ∧
    enumerateSpinorSmallCoreps o (fun _ _ => 1) 1 rotsGrey2 (fun _ _ => 0) trsGrey2 0 .neto 1e-5 1e-8 4 = .ok (out, w) ∧
    enumerateSpinorSmallCoreps o (fun _ _ => 0) latticeTurned rotsGrey2 (fun _ _ => 0) trsGrey2 0 .neto 1e-6 1e-8 4 =
      .ok (out', w') ∧ out.coreps ≠ [] ∧ ∃ σ : Fin out.coreps.length ≃ Fin out'.coreps.length,
        ∀ x, (out'.coreps.get (σ x)).1 = (out.coreps.get x).1 := by
  obtain ⟨o, he, ho, hr⟩ := grey2_oracles
  have hc : ∀ xsg : List (Fin 4), xsg.Nodup → (∀ i, i ∈ xsg ↔ trsGrey2 i = 0) →
      PointgroupContract o.pointgroup fun u => rotsGrey2 (xsg.get u) := fun xsg h1 h2 => by rw [ho]; exact grey2_contract xsg h1 h2
  have hL : (1 : R3).det ≠ 0 := by rw [Matrix.det_one]; exact one_ne_zero
  have hb : ∀ i a b, |rotsGrey2 i a b| ≤ 99999 := by decide +kernel
  have hk : ∀ i, FixesK (rotsGrey2 i) 0 := fun i b => ⟨0, by simp⟩
  have hμ : ∀ i j, getFactorSystem rotsGrey2 (fun _ _ => 0) 0 i j = 1 ∨ getFactorSystem rotsGrey2 (fun _ _ => 0) 0 i j = -1 :=
    fun i j => .inl (factor_gamma _ i j)
  obtain ⟨out, T, hrun, -, hne, -⟩ := c48_refuted he ho hr (fun _ _ => 1) 1e-5
  obtain ⟨out', w', -, -, hrun', -⟩ := corep_classification_full grey2_magnetic ⟨2, rfl⟩ hb hk hμ he latticeTurned_det
    grey2_metric_turned hc 1e-6 (atol := 1e-8) (maxGen := 4) (by norm_num) (by norm_num) (fun _ _ => 0) (.inl hr)
  obtain ⟨-, V, s, -, -, σ, hσ⟩ := c109_runs_agree grey2_magnetic ⟨2, rfl⟩ hb hk hμ he he hL latticeTurned_det grey2_metric
    grey2_metric_turned hc hc (by norm_num) (by norm_num) (by norm_num) (by norm_num) (.inl hr) (.inl hr) hrun hrun'
  refine ⟨o, out, out', _, w', fun h => ?_, hrun, hrun', hne, σ, fun x => (hσ x).1⟩
  have := congrFun (congrFun h 0) 0
  simp [latticeTurned] at this

end Spgrep
