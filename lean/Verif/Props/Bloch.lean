/-
C95: the operations of a magnetic little group and the Bloch character of the translations.
-/
import Verif.Spec.Bloch
import Verif.Props.Magnetic

namespace Spgrep

open Spec

variable {n : ℕ}

theorem blochPhase_eq (k x : V3) : blochPhase k x = expPhase (∑ a, k a * x a) := rfl

theorem expPhase_eq_iff {x y : ℝ} : expPhase x = expPhase y ↔ ∃ m : ℤ, x - y = m := by
  refine ⟨fun h => ?_, expPhase_eq_of_sub_int⟩
  unfold expPhase at h
  rw [Complex.exp_eq_exp_iff_exists_int] at h
  obtain ⟨m, hm⟩ := h
  refine ⟨-m, ?_⟩
  have h1 : (-2 * Real.pi * x : ℂ) = -2 * Real.pi * y + m * (2 * Real.pi) := by
    have h2 : (-2 * Real.pi * x : ℂ) * Complex.I = (-2 * Real.pi * y + m * (2 * Real.pi)) * Complex.I := by
      rw [hm]
      ring
    exact mul_right_cancel₀ Complex.I_ne_zero h2
  have h3 : -2 * Real.pi * x = -2 * Real.pi * y + m * (2 * Real.pi) := by exact_mod_cast h1
  have h4 := Real.pi_pos
  push_cast
  have h5 : (2 * Real.pi) * (x - y) = (2 * Real.pi) * (-m) := by linarith
  exact mul_left_cancel₀ (by positivity) h5

theorem dot_rot (R : M3) (k x : V3) :
    ∑ a, k a * (∑ b, (R a b : ℝ) * x b) = ∑ a, (∑ b, (R b a : ℝ) * k b) * x a := by
  simp only [Finset.mul_sum, Finset.sum_mul]
  rw [Finset.sum_comm]
  refine Finset.sum_congr rfl fun a _ => Finset.sum_congr rfl fun b _ => ?_
  ring

theorem blochCompatible_false {P : R3} {R : M3} {k : V3} : BlochCompatible P R false k ↔ FixesKLattice P R k := by
  unfold BlochCompatible FixesKLattice
  refine forall₂_congr fun x _ => ?_
  rw [blochPhase_eq, blochPhase_eq, dot_rot, conjIf, if_neg (by decide), expPhase_eq_iff, ← Finset.sum_sub_distrib]
  simp only [sub_mul]

theorem blochCompatible_true {P : R3} {R : M3} {k : V3} : BlochCompatible P R true k ↔
    ∀ x ∈ columnLattice P, ∃ m : ℤ, ∑ a, ((∑ b, (R b a : ℝ) * k b) + k a) * x a = m := by
  unfold BlochCompatible
  refine forall₂_congr fun x _ => ?_
  have h1 : conjIf true (expPhase (∑ a, k a * x a)) = expPhase (-∑ a, k a * x a) := by
    rw [conjIf, if_pos rfl, Complex.star_def, conj_expPhase]
  rw [blochPhase_eq, blochPhase_eq, dot_rot, h1, expPhase_eq_iff, sub_neg_eq_add, ← Finset.sum_add_distrib]
  simp only [add_mul]

/-- **C95 (partial).** The operations without time reversal of the little group returned by `get_spacegroup_spinor_irreps` for a
magnetic structure are compatible with the Bloch character of the translations.  An operation with time reversal is so exactly
if twice the k-point is a reciprocal lattice vector; and then the returned operations are exactly the compatible ones.  Missing:
compatibility of the operations with time reversal for the other k-points, which is false (`c95_refuted`), because
`get_little_group` takes the operations that fix `k` whether or not they reverse the time. -/
theorem c95_bloch_partial {o : Oracles} {randomI : ∀ d, ℕ → Matrix (Fin d) (Fin d) ℂ}
    {hallType : ℤ → SpacegroupType} {lattice : R3} {dataset : MagneticDataset n} {k kc : V3} {method : IrrepMethod}
    {reciprocal : Option R3} {rtol atol : ℝ} {maxGen : ℕ} {P : R3}
    (hP : getPrimitiveTransformationMatrix hallType dataset.hallNumber = .ok P)
    (hkc : kpointConv lattice reciprocal k = .ok kc)
    (hint : ∀ i, ∃ S : M3, (dataset.rotations i).map (fun x => (x : ℝ)) * P = P * S.map (fun x => (x : ℝ)))
    (horder : ∀ i j, i ≤ j → FirstOcc dataset.rotations j → FirstOcc dataset.rotations i)
    (htrs : ∀ i, dataset.timeReversals i = 0 ∨ dataset.timeReversals i = 1)
    (hnm : NoNearMiss P dataset.rotations kc atol) (ha : 0 ≤ atol)
    {out : SpinorOut n} {w : Bool}
    (hrun : getSpacegroupSpinorCoreps o randomI hallType lattice dataset k method reciprocal rtol atol maxGen = .ok (out, w)) :
    (∀ q, dataset.timeReversals (out.mapping q) = 0 → BlochCompatible P (dataset.rotations (out.mapping q)) false kc) ∧
    (∀ q, dataset.timeReversals (out.mapping q) = 1 → (BlochCompatible P (dataset.rotations (out.mapping q)) true kc ↔
      ∀ x ∈ columnLattice P, ∃ m : ℤ, ∑ a, (2 * kc a) * x a = m)) ∧
    ((∀ x ∈ columnLattice P, ∃ m : ℤ, ∑ a, (2 * kc a) * x a = m) →
      ∀ i, (∃ q, out.mapping q = i) ↔ BlochCompatible P (dataset.rotations i) (decide (dataset.timeReversals i = 1)) kc) := by
  obtain ⟨-, hl, -⟩ := c55_time_reversal_partial hP hkc hint horder htrs hnm ha hrun
  have hkey : ∀ i, FixesKLattice P (dataset.rotations i) kc → ∀ x ∈ columnLattice P,
      ((∃ m : ℤ, ∑ a, ((∑ b, (dataset.rotations i b a : ℝ) * kc b) + kc a) * x a = m) ↔
        ∃ m : ℤ, ∑ a, (2 * kc a) * x a = m) := by
    intro i hi x hx
    obtain ⟨m, hm⟩ := hi x hx
    have h1 : ∑ a, ((∑ b, (dataset.rotations i b a : ℝ) * kc b) + kc a) * x a = m + ∑ a, (2 * kc a) * x a := by
      rw [← hm, ← Finset.sum_add_distrib]
      refine Finset.sum_congr rfl fun a _ => ?_
      ring
    rw [h1]
    constructor
    · rintro ⟨l, hl⟩
      exact ⟨l - m, by push_cast; linarith⟩
    · rintro ⟨l, hl⟩
      exact ⟨m + l, by push_cast; linarith⟩
  refine ⟨fun q _ => blochCompatible_false.2 ((hl _).1 ⟨q, rfl⟩), fun q _ => ?_, fun h2 i => ?_⟩
  · rw [blochCompatible_true]
    exact forall₂_congr fun x hx => hkey _ ((hl _).1 ⟨q, rfl⟩) x hx
  · rw [hl]
    by_cases ht : dataset.timeReversals i = 1
    · rw [decide_eq_true ht, blochCompatible_true]
      refine ⟨fun h x hx => (hkey i h x hx).2 (h2 x hx), fun h x hx => ?_⟩
      obtain ⟨m, hm⟩ := h x hx
      obtain ⟨l, hl⟩ := h2 x hx
      refine ⟨m - l, ?_⟩
      push_cast
      rw [← hm, ← hl, ← Finset.sum_sub_distrib]
      refine Finset.sum_congr rfl fun a _ => ?_
      ring
    · rw [decide_eq_false ht, blochCompatible_false]

/-- **C95 is false as stated**: for the group C2' of type III and the k-point `(0, 1/2, 1/2)` the run with the default arguments
returns, and the twofold rotation with time reversal, which is marked as anti-linear, is not compatible with the Bloch character
of the translations: it maps `k` to `(0, -1/2, 1/2)`, which differs from `k` by the vector `(0, 1, 0)`; this is not a reciprocal
lattice vector of the centred lattice. -/
theorem c95_refuted : ∃ (o : Oracles) (randomI : ∀ d, ℕ → Matrix (Fin d) (Fin d) ℂ) (out : SpinorOut 4) (w : Bool)
    (q : Fin out.order) (l : Fin out.primOrder), SymmEigContract o.eig ∧
    getSpacegroupSpinorCoreps o randomI (fun _ => ⟨[], ['C', ' ', '2', 'y']⟩) 1 datasetC2III kC2 = .ok (out, w) ∧
    IsConventionalGroup primC datasetC2III.rotations datasetC2III.translations ∧
    datasetC2III.timeReversals (out.mapping q) = 1 ∧ out.antiLinear l = true ∧
    ¬ BlochCompatible primC (datasetC2III.rotations (out.mapping q)) true kC2 := by
  obtain ⟨random, hr⟩ := exists_richDraws 1e-8 4 4 fun d hd => hd
  obtain ⟨eig, he⟩ := symmEigContract_exists
  have hk : ∀ a, ∃ c : ℤ, ((4 : ℕ) : ℝ) * ∑ b, primC b a * kC2 b = c := by
    intro a
    fin_cases a
    · exact ⟨-1, by simp [primC, kC2, Fin.sum_univ_three]; norm_num⟩
    · exact ⟨1, by simp [primC, kC2, Fin.sum_univ_three]; norm_num⟩
    · exact ⟨2, by simp [primC, kC2, Fin.sum_univ_three]; norm_num⟩
  let o : Oracles := { random := random, eig := eig, eigh := fun d _ => (fun _ => 0, 0),
                       qr := fun _ _ _ => 0, pointgroup := (PgSymbol.pg_1, (1 : M3).map fun x : ℤ => (x : ℝ)) }
  have h1 : (1 : R3).det ≠ 0 := by rw [Matrix.det_one]; exact one_ne_zero
  have htrs : ∀ i, datasetC2III.timeReversals i = 0 ∨ datasetC2III.timeReversals i = 1 := by
    change ∀ i : Fin 4, (![0, 1, 0, 1] : Fin 4 → ℤ) i = 0 ∨ (![0, 1, 0, 1] : Fin 4 → ℤ) i = 1
    decide
  have hkc := (c52_kpoint_basis 1 h1 kC2).1
  obtain ⟨out, w, hrun⟩ := c55_runs (o := o) he h1 (dataset := datasetC2III) metricC2 (k := kC2) (kc := kC2)
    (reciprocal := none) (rtol := 1e-5) (atol := 1e-8) (maxGen := 4) primC2 hkc
    convC2 transC2_mem orderC2 htrs (by
      change ∀ i j l : Fin 4, rotsC2 i * rotsC2 j = rotsC2 l → (![0, 1, 0, 1] : Fin 4 → ℤ) l =
        if (![0, 1, 0, 1] : Fin 4 → ℤ) i = (![0, 1, 0, 1] : Fin 4 → ℤ) j then 0 else 1
      decide +kernel)
    ⟨1, rfl, fixesC2 1⟩ (noNearMiss_of_rational convC2.2.1 (N := 4) (by norm_num) hk (by norm_num) (by norm_num))
    (by norm_num) (by norm_num) (by norm_num)
    (by norm_num) (fun u R h => boundC2 h) (fun u R hinj h => contractC2III hinj h) hr (fun _ _ => 1)
  obtain ⟨-, hl, -, pos, -, -, hflag, -⟩ := c55_time_reversal_partial (dataset := datasetC2III) primC2 hkc convC2.2.1
    orderC2 htrs (noNearMiss_of_rational convC2.2.1 (N := 4) (by norm_num) hk (by norm_num) (by norm_num)) (by norm_num) hrun
  obtain ⟨q, hq⟩ := (hl 1).2 (fixesC2 1)
  have hfirst : FirstOcc datasetC2III.rotations (out.mapping q) := by
    rw [hq]
    change ∀ j < (1 : Fin 4), rotsC2 j ≠ rotsC2 1
    decide +kernel
  have ht : datasetC2III.timeReversals (out.mapping q) = 1 := by rw [hq]; rfl
  refine ⟨o, fun _ _ => 1, out, w, q, pos q, he, hrun, convC2, ht, (hflag q hfirst).2 ht, fun hcon => ?_⟩
  rw [hq, blochCompatible_true] at hcon
  obtain ⟨m, hm⟩ := hcon ![1 / 2, -1 / 2, 0] ⟨![1, 0, 0], fun a => by fin_cases a <;> simp [primC, Fin.sum_univ_three]⟩
  change ∑ a, ((∑ b, (rotsC2 1 b a : ℝ) * kC2 b) + kC2 a) * (![1 / 2, -1 / 2, 0] : V3) a = m at hm
  simp [rotsC2, kC2, Fin.sum_univ_three] at hm
  have h2 : (-1 : ℤ) = 2 * m := by
    have : (-1 : ℝ) = 2 * m := by linarith
    exact_mod_cast this
  omega

end Spgrep
