/-
C112: every k-point, rational or not.
-/
import Verif.Props.CoreSpinor
import Mathlib.NumberTheory.Real.Irrational

namespace Spgrep

open Spec Matrix

variable {n : ℕ}

/-- C112: every k-point has a positive threshold for the tolerance: there are no near misses below it, and from it on
there is one, unless all operations fix the k-point. -/
theorem c112_threshold (P : R3) (rots : Fin n → M3) (k : V3) : ∃ δ : ℝ, 0 < δ ∧
    (∀ atol < δ, NoNearMiss P rots k atol) ∧
    ∀ atol ≥ δ, NoNearMiss P rots k atol → ∀ i, FixesKLattice P (rots i) k := by
  obtain ⟨δ, h0, h1, h2⟩ := threshold fun i a => ∑ c, residual (rots i) k c * P c a
  refine ⟨δ, h0, fun atol hat i hi => fixesKLattice_generators.2 (h1 atol hat i hi), fun atol hat h i => ?_⟩
  exact fixesKLattice_generators.2 (h2 atol hat (fun i hi => fixesKLattice_generators.1 (h i hi)) i)

/-- C112, `get_little_group`: for every k-point there is a positive threshold below which the listed operations are exactly
those fixing the k-point, and form a group; from the threshold on the list contains an operation not fixing the
k-point, unless all operations fix it. -/
theorem c112_little_group {rots : Fin n → M3} (h : EnumeratesGroup rots) (k : V3) : ∃ δ : ℝ, 0 < δ ∧
    (∀ atol, 0 ≤ atol → atol < δ →
      EnumeratesGroup (fun i => rots ((littleMapping rots k atol).get i)) ∧
      ∀ i, i ∈ littleMapping rots k atol ↔ FixesK (rots i) k) ∧
    ∀ atol ≥ δ, (∃ i, ¬ FixesK (rots i) k) → ∃ i ∈ littleMapping rots k atol, ¬ FixesK (rots i) k := by
  obtain ⟨δ, h0, h1, h2⟩ := threshold fun i => residual (rots i) k
  refine ⟨δ, h0, fun atol ha hat => ?_, fun atol hat ⟨i, hi⟩ => ?_⟩
  · have hlit : ∀ i, InLittle (rots i) k atol ↔ FixesK (rots i) k := by
      intro i
      rw [inLittle_iff]
      refine ⟨fun hi => h1 atol hat i hi, fun hf => ?_⟩
      choose m hm using fixesK_iff.1 hf
      exact ⟨m, fun a => by rw [hm, sub_self, abs_zero]; exact ha⟩
    exact ⟨little_enumerates h hlit, fun i => mem_littleMapping.trans (hlit i)⟩
  · by_contra hc
    push Not at hc
    refine hi (h2 atol hat (fun j hj => hc j ?_) i)
    rw [mem_littleMapping, inLittle_iff]
    exact hj

/-- C112, `get_spacegroup_irreps`: for the operations of a space group in a conventional cell (first occurrences of
rotations before repetitions) and **every** k-point there is a positive threshold such that every run without warning with a
positive tolerance below it lists exactly the operations fixing the k-point and returns, within `atol + 1e-8`, a complete
list of pairwise inequivalent unitary irreducible families obeying their multiplication law. -/
theorem c112_irreps {hallType : ℤ → SpacegroupType} {lattice : R3} {dataset : Dataset n} {k kc : V3}
    {reciprocal : Option R3} {P : R3}
    (hP : getPrimitiveTransformationMatrix hallType dataset.hallNumber = .ok P)
    (hkc : kpointConv lattice reciprocal k = .ok kc)
    (hconv : IsConventionalGroup P dataset.rotations dataset.translations)
    (horder : ∀ i j, i ≤ j → FirstOcc dataset.rotations j → FirstOcc dataset.rotations i) :
    ∃ δ : ℝ, 0 < δ ∧ ∀ (o : Oracles) (method : IrrepMethod) (rtol atol : ℝ) (maxGen : ℕ), 0 < atol → atol < δ →
      (∀ (u : ℕ) (R : Fin u → M3), IsLittleOf P dataset.rotations kc R → MethodContract o method rtol R) →
      ∀ (m : ℕ) (mapping : Fin m → Fin n) (irreps : List (AnyRep m)),
      getSpacegroupIrreps o hallType lattice dataset k method reciprocal rtol atol maxGen =
        .ok (⟨m, mapping, irreps⟩, false) →
      StrictMono mapping ∧
      (∀ i, (∃ q, mapping q = i) ↔ FixesKLattice P (dataset.rotations i) kc) ∧
      ∃ S : List (AnyRep m),
        List.Forall₂ (fun Γ E => ∃ A : RepArr m Γ.1, E = ⟨Γ.1, A⟩ ∧
          ∀ g i j, ‖Γ.2 g i j - A g i j‖ ≤ atol + 1e-8) S irreps ∧
        CompleteSmall (fun q => dataset.rotations (mapping q)) (fun q => dataset.translations (mapping q)) kc
          (fun _ _ => 1) S ∧
        (S.map fun Γ => Γ.1 ^ 2).sum = (Finset.univ.image fun q => dataset.rotations (mapping q)).card := by
  obtain ⟨δ, h0, h1, -⟩ := c112_threshold P dataset.rotations kc
  refine ⟨min δ (1 / 5), lt_min h0 (by norm_num), fun o method rtol atol maxGen ha hat ho m mapping irreps hrun => ?_⟩
  have hnm := h1 atol (hat.trans_le (min_le_left _ _))
  obtain ⟨hm, hl, -⟩ := c41_near_miss hP hkc (conventional_of_group (getPrimitive_det hP) hconv) horder hnm ha.le hrun
  obtain ⟨S, s1, s2, s3, s4, s5⟩ :=
    c61_near_miss hP hkc hconv horder hnm ha (hat.trans_le (min_le_right _ _)).le ho hrun
  exact ⟨hm, hl, S, s1, ⟨s2, s3, s4⟩, s5⟩

/-- C112, runs exist: without fractional translations, `get_spacegroup_irreps` succeeds without warning at every k-point
for all tolerances below a positive threshold if the draws determine the intertwiners. -/
theorem c112_runs {hallType : ℤ → SpacegroupType} {lattice : R3} {dataset : Dataset n} {k kc : V3}
    {reciprocal : Option R3} {P : R3}
    (hP : getPrimitiveTransformationMatrix hallType dataset.hallNumber = .ok P)
    (hkc : kpointConv lattice reciprocal k = .ok kc)
    (hconv : IsConventionalGroup P dataset.rotations dataset.translations)
    (hsym : ∀ i, dataset.translations i ∈ columnLattice P)
    (horder : ∀ i j, i ≤ j → FirstOcc dataset.rotations j → FirstOcc dataset.rotations i) :
    ∃ δ : ℝ, 0 < δ ∧ ∀ (o : Oracles) (rtol atol : ℝ) (maxGen : ℕ), 0 < atol → atol < δ → 0 ≤ rtol → rtol ≤ 1 / 2 →
      (∀ (u : ℕ) (R : Fin u → M3), IsLittleOf P dataset.rotations kc R → PointgroupContract o.pointgroup R) →
      RichDraws n o.random atol maxGen →
      ∃ m mapping irreps, getSpacegroupIrreps o hallType lattice dataset k .neto reciprocal rtol atol maxGen =
        .ok (⟨m, mapping, irreps⟩, false) := by
  obtain ⟨δ, h0, h1, -⟩ := c112_threshold P dataset.rotations kc
  have hn : (0 : ℝ) < n + 1 := by positivity
  refine ⟨min δ (1 / 5 / (n + 1)), lt_min h0 (by positivity), fun o rtol atol maxGen ha hat hr hr2 ho hrich => ?_⟩
  have h2 : atol * (n + 1) < 1 / 5 := (lt_div_iff₀ hn).1 (hat.trans_le (min_le_right _ _))
  have h3 : (0 : ℝ) ≤ n * atol := by positivity
  exact c61_runs_near_miss hP hkc hconv hsym horder (h1 atol (hat.trans_le (min_le_left _ _))) ha
    (by linarith) hr (by linarith) ho hrich

/-- C112, `get_spacegroup_spinor_irreps`: the same for spinors at every k-point. -/
theorem c112_spinor {hallType : ℤ → SpacegroupType} {lattice : R3}
    (hL : lattice.det ≠ 0) {dataset : Dataset n} (hm : ∀ i, PreservesMetric lattice (dataset.rotations i))
    {k kc : V3} {reciprocal : Option R3} {P : R3}
    (hP : getPrimitiveTransformationMatrix hallType dataset.hallNumber = .ok P)
    (hkc : kpointConv lattice reciprocal k = .ok kc)
    (hconv : IsConventionalGroup P dataset.rotations dataset.translations)
    (horder : ∀ i j, i ≤ j → FirstOcc dataset.rotations j → FirstOcc dataset.rotations i) :
    ∃ δ : ℝ, 0 < δ ∧ ∀ (o : Oracles) (method : IrrepMethod) (rtol atol : ℝ) (maxGen : ℕ), 0 < atol → atol < δ →
      SymmEigContract o.eig →
      (∀ (u : ℕ) (R : Fin u → M3), IsLittleOf P dataset.rotations kc R → MethodContract o method rtol R) →
      ∀ out : SpinorOut n,
      getSpacegroupSpinorIrreps o hallType lattice dataset k method reciprocal rtol atol maxGen = .ok (out, false) →
      StrictMono out.mapping ∧
      (∀ i, (∃ q, out.mapping q = i) ↔ FixesKLattice P (dataset.rotations i) kc) ∧
      ∃ pos : Fin out.order → Fin out.primOrder, Function.Surjective pos ∧
        (∀ q q', pos q = pos q' ↔ dataset.rotations (out.mapping q) = dataset.rotations (out.mapping q')) ∧
        (∀ q, IsSU2 (out.unitary (pos q)) ∧ ∀ Q C, (Q = dataset.rotations (out.mapping q) ∨
          Q = -dataset.rotations (out.mapping q)) → Q.det = 1 → IsCartesianOf lattice Q C →
            InducesRotation (out.unitary (pos q)) C) ∧
        (∀ i j, out.spinorFactor i j = 1 ∨ out.spinorFactor i j = -1) ∧
        (∀ q q' q'', dataset.rotations (out.mapping q) * dataset.rotations (out.mapping q') =
            dataset.rotations (out.mapping q'') →
          out.unitary (pos q) * out.unitary (pos q') = out.spinorFactor (pos q) (pos q') • out.unitary (pos q'')) ∧
        ∃ S : List (AnyRep out.order),
          List.Forall₂ (fun Γ E => ∃ A : RepArr out.order Γ.1, E = ⟨Γ.1, A⟩ ∧
            ∀ g i j, ‖Γ.2 g i j - A g i j‖ ≤ atol + 1e-8) S out.irreps ∧
          CompleteSmall (fun q => dataset.rotations (out.mapping q)) (fun q => dataset.translations (out.mapping q)) kc
            (fun q q' => out.spinorFactor (pos q) (pos q')) S ∧
          (S.map fun Γ => Γ.1 ^ 2).sum = out.primOrder := by
  obtain ⟨δ, h0, h1, -⟩ := c112_threshold P dataset.rotations kc
  refine ⟨min δ (1 / 5), lt_min h0 (by norm_num), fun o method rtol atol maxGen ha hat he ho out hrun => ?_⟩
  have hnm := h1 atol (hat.trans_le (min_le_left _ _))
  obtain ⟨a1, a2, pos, a3, a4, a5, a6, a7, S, s1, s2, s3, s4, s5⟩ :=
    c62_near_miss he hL hm hP hkc hconv horder hnm ha (hat.trans_le (min_le_right _ _)).le ho hrun
  exact ⟨a1, a2, pos, a3, a4, a5, a6, a7, S, s1, ⟨s2, s3, s4⟩, s5⟩

/-! ### Non-vacuity: C2 on the line `(0, y, 1/2)` with an irrational `y` -/

/-- A k-point with an irrational coordinate. -/
noncomputable def kLine : V3 := ![0, Real.sqrt 2, 1 / 2]

theorem fixesLine (i : Fin 4) : FixesKLattice primC (rotsC2 i) kLine := by
  rintro x ⟨m, hm⟩
  have h2 : x 2 = m 2 := by
    rw [hm]
    simp [primC, Fin.sum_univ_three]
  fin_cases i
  · exact ⟨0, by simp [rotsC2, kLine, Fin.sum_univ_three]⟩
  · refine ⟨-m 2, ?_⟩
    simp [rotsC2, kLine, Fin.sum_univ_three, h2]
    ring
  · exact ⟨0, by simp [rotsC2, kLine, Fin.sum_univ_three]⟩
  · refine ⟨-m 2, ?_⟩
    simp [rotsC2, kLine, Fin.sum_univ_three, h2]
    ring

theorem contractLine {u : ℕ} {R : Fin u → M3} (h : IsLittleOf primC rotsC2 kLine R) :
    PointgroupContract (PgSymbol.pg_2, trafoC2.map fun x : ℤ => (x : ℝ)) R := by
  refine contractC2 ⟨h.1, fun S => (h.2 S).trans ?_⟩
  simp only [fixesLine, fixesC2, true_and]

/-- No multiple of the k-point is integral, so the theorems about rational k-points do not apply. -/
theorem line_irrational (N : ℕ) (hN : 0 < N) : ¬ ∀ a, ∃ c : ℤ, (N : ℝ) * ∑ b, primC b a * kLine b = c := by
  intro h
  obtain ⟨c, hc⟩ := h 1
  have h2 : (∑ b, primC b 1 * kLine b) = Real.sqrt 2 / 2 := by
    simp [primC, kLine, Fin.sum_univ_three]
    ring
  rw [h2] at hc
  have hN' : (N : ℝ) ≠ 0 := by positivity
  refine irrational_sqrt_two ⟨(2 * c / N : ℚ), ?_⟩
  push_cast
  rw [← hc]
  field_simp

/-- A run at the irrational k-point that satisfies all hypotheses; its irreps are complete. -/
example : (∀ N : ℕ, 0 < N → ¬ ∀ a, ∃ c : ℤ, (N : ℝ) * ∑ b, primC b a * kLine b = c) ∧
    ∃ (o : Oracles) (atol : ℝ) (m : ℕ) (mapping : Fin m → Fin 4) (irreps : List (AnyRep m)) (S : List (AnyRep m)),
      0 < atol ∧
      getSpacegroupIrreps o (fun _ => ⟨[], ['C', ' ', '2', 'y']⟩) 1 datasetC2 kLine .neto none 1e-5 atol 4 =
        .ok (⟨m, mapping, irreps⟩, false) ∧
      (∀ i, ∃ q, mapping q = i) ∧
      CompleteSmall (fun q => rotsC2 (mapping q)) (fun q => transC2 (mapping q)) kLine (fun _ _ => 1) S := by
  refine ⟨line_irrational, ?_⟩
  have h1 : (1 : R3).det ≠ 0 := by rw [Matrix.det_one]; exact one_ne_zero
  obtain ⟨δ₁, hδ₁, hI⟩ := c112_irreps (lattice := 1) (dataset := datasetC2) (k := kLine) (reciprocal := none) primC2
    (c52_kpoint_basis 1 h1 kLine).1 convC2 orderC2
  obtain ⟨δ₂, hδ₂, hR⟩ := c112_runs (lattice := 1) (dataset := datasetC2) (k := kLine) (reciprocal := none) primC2
    (c52_kpoint_basis 1 h1 kLine).1 convC2 transC2_mem orderC2
  have hm : 0 < min δ₁ δ₂ := lt_min hδ₁ hδ₂
  have hlt : min δ₁ δ₂ / 2 < min δ₁ δ₂ := half_lt_self hm
  obtain ⟨random, hr⟩ := exists_richDraws (min δ₁ δ₂ / 2) 4 4 fun d hd => hd
  let o : Oracles := { random := random, eig := fun d _ => (fun _ => 0, 0), eigh := fun d _ => (fun _ => 0, 0),
                       qr := fun _ _ _ => 0, pointgroup := (PgSymbol.pg_2, trafoC2.map fun x : ℤ => (x : ℝ)) }
  obtain ⟨m, mapping, irreps, hrun⟩ := hR o 1e-5 (min δ₁ δ₂ / 2) 4 (half_pos hm) (hlt.trans_le (min_le_right _ _))
    (by norm_num) (by norm_num) (fun u R h => contractLine h) hr
  obtain ⟨-, hl, S, -, hS, -⟩ := hI o .neto 1e-5 (min δ₁ δ₂ / 2) 4 (half_pos hm) (hlt.trans_le (min_le_left _ _))
    (fun u R h => contractLine h) m mapping irreps hrun
  exact ⟨o, _, m, mapping, irreps, S, half_pos hm, hrun, fun i => (hl i).2 (fixesLine i), hS⟩

end Spgrep
