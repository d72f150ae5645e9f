/-
Properties C15, C16: project_to_irrep.
-/
import Verif.Proofs.Project
import Verif.Props.Examples

namespace Spgrep

open Spec

set_option linter.unusedSectionVars false

variable {n d D : ℕ}

/-! ### C15: the projected blocks are symmetry adapted -/

/-- **C15.** Let `rep` be a unitary projective representation and `irrep` a unitary projective irrep with
the same factor system.  Every block computed by the projection formula transforms like the irrep and
its rows are mutually orthogonal with one common norm; and whatever linear-algebra oracle, tolerance
and number of trials are used, every block in the list *returned* by `project_to_irrep` transforms
like the irrep and has orthonormal rows. -/
theorem c15_projection {T : Fin n → Fin n → Fin n} (hT : IsGroupTable T)
    {μ : Fin n → Fin n → ℂ} (hμ : ∀ g h, μ g h ≠ 0) {rep : RepArr n D} {irrep : RepArr n d}
    (hrep : IsProjRep T μ rep) (hru : IsUnitaryRep rep)
    (hirrep : IsProjRep T μ irrep) (hiu : IsUnitaryRep irrep) (hi : IsIrreducible irrep) :
    (∀ c j, (∀ g i m, ∑ m', rep g m m' * projBlock rep irrep c j i m' =
        ∑ l, projBlock rep irrep c j l m * irrep g l i) ∧
      ∃ r : ℂ, ∀ i i', ∑ m, projBlock rep irrep c j i m * star (projBlock rep irrep c j i' m) =
        if i = i' then r else 0) ∧
    (∀ (la : LinAlg) (atol : ℝ) (maxTrials : ℕ) bs w,
      projectToIrrep la rep irrep atol maxTrials = .ok (bs, w) → ∀ b ∈ bs,
      (∀ g i m, ∑ m', rep g m m' * b i m' = ∑ l, b l m * irrep g l i) ∧
      ∀ i i', ∑ m, b i m * star (b i' m) = if i = i' then 1 else 0) := by
  have hint := fun c j g => projBlock_intertwines hT hμ hrep hirrep hiu c j g
  have htr : ∀ (b : Matrix (Fin d) (Fin D) ℂ),
      (∀ g, rep g * b.transpose = b.transpose * irrep g) →
      ∀ g i m, ∑ m', rep g m m' * b i m' = ∑ l, b l m * irrep g l i := by
    intro b hb g i m
    have := congrFun (congrFun (hb g) m) i
    simpa [Matrix.mul_apply] using this
  constructor
  · intro c j
    refine ⟨htr _ (hint c j), ?_⟩
    obtain ⟨r, hr⟩ := gram_scalar hru hiu hi (hint c j)
    refine ⟨r, fun i i' => ?_⟩
    have h2 := congrFun (congrFun (gram_rows hr).2 i) i'
    simpa [Matrix.mul_apply, Matrix.one_apply] using h2
  · intro la atol maxTrials bs w h
    have hP : ∀ c j, projBlock rep irrep c j ≠ 0 →
        (∀ g i m, ∑ m', rep g m m' * normalizeRows (projBlock rep irrep c j) i m' =
          ∑ l, normalizeRows (projBlock rep irrep c j) l m * irrep g l i) ∧
        ∀ i i', ∑ m, normalizeRows (projBlock rep irrep c j) i m *
          star (normalizeRows (projBlock rep irrep c j) i' m) = if i = i' then 1 else 0 := by
      intro c j hne
      obtain ⟨r, hr⟩ := gram_scalar hru hiu hi (hint c j)
      obtain ⟨h1, s, hs, h2⟩ := normalizeRows_spec hne hr
      constructor
      · apply htr
        intro g
        rw [h2, Matrix.transpose_smul, Matrix.mul_smul, Matrix.smul_mul, hint]
      · intro i i'
        have h3 := congrFun (congrFun h1 i) i'
        simpa [Matrix.mul_apply, Matrix.one_apply] using h3
    rcases projectToIrrep_cases h with ⟨_, rfl, _⟩ | ⟨t, _, ht, _, hp, _⟩
    · simp
    · exact projInner_all la rep irrep (le_trans (by norm_num) ht) hP hp

/-- Non-vacuity of C15: a two-dimensional projective irrep of the Klein group. -/
example : IsGroupTable tblV4 ∧ (∀ g h, μV4 g h ≠ 0) ∧ IsProjRep tblV4 μV4 repV4 ∧
    IsUnitaryRep repV4 ∧ IsIrreducible repV4 :=
  ⟨tblV4_group, ne_zero_of_norm_one μV4_norm, repV4_proj, repV4_unitary, repV4_irreducible⟩

/-! ### C16: the tolerance search -/

/-- **C16.** The retry loop, for an arbitrary inner projection (one that may fail, and whose count may be
anything) and an arbitrary target count.  `ts` is the list of tolerances for which the inner projection
was called.
* at most `max_num_trials` calls, every tolerance inside `[1e-10, 1e-2]`, the first one being the
  clipped argument;
* every call except the last had the wrong count, the returned basis is the one of the last call, and
  the loop only uses up all trials if the last count is still wrong;
* the final warning is given iff the count differs from the target;
* it returns a result whenever the projection does and `max_num_trials ≥ 1`;
  `max_num_trials = 0` is an UnboundLocalError.
Consequently `project_to_irrep` warns at the end iff the number of returned bases differs from the
character inner product. -/
theorem c16_tolerance_search :
    (∀ {α : Type} (inner : ℝ → Except PyErr (α × ℕ)) (num : ℤ) (atol : ℝ) (maxTrials : ℕ),
      (∀ basis w ts, searchTolerance inner num atol maxTrials = .ok (basis, w, ts) →
        ts.length ≤ maxTrials ∧ (∀ t ∈ ts, 1e-10 ≤ t ∧ t ≤ 1e-2) ∧
        ts.head? = some (min (max atol 1e-10) 1e-2) ∧
        ∃ init t count, ts = init ++ [t] ∧ inner t = .ok (basis, count) ∧
          (∀ s ∈ init, ∃ b c, inner s = .ok (b, c) ∧ (c : ℤ) ≠ num) ∧
          ((count : ℤ) ≠ num → ts.length = maxTrials) ∧ (w = true ↔ (count : ℤ) ≠ num)) ∧
      (0 < maxTrials → (∀ a, 1e-10 ≤ a → a ≤ 1e-2 → ∃ x, inner a = .ok x) →
        ∃ x, searchTolerance inner num atol maxTrials = .ok x) ∧
      (maxTrials = 0 → searchTolerance inner num atol maxTrials = .error .unboundLocalError)) ∧
    (∀ (la : LinAlg) (rep : RepArr n D) (irrep : RepArr n d) (atol : ℝ) (maxTrials : ℕ) bs w,
      projectToIrrep la rep irrep atol maxTrials = .ok (bs, w) →
        (w = true ↔ (bs.length : ℤ) ≠ numBasis rep irrep)) := by
  refine ⟨fun {α} inner num atol maxTrials => ⟨searchTolerance_spec, ?_, ?_⟩, ?_⟩
  · intro hz hin
    unfold searchTolerance
    have hb1 : (1e-10 : ℝ) ≤ min (max atol 1e-10) 1e-2 := le_min (le_max_right _ _) (by norm_num)
    have hb2 : min (max atol 1e-10) 1e-2 ≤ (1e-2 : ℝ) := min_le_right _ _
    obtain ⟨⟨r, ts⟩, hr⟩ := retryLoop_ok (num := num) hin maxTrials (min (max atol 1e-10) 1e-2) none
      hb1 hb2
    obtain ⟨_, _, _, i4⟩ := retryLoop_spec _ _ _ _ _ hb1 hb2 hr
    obtain ⟨init, t, b, count, e1, e2, rfl, _⟩ := i4 hz
    simp only [hr]
    exact ⟨_, rfl⟩
  · rintro rfl
    rfl
  · intro la rep irrep atol maxTrials bs w h
    rcases projectToIrrep_cases h with ⟨h0, rfl, rfl⟩ | ⟨t, _, _, _, _, hw⟩
    · simp [h0]
    · exact hw

/-- Non-vacuity of C16: the projection of a one-element list, wanted once, succeeds at once. -/
example : searchTolerance (fun _ => .ok ((), 1)) 1 1e-6 10 = .ok ((), false, [1e-6]) := by
  unfold searchTolerance retryLoop
  have : min (max (1e-6 : ℝ) 1e-10) 1e-2 = 1e-6 := by norm_num
  rw [this]
  rfl

end Spgrep
