/-
Finitely many nonzero linear forms vanish on a null set of draws only.
-/
import Verif.Spec.UniformDraws
import Verif.Proofs.PointgroupApi

namespace Spgrep

open Spec MeasureTheory

/-- The value of a form on a draw, as a real-linear map. -/
noncomputable def formMap {d : ℕ} (v : Matrix (Fin d) (Fin d) ℂ) : DrawPair d →ₗ[ℝ] ℂ where
  toFun p := formVal v (drawOf p)
  map_add' p q := by
    unfold formVal drawOf
    simp only [← Finset.sum_add_distrib]
    refine Finset.sum_congr rfl fun i _ => Finset.sum_congr rfl fun j _ => ?_
    simp only [Prod.fst_add, Prod.snd_add, Pi.add_apply, Complex.ofReal_add]
    ring
  map_smul' c p := by
    unfold formVal drawOf
    simp only [RingHom.id_apply, Complex.real_smul, Finset.mul_sum]
    refine Finset.sum_congr rfl fun i _ => Finset.sum_congr rfl fun j _ => ?_
    simp only [Prod.smul_fst, Prod.smul_snd, Pi.smul_apply, smul_eq_mul, Complex.ofReal_mul]
    ring

theorem formMap_ker_ne_top {d : ℕ} {v : Matrix (Fin d) (Fin d) ℂ} (hv : v ≠ 0) : LinearMap.ker (formMap v) ≠ ⊤ := by
  intro htop
  apply hv
  ext i j
  have h : formMap v (Matrix.of.symm (Matrix.single i j 1), 0) = 0 := by
    have : (Matrix.of.symm (Matrix.single i j (1 : ℝ)), 0) ∈ LinearMap.ker (formMap v) := by rw [htop]; trivial
    exact this
  have h2 : formMap v (Matrix.of.symm (Matrix.single i j 1), 0) = v i j := by
    show formVal v (drawOf _) = _
    unfold formVal drawOf
    rw [Finset.sum_eq_single i, Finset.sum_eq_single j]
    · simp
    · intro b _ hb
      simp [Matrix.single, Ne.symm hb]
    · simp
    · intro b _ hb
      simp [Matrix.single, Ne.symm hb]
    · simp
  rw [← h2, h]
  rfl

theorem form_null {d : ℕ} {v : Matrix (Fin d) (Fin d) ℂ} (hv : v ≠ 0) :
    volume {p : DrawPair d | formVal v (drawOf p) = 0} = 0 :=
  have h1 : (volume : Measure (Fin d → ℝ)).IsAddHaarMeasure := inferInstance
  have h2 : (volume : Measure (Fin d → Fin d → ℝ)).IsAddHaarMeasure := Measure.pi.isAddHaarMeasure _
  have : (volume : Measure (DrawPair d)).IsAddHaarMeasure :=
    inferInstanceAs ((volume.prod volume : Measure (DrawPair d)).IsAddHaarMeasure)
  Measure.addHaar_submodule volume (LinearMap.ker (formMap v)) (formMap_ker_ne_top hv)

/-- The law is a probability measure. -/
theorem uniformLaw_univ (d : ℕ) : uniformLaw d Set.univ = 1 := by
  unfold uniformLaw
  rw [Measure.restrict_apply_univ]
  have : {p : DrawPair d | ∀ i j, p.1 i j ∈ Set.Ico (0 : ℝ) 1 ∧ p.2 i j ∈ Set.Ico (0 : ℝ) 1} =
      (Set.univ.pi fun _ => Set.univ.pi fun _ => Set.Ico 0 1) ×ˢ (Set.univ.pi fun _ => Set.univ.pi fun _ => Set.Ico 0 1) := by
    ext p
    simp only [Set.mem_ofPred_eq, Set.mem_prod, Set.mem_univ_pi]
    exact ⟨fun h => ⟨fun i j => (h i j).1, fun i j => (h i j).2⟩, fun h i j => ⟨h.1 i j, h.2 i j⟩⟩
  rw [this, Measure.volume_eq_prod, Measure.prod_prod]
  simp [volume_pi_pi, Real.volume_Ico]

/-- From finitely many forms to null sets outside which every draw is good for all small tolerances. -/
theorem almost_sure_draws {V : Set (Σ d, Matrix (Fin d) (Fin d) ℂ)} (hVf : V.Finite) (hV0 : ∀ v ∈ V, v.2 ≠ 0) :
    ∃ N : ∀ d, Set (DrawPair d), (∀ d, uniformLaw d (N d) = 0) ∧ ∀ p : ∀ d, DrawPair d, (∀ d, p d ∉ N d) →
      ∃ atol0 : ℝ, 0 < atol0 ∧ ∀ (random : ∀ d, ℕ → Matrix (Fin d) (Fin d) ℂ) (atol : ℝ) (maxGen : ℕ),
        (∀ d, ∃ t < maxGen, random d t = drawOf (p d)) → atol ≤ atol0 → DrawsAvoid V random atol maxGen := by
  classical
  refine ⟨fun d => ⋃ v ∈ (Sigma.mk d) ⁻¹' V, {p | formVal v (drawOf p) = 0}, fun d => ?_, fun p hp => ?_⟩
  · refine Measure.absolutelyContinuous_of_le Measure.restrict_le_self ?_
    rw [measure_biUnion_null_iff]
    · exact fun v hv => form_null (hV0 _ hv)
    · exact (hVf.preimage (sigma_mk_injective.injOn)).countable
  · have hav : ∀ v ∈ V, formVal v.2 (drawOf (p v.1)) ≠ 0 := by
      rintro ⟨d, v⟩ hv h0
      exact hp d (Set.mem_biUnion (show v ∈ Sigma.mk d ⁻¹' V from hv) h0)
    obtain ⟨a, ha0, ha⟩ : ∃ a : ℝ, 0 < a ∧ ∀ v ∈ V, a < ‖formVal v.2 (drawOf (p v.1))‖ := by
      rcases V.eq_empty_or_nonempty with rfl | hne
      · exact ⟨1, one_pos, by simp⟩
      · obtain ⟨v, hv, hmin⟩ := Set.exists_min_image V (fun v => ‖formVal v.2 (drawOf (p v.1))‖) hVf hne
        have hpos := norm_pos_iff.2 (hav v hv)
        exact ⟨‖formVal v.2 (drawOf (p v.1))‖ / 2, by positivity, fun w hw => lt_of_lt_of_le (by linarith) (hmin w hw)⟩
    refine ⟨a, ha0, fun random atol maxGen hr hle v hv => ?_⟩
    obtain ⟨t, ht, hrt⟩ := hr v.1
    refine ⟨t, ht, ?_⟩
    rw [hrt]
    exact lt_of_le_of_lt hle (ha v hv)

end Spgrep
