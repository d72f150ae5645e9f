/-
The tolerance of the little group at k-points without near misses.
-/
import Verif.Spec.NearMiss
import Verif.Model.Transform
import Verif.Proofs.MatrixGroup

namespace Spgrep

open Spec Matrix

variable {n : ℕ}

/-- The residual of a rotation in the primitive basis, in conventional terms. -/
theorem residual_generators {P : R3} {R S : M3} (h : P * realMat S = realMat R * P) {kc k' : V3}
    (hk' : ∀ a, k' a = ∑ b, P b a * kc b) (a : Fin 3) :
    residual S k' a = ∑ c, residual R kc c * P c a := by
  have h1 : ∀ b, ∑ c, P b c * (S c a : ℝ) = ∑ c, (R b c : ℝ) * P c a := fun b => by
    have := congrFun (congrFun h b) a
    simpa [Matrix.mul_apply, realMat] using this
  have e0 := h1 0
  have e1 := h1 1
  have e2 := h1 2
  simp only [Fin.sum_univ_three] at e0 e1 e2
  unfold residual
  simp only [hk', Fin.sum_univ_three]
  linear_combination kc 0 * e0 + kc 1 * e1 + kc 2 * e2

/-- The lattice test only needs the generating vectors. -/
theorem fixesKLattice_generators {P : R3} {R : M3} {k : V3} :
    FixesKLattice P R k ↔ ∀ a, ∃ m : ℤ, ∑ c, residual R k c * P c a = m := by
  constructor
  · intro h a
    refine h (fun c => P c a) ⟨fun b => if b = a then 1 else 0, fun c => ?_⟩
    simp
  · intro h x hx
    obtain ⟨m, hm⟩ := hx
    choose z hz using h
    refine ⟨∑ a, z a * m a, ?_⟩
    push_cast
    simp only [← hz]
    change ∑ a, residual R k a * x a = _
    simp only [hm, Fin.sum_univ_three]
    ring

/-- Without near misses the tolerance test is exact for the primitive form of every operation. -/
theorem inLittle_of_noNearMiss {P : R3} {rots : Fin n → M3} {kc k' : V3} {atol : ℝ} (h0 : 0 ≤ atol)
    (h : NoNearMiss P rots kc atol) {i : Fin n} {S : M3} (hS : P * realMat S = realMat (rots i) * P)
    (hk' : ∀ a, k' a = ∑ b, P b a * kc b) (hfix : FixesKLattice P (rots i) kc ↔ FixesK S k') :
    InLittle S k' atol ↔ FixesK S k' := by
  rw [inLittle_iff]
  constructor
  · rintro ⟨m, hm⟩
    refine hfix.1 (h i ⟨m, fun a => ?_⟩)
    have := hm a
    rw [residual_generators hS hk'] at this
    exact this
  · intro hf
    choose m hm using fixesK_iff.1 hf
    refine ⟨m, fun a => ?_⟩
    rw [hm, sub_self, abs_zero]
    exact h0

/-- Rational k-points with `atol < 1/N` have no near misses. -/
theorem noNearMiss_of_rational {P : R3} {rots : Fin n → M3}
    (hint : ∀ i, ∃ S : M3, (rots i).map (fun x => (x : ℝ)) * P = P * S.map (fun x => (x : ℝ))) {kc : V3} {N : ℕ}
    (hN : 0 < N) (hk : ∀ a, ∃ c : ℤ, (N : ℝ) * ∑ b, P b a * kc b = c) {atol : ℝ} (h0 : 0 ≤ atol) (hat : atol < 1 / N) :
    NoNearMiss P rots kc atol := by
  rintro i ⟨m, hm⟩
  obtain ⟨S, hS⟩ := hint i
  have hS' : P * realMat S = realMat (rots i) * P := hS.symm
  have hr := residual_generators hS' (kc := kc) (k' := fun a => ∑ b, P b a * kc b) fun _ => rfl
  have h1 : InLittle S (fun a => ∑ b, P b a * kc b) atol := inLittle_iff.2 ⟨m, fun a => by
    rw [hr]
    exact hm a⟩
  have h2 := (inLittle_iff_fixesK hN hk h0 hat).1 h1
  rw [fixesKLattice_generators]
  intro a
  obtain ⟨z, hz⟩ := fixesK_iff.1 h2 a
  exact ⟨z, (hr a).symm.trans hz⟩

theorem near_rint {x : ℝ} (h : ¬ ∃ m : ℤ, x = m) : 0 < |x - rint x| := by
  rw [abs_pos]
  intro h0
  exact h ⟨rint x, by linarith⟩

/-- Finitely many real triples: below a positive threshold, a triple within the tolerance of an integral triple is integral;
from the threshold on, some triple is a near miss, unless all are integral. -/
theorem threshold (x : Fin n → V3) : ∃ δ : ℝ, 0 < δ ∧
    (∀ atol < δ, ∀ i, (∃ m : Fin 3 → ℤ, ∀ a, |x i a - m a| ≤ atol) → ∀ a, ∃ m : ℤ, x i a = m) ∧
    ∀ atol ≥ δ, (∀ i, (∃ m : Fin 3 → ℤ, ∀ a, |x i a - m a| ≤ atol) → ∀ a, ∃ m : ℤ, x i a = m) →
      ∀ i a, ∃ m : ℤ, x i a = m := by
  classical
  let bad : Finset (Fin n) := Finset.univ.filter fun i => ¬ ∀ a, ∃ m : ℤ, x i a = m
  let dist : Fin n → ℝ := fun i => Finset.univ.sup' Finset.univ_nonempty fun a => |x i a - rint (x i a)|
  have hle : ∀ i a, |x i a - rint (x i a)| ≤ dist i := fun i a =>
    Finset.le_sup' (fun a => |x i a - rint (x i a)|) (Finset.mem_univ a)
  by_cases hb : bad.Nonempty
  · obtain ⟨i₀, hi₀, hmin⟩ := Finset.exists_min_image bad dist hb
    refine ⟨dist i₀, ?_, fun atol hat i ⟨m, hm⟩ => ?_, fun atol hat h => ?_⟩
    · have := (Finset.mem_filter.1 hi₀).2
      push Not at this
      obtain ⟨a, ha⟩ := this
      exact (near_rint (fun ⟨m, hm⟩ => ha m hm)).trans_le (hle i₀ a)
    · by_contra hc
      have h1 := hmin i (Finset.mem_filter.2 ⟨Finset.mem_univ _, hc⟩)
      have h2 : dist i ≤ atol := Finset.sup'_le _ _ fun a _ => (abs_sub_rint_le_abs_sub _ (m a)).trans (hm a)
      linarith
    · exact absurd (h i₀ ⟨fun a => rint (x i₀ a), fun a => (hle i₀ a).trans hat⟩) (Finset.mem_filter.1 hi₀).2
  · have hall : ∀ i a, ∃ m : ℤ, x i a = m := by
      intro i
      by_contra hc
      exact hb ⟨i, Finset.mem_filter.2 ⟨Finset.mem_univ _, hc⟩⟩
    exact ⟨1, one_pos, fun _ _ i _ => hall i, fun _ _ _ => hall⟩

/-- Every k-point has a positive tolerance below which there are no near misses. -/
theorem exists_noNearMiss (P : R3) (rots : Fin n → M3) (k : V3) : ∃ δ : ℝ, 0 < δ ∧ ∀ atol < δ, NoNearMiss P rots k atol := by
  obtain ⟨δ, h0, h1, -⟩ := threshold fun i a => ∑ c, residual (rots i) k c * P c a
  exact ⟨δ, h0, fun atol hat i hi => fixesKLattice_generators.2 (h1 atol hat i hi)⟩

theorem noNearMiss_zero (P : R3) (rots : Fin n → M3) (k : V3) : NoNearMiss P rots k 0 := by
  obtain ⟨δ, h0, h1⟩ := exists_noNearMiss P rots k
  exact h1 0 h0

end Spgrep
