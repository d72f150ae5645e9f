/-
C76: what the Grassmann distance measures.
-/
import Verif.Proofs.Angles

namespace Spgrep

open Spec

/-- Principal angles of two subspaces, by principal vectors: orthonormal vectors `u` spanning the first and `v` spanning the
second whose mutual inner products vanish except `⟨u i, v i⟩ = cos (θ i)`, the angles increasing in `[0, π/2]`. -/
structure Spec.IsPrincipal {n k l r : ℕ} (V W : Submodule ℂ (Fin n → ℂ)) (u : Matrix (Fin k) (Fin n) ℂ)
    (v : Matrix (Fin l) (Fin n) ℂ) (θ : Fin r → ℝ) : Prop where
  orth_left : ∀ i j, ∑ m, star (u i m) * u j m = if i = j then 1 else 0
  orth_right : ∀ i j, ∑ m, star (v i m) * v j m = if i = j then 1 else 0
  span_left : Submodule.span ℂ (Set.range fun i => u i) = V
  span_right : Submodule.span ℂ (Set.range fun i => v i) = W
  diag : ∀ i j, ∑ m, star (u i m) * v j m =
    if h : (i : ℕ) = j ∧ (i : ℕ) < r then ((Real.cos (θ ⟨i, h.2⟩) : ℝ) : ℂ) else 0
  mono : Monotone θ
  range : ∀ i, 0 ≤ θ i ∧ θ i ≤ Real.pi / 2

/-- A distance `d ≥ 0` is the largest distance of a unit vector of `V` from `W`. -/
def Spec.IsGap {n : ℕ} (V W : Submodule ℂ (Fin n → ℂ)) (d : ℝ) : Prop :=
  0 ≤ d ∧ (∀ v ∈ V, ∃ w ∈ W, ∑ m, ‖v m - w m‖ ^ 2 ≤ d ^ 2 * ∑ m, ‖v m‖ ^ 2) ∧
  ∃ v ∈ V, v ≠ 0 ∧ ∀ w ∈ W, d ^ 2 * ∑ m, ‖v m‖ ^ 2 ≤ ∑ m, ‖v m - w m‖ ^ 2

theorem grassmann_gap (la : LinAlg) (hla : la.Contract) {n k l : ℕ} (b1 : Matrix (Fin k) (Fin n) ℂ)
    (b2 : Matrix (Fin l) (Fin n) ℂ) (h1 : LinearIndependent ℂ b1.row)
    (h2 : LinearIndependent ℂ b2.row) (hk : 0 < k) (hkl : k ≤ l) :
    ∃ d, grassmannDistance la b1 b2 .min = .ok d ∧ IsGap (rowSpan b1) (rowSpan b2) d := by
  obtain ⟨Q1, Q2, hQ1, hQ2, hf1, hf2, r, hr, σ, hrk, hσ, hd, -⟩ := grassmann_frames hla h1 h2 hk (by omega)
  have hrk' : r = k := by rw [hrk]; exact Nat.min_eq_left hkl
  subst hrk'
  refine ⟨_, hd, Real.sqrt_nonneg _, ?_⟩
  set s := σ ⟨r - 1, by omega⟩ with hs
  have hle : ∀ i, σ i ≤ 1 := corr_le_one hQ1 hQ2 hσ
  have h0 := hσ.2.1
  have hlast : ∀ i, s ≤ σ i := fun i => hσ.1 (show i ≤ ⟨r - 1, by omega⟩ from by
    show (i : ℕ) ≤ r - 1; omega)
  have hsq : gMin s ^ 2 = 1 - s ^ 2 := by
    unfold gMin
    rw [Real.sq_sqrt (le_max_right _ _), max_eq_left]
    have := hle ⟨r - 1, by omega⟩
    have := h0 ⟨r - 1, by omega⟩
    rw [← hs] at *
    nlinarith
  rw [hsq]
  obtain ⟨U, hU, hn⟩ := norm_corr hσ
  have hU' : U.conjTranspose.conjTranspose * U.conjTranspose = 1 := by
    rw [Matrix.conjTranspose_conjTranspose]; exact mul_eq_one_comm.1 hU
  have e2 : ∀ X : Matrix (Fin r) (Fin 1) ℂ, Q2.conjTranspose * (Q1 * X) = (Q1.conjTranspose * Q2).conjTranspose * X := by
    intro X
    rw [Matrix.conjTranspose_mul, Matrix.conjTranspose_conjTranspose, Matrix.mul_assoc]
  constructor
  · intro v hv
    obtain ⟨X, hX⟩ := (mem_rowSpan_frame hf1 v).1 hv
    refine ⟨fun m => (Q2 * (Q2.conjTranspose * (Q1 * X))) m 0, (mem_rowSpan_frame hf2 _).2 ⟨_, fun _ => rfl⟩, ?_⟩
    simp only [hX]
    rw [norm_defect hQ2, e2, hn, norm_frame hQ1, ← norm_frame hU' X, ← Finset.sum_sub_distrib, Finset.mul_sum]
    refine Finset.sum_le_sum fun i _ => ?_
    have := hlast i
    have h3 := h0 ⟨r - 1, by omega⟩
    rw [← hs] at h3
    have h4 : s ^ 2 ≤ σ i ^ 2 := by nlinarith
    nlinarith [sq_nonneg ‖(U.conjTranspose * X) i 0‖]
  · let E : Matrix (Fin r) (Fin 1) ℂ := Matrix.of fun i _ => if i = ⟨r - 1, by omega⟩ then 1 else 0
    have hE : ∑ j, ‖E j 0‖ ^ 2 = 1 := by
      rw [Finset.sum_eq_single ⟨r - 1, by omega⟩ (fun j _ hj => by simp [E, hj]) (fun h => absurd (Finset.mem_univ _) h)]
      simp [E]
    have hv1 : ∑ m, ‖(Q1 * (U * E)) m 0‖ ^ 2 = 1 := by rw [norm_frame hQ1, norm_frame hU, hE]
    refine ⟨fun m => (Q1 * (U * E)) m 0, (mem_rowSpan_frame hf1 _).2 ⟨_, fun _ => rfl⟩, ?_, ?_⟩
    · intro h
      have h5 : ∀ m, (Q1 * (U * E)) m 0 = 0 := fun m => congrFun h m
      simp [h5] at hv1
    · intro w hw
      obtain ⟨C, hC⟩ := (mem_rowSpan_frame hf2 w).1 hw
      simp only [hC]
      refine le_trans (le_of_eq ?_) (norm_nearest hQ2 (Q1 * (U * E)) C)
      rw [hv1, e2, hn, ← Matrix.mul_assoc U.conjTranspose, hU, Matrix.one_mul,
        Finset.sum_eq_single ⟨r - 1, by omega⟩ (fun j _ hj => by simp [E, hj]) (fun h => absurd (Finset.mem_univ _) h)]
      simp [E, hs]

/-- **C76.** For bases of nonzero subspaces and any correct QR and SVD routines: with `ord = "min"` the Grassmann distance is
the gap of the smaller subspace from the larger one, that is the largest distance of a unit vector of the smaller subspace
from the larger; and in terms of the principal angles `θ` it is `sin` of the largest, while `ord = "projection"` gives the
root mean square of all of them. -/
theorem c76_principal_angles (la : LinAlg) (hla : la.Contract) {n k l : ℕ} (b1 : Matrix (Fin k) (Fin n) ℂ)
    (b2 : Matrix (Fin l) (Fin n) ℂ) (h1 : LinearIndependent ℂ b1.row)
    (h2 : LinearIndependent ℂ b2.row) (hk : 0 < k) (hl : 0 < l) :
    (∃ d, grassmannDistance la b1 b2 .min = .ok d ∧
      (k ≤ l → IsGap (rowSpan b1) (rowSpan b2) d) ∧ (l ≤ k → IsGap (rowSpan b2) (rowSpan b1) d)) ∧
    ∀ (u : Matrix (Fin k) (Fin n) ℂ) (v : Matrix (Fin l) (Fin n) ℂ) (r : ℕ) (hr : 0 < r) (θ : Fin r → ℝ),
      r = min k l → IsPrincipal (rowSpan b1) (rowSpan b2) u v θ →
      grassmannDistance la b1 b2 .min = .ok (Real.sin (θ ⟨r - 1, by omega⟩)) ∧
      grassmannDistance la b1 b2 .projection = .ok (Real.sqrt ((∑ i, θ i ^ 2) / r)) := by
  constructor
  · obtain ⟨-, -, h⟩ := c54_grassmann la hla b1 b2 h1 h2 hk hl
    obtain ⟨d, hd, hd', -, -⟩ := h .min (.inl rfl)
    refine ⟨d, hd, fun hkl => ?_, fun hlk => ?_⟩
    · obtain ⟨d', hd'', hg⟩ := grassmann_gap la hla b1 b2 h1 h2 hk hkl
      rw [hd] at hd''
      injection hd'' with e
      rwa [e]
    · obtain ⟨d'', hd'', hg⟩ := grassmann_gap la hla b2 b1 h2 h1 hl hlk
      rw [hd'] at hd''
      injection hd'' with e
      rwa [e]
  · intro u v r hr θ hrk hP
    obtain ⟨Q1, Q2, hQ1, hQ2, ⟨R1, S1, hR1, hS1⟩, ⟨R2, S2, hR2, hS2⟩, r', hr', σ, hrk', hσ, hdm, hdp⟩ :=
      grassmann_frames hla h1 h2 hk hl
    have e : r' = r := by rw [hrk, hrk']
    subst e
    have hu : u.transpose.conjTranspose * u.transpose = 1 := by
      ext i j
      rw [Matrix.mul_apply, Matrix.one_apply, ← hP.orth_left i j]; rfl
    have hv : v.transpose.conjTranspose * v.transpose = 1 := by
      ext i j
      rw [Matrix.mul_apply, Matrix.one_apply, ← hP.orth_right i j]; rfl
    have hcu : ∃ B, u.transpose = Q1 * B := by
      obtain ⟨C, hC⟩ := (span_le_iff u b1).1 (le_of_eq hP.span_left)
      exact ⟨R1 * C.transpose, by rw [hC, Matrix.transpose_mul, hR1, Matrix.mul_assoc]⟩
    have hcv : ∃ B, v.transpose = Q2 * B := by
      obtain ⟨C, hC⟩ := (span_le_iff v b2).1 (le_of_eq hP.span_right)
      exact ⟨R2 * C.transpose, by rw [hC, Matrix.transpose_mul, hR2, Matrix.mul_assoc]⟩
    have hrk1 : r' ≤ k := by rw [hrk]; exact min_le_left _ _
    have hrk2 : r' ≤ l := by rw [hrk]; exact min_le_right _ _
    have hcos : ∀ i, 0 ≤ Real.cos (θ i) := fun i =>
      Real.cos_nonneg_of_neg_pi_div_two_le_of_le (by linarith [(hP.range i).1, Real.pi_pos]) (hP.range i).2
    have hτ : IsSVD (u.transpose.conjTranspose * v.transpose) (fun i => Real.cos (θ i)) := by
      refine ⟨?_, hcos, Matrix.of fun i j => if (i : ℕ) = j then 1 else 0, Matrix.of fun i j => if (i : ℕ) = j then 1 else 0,
        ?_, ?_, ?_⟩
      · intro i j hij
        exact Real.cos_le_cos_of_nonneg_of_le_pi (hP.range i).1 (by linarith [(hP.range j).2, Real.pi_pos]) (hP.mono hij)
      · ext i j
        rw [Matrix.mul_apply, Finset.sum_eq_single (Fin.castLE hrk1 i)]
        · simp [Matrix.one_apply, Fin.ext_iff]
        · intro b _ hb
          have : (b : ℕ) ≠ i := fun h => hb (Fin.ext h)
          simp [this]
        · intro h; exact absurd (Finset.mem_univ _) h
      · ext i j
        rw [Matrix.mul_apply, Finset.sum_eq_single (Fin.castLE hrk2 i)]
        · simp [Matrix.one_apply, Fin.ext_iff]
        · intro b _ hb
          have : (b : ℕ) ≠ i := fun h => hb (Fin.ext h)
          simp [this]
        · intro h; exact absurd (Finset.mem_univ _) h
      · ext i j
        have h3 : (u.transpose.conjTranspose * v.transpose) i j = ∑ m, star (u i m) * v j m := by
          rw [Matrix.mul_apply]; rfl
        rw [h3, hP.diag, Matrix.mul_apply]
        by_cases hij : (i : ℕ) = j ∧ (i : ℕ) < r'
        · rw [dif_pos hij, Finset.sum_eq_single ⟨i, hij.2⟩]
          · simp [Matrix.mul_diagonal, hij.1.symm]
          · intro b _ hb
            have : (i : ℕ) ≠ b := fun h => hb (Fin.ext h.symm)
            simp [Matrix.mul_diagonal, this]
          · intro h; exact absurd (Finset.mem_univ _) h
        · rw [dif_neg hij]
          symm
          refine Finset.sum_eq_zero fun b _ => ?_
          rw [Matrix.mul_diagonal, Matrix.conjTranspose_apply]
          by_cases hb1 : (i : ℕ) = b
          · have hb2 : (j : ℕ) ≠ b := fun h => hij ⟨hb1.trans h.symm, by omega⟩
            simp [hb2]
          · simp [hb1]
    have hst := corr_frame_indep hrk' hQ1 hu hQ2 hv hcu hcv hσ hτ
    subst hst
    constructor
    · rw [hdm]
      congr 1
      have hs := hP.range ⟨r' - 1, by omega⟩
      have : 0 ≤ Real.sin (θ ⟨r' - 1, by omega⟩) :=
        Real.sin_nonneg_of_nonneg_of_le_pi hs.1 (by linarith [hs.2, Real.pi_pos])
      unfold gMin
      rw [max_eq_left (by nlinarith [Real.cos_le_one (θ ⟨r' - 1, by omega⟩), hcos ⟨r' - 1, by omega⟩]),
        ← Real.sin_sq, Real.sqrt_sq this]
    · rw [hdp]
      congr 1
      unfold gProj
      congr 2
      refine Finset.sum_congr rfl fun i _ => ?_
      rw [max_eq_left (by linarith [hcos i]), min_eq_left (Real.cos_le_one _),
        Real.arccos_cos (hP.range i).1 (by linarith [(hP.range i).2, Real.pi_pos])]

/-- The hypotheses are met: the first axis of the plane and the diagonal meet at the angle `π/4`, so that the distances are
`sin (π/4)` and `π/4`. -/
example (la : LinAlg) (hla : la.Contract) :
    grassmannDistance la (!![1, 0] : Matrix (Fin 1) (Fin 2) ℂ) (!![1, 1] : Matrix (Fin 1) (Fin 2) ℂ) .min =
      .ok (Real.sin (Real.pi / 4)) ∧
    grassmannDistance la (!![1, 0] : Matrix (Fin 1) (Fin 2) ℂ) (!![1, 1] : Matrix (Fin 1) (Fin 2) ℂ) .projection =
      .ok (Real.pi / 4) := by
  have hli1 : LinearIndependent ℂ (!![1, 0] : Matrix (Fin 1) (Fin 2) ℂ).row := by
    rw [linearIndependent_unique_iff]
    intro h
    simpa using congrFun h 0
  have hli2 : LinearIndependent ℂ (!![1, 1] : Matrix (Fin 1) (Fin 2) ℂ).row := by
    rw [linearIndependent_unique_iff]
    intro h
    simpa using congrFun h 0
  have hs2 : ((Real.sqrt 2 : ℝ) : ℂ) * ((Real.sqrt 2 : ℝ) : ℂ) = 2 := by
    rw [← Complex.ofReal_mul, Real.mul_self_sqrt (by norm_num)]; norm_num
  have hs0 : ((Real.sqrt 2 : ℝ) : ℂ) ≠ 0 := by
    intro h; rw [h] at hs2; norm_num at hs2
  have hP : IsPrincipal (rowSpan (!![1, 0] : Matrix (Fin 1) (Fin 2) ℂ)) (rowSpan (!![1, 1] : Matrix (Fin 1) (Fin 2) ℂ))
      (!![1, 0] : Matrix (Fin 1) (Fin 2) ℂ)
      (!![((Real.sqrt 2 : ℝ) : ℂ) / 2, ((Real.sqrt 2 : ℝ) : ℂ) / 2] : Matrix (Fin 1) (Fin 2) ℂ)
      (fun _ : Fin 1 => Real.pi / 4) := by
    refine ⟨?_, ?_, rfl, ?_, ?_, monotone_const, fun _ => ⟨by positivity, by linarith [Real.pi_pos]⟩⟩
    · intro i j; fin_cases i; fin_cases j; simp
    · intro i j; fin_cases i; fin_cases j
      simp
      rw [show (starRingEnd ℂ) 2 = 2 from Complex.conj_ofNat 2]
      linear_combination hs2 / 2
    · apply le_antisymm
      · rw [Submodule.span_le]
        rintro _ ⟨i, rfl⟩
        fin_cases i
        refine Submodule.mem_span_range_iff_exists_fun ℂ |>.2 ⟨fun _ => ((Real.sqrt 2 : ℝ) : ℂ) / 2, ?_⟩
        funext m; fin_cases m <;> simp
      · rw [Submodule.span_le]
        rintro _ ⟨i, rfl⟩
        fin_cases i
        refine Submodule.mem_span_range_iff_exists_fun ℂ |>.2 ⟨fun _ => ((Real.sqrt 2 : ℝ) : ℂ), ?_⟩
        funext m; fin_cases m <;> simp <;> linear_combination hs2 / 2
    · intro i j; fin_cases i; fin_cases j
      simp [Real.cos_pi_div_four]
  have := (c76_principal_angles la hla _ _ hli1 hli2 (by norm_num) (by norm_num)).2 _ _ 1 (by norm_num) _ rfl hP
  refine ⟨this.1, ?_⟩
  rw [this.2]
  congr 1
  simp [Real.sqrt_sq (show (0 : ℝ) ≤ Real.pi / 4 by positivity)]

end Spgrep
