/-
Helper lemmas: is_matrix_group, little groups.
-/
import Verif.Proofs.Group
import Verif.Proofs.Numeric
import Verif.Spec.SpaceGroup
import Mathlib.LinearAlgebra.Matrix.NonsingularInverse

namespace Spgrep

open Spec

variable {n : ℕ}

theorem cayley_none_spec {rots : Fin n → M3} {T : Fin n → Fin n → Fin n}
    (h : getCayleyTable rots = .ok T) (i j : Fin n) :
    rots (T i j) = rots i * rots j ∧ ∀ l < T i j, rots l ≠ rots i * rots j := by
  rw [getCayleyTable_ok] at h
  have := h i j
  unfold cayleyEntry at this
  rw [indexOf?_eq_some] at this
  simp only [flagsOf, Option.getD_none, ne_eq, not_true_eq_false, ↓reduceIte, Prod.mk.injEq,
    and_true] at this
  exact this

theorem isMatrixGroup_iff {rots : Fin n → M3} :
    isMatrixGroup rots = true ↔
      ∃ T, getCayleyTable rots = .ok T ∧ ∀ i, Function.Surjective (T i) := by
  unfold isMatrixGroup
  split
  · rename_i x hx
    simp [hx]
  · rename_i T hT
    simp only [hT, decide_eq_true_eq, Except.ok.injEq, exists_eq_left']
    constructor
    · intro h i k
      have : k ∈ Finset.univ.image (T i) := by rw [h]; simp
      simpa using this
    · intro h i
      ext k
      simpa using h i k

theorem isMatrixGroup_of_enumerates {rots : Fin n → M3} (h : EnumeratesGroup rots) :
    isMatrixGroup rots = true := by
  obtain ⟨T, H, e, hT, hmul, _⟩ := cayley_of_group h
  rw [isMatrixGroup_iff]
  refine ⟨T, hT, fun i k => ⟨e.symm ((e i)⁻¹ * e k), e.injective ?_⟩⟩
  simp [hmul]

theorem mul_left_cancel_of_det {A B C : M3} (hA : A.det ≠ 0) (h : A * B = A * C) : B = C := by
  have h2 : A.adjugate * (A * B) = A.adjugate * (A * C) := by rw [h]
  rw [← Matrix.mul_assoc, ← Matrix.mul_assoc, Matrix.adjugate_mul, Matrix.smul_mul, Matrix.smul_mul,
    Matrix.one_mul, Matrix.one_mul] at h2
  ext i j
  have h3 := congrFun (congrFun h2 i) j
  simp only [Matrix.smul_apply, smul_eq_mul] at h3
  exact mul_left_cancel₀ hA h3

theorem enumerates_of_isMatrixGroup {rots : Fin n → M3} (hn : 0 < n)
    (hdet : ∀ i, (rots i).det ≠ 0) (h : isMatrixGroup rots = true) : EnumeratesGroup rots := by
  rw [isMatrixGroup_iff] at h
  obtain ⟨T, hT, hsurj⟩ := h
  have hmul : ∀ i j, rots (T i j) = rots i * rots j := fun i j => (cayley_none_spec hT i j).1
  have hbij : ∀ i, Function.Bijective (T i) := fun i =>
    (Finite.injective_iff_bijective).1 ((Finite.injective_iff_surjective).2 (hsurj i))
  -- distinct
  have hinj : Function.Injective rots := by
    intro a b hab
    apply (hbij a).1
    have h1 := cayley_none_spec hT a a
    have h2 := cayley_none_spec hT a b
    rw [← hab] at h2
    rcases lt_trichotomy (T a a) (T a b) with h3 | h3 | h3
    · exact absurd h1.1 (h2.2 _ h3)
    · exact h3
    · exact absurd h2.1 (h1.2 _ h3)
  -- identity
  obtain ⟨e, he⟩ := hsurj ⟨0, hn⟩ ⟨0, hn⟩
  have hone : rots e = 1 := by
    have := hmul ⟨0, hn⟩ e
    rw [he] at this
    exact (mul_left_cancel_of_det (hdet ⟨0, hn⟩) (by rw [Matrix.mul_one]; exact this)).symm
  -- inverses
  have hinv : ∀ i, ∃ j, rots i * rots j = 1 := by
    intro i
    obtain ⟨j, hj⟩ := hsurj i e
    exact ⟨j, by rw [← hmul, hj, hone]⟩
  refine ⟨hinj, ⟨⟨⟨{g : GL (Fin 3) ℤ | (g : M3) ∈ Set.range rots}, ?_⟩, ?_⟩, ?_⟩, ?_⟩
  · rintro a b ⟨i, hi⟩ ⟨j, hj⟩
    exact ⟨T i j, by rw [hmul, hi, hj]; simp⟩
  · exact ⟨e, by simp [hone]⟩
  · rintro a ⟨i, hi⟩
    obtain ⟨j, hj⟩ := hinv i
    refine ⟨j, ?_⟩
    rw [hi] at hj
    have : (a⁻¹ : GL (Fin 3) ℤ).val * (a.val * rots j) = (a⁻¹ : GL (Fin 3) ℤ).val := by
      rw [hj, Matrix.mul_one]
    rw [← Matrix.mul_assoc, ← Units.val_mul] at this
    simpa using this
  · ext M
    constructor
    · rintro ⟨i, rfl⟩
      obtain ⟨j, hj⟩ := hinv i
      have hji : rots j * rots i = 1 := mul_eq_one_comm.1 hj
      exact ⟨⟨rots i, rots j, hj, hji⟩, ⟨i, rfl⟩, rfl⟩
    · rintro ⟨g, ⟨i, hi⟩, rfl⟩
      exact ⟨i, hi⟩

theorem residual_mul (R S : M3) (k : V3) (a : Fin 3) :
    residual (R * S) k a = (∑ b, (S b a : ℝ) * residual R k b) + residual S k a := by
  unfold residual
  simp only [Matrix.mul_apply, Fin.sum_univ_three]
  push_cast
  ring

theorem fixesK_iff {R : M3} {k : V3} : FixesK R k ↔ ∀ a, ∃ m : ℤ, residual R k a = m := Iff.rfl

theorem FixesK.mul {R S : M3} {k : V3} (hR : FixesK R k) (hS : FixesK S k) : FixesK (R * S) k := by
  rw [fixesK_iff] at *
  intro a
  choose r hr using hR
  obtain ⟨s, hs⟩ := hS a
  rw [residual_mul, hs]
  simp only [hr]
  exact ⟨(∑ b, S b a * r b) + s, by push_cast; rfl⟩

theorem residual_one (k : V3) (a : Fin 3) : residual 1 k a = 0 := by
  unfold residual
  simp [Matrix.one_apply]

theorem FixesK.one (k : V3) : FixesK 1 k := by
  rw [fixesK_iff]
  intro a
  exact ⟨0, by rw [residual_one]; simp⟩

theorem FixesK.inv {R S : M3} {k : V3} (hRS : R * S = 1) (hR : FixesK R k) : FixesK S k := by
  rw [fixesK_iff] at *
  choose r hr using hR
  intro a
  have h := residual_mul R S k a
  rw [hRS, residual_one] at h
  simp only [hr] at h
  exact ⟨-(∑ b, S b a * r b), by push_cast; linarith⟩

theorem inLittle_iff {R : M3} {k : V3} {atol : ℝ} :
    InLittle R k atol ↔ ∃ m : Fin 3 → ℤ, ∀ a, |residual R k a - m a| ≤ atol := by
  unfold InLittle AllClose IsClose
  simp only [sub_zero, abs_zero, mul_zero, add_zero]
  constructor
  · intro h
    exact ⟨fun a => rint (residual R k a), h⟩
  · rintro ⟨m, hm⟩ a
    exact (abs_sub_rint_le_abs_sub _ _).trans (hm a)

/-- For a k-point with common denominator `N` and `atol < 1/N` the tolerance test is exact. -/
theorem inLittle_iff_fixesK {R : M3} {k : V3} {atol : ℝ} {N : ℕ} (hN : 0 < N)
    (hk : ∀ a, ∃ c : ℤ, (N : ℝ) * k a = c) (h0 : 0 ≤ atol) (hat : atol < 1 / N) :
    InLittle R k atol ↔ FixesK R k := by
  rw [inLittle_iff]
  have hN' : (0 : ℝ) < N := by exact_mod_cast hN
  constructor
  · rintro ⟨m, hm⟩
    rw [fixesK_iff]
    intro a
    refine ⟨m a, ?_⟩
    choose c hc using hk
    have hint : (N : ℝ) * residual R k a = ((∑ b, R b a * c b - c a : ℤ) : ℝ) := by
      unfold residual
      rw [mul_sub, Finset.mul_sum, hc]
      push_cast
      congr 1
      apply Finset.sum_congr rfl
      intro b _
      rw [← hc b]; ring
    have h2 : |(N : ℝ) * residual R k a - N * m a| < 1 := by
      rw [← mul_sub, abs_mul, abs_of_pos hN']
      have := mul_lt_mul_of_pos_left ((hm a).trans_lt hat) hN'
      rwa [mul_one_div_cancel hN'.ne'] at this
    rw [hint] at h2
    have h3 : |(∑ b, R b a * c b - c a) - (N : ℤ) * m a| < 1 := by
      exact_mod_cast h2
    rw [Int.abs_lt_one_iff] at h3
    have h4 : (N : ℝ) * residual R k a = N * m a := by
      rw [hint]
      have : (∑ b, R b a * c b - c a) = (N : ℤ) * m a := by omega
      rw [this]; push_cast; rfl
    exact mul_left_cancel₀ hN'.ne' h4
  · intro h
    rw [fixesK_iff] at h
    choose m hm using h
    exact ⟨m, fun a => by rw [hm]; simpa using h0⟩

theorem mem_littleMapping {rots : Fin n → M3} {k : V3} {atol : ℝ} {i : Fin n} :
    i ∈ littleMapping rots k atol ↔ InLittle (rots i) k atol := by
  unfold littleMapping
  simp

theorem littleMapping_sorted (rots : Fin n → M3) (k : V3) (atol : ℝ) :
    (littleMapping rots k atol).Pairwise (· < ·) := by
  unfold littleMapping
  exact (List.pairwise_lt_finRange n).filter _

theorem littleMapping_nodup (rots : Fin n → M3) (k : V3) (atol : ℝ) :
    (littleMapping rots k atol).Nodup :=
  (littleMapping_sorted rots k atol).imp (fun h => h.ne)

/-- The rotations of the little group, as an array. -/
theorem little_enumerates {rots : Fin n → M3} {k : V3} {atol : ℝ} (h : EnumeratesGroup rots)
    (hex : ∀ i, InLittle (rots i) k atol ↔ FixesK (rots i) k) :
    EnumeratesGroup fun i => rots ((littleMapping rots k atol).get i) := by
  obtain ⟨hinj, H, hH⟩ := h
  refine ⟨?_, ⟨⟨⟨{g : GL (Fin 3) ℤ | g ∈ H ∧ FixesK (g : M3) k}, ?_⟩, ?_⟩, ?_⟩, ?_⟩
  · intro i j hij
    exact (List.nodup_iff_injective_get.1 (littleMapping_nodup rots k atol)) (hinj hij)
  · rintro a b ⟨ha, hak⟩ ⟨hb, hbk⟩
    exact ⟨H.mul_mem ha hb, by simpa using FixesK.mul hak hbk⟩
  · exact ⟨H.one_mem, by simpa using FixesK.one k⟩
  · rintro a ⟨ha, hak⟩
    exact ⟨H.inv_mem ha, FixesK.inv (R := a) (by rw [← Units.val_mul]; simp) hak⟩
  · ext M
    constructor
    · rintro ⟨i, rfl⟩
      have hmem : (littleMapping rots k atol).get i ∈ littleMapping rots k atol := List.get_mem _ _
      rw [mem_littleMapping, hex] at hmem
      have : rots ((littleMapping rots k atol).get i) ∈ Set.range rots := ⟨_, rfl⟩
      rw [hH] at this
      obtain ⟨g, hg, hgr⟩ := this
      refine ⟨g, ⟨hg, ?_⟩, hgr⟩
      simp only at hgr
      rw [hgr]; exact hmem
    · rintro ⟨g, ⟨hg, hgk⟩, rfl⟩
      have : (g : M3) ∈ Set.range rots := by rw [hH]; exact ⟨g, hg, rfl⟩
      obtain ⟨i, hi⟩ := this
      have hmem : i ∈ littleMapping rots k atol := by
        rw [mem_littleMapping, hex, hi]; exact hgk
      obtain ⟨p, hp⟩ := List.get_of_mem hmem
      exact ⟨p, by simp only; rw [hp, hi]⟩

end Spgrep
