/-
Existence and uniqueness of singular values and QR factors (in the sense of Spec/LinAlg).
-/
import Verif.Spec.LinAlg
import Mathlib.Analysis.Matrix.Spectrum
import Mathlib.Analysis.Matrix.PosDef
import Mathlib.LinearAlgebra.Matrix.Charpoly.Basic
import Mathlib.Data.Fin.Tuple.Sort
import Mathlib.Analysis.InnerProductSpace.PiL2

namespace Spgrep

open Spec
open scoped ComplexOrder

/-- Extend a partial family of orthonormal columns. -/
theorem exists_orthonormal_extension {b r : ℕ} (hr : r ≤ b) (V : Matrix (Fin b) (Fin r) ℂ)
    (s : Set (Fin r))
    (hs : ∀ i ∈ s, ∀ j ∈ s, ∑ x, star (V x i) * V x j = if i = j then 1 else 0) :
    ∃ W : Matrix (Fin b) (Fin r) ℂ, W.conjTranspose * W = 1 ∧ ∀ i ∈ s, ∀ x, W x i = V x i := by
  classical
  let v : Fin b → EuclideanSpace ℂ (Fin b) := fun j =>
    if h : (j : ℕ) < r then WithLp.toLp 2 (fun x => V x ⟨j, h⟩) else 0
  let s' : Set (Fin b) := {j | ∃ h : (j : ℕ) < r, (⟨j, h⟩ : Fin r) ∈ s}
  have horth : Orthonormal ℂ (s'.restrict v) := by
    rw [orthonormal_iff_ite]
    rintro ⟨i, hi, his⟩ ⟨j, hj, hjs⟩
    have ei : s'.restrict v ⟨i, hi, his⟩ = WithLp.toLp 2 (fun x => V x ⟨i, hi⟩) := dif_pos hi
    have ej : s'.restrict v ⟨j, hj, hjs⟩ = WithLp.toLp 2 (fun x => V x ⟨j, hj⟩) := dif_pos hj
    rw [ei, ej]
    rw [EuclideanSpace.inner_eq_star_dotProduct]
    have h1 := hs _ his _ hjs
    simp only [dotProduct, Pi.star_apply]
    have h2 : (if (⟨i, hi, his⟩ : s') = ⟨j, hj, hjs⟩ then (1 : ℂ) else 0) =
        if (⟨(i : ℕ), hi⟩ : Fin r) = ⟨(j : ℕ), hj⟩ then 1 else 0 := by
      congr 1
      simp [Fin.ext_iff]
    rw [h2, ← h1]
    exact Finset.sum_congr rfl fun x _ => mul_comm _ _
  obtain ⟨B, hB⟩ := horth.exists_orthonormalBasis_extension_of_card_eq (by simp)
  refine ⟨Matrix.of fun x i => B (Fin.castLE hr i) x, ?_, ?_⟩
  · ext i j
    have h1 := B.orthonormal
    rw [orthonormal_iff_ite] at h1
    have h2 := h1 (Fin.castLE hr i) (Fin.castLE hr j)
    rw [EuclideanSpace.inner_eq_star_dotProduct] at h2
    simp only [dotProduct, Pi.star_apply] at h2
    rw [Matrix.mul_apply, Matrix.one_apply]
    have h3 : (if Fin.castLE hr i = Fin.castLE hr j then (1 : ℂ) else 0) = if i = j then 1 else 0 := by
      congr 1
      simp
    rw [← h3, ← h2]
    exact Finset.sum_congr rfl fun x _ => by simp [mul_comm]
  · intro i hi x
    have h1 := hB (Fin.castLE hr i) ⟨i.2, hi⟩
    simp only [Matrix.of_apply, h1, v]
    rw [dif_pos (show ((Fin.castLE hr i : Fin b) : ℕ) < r from i.2)]
    rfl

theorem exists_svd_of_le {a b : ℕ} (hab : a ≤ b) (A : Matrix (Fin a) (Fin b) ℂ) :
    ∃ σ : Fin a → ℝ, IsSVD A σ := by
  classical
  have hH : (A * A.conjTranspose).IsHermitian := Matrix.isHermitian_mul_conjTranspose_self A
  have hpos : (A * A.conjTranspose).PosSemidef := Matrix.posSemidef_self_mul_conjTranspose A
  let f := hH.eigenvalues
  have hf0 : ∀ i, 0 ≤ f i := hpos.eigenvalues_nonneg
  let U0 : Matrix (Fin a) (Fin a) ℂ := (hH.eigenvectorUnitary : Matrix (Fin a) (Fin a) ℂ)
  have hU0 : U0.conjTranspose * U0 = 1 := by
    have := Matrix.mem_unitaryGroup_iff'.1 hH.eigenvectorUnitary.2
    exact this
  have hspec : A * A.conjTranspose * U0 = U0 * Matrix.diagonal (fun i => (f i : ℂ)) := by
    have h := hH.spectral_theorem
    have h2 : A * A.conjTranspose = U0 * Matrix.diagonal (fun i => (f i : ℂ)) * U0.conjTranspose := by
      conv_lhs => rw [h]
      rw [Unitary.conjStarAlgAut_apply]
      rfl
    rw [h2, Matrix.mul_assoc, hU0, Matrix.mul_one]
  let π := Tuple.sort (fun i => - f i)
  have hπ : Monotone ((fun i => - f i) ∘ π) := Tuple.monotone_sort _
  let σ : Fin a → ℝ := fun i => Real.sqrt (f (π i))
  let U : Matrix (Fin a) (Fin a) ℂ := Matrix.of fun x i => U0 x (π i)
  have hU : U.conjTranspose * U = 1 := by
    ext i j
    have := congrFun (congrFun hU0 (π i)) (π j)
    rw [Matrix.mul_apply] at this ⊢
    rw [Matrix.one_apply] at this ⊢
    rw [show (if i = j then (1 : ℂ) else 0) = if π i = π j then 1 else 0 by
      congr 1; simp]
    exact this
  let B := A.conjTranspose * U
  have hBB : B.conjTranspose * B = Matrix.diagonal (fun i => ((σ i : ℂ)) ^ 2) := by
    have h1 : A * A.conjTranspose * U = U * Matrix.diagonal (fun i => (f (π i) : ℂ)) := by
      ext x i
      have := congrFun (congrFun hspec x) (π i)
      rw [Matrix.mul_diagonal] at this ⊢
      rw [Matrix.mul_apply] at this ⊢
      exact this
    calc B.conjTranspose * B = U.conjTranspose * (A * A.conjTranspose * U) := by
          simp only [B, Matrix.conjTranspose_mul, Matrix.conjTranspose_conjTranspose, Matrix.mul_assoc]
      _ = Matrix.diagonal (fun i => (f (π i) : ℂ)) := by
          rw [h1, ← Matrix.mul_assoc, hU, Matrix.one_mul]
      _ = _ := by
          congr 1
          funext i
          simp only [σ]
          rw [← Complex.ofReal_pow, Real.sq_sqrt (hf0 _)]
  have hBent : ∀ i j, ∑ x, star (B x i) * B x j = if i = j then ((σ i : ℂ)) ^ 2 else 0 := by
    intro i j
    have := congrFun (congrFun hBB i) j
    rw [Matrix.mul_apply, Matrix.diagonal_apply] at this
    rw [← this]
    rfl
  obtain ⟨V, hV1, hV2⟩ := exists_orthonormal_extension hab
    (Matrix.of fun x i => (σ i : ℂ)⁻¹ * B x i) {i | σ i ≠ 0} (by
      intro i hi j hj
      have hi0 : (σ i : ℂ) ≠ 0 := by exact_mod_cast hi
      have hj0 : (σ j : ℂ) ≠ 0 := by exact_mod_cast hj
      have : ∀ x, star ((σ i : ℂ)⁻¹ * B x i) * ((σ j : ℂ)⁻¹ * B x j) =
          (σ i : ℂ)⁻¹ * (σ j : ℂ)⁻¹ * (star (B x i) * B x j) := by
        intro x
        simp only [star_mul', RCLike.star_def, map_inv₀, Complex.conj_ofReal]
        ring
      simp only [Matrix.of_apply, this, ← Finset.mul_sum, hBent]
      split_ifs with hij
      · subst hij; field_simp
      · simp)
  refine ⟨σ, ?_, fun i => Real.sqrt_nonneg _, U, V, hU, hV1, ?_⟩
  · intro i j hij
    apply Real.sqrt_le_sqrt
    have := hπ hij
    simp only [Function.comp] at this
    linarith
  · have hVB : V * Matrix.diagonal (fun i => (σ i : ℂ)) = B := by
      ext x i
      rw [Matrix.mul_diagonal]
      by_cases hi : σ i = 0
      · have h0 := hBent i i
        rw [if_pos rfl, hi] at h0
        have h1 : ∀ x, star (B x i) * B x i = ((‖B x i‖ ^ 2 : ℝ) : ℂ) := by
          intro x
          have := Complex.conj_mul' (B x i)
          simp only [RCLike.star_def]
          rw [this]; push_cast; rfl
        simp only [h1] at h0
        rw [← Complex.ofReal_sum] at h0
        have h2 : ∑ x, ‖B x i‖ ^ 2 = 0 := by
          have h0' : ((∑ x, ‖B x i‖ ^ 2 : ℝ) : ℂ) = ((0 : ℝ) : ℂ) := by rw [h0]; simp
          exact_mod_cast h0'
        rw [Finset.sum_eq_zero_iff_of_nonneg (fun _ _ => by positivity)] at h2
        have h3 := h2 x (Finset.mem_univ _)
        have h4 : B x i = 0 := by simpa using h3
        rw [hi, h4]; simp
      · have hi0 : (σ i : ℂ) ≠ 0 := by exact_mod_cast hi
        rw [hV2 i hi x]
        simp only [Matrix.of_apply]
        field_simp
    have hUU : U * U.conjTranspose = 1 := mul_eq_one_comm.1 hU
    have h5 : Matrix.diagonal (fun i => (σ i : ℂ)) * V.conjTranspose = B.conjTranspose := by
      rw [← hVB, Matrix.conjTranspose_mul, Matrix.diagonal_conjTranspose]
      congr 1
      congr 1
      funext i
      simp
    rw [Matrix.mul_assoc, h5]
    simp only [B, Matrix.conjTranspose_mul, Matrix.conjTranspose_conjTranspose]
    rw [← Matrix.mul_assoc, hUU, Matrix.one_mul]

theorem IsSVD.symm {a b r : ℕ} {A : Matrix (Fin a) (Fin b) ℂ} {σ : Fin r → ℝ} (h : IsSVD A σ) :
    IsSVD A.conjTranspose σ := by
  obtain ⟨h1, h2, U, V, hU, hV, hA⟩ := h
  refine ⟨h1, h2, V, U, hV, hU, ?_⟩
  rw [hA, Matrix.conjTranspose_mul, Matrix.conjTranspose_mul, Matrix.conjTranspose_conjTranspose,
    Matrix.diagonal_conjTranspose, Matrix.mul_assoc]
  congr 3
  funext i
  simp

/-- Every matrix has singular values. -/
theorem exists_svd {a b : ℕ} (A : Matrix (Fin a) (Fin b) ℂ) :
    ∃ σ : Fin (Nat.min a b) → ℝ, IsSVD A σ := by
  have key : ∀ r, (r = a ∧ a ≤ b) ∨ (r = b ∧ b ≤ a) → ∃ σ : Fin r → ℝ, IsSVD A σ := by
    rintro r (⟨rfl, h⟩ | ⟨rfl, h⟩)
    · exact exists_svd_of_le h A
    · obtain ⟨σ, hσ⟩ := exists_svd_of_le h A.conjTranspose
      have := IsSVD.symm hσ
      rw [Matrix.conjTranspose_conjTranspose] at this
      exact ⟨σ, this⟩
  apply key
  rcases le_total a b with h | h
  · exact Or.inl ⟨Nat.min_eq_left h, h⟩
  · exact Or.inr ⟨Nat.min_eq_right h, h⟩

/-- Every matrix has a reduced QR decomposition (orthonormal columns spanning the column space). -/
theorem exists_qr {n k : ℕ} (A : Matrix (Fin n) (Fin k) ℂ) :
    ∃ Q : Matrix (Fin n) (Fin (Nat.min n k)) ℂ, IsQR A Q := by
  obtain ⟨σ, _, _, U, V, hU, _, hA⟩ := exists_svd A
  exact ⟨U, hU, _, hA.trans (Matrix.mul_assoc _ _ _)⟩

theorem antitone_eq_of_multiset {r : ℕ} {f g : Fin r → ℝ} (hf : Antitone f) (hg : Antitone g)
    (h : Multiset.map f Finset.univ.val = Multiset.map g Finset.univ.val) : f = g := by
  have e : ∀ f : Fin r → ℝ, Multiset.map f Finset.univ.val = (List.ofFn f : Multiset ℝ) := by
    intro f
    rw [List.ofFn_eq_map]
    rfl
  rw [e f, e g, Multiset.coe_eq_coe] at h
  have hs : ∀ f : Fin r → ℝ, Antitone f → (List.ofFn f).Pairwise (· ≥ ·) := by
    intro f hf
    rw [List.pairwise_ofFn]
    intro i j hij
    exact hf hij.le
  have h2 := List.Perm.eq_of_pairwise (fun a b _ _ h1 h2 => le_antisymm h2 h1) (hs f hf) (hs g hg) h
  exact List.ofFn_injective h2

/-- Diagonalisation with descending real entries is unique. -/
theorem diag_unique {r : ℕ} {f g : Fin r → ℝ} (hf : Antitone f) (hg : Antitone g)
    {U V : Matrix (Fin r) (Fin r) ℂ} (hU : U.conjTranspose * U = 1) (hV : V.conjTranspose * V = 1)
    (h : U * Matrix.diagonal (fun i => (f i : ℂ)) * U.conjTranspose =
      V * Matrix.diagonal (fun i => (g i : ℂ)) * V.conjTranspose) : f = g := by
  have hch : ∀ (f : Fin r → ℝ) (U : Matrix (Fin r) (Fin r) ℂ), U.conjTranspose * U = 1 →
      (U * Matrix.diagonal (fun i => (f i : ℂ)) * U.conjTranspose).charpoly =
        ∏ i, (Polynomial.X - Polynomial.C (f i : ℂ)) := by
    intro f U hU
    rw [Matrix.charpoly_mul_comm, ← Matrix.mul_assoc, hU, Matrix.one_mul, Matrix.charpoly_diagonal]
  have h1 := (hch f U hU).symm.trans ((congrArg Matrix.charpoly h).trans (hch g V hV))
  have hroots : ∀ f : Fin r → ℝ, (∏ i, (Polynomial.X - Polynomial.C (f i : ℂ))).roots =
      Multiset.map (fun i => (f i : ℂ)) Finset.univ.val := by
    intro f
    have : (∏ i, (Polynomial.X - Polynomial.C (f i : ℂ))) =
        (Multiset.map (fun a => Polynomial.X - Polynomial.C a)
          (Multiset.map (fun i => (f i : ℂ)) Finset.univ.val)).prod := by
      rw [Multiset.map_map]; rfl
    rw [this, Polynomial.roots_multiset_prod_X_sub_C]
  have h2 : Multiset.map (fun i => (f i : ℂ)) Finset.univ.val =
      Multiset.map (fun i => (g i : ℂ)) Finset.univ.val := by
    rw [← hroots, ← hroots, h1]
  have h3 := congrArg (Multiset.map Complex.re) h2
  rw [Multiset.map_map, Multiset.map_map] at h3
  exact antitone_eq_of_multiset hf hg h3

theorem sq_antitone {r : ℕ} {σ : Fin r → ℝ} (h1 : Antitone σ) (h2 : ∀ i, 0 ≤ σ i) :
    Antitone fun i => σ i ^ 2 := by
  intro i j hij
  have := h1 hij
  have := h2 j
  simp only
  nlinarith

theorem IsSVD.gram {a b r : ℕ} {A : Matrix (Fin a) (Fin b) ℂ} {σ : Fin r → ℝ}
    {U : Matrix (Fin a) (Fin r) ℂ} {V : Matrix (Fin b) (Fin r) ℂ}
    (hV : V.conjTranspose * V = 1)
    (hA : A = U * Matrix.diagonal (fun i => (σ i : ℂ)) * V.conjTranspose) :
    A * A.conjTranspose = U * Matrix.diagonal (fun i => ((σ i ^ 2 : ℝ) : ℂ)) * U.conjTranspose := by
  have hd : (Matrix.diagonal (fun i => (σ i : ℂ))).conjTranspose =
      Matrix.diagonal (fun i => (σ i : ℂ)) := by
    rw [Matrix.diagonal_conjTranspose]; congr 1; funext i; simp
  rw [hA]
  simp only [Matrix.conjTranspose_mul, Matrix.conjTranspose_conjTranspose, hd]
  calc _ = U * Matrix.diagonal (fun i => (σ i : ℂ)) * (V.conjTranspose * V) *
        Matrix.diagonal (fun i => (σ i : ℂ)) * U.conjTranspose := by simp only [Matrix.mul_assoc]
    _ = _ := by
      rw [hV, Matrix.mul_one, Matrix.mul_assoc U, Matrix.diagonal_mul_diagonal]
      congr 3
      funext i
      push_cast; ring

/-- Singular values are unique. -/
theorem svd_unique {a b r : ℕ} (hr : r = Nat.min a b) {A : Matrix (Fin a) (Fin b) ℂ} {σ τ : Fin r → ℝ}
    (hσ : IsSVD A σ) (hτ : IsSVD A τ) : σ = τ := by
  have key : ∀ {a b : ℕ} (A : Matrix (Fin a) (Fin b) ℂ), r = a → IsSVD A σ → IsSVD A τ → σ = τ := by
    rintro a b A rfl ⟨s1, s2, U, V, hU, hV, hA⟩ ⟨t1, t2, U', V', hU', hV', hA'⟩
    have h1 := IsSVD.gram hV hA
    have h2 := IsSVD.gram hV' hA'
    have h3 := diag_unique (sq_antitone s1 s2) (sq_antitone t1 t2) hU hU' (h1.symm.trans h2)
    funext i
    have := congrFun h3 i
    exact (sq_eq_sq₀ (s2 i) (t2 i)).1 this
  rcases le_total a b with h | h
  · exact key A (hr.trans (Nat.min_eq_left h)) hσ hτ
  · exact key A.conjTranspose (hr.trans (Nat.min_eq_right h)) (IsSVD.symm hσ) (IsSVD.symm hτ)

/-- Singular values do not change under unitary factors. -/
theorem IsSVD.unitary {a b r : ℕ} {A : Matrix (Fin a) (Fin b) ℂ} {σ : Fin r → ℝ} (h : IsSVD A σ)
    {W : Matrix (Fin a) (Fin a) ℂ} {X : Matrix (Fin b) (Fin b) ℂ} (hW : W.conjTranspose * W = 1)
    (hX : X.conjTranspose * X = 1) : IsSVD (W * A * X.conjTranspose) σ := by
  obtain ⟨h1, h2, U, V, hU, hV, hA⟩ := h
  refine ⟨h1, h2, W * U, X * V, ?_, ?_, ?_⟩
  · rw [Matrix.conjTranspose_mul, Matrix.mul_assoc, ← Matrix.mul_assoc W.conjTranspose, hW,
      Matrix.one_mul, hU]
  · rw [Matrix.conjTranspose_mul, Matrix.mul_assoc, ← Matrix.mul_assoc X.conjTranspose, hX,
      Matrix.one_mul, hV]
  · rw [hA, Matrix.conjTranspose_mul]; simp only [Matrix.mul_assoc]

end Spgrep
