/-
Lemmas about physically irreducible representations.
-/
import Verif.Proofs.RepModel
import Verif.Proofs.Pairing
import Verif.Proofs.Purify

namespace Spgrep

open Spec

variable {n : ℕ}

theorem map_re_mul {d : ℕ} (A B : Matrix (Fin d) (Fin d) ℂ) :
    (A * B).map Complex.re = A.map Complex.re * B.map Complex.re - A.map Complex.im * B.map Complex.im := by
  ext i j
  simp [Matrix.mul_apply, Finset.sum_sub_distrib]

theorem map_im_mul {d : ℕ} (A B : Matrix (Fin d) (Fin d) ℂ) :
    (A * B).map Complex.im = A.map Complex.re * B.map Complex.im + A.map Complex.im * B.map Complex.re := by
  ext i j
  simp [Matrix.mul_apply, Finset.sum_add_distrib]

/-- Equivalence is preserved by complex conjugation. -/
theorem AreEquivalent.conj {I ι κ : Type*} [Fintype ι] [Fintype κ] [DecidableEq ι] [DecidableEq κ]
    {D : I → Matrix ι ι ℂ} {E : I → Matrix κ κ ℂ}
    (h : AreEquivalent D E) : AreEquivalent (fun g => (D g).map star) (fun g => (E g).map star) := by
  obtain ⟨S, S', h1, h2, h3⟩ := h
  refine ⟨S.map star, S'.map star, ?_, ?_, fun g => ?_⟩
  · ext i j
    have := congrArg star (congrFun (congrFun h1 i) j)
    simp only [Matrix.mul_apply, star_sum, star_mul'] at this
    rw [Matrix.mul_apply]
    simp only [Matrix.map_apply]
    rw [this, Matrix.one_apply]
    split_ifs <;> simp
  · ext i j
    have := congrArg star (congrFun (congrFun h2 i) j)
    simp only [Matrix.mul_apply, star_sum, star_mul'] at this
    rw [Matrix.mul_apply]
    simp only [Matrix.map_apply]
    rw [this, Matrix.one_apply]
    split_ifs <;> simp
  · ext i j
    have := congrArg star (congrFun (congrFun (h3 g) i) j)
    simp only [Matrix.mul_apply, star_sum, star_mul'] at this
    rw [Matrix.mul_apply, Matrix.mul_apply]
    simp only [Matrix.map_apply]
    exact this

theorem AreEquivalent.projRep {I ι κ : Type*} [Fintype ι] [Fintype κ] [DecidableEq ι] [DecidableEq κ]
    {T : I → I → I} {μ : I → I → ℂ} {D : I → Matrix ι ι ℂ} {E : I → Matrix κ κ ℂ}
    (h : AreEquivalent D E) (hE : IsProjRep T μ E) : IsProjRep T μ D := by
  obtain ⟨S, S', h1, h2, h3⟩ := h
  have hD : ∀ g, D g = S * E g * S' := fun g => by rw [← h3, Matrix.mul_assoc, h1, Matrix.mul_one]
  intro g k
  rw [hD g, hD k, hD (T g k)]
  calc S * E g * S' * (S * E k * S') = S * (E g * (S' * S) * E k) * S' := by simp only [Matrix.mul_assoc]
    _ = _ := by rw [h2, Matrix.mul_one, hE g k, Matrix.mul_smul, Matrix.smul_mul]

theorem AreEquivalent.irreducible {I ι κ : Type*} [Fintype ι] [Fintype κ] [DecidableEq ι] [DecidableEq κ]
    {D : I → Matrix ι ι ℂ} {E : I → Matrix κ κ ℂ}
    (h : AreEquivalent D E) (hE : IsIrreducible E) : IsIrreducible D := by
  obtain ⟨S, S', h1, h2, h3⟩ := h
  constructor
  · by_contra hne
    rw [not_nonempty_iff] at hne
    obtain ⟨x⟩ := hE.1
    have := congrFun (congrFun h2 x) x
    rw [Matrix.mul_apply, Matrix.one_apply_eq] at this
    simp at this
  · intro W hW
    rcases hE.2 (W.comap S.mulVecLin) (by
      intro g v hv
      rw [Submodule.mem_comap, Matrix.mulVecLin_apply] at hv ⊢
      rw [Matrix.mulVec_mulVec, ← h3, ← Matrix.mulVec_mulVec]
      exact hW g _ hv) with h | h
    · left
      rw [eq_bot_iff]
      intro w hw
      have : S'.mulVec w ∈ W.comap S.mulVecLin := by
        rw [Submodule.mem_comap, Matrix.mulVecLin_apply, Matrix.mulVec_mulVec, h1, Matrix.one_mulVec]
        exact hw
      rw [h, Submodule.mem_bot] at this
      rw [Submodule.mem_bot, ← Matrix.one_mulVec w, ← h1, ← Matrix.mulVec_mulVec, this, Matrix.mulVec_zero]
    · right
      rw [eq_top_iff]
      intro w _
      have : S'.mulVec w ∈ W.comap S.mulVecLin := by rw [h]; trivial
      rwa [Submodule.mem_comap, Matrix.mulVecLin_apply, Matrix.mulVec_mulVec, h1, Matrix.one_mulVec] at this

theorem map_star_star {I : Type*} {d : ℕ} (D : I → Matrix (Fin d) (Fin d) ℂ) :
    (fun g => ((D g).map star).map star) = D := by
  funext g; ext i j; simp only [Matrix.map_apply, star_star]

theorem charList_conj {d : ℕ} (D : RepArr n d) :
    charList (fun g => (D g).map star) = (charList D).map star := by
  unfold charList
  rw [List.map_ofFn]
  congr 1
  funext g
  simp only [Function.comp, getCharacter, star_sum, Matrix.map_apply]

theorem nroot_two_sq (w : ℂ) : nroot w 2 * nroot w 2 = w := by
  obtain ⟨h1, _⟩ := nroot_eq w (n := 2) (by norm_num)
  have : nroot w 2 ^ 2 = w := by
    rw [h1, one_div]; exact Complex.cpow_nat_inv_pow w (by norm_num)
  rwa [pow_two] at this

theorem nroot_of_sq {η : ℂ} (h : 0 < η.re) : nroot (η ^ 2) 2 = η := by
  obtain ⟨h1, _⟩ := nroot_eq (η ^ 2) (n := 2) (by norm_num)
  rw [h1, one_div]
  have h2 := Complex.abs_arg_lt_pi_div_two_iff.2 (Or.inl h)
  rw [abs_lt] at h2
  exact Complex.pow_cpow_nat_inv (by norm_num) (by exact_mod_cast h2.1) (by exact_mod_cast h2.2.le)

end Spgrep
