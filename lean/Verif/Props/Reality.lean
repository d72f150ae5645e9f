/-
Properties C19-C21: physically irreducible representations.
-/
import Verif.Proofs.Reality
import Verif.Props.Representation
import Verif.Props.Examples

namespace Spgrep

open Spec

variable {n : ℕ}

/-! ### C19 -/

/-- C19: for indicator `-1` or `0` the result is a family of real matrices of twice the dimension (given
here in block form, rows and columns `Fin d ⊕ Fin d` in order) that multiply like the irrep, with the
factor `c` acting as `[[Re c, Im c], [-Im c, Re c]]`; they are orthogonal when the irrep is unitary, over
the complex numbers they are equivalent to the direct sum of the irrep and its conjugate, and a
translation `t`, represented by `exp(-2πi k·t)`, becomes the rotation by `2π k·t`. -/
theorem c19_doubled {d : ℕ} (D : RepArr n d) (eig : EigOracle) (random : ℕ → Matrix (Fin d) (Fin d) ℂ)
    (indicator : ℤ) (hi : indicator = -1 ∨ indicator = 0) (atol : ℝ) (maxGen : ℕ) :
    ∃ P : Fin n → Matrix (Fin d ⊕ Fin d) (Fin d ⊕ Fin d) ℝ,
      getPhysicallyIrrep eig random D indicator atol maxGen =
        .ok ⟨d + d, fun k => (P k).reindex finSumFinEquiv finSumFinEquiv⟩ ∧
      (∀ (T : Fin n → Fin n → Fin n) (μ : Fin n → Fin n → ℂ), IsProjRep T μ D → ∀ g h,
        P g * P h = Matrix.fromBlocks ((μ g h).re • 1) ((μ g h).im • 1) (-(μ g h).im • 1)
          ((μ g h).re • 1) * P (T g h)) ∧
      (IsUnitaryRep D → ∀ g, P g * (P g).transpose = 1) ∧
      AreEquivalent (fun g => (P g).map Complex.ofReal)
        (fun g => Matrix.fromBlocks (D g) 0 0 ((D g).map star)) ∧
      ∀ g (k t : V3), D g = Complex.exp (-2 * Real.pi * Complex.I * (∑ x, k x * t x : ℝ)) • 1 →
        P g = Matrix.fromBlocks (Real.cos (2 * Real.pi * ∑ x, k x * t x) • 1)
          (-Real.sin (2 * Real.pi * ∑ x, k x * t x) • 1)
          (Real.sin (2 * Real.pi * ∑ x, k x * t x) • 1)
          (Real.cos (2 * Real.pi * ∑ x, k x * t x) • 1) := by
  refine ⟨physDouble D, ?_, ?_, ?_, ?_, ?_⟩
  · unfold getPhysicallyIrrep
    rw [if_neg (by rcases hi with h | h <;> rw [h] <;> norm_num), if_pos hi]
  · intro T μ hD g h
    have hre := congrArg (fun M => M.map Complex.re) (hD g h)
    have him := congrArg (fun M => M.map Complex.im) (hD g h)
    have ere : (μ g h • D (T g h)).map Complex.re =
        (μ g h).re • (D (T g h)).map Complex.re - (μ g h).im • (D (T g h)).map Complex.im := by
      ext i j; simp
    have eim : (μ g h • D (T g h)).map Complex.im =
        (μ g h).re • (D (T g h)).map Complex.im + (μ g h).im • (D (T g h)).map Complex.re := by
      ext i j; simp
    rw [map_re_mul, ere] at hre
    rw [map_im_mul, eim] at him
    unfold physDouble
    rw [Matrix.fromBlocks_multiply, Matrix.fromBlocks_multiply]
    simp only [Matrix.smul_mul, Matrix.one_mul, neg_smul, Matrix.neg_mul, Matrix.mul_neg]
    congr 1
    · rw [show -((D g).map Complex.im * (D h).map Complex.re) + -((D g).map Complex.re * (D h).map Complex.im) =
        -((D g).map Complex.re * (D h).map Complex.im + (D g).map Complex.im * (D h).map Complex.re) by abel, him]
      abel
    · rw [show -((D g).map Complex.im * (D h).map Complex.im) + (D g).map Complex.re * (D h).map Complex.re =
        (D g).map Complex.re * (D h).map Complex.re - (D g).map Complex.im * (D h).map Complex.im by abel, hre]
      abel
  · intro hDu g
    have hre := congrArg (fun M => M.map Complex.re) (hDu g)
    have him := congrArg (fun M => M.map Complex.im) (hDu g)
    rw [map_re_mul] at hre
    rw [map_im_mul] at him
    have t1 : (D g).conjTranspose.map Complex.re = ((D g).map Complex.re).transpose := by
      ext i j; simp [Matrix.conjTranspose_apply]
    have t2 : (D g).conjTranspose.map Complex.im = -((D g).map Complex.im).transpose := by
      ext i j; simp [Matrix.conjTranspose_apply]
    have o1 : (1 : Matrix (Fin d) (Fin d) ℂ).map Complex.re = 1 := by
      ext i j; simp only [Matrix.map_apply, Matrix.one_apply]; split_ifs <;> simp
    have o2 : (1 : Matrix (Fin d) (Fin d) ℂ).map Complex.im = 0 := by
      ext i j; simp only [Matrix.map_apply, Matrix.one_apply]; split_ifs <;> simp
    rw [t1, t2, o1, Matrix.mul_neg, sub_neg_eq_add] at hre
    rw [t1, t2, o2, Matrix.mul_neg] at him
    unfold physDouble
    rw [Matrix.fromBlocks_transpose, Matrix.fromBlocks_multiply, ← Matrix.fromBlocks_one]
    simp only [Matrix.transpose_neg, Matrix.neg_mul, Matrix.mul_neg, neg_neg]
    congr 1
    · rw [← neg_eq_zero, ← him]; abel
    · rw [← hre]; abel
  · refine ⟨Matrix.fromBlocks 1 1 (Complex.I • 1) (-Complex.I • 1),
      (1 / 2 : ℂ) • Matrix.fromBlocks 1 (-Complex.I • 1) 1 (Complex.I • 1), ?_, ?_, fun g => ?_⟩
    · rw [Matrix.mul_smul, Matrix.fromBlocks_multiply, ← Matrix.fromBlocks_one, Matrix.fromBlocks_smul]
      simp only [Matrix.one_mul, Matrix.mul_one, Matrix.smul_mul, smul_smul, neg_smul,
        Matrix.neg_mul, smul_neg, mul_neg, neg_mul, Complex.I_mul_I, neg_neg, one_smul, neg_add_cancel,
        add_neg_cancel, smul_zero]
      congr 1
      · rw [← two_smul ℂ, smul_smul]; norm_num
      · rw [← two_smul ℂ, smul_smul]; norm_num
    · rw [Matrix.smul_mul, Matrix.fromBlocks_multiply, ← Matrix.fromBlocks_one, Matrix.fromBlocks_smul]
      simp only [Matrix.one_mul, Matrix.mul_one, Matrix.smul_mul, smul_smul, neg_smul,
        Matrix.neg_mul, smul_neg, mul_neg, neg_mul, Complex.I_mul_I, neg_neg, one_smul, neg_add_cancel,
        add_neg_cancel, smul_zero]
      congr 1
      · rw [← two_smul ℂ, smul_smul]; norm_num
      · rw [← two_smul ℂ, smul_smul]; norm_num
    · unfold physDouble
      beta_reduce
      rw [Matrix.fromBlocks_map, Matrix.fromBlocks_multiply, Matrix.fromBlocks_multiply]
      have hz : ∀ z : ℂ, (z.re : ℂ) + Complex.I * z.im = z := fun z => by
        rw [mul_comm]; exact Complex.re_add_im z
      have hc : ∀ z : ℂ, (z.re : ℂ) - Complex.I * z.im = star z := fun z => by
        apply Complex.ext <;> simp
      congr 1
      · ext i j
        simp only [Matrix.add_apply, Matrix.mul_one, Matrix.mul_smul, Matrix.smul_apply, Matrix.map_apply,
          smul_eq_mul, Matrix.one_mul, Matrix.mul_zero, Matrix.zero_apply, add_zero]
        exact hz _
      · ext i j
        simp only [Matrix.add_apply, Matrix.mul_one, Matrix.mul_smul, Matrix.smul_apply, Matrix.map_apply,
          smul_eq_mul, Matrix.one_mul, Matrix.mul_zero, Matrix.zero_apply, zero_add, neg_mul]
        rw [← sub_eq_add_neg]
        exact hc _
      · ext i j
        simp only [Matrix.add_apply, Matrix.mul_one, Matrix.mul_smul, Matrix.smul_apply, Matrix.map_apply,
          smul_eq_mul, Matrix.one_mul, Matrix.mul_zero, Matrix.zero_apply, smul_zero, add_zero, Matrix.smul_mul,
          Matrix.neg_apply, Complex.ofReal_neg]
        conv_rhs => rw [← hz (D g i j)]
        rw [mul_add, ← mul_assoc, Complex.I_mul_I]
        ring
      · ext i j
        simp only [Matrix.add_apply, Matrix.mul_one, Matrix.mul_smul, Matrix.smul_apply, Matrix.map_apply,
          smul_eq_mul, Matrix.one_mul, Matrix.mul_zero, Matrix.zero_apply, smul_zero, zero_add, Matrix.smul_mul,
          Matrix.neg_apply, Complex.ofReal_neg]
        rw [← hc (D g i j), mul_sub, ← mul_assoc, neg_mul Complex.I Complex.I, Complex.I_mul_I]
        ring
  · intro g k t hg
    have e : ∀ x : ℝ, Complex.exp (-2 * Real.pi * Complex.I * x) =
        ⟨Real.cos (2 * Real.pi * x), -Real.sin (2 * Real.pi * x)⟩ := by
      intro x
      have := exp_coords (-(2 * Real.pi * x)) _ _ (Real.cos_neg _) (Real.sin_neg _)
      rw [← this]; congr 1; push_cast; ring
    rw [e] at hg
    unfold physDouble
    rw [hg]
    congr 1
    · ext i j
      simp only [Matrix.map_apply, Matrix.smul_apply, Matrix.one_apply]
      split_ifs <;> simp
    · ext i j
      simp only [Matrix.map_apply, Matrix.smul_apply, Matrix.one_apply]
      split_ifs <;> simp
    · ext i j
      simp only [Matrix.map_apply, Matrix.smul_apply, Matrix.one_apply, Matrix.neg_apply]
      split_ifs <;> simp
    · ext i j
      simp only [Matrix.map_apply, Matrix.smul_apply, Matrix.one_apply]
      split_ifs <;> simp

/-- Case of C19: the projective irrep of the Klein four-group. -/
example (eig : EigOracle) (random : ℕ → Matrix (Fin 2) (Fin 2) ℂ) :
    ∃ P : Fin 4 → Matrix (Fin 2 ⊕ Fin 2) (Fin 2 ⊕ Fin 2) ℝ,
      getPhysicallyIrrep eig random repV4 0 =
        .ok ⟨4, fun k => (P k).reindex finSumFinEquiv finSumFinEquiv⟩ ∧ ∀ g, P g * (P g).transpose = 1 := by
  obtain ⟨P, h1, _, h3, _⟩ := c19_doubled repV4 eig random 0 (Or.inr rfl) 1e-5 4
  exact ⟨P, h1, h3 repV4_unitary⟩

/-! ### C21 -/

/-- C21: (1) for every outcome of the equivalence test, every index is in exactly one pair, no pair is
repeated, and a pair `(i, j)` has `i ≤ j`, with the test true when `i < j`; (2) for a complete list of
inequivalent irreps (signs as factor system) every pair consists of an irrep and (an irrep equivalent to)
its conjugate, and every irreducible representation belongs to exactly one pair. -/
theorem c21_pairing :
    (∀ (m : ℕ) (eqv : Fin m → Fin m → Prop),
      (∀ x, ∃! p, p ∈ conjugatedPairs eqv ∧ (x = p.1 ∨ x = p.2)) ∧ (conjugatedPairs eqv).Nodup ∧
      ∀ p ∈ conjugatedPairs eqv, p.1 ≤ p.2 ∧ (p.1 ≠ p.2 → eqv p.1 p.2)) ∧
    (∀ (n : ℕ) (T : Fin n → Fin n → Fin n) (μ : Fin n → Fin n → ℂ) (L : List (AnyRep n)),
      IsGroupTable T → (∀ g h, μ g h = 1 ∨ μ g h = -1) → IsCompleteIrreps T μ L →
      (∀ p ∈ pairsOf L, p.1 ≤ p.2 ∧ AreEquivalent (fun g => ((L.get p.1).2 g).map star) (L.get p.2).2) ∧
      ∀ (e : ℕ) (E : RepArr n e), IsProjRep T μ E → (∀ g, IsUnit (E g)) → IsIrreducible E →
        ∃! p, p ∈ pairsOf L ∧ (AreEquivalent E (L.get p.1).2 ∨ AreEquivalent E (L.get p.2).2)) := by
  constructor
  · intro m eqv
    obtain ⟨vis, h⟩ := conjugatedPairs_inv eqv
    refine ⟨fun x => ?_, ?_, fun p hp => ⟨(h.lead p hp).2.1, (h.lead p hp).2.2.1⟩⟩
    · obtain ⟨p, hp, hx⟩ := (h.comp x).1 (h.seen x x.2)
      exact ⟨p, ⟨hp, hx⟩, fun q ⟨hq, hxq⟩ => pairInv_unique h hq hp hxq hx⟩
    · refine h.disj.imp fun {p q} hpq hne => ?_
      subst hne
      exact hpq p.1 (Or.inl rfl) (Or.inl rfl)
  · intro n T μ L hT hμ hL
    have hμ1 : ∀ g h, ‖μ g h‖ = 1 := by
      intro g h; rcases hμ g h with h | h <;> rw [h] <;> simp
    have hμr : ∀ g h, star (μ g h) = μ g h := by
      intro g h; rcases hμ g h with h | h <;> rw [h] <;> simp
    have hmem : ∀ i : Fin L.length, L.get i ∈ L := fun i => List.get_mem L i
    have huniq : ∀ i j : Fin L.length, AreEquivalent (L.get i).2 (L.get j).2 → i = j := by
      intro i j hij
      have hd := List.pairwise_iff_get.1 hL.inequiv
      rcases lt_trichotomy i j with h1 | h1 | h1
      · exact absurd hij (hd i j h1)
      · exact h1
      · exact absurd (AreEquivalent.symm hij) (hd j i h1)
    have hex : ∀ i : Fin L.length, ∃ j : Fin L.length,
        AreEquivalent (fun g => ((L.get i).2 g).map star) (L.get j).2 := by
      intro i
      obtain ⟨D, hD, hDe⟩ := hL.complete _ _ (conj_projRep hμr (hL.rep _ (hmem i)))
        (IsUnitaryRep.isUnit (conj_unitary (hL.unitary _ (hmem i)))) (conj_irreducible (hL.irred _ (hmem i)))
      obtain ⟨j, rfl⟩ := List.mem_iff_get.1 hD
      exact ⟨j, hDe⟩
    choose σ hσ using hex
    have hσσ : ∀ i, σ (σ i) = i := by
      intro i
      have h1 := AreEquivalent.conj (hσ i)
      rw [map_star_star] at h1
      exact (huniq _ _ (AreEquivalent.trans h1 (hσ (σ i)))).symm
    have heqv : ∀ i j : Fin L.length, IsEquivalentIrrep ((charList (L.get i).2).map star)
        (charList (L.get j).2) ↔ j = σ i := by
      intro i j
      rw [← charList_conj, c14_equivalence_test hT hμ1 (conj_projRep hμr (hL.rep _ (hmem i)))
        (hL.rep _ (hmem j)) (conj_unitary (hL.unitary _ (hmem i))) (hL.unitary _ (hmem j))
        (conj_irreducible (hL.irred _ (hmem i))) (hL.irred _ (hmem j))]
      constructor
      · intro h
        exact huniq _ _ (AreEquivalent.trans (AreEquivalent.symm h) (hσ i))
      · rintro rfl; exact hσ i
    obtain ⟨vis, h⟩ := conjugatedPairs_inv (fun i j : Fin L.length =>
      IsEquivalentIrrep ((charList (L.get i).2).map star) (charList (L.get j).2))
    have hp2 : ∀ p ∈ pairsOf L, p.2 = σ p.1 := fun p hp => pairInv_involution hσσ heqv h hp
    refine ⟨fun p hp => ⟨(h.lead p hp).2.1, ?_⟩, fun e E hE hEu hEi => ?_⟩
    · rw [hp2 p hp]; exact hσ _
    · obtain ⟨D, hD, hED⟩ := hL.complete e E hE hEu hEi
      obtain ⟨x, rfl⟩ := List.mem_iff_get.1 hD
      have hiff : ∀ p : Fin L.length × Fin L.length,
          (AreEquivalent E (L.get p.1).2 ∨ AreEquivalent E (L.get p.2).2) ↔ InPair x p := by
        intro p
        have : ∀ y, AreEquivalent E (L.get y).2 ↔ x = y := by
          intro y
          constructor
          · intro hy; exact huniq _ _ (AreEquivalent.trans (AreEquivalent.symm hED) hy)
          · rintro rfl; exact hED
        rw [this, this]; rfl
      obtain ⟨p, hp, hx⟩ := (h.comp x).1 (h.seen x x.2)
      refine ⟨p, ⟨hp, (hiff p).2 hx⟩, fun q ⟨hq, hxq⟩ => ?_⟩
      exact pairInv_unique h hq hp ((hiff q).1 hxq) hx

/-- Case of C21: the one projective irrep of the Klein four-group is its own partner. -/
example (e : ℕ) (E : RepArr 4 e) (hE : IsProjRep tblV4 μV4 E) (hEu : ∀ g, IsUnit (E g))
    (hEi : IsIrreducible E) : ∃! p, p ∈ pairsOf [(⟨2, repV4⟩ : AnyRep 4)] ∧
      (AreEquivalent E (List.get [(⟨2, repV4⟩ : AnyRep 4)] p.1).2 ∨
        AreEquivalent E (List.get [(⟨2, repV4⟩ : AnyRep 4)] p.2).2) :=
  (c21_pairing.2 4 tblV4 μV4 [⟨2, repV4⟩] tblV4_group μV4_real repV4_complete).2 e E hE hEu hEi

end Spgrep
