/-
Property C71: projection to irreps over the reals.
-/
import Verif.Proofs.RealRefine
import Verif.Props.TensorReal

namespace Spgrep

open Spec Matrix

variable {n d D : ℕ} {T : Fin n → Fin n → Fin n}

/-- **C71.** Let `rep` be a real unitary representation and `R` orthogonal matrices of a representation irreducible over
the reals but not over the complex numbers, and let the linear-algebra routines satisfy their contracts.  With at least
one trial `project_to_irrep` returns a result.  The returned blocks are real, transform like the irrep, have orthonormal
rows, and all rows together are independent.  Their number is at most half of the expected number, and the final warning
is given exactly if the irrep occurs at all: at no tolerance and with no number of trials it can be avoided. -/
theorem c71_doubled_irrep (hT : IsGroupTable T) {rep : RepArr n D} {R : Fin n → Matrix (Fin d) (Fin d) ℝ}
    (hrep : IsProjRep T (fun _ _ => 1) rep) (hru : IsUnitaryRep rep) (hreal : ∀ g i j, (rep g i j).im = 0)
    (hR : IsRealProjRep T (fun _ _ => 1) R) (ho : ∀ g, R g * (R g).transpose = 1) (hi : IsRealIrreducible R)
    (hn : ¬ Spec.IsIrreducible fun g => (R g).map Complex.ofReal) (la : LinAlg) (hla : la.Contract) (atol : ℝ)
    (maxTrials : ℕ) :
    (0 < maxTrials → ∃ r, projectToIrrep la rep (fun g => (R g).map Complex.ofReal) atol maxTrials = .ok r) ∧
    ∀ bs w, projectToIrrep la rep (fun g => (R g).map Complex.ofReal) atol maxTrials = .ok (bs, w) →
      (∀ b ∈ bs, (∀ i m, (b i m).im = 0) ∧ b * b.conjTranspose = 1 ∧
        ∀ g i m, ∑ m', rep g m m' * b i m' = ∑ l, b l m * (R g l i : ℂ)) ∧
      LinearIndependent ℂ (fun x : Fin bs.length × Fin d => fun m => bs.get x.1 x.2 m) ∧
      2 * bs.length ≤ Module.finrank ℂ (homSub rep fun g => (R g).map Complex.ofReal) ∧
      (w = true ↔ ∃ S : Matrix (Fin D) (Fin d) ℂ, S ≠ 0 ∧ ∀ g, rep g * S = S * (R g).map Complex.ofReal) := by
  have hE : IsProjRep T (fun _ _ => 1) fun g => (R g).map Complex.ofReal := by simpa using complex_projRep hR
  have hEu : IsUnitaryRep fun g => (R g).map Complex.ofReal := by
    intro g
    have h3 := congrArg (fun M : Matrix _ _ ℝ => M.map Complex.ofRealHom) (ho g)
    rw [Matrix.map_mul, Matrix.map_one _ (map_zero _) (map_one _)] at h3
    rw [← h3]
    congr 1
    ext i j
    simp
  have hrr : ∀ g, RealEntries (rep g) := fun g i j => Complex.conj_eq_iff_im.2 (hreal g i j)
  have hinner : ∀ a : ℝ, 0 ≤ a → ∃ bs, projInner la rep (fun g => (R g).map Complex.ofReal) a = .ok bs ∧
      GoodRealBlocks rep (fun g => (R g).map Complex.ofReal) bs :=
    fun a ha => projInner_good_real hT hrep hru hrr hE hEu hi hla ha
  constructor
  · intro hm
    unfold projectToIrrep
    by_cases h0 : numBasis rep (fun g => (R g).map Complex.ofReal) = 0
    · exact ⟨([], false), by simp only [h0, if_true]⟩
    · obtain ⟨x, hx⟩ := (c16_tolerance_search (n := n) (d := d) (D := D)).1
        (fun a => do let b ← projInner la rep (fun g => (R g).map Complex.ofReal) a; return (b, b.length))
        (numBasis rep fun g => (R g).map Complex.ofReal) atol maxTrials
        |>.2.1 hm (by
          intro a h1 _
          obtain ⟨bs, hbs, _⟩ := hinner a (le_trans (by norm_num) h1)
          rw [hbs]
          exact ⟨_, rfl⟩)
      simp only [h0, if_false, hx]
      exact ⟨_, rfl⟩
  · intro bs w h
    obtain ⟨h1, h2⟩ := no_warning_zero hT hrep hru hrr hE hEu hi hn hla h
    have hg : GoodRealBlocks rep (fun g => (R g).map Complex.ofReal) bs ∧ ∀ b ∈ bs, b * b.conjTranspose = 1 := by
      rcases projectToIrrep_cases h with ⟨_, rfl, _⟩ | ⟨t, _, ht, _, hp, _⟩
      · refine ⟨⟨⟨?_, by simp⟩, by simp⟩, by simp⟩
        have : IsEmpty (Fin ([] : List (Matrix (Fin d) (Fin D) ℂ)).length × Fin d) := ⟨fun x => Fin.elim0 x.1⟩
        exact linearIndependent_empty_type
      · have ht0 : 0 ≤ t := le_trans (by norm_num) ht
        obtain ⟨bs', h3, h4⟩ := hinner t ht0
        refine ⟨?_, ?_⟩
        · rw [hp] at h3
          cases h3
          exact h4
        · refine projInner_all la rep _ ht0 (P := fun b => b * b.conjTranspose = 1) (fun c j hne => ?_) hp
          have hint := fun g => projBlock_intertwines hT (fun _ _ => one_ne_zero) hrep hE hEu c j g
          have hbr := projBlock_real hrr (fun g => realEntries_ofReal (R g)) c j
          obtain ⟨r, hr⟩ := gram_scalar_real hi hru hEu (fun a b => hbr b a) hint
          exact (normalizeRows_spec hne hr).1
    refine ⟨fun b hb => ⟨fun i m => Complex.conj_eq_iff_im.1 (hg.1.real b hb i m), hg.2 b hb, fun g i m => ?_⟩, hg.1.indep,
      h1, h2.trans ⟨fun h3 => ?_, ?_⟩⟩
    · have := congrFun (congrFun (hg.1.hom b hb g) m) i
      simpa only [Matrix.mul_apply, Matrix.transpose_apply, Matrix.map_apply] using this
    · have hbot : homSub rep (fun g => (R g).map Complex.ofReal) ≠ ⊥ := fun hb => h3 (by rw [hb, finrank_bot])
      obtain ⟨S, hS, hS0⟩ := Submodule.exists_mem_ne_zero_of_ne_bot hbot
      exact ⟨S, hS0, hS⟩
    · rintro ⟨S, hS0, hS⟩ h3
      have hb : homSub rep (fun g => (R g).map Complex.ofReal) = ⊥ := Submodule.finrank_eq_zero.1 h3
      have hm : S ∈ homSub rep fun g => (R g).map Complex.ofReal := hS
      rw [hb, Submodule.mem_bot] at hm
      exact hS0 hm

/-- **C71, for complex representations.** The one-dimensional representation of 4/m with `r ↦ i` occurs once in the
two-dimensional irrep over the reals.  Whatever the linear-algebra routines and the tolerance, `project_to_irrep` raises
`IndexError`: the second block is compared with the first by `grassmann_distance`, which asks for the second canonical
correlation of two subspaces of a line. -/
theorem c71_complex_raises (la : LinAlg) (atol : ℝ) (maxTrials : ℕ) :
    ∃ rep : RepArr 8 1, IsProjRep tbl4m (fun _ _ => 1) rep ∧ IsUnitaryRep rep ∧ numBasis rep (two4m 1 1) = 1 ∧
      projectToIrrep la rep (two4m 1 1) atol (maxTrials + 1) = .error .indexError := by
  let rep : RepArr 8 1 := fun g => (![1, -1, Complex.I, -Complex.I, 1, -1, Complex.I, -Complex.I] : Fin 8 → ℂ) g • 1
  have hnum : numBasis rep (two4m 1 1) = 1 := by
    refine rint_8 (m := 1) ?_
    simp [rep, Fin.sum_univ_succ, getCharacter, two4m, turn]
    norm_num
  refine ⟨rep, ?_, ?_, hnum, ?_⟩
  · intro g h
    rw [one_smul]
    simp only [rep]
    rw [Matrix.smul_mul, Matrix.one_mul, smul_smul]
    congr 1
    fin_cases g <;> fin_cases h <;> simp [tbl4m]
  · intro g
    simp only [rep]
    rw [Matrix.conjTranspose_smul, Matrix.conjTranspose_one, Matrix.smul_mul, Matrix.one_mul, smul_smul]
    fin_cases g <;> simp
  · have hfar : ∀ (a : ℝ), a ≤ 1e-2 → ∀ j : Fin 2,
        ¬ ∀ i m, IsCloseC 1e-5 a (projBlock rep (two4m 1 1) 0 j i m) 0 := by
      intro a ha j hc
      have h1 : projBlock rep (two4m 1 1) 0 j j 0 = 1 := by
        fin_cases j <;> simp [rep, projBlock, Fin.sum_univ_succ, two4m, turn] <;> norm_num
      have := hc j 0
      rw [h1] at this
      unfold IsCloseC at this
      norm_num at this
      linarith
    have hdist : ∀ b1 b2 : Matrix (Fin 2) (Fin 1) ℂ, grassmannDistance la b1 (stackBlocks [b2]) = .error .indexError := by
      intro b1 b2
      unfold grassmannDistance grassmannCore
      rw [if_neg (by simp)]
      dsimp only
      rw [dif_neg]
      rintro ⟨h1, -⟩
      simp at h1
    have hin : ∀ a : ℝ, a ≤ 1e-2 → projInner la rep (two4m 1 1) a = .error .indexError := by
      intro a ha
      unfold projInner
      have hl : ((List.finRange 1).flatMap fun c => (List.finRange 2).map fun j => (c, j)) =
          [((0 : Fin 1), (0 : Fin 2)), (0, 1)] := by decide
      rw [hl, List.foldlM_cons]
      have hs0 : projStep la rep (two4m 1 1) a [] (0, 0) = .ok [normalizeRows (projBlock rep (two4m 1 1) 0 0)] := by
        unfold projStep
        dsimp only
        rw [if_neg (hfar a ha 0), if_neg (by simp)]
        rfl
      have hs1 : ∀ b, projStep la rep (two4m 1 1) a [b] (0, 1) = .error .indexError := by
        intro b
        unfold projStep
        dsimp only
        rw [if_neg (hfar a ha 1), if_pos (by simp)]
        have := hdist (normalizeRows (projBlock rep (two4m 1 1) 0 1)) b
        erw [this]
        rfl
      rw [hs0]
      change List.foldlM _ _ _ = _
      rw [List.foldlM_cons, hs1]
      rfl
    have ha0 : min (max atol 1e-10) 1e-2 ≤ (1e-2 : ℝ) := min_le_right _ _
    unfold projectToIrrep searchTolerance retryLoop
    simp only [hnum, hin _ ha0, bind, Except.bind]
    simp

/-- Non-vacuity of C71: 4/m acting on itself by a quarter turn.  The call returns and warns. -/
example : ∃ (la : LinAlg) (R : Fin 8 → Matrix (Fin 2) (Fin 2) ℝ), la.Contract ∧
    IsRealProjRep tbl4m (fun _ _ => 1) R ∧ (∀ g, R g * (R g).transpose = 1) ∧ IsRealIrreducible R ∧
    (¬ Spec.IsIrreducible fun g => (R g).map Complex.ofReal) ∧ (∀ g i j, (two4m 1 1 g i j).im = 0) ∧
    ∃ bs, projectToIrrep la (two4m 1 1) (fun g => (R g).map Complex.ofReal) = .ok (bs, true) := by
  obtain ⟨la, hla⟩ := exists_linAlg_contract
  let R : Fin 8 → Matrix (Fin 2) (Fin 2) ℝ :=
    ![1, -1, !![0, -1; 1, 0], -!![0, -1; 1, 0], 1, -1, !![0, -1; 1, 0], -!![0, -1; 1, 0]]
  have ht : (!![0, -1; 1, 0] : Matrix (Fin 2) (Fin 2) ℝ) * !![0, -1; 1, 0] = -1 := by
    ext i j; fin_cases i <;> fin_cases j <;> simp
  have htt : (!![0, -1; 1, 0] : Matrix (Fin 2) (Fin 2) ℝ) * (!![0, -1; 1, 0] : Matrix (Fin 2) (Fin 2) ℝ).transpose = 1 := by
    ext i j; fin_cases i <;> fin_cases j <;> simp [Matrix.mul_apply]
  have hR : IsRealProjRep tbl4m (fun _ _ => 1) R := by
    intro g h
    rw [one_smul]
    fin_cases g <;> fin_cases h <;> simp [R, tbl4m, ht, -Matrix.cons_mul, -Matrix.neg_of]
  have hO : ∀ g, R g * (R g).transpose = 1 := by
    intro g
    fin_cases g <;> simp [R, htt, -Matrix.cons_mul, -Matrix.neg_of, -Matrix.cons_transpose]
  have hRC : (fun g => (R g).map Complex.ofReal) = two4m 1 1 := by
    funext g
    ext i j
    fin_cases g <;> fin_cases i <;> fin_cases j <;> simp [R, two4m, turn]
  have hn : ¬ Spec.IsIrreducible fun g => (R g).map Complex.ofReal := by
    intro h
    rw [hRC] at h
    have := dim_one_of_comm h fun g k => by
      have h1 := two4m_proj (σ := 1) (ε := 1) (.inl rfl) (.inl rfl)
      rw [h1 g k, h1 k g, tbl4m_comm]
    omega
  have him : ∀ g i j, (two4m 1 1 g i j).im = 0 := by
    intro g i j
    rw [← hRC]
    simp
  obtain ⟨h1, h2⟩ := c71_doubled_irrep cayley_4m.2 (two4m_proj (.inl rfl) (.inl rfl)) (two4m_unitary (.inl rfl) (.inl rfl))
    him hR hO turn_real_irreducible hn la hla 1e-6 10
  obtain ⟨⟨bs, w⟩, hr⟩ := h1 (by norm_num)
  have hw := (h2 bs w hr).2.2.2.2 ⟨1, fun h => by simpa using congrFun (congrFun h 0) 0, fun g => by
    rw [Matrix.mul_one, Matrix.one_mul, ← hRC]⟩
  subst hw
  exact ⟨la, R, hla, hR, hO, turn_real_irreducible, hn, him, bs, hr⟩

end Spgrep
