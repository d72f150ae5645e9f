/-
C78: `project_to_irrep` for representations that are not unitary.
-/
import Verif.Proofs.NonUnitary
import Verif.Proofs.RealCounter

namespace Spgrep

open Spec

variable {n d D : ℕ} {T : Fin n → Fin n → Fin n} {μ : Fin n → Fin n → ℂ}

/-- **C78, what is true.** For every group, every projective representation (unitary or not) and every unitary irrep with
the same factor system, `project_to_irrep` returns if it may try at least once.  All returned vectors are linearly
independent unit vectors, there are at most as many blocks as the irrep occurs, and the warning says that there are
fewer.  The vectors of one block span an invariant subspace: multiplied with suitable positive factors, one for each
vector, they transform like the irrep.  For a one-dimensional irrep they do so as they are. -/
theorem c78_nonunitary_partial (hT : IsGroupTable T) (hμ : ∀ g h, μ g h ≠ 0) {rep : RepArr n D} {irrep : RepArr n d}
    (hrep : IsProjRep T μ rep) (hirrep : IsProjRep T μ irrep) (hiu : IsUnitaryRep irrep) (hi : IsIrreducible irrep)
    (la : LinAlg) (hla : la.Contract) (atol : ℝ) (maxTrials : ℕ) :
    (0 < maxTrials → ∃ r, projectToIrrep la rep irrep atol maxTrials = .ok r) ∧
    ∀ bs w, projectToIrrep la rep irrep atol maxTrials = .ok (bs, w) →
      LinearIndependent ℂ (fun x : Fin bs.length × Fin d => fun m => bs.get x.1 x.2 m) ∧
      bs.length ≤ Module.finrank ℂ (homSub rep irrep) ∧
      (w = true ↔ bs.length < Module.finrank ℂ (homSub rep irrep)) ∧
      ∀ b ∈ bs, (∀ i, ∑ m, ‖b i m‖ ^ 2 = 1) ∧
        (∃ c : Fin d → ℝ, (∀ i, 0 < c i) ∧ ∀ g i m, ∑ m', rep g m m' * (c i * b i m') = ∑ l, (c l * b l m) * irrep g l i) ∧
        (d = 1 → ∀ g i m, ∑ m', rep g m m' * b i m' = ∑ l, b l m * irrep g l i) := by
  obtain ⟨i0⟩ := hi.1
  have hd : 0 < d := lt_of_le_of_lt (Nat.zero_le _) i0.2
  have hnum := numBasis_eq hT hμ hrep hirrep hiu
  have hinner : ∀ a : ℝ, 0 ≤ a → ∃ bs, projInner la rep irrep a = .ok bs ∧ GoodScaled rep irrep bs :=
    fun a ha => projInner_scaled hT hμ hrep hirrep hiu hi hla ha
  constructor
  · intro hm
    unfold projectToIrrep
    by_cases h0 : numBasis rep irrep = 0
    · exact ⟨([], false), by simp only [h0, if_true]⟩
    · obtain ⟨x, hx⟩ := (c16_tolerance_search (n := n) (d := d) (D := D)).1
        (fun a => do let b ← projInner la rep irrep a; return (b, b.length)) (numBasis rep irrep) atol maxTrials
        |>.2.1 hm (by
          intro a h1 _
          obtain ⟨bs, hbs, _⟩ := hinner a (le_trans (by norm_num) h1)
          rw [hbs]
          exact ⟨_, rfl⟩)
      simp only [h0, if_false, hx]
      exact ⟨_, rfl⟩
  · intro bs w h
    have hg : GoodScaled rep irrep bs ∧ ∀ b ∈ bs, ∀ i, ∑ m, ‖b i m‖ ^ 2 = 1 := by
      rcases projectToIrrep_cases h with ⟨_, rfl, _⟩ | ⟨t, _, ht, _, hp, _⟩
      · refine ⟨⟨?_, by simp⟩, by simp⟩
        have : IsEmpty (Fin ([] : List (Matrix (Fin d) (Fin D) ℂ)).length × Fin d) := ⟨fun x => Fin.elim0 x.1⟩
        exact linearIndependent_empty_type
      · have ht0 : (0 : ℝ) ≤ t := le_trans (by norm_num) ht
        obtain ⟨bs', h1, h2⟩ := hinner t ht0
        rw [hp] at h1
        cases h1
        refine ⟨h2, projInner_all la rep irrep ht0 (P := fun b => ∀ i, ∑ m, ‖b i m‖ ^ 2 = 1) (fun c j hne => ?_) hp⟩
        exact (normalizeRows_indep (intertwiner_indep hi
          (fun g => projBlock_intertwines hT hμ hrep hirrep hiu c j g) hne)).2.2.1
    have hw := c16_tolerance_search.2 la rep irrep atol maxTrials bs w h
    rw [hnum] at hw
    have hcard := scaled_card hd hg.1
    refine ⟨hg.1.indep, hcard, ?_, fun b hb => ?_⟩
    · rw [hw]
      constructor
      · intro hne
        exact lt_of_le_of_ne hcard fun he => hne (by exact_mod_cast he)
      · intro hlt he
        exact hlt.ne (by exact_mod_cast he)
    · obtain ⟨c, hc, hhom⟩ := hg.1.hom b hb
      have hsc : ∀ g i m, ∑ m', rep g m m' * (c i * b i m') = ∑ l, (c l * b l m) * irrep g l i := by
        intro g i m
        have := congrFun (congrFun (hhom g) m) i
        simpa [Matrix.mul_apply, scaleRows] using this
      refine ⟨hg.2 b hb, ⟨c, hc, hsc⟩, fun hd1 g i m => ?_⟩
      subst hd1
      have h1 := hsc g i m
      have hi' : i = 0 := Subsingleton.elim _ _
      subst hi'
      simp only [Fin.sum_univ_one] at h1 ⊢
      have hc0 : (c 0 : ℂ) ≠ 0 := by exact_mod_cast (hc 0).ne'
      apply mul_left_cancel₀ hc0
      rw [Finset.mul_sum]
      rw [show (c 0 : ℂ) * (b 0 m * irrep g 0 0) = c 0 * b 0 m * irrep g 0 0 by ring, ← h1]
      exact Finset.sum_congr rfl fun _ _ => by ring

/-! ### The triangular group in hexagonal coordinates -/

/-- The group 32: identity, the threefold rotations, and three twofold ones. -/
def tbl32 : Fin 6 → Fin 6 → Fin 6 :=
  ![![0, 1, 2, 3, 4, 5], ![1, 2, 0, 4, 5, 3], ![2, 0, 1, 5, 3, 4], ![3, 5, 4, 0, 2, 1], ![4, 3, 5, 1, 0, 2],
    ![5, 4, 3, 2, 1, 0]]

/-- The integer matrices of 321 in the basal plane, in the hexagonal basis. -/
def rots32 : Fin 6 → Matrix (Fin 2) (Fin 2) ℤ :=
  ![!![1, 0; 0, 1], !![0, -1; 1, -1], !![-1, 1; -1, 0], !![0, 1; 1, 0], !![-1, 0; -1, 1], !![1, -1; 0, -1]]

theorem tbl32_group : IsGroupTable tbl32 := ⟨by decide +kernel, ⟨0, by decide +kernel⟩⟩

theorem tbl32_spec : ∀ i j, rots32 i * rots32 j = rots32 (tbl32 i j) := by decide +kernel

/-- The representation given by the integer matrices. -/
noncomputable def rep32 : RepArr 6 2 := fun g => (rots32 g).map (Int.castRingHom ℂ)

theorem rep32_proj : IsProjRep tbl32 (fun _ _ => 1) rep32 := by
  intro g h
  rw [one_smul]
  show (rots32 g).map _ * (rots32 h).map _ = (rots32 (tbl32 g h)).map _
  rw [← tbl32_spec g h, ← Matrix.map_mul (f := Int.castRingHom ℂ)]

/-- `√3` as a complex number. -/
noncomputable def s3 : ℂ := (Real.sqrt 3 : ℝ)

theorem s3_sq : s3 * s3 = 3 := by
  unfold s3
  rw [← Complex.ofReal_mul, Real.mul_self_sqrt (by norm_num)]
  norm_num

theorem conj_two : (starRingEnd ℂ) 2 = 2 := map_ofNat _ 2

theorem s3_star : star s3 = s3 := Complex.conj_ofReal _

/-- The two-dimensional irrep of 32, in real form. -/
noncomputable def irr32 : RepArr 6 2 :=
  ![!![1, 0; 0, 1], !![-1/2, -(s3/2); s3/2, -1/2], !![-1/2, s3/2; -(s3/2), -1/2], !![1, 0; 0, -1],
    !![-1/2, s3/2; s3/2, 1/2], !![-1/2, -(s3/2); -(s3/2), 1/2]]

theorem irr32_proj : IsProjRep tbl32 (fun _ _ => 1) irr32 := by
  intro g h
  rw [one_smul]
  have h3 := s3_sq
  fin_cases g <;> fin_cases h <;> ext i j <;> fin_cases i <;> fin_cases j <;>
    simp [irr32, tbl32, Matrix.mul_apply] <;> first
      | linear_combination (0 : ℂ) * h3
      | linear_combination (1/4 : ℂ) * h3
      | linear_combination (-1/4 : ℂ) * h3

theorem irr32_unitary : IsUnitaryRep irr32 := by
  intro g
  have h3 := s3_sq
  have h4 : (starRingEnd ℂ) s3 = s3 := s3_star
  fin_cases g <;> ext i j <;> fin_cases i <;> fin_cases j <;>
    simp [irr32, Matrix.mul_apply, Matrix.conjTranspose_apply, h4, conj_two] <;> first
      | linear_combination (0 : ℂ) * h3
      | linear_combination (1/4 : ℂ) * h3
      | linear_combination (-1/4 : ℂ) * h3

theorem irr32_irreducible : IsIrreducible irr32 := by
  rw [table_irreducible_iff tbl32_group (fun _ _ => one_ne_zero) irr32_proj irr32_unitary]
  simp [Fin.sum_univ_succ, irr32, Matrix.trace, conj_two]
  norm_num

/-- A primitive third root of unity. -/
noncomputable def w3 : ℂ := (-1 + Complex.I * s3) / 2

theorem w3_sq : w3 * w3 = -1 - w3 := by
  unfold w3
  linear_combination (1/4 : ℂ) * s3 * s3 * Complex.I_mul_I - (1/4 : ℂ) * s3_sq

theorem w3_star : (starRingEnd ℂ) w3 = -1 - w3 := by
  have h4 : (starRingEnd ℂ) s3 = s3 := s3_star
  unfold w3
  simp [h4, conj_two]
  ring

theorem w3_ne : w3 ≠ 0 := by
  intro h
  have := w3_sq
  rw [h] at this
  norm_num at this

/-- The two-dimensional irrep of 32, with diagonal threefold rotations. -/
noncomputable def irr32' : RepArr 6 2 :=
  ![!![1, 0; 0, 1], !![w3, 0; 0, -1 - w3], !![-1 - w3, 0; 0, w3], !![0, 1; 1, 0], !![0, w3; -1 - w3, 0],
    !![0, -1 - w3; w3, 0]]

theorem irr32'_proj : IsProjRep tbl32 (fun _ _ => 1) irr32' := by
  intro g h
  rw [one_smul]
  have h3 := w3_sq
  fin_cases g <;> fin_cases h <;> ext i j <;> fin_cases i <;> fin_cases j <;>
    simp [irr32', tbl32, Matrix.mul_apply] <;> first
      | linear_combination (0 : ℂ) * h3
      | linear_combination (1 : ℂ) * h3
      | linear_combination (-1 : ℂ) * h3

theorem irr32'_unitary : IsUnitaryRep irr32' := by
  intro g
  have h3 := w3_sq
  have h4 := w3_star
  fin_cases g <;> ext i j <;> fin_cases i <;> fin_cases j <;>
    simp [irr32', Matrix.mul_apply, Matrix.conjTranspose_apply, h4] <;> first
      | linear_combination (0 : ℂ) * h3
      | linear_combination (1 : ℂ) * h3
      | linear_combination (-1 : ℂ) * h3

theorem irr32'_irreducible : IsIrreducible irr32' := by
  rw [table_irreducible_iff tbl32_group (fun _ _ => one_ne_zero) irr32'_proj irr32'_unitary]
  simp [Fin.sum_univ_succ, irr32', Matrix.trace]
  norm_num

theorem rint_6 {m : ℕ} {s : ℂ} (hs : s = ((6 * m : ℕ) : ℂ)) : rint (rintC s / (6 : ℕ)).re = m := by
  rw [hs, rintC_natCast, Nat.cast_mul, mul_div_cancel_left₀ _ (by norm_num)]
  exact_mod_cast rint_intCast (m : ℤ)

theorem project_32 {la : LinAlg} (hla : la.Contract) (atol : ℝ) :
    ∃ b, projectToIrrep la rep32 irr32 atol = .ok ([b], false) := by
  obtain ⟨bs, h1, h2⟩ := project_silent (la := la) (F := rep32) (E := irr32) (m := 1) (by
    refine (rint_6 (m := 1) ?_).trans rfl
    simp [Fin.sum_univ_succ, getCharacter, irr32, rep32, rots32, conj_two]
    norm_num) one_ne_zero (fun a _ ha => by
    refine projInner_plane hla ha (p := (0, 0)) (i := 0) (m := 0) ?_
    simp [projBlock, Fin.sum_univ_succ, irr32, rep32, rots32, conj_two]
    norm_num) atol
  obtain ⟨b, rfl⟩ := List.length_eq_one_iff.1 h2
  exact ⟨b, h1⟩

theorem project_32' {la : LinAlg} (hla : la.Contract) (atol : ℝ) :
    ∃ b, projectToIrrep la rep32 irr32' atol = .ok ([b], false) := by
  obtain ⟨bs, h1, h2⟩ := project_silent (la := la) (F := rep32) (E := irr32') (m := 1) (by
    refine (rint_6 (m := 1) ?_).trans rfl
    simp [Fin.sum_univ_succ, getCharacter, irr32', rep32, rots32]
    norm_num) one_ne_zero (fun a _ ha => by
    refine projInner_plane hla ha (p := (0, 0)) (i := 0) (m := 0) ?_
    simp [projBlock, Fin.sum_univ_succ, irr32', rep32, rots32, w3_star]
    have h1 := Complex.abs_re_le_norm (1 + -w3)
    have h2 : (1 + -w3).re = 3 / 2 := by
      simp [w3, s3]
      norm_num
    rw [h2] at h1
    norm_num [abs_of_pos] at h1 ⊢
    linarith) atol
  obtain ⟨b, rfl⟩ := List.length_eq_one_iff.1 h2
  exact ⟨b, h1⟩

/-- **C78, what is false.** The docstring does not ask for a unitary representation, says that the returned vectors are
orthonormal, and the purpose of the function is that the vectors of a block transform like the irrep.  For the integer
matrices of the group 32 in the hexagonal basis, where the irrep occurs once, the single block is returned without a
warning.  With the real form of the irrep its two vectors do not transform like the irrep, since each is normalised for
itself; with the form in which the threefold rotations are diagonal its two vectors are not orthogonal. -/
theorem c78_refuted (la : LinAlg) (hla : la.Contract) (atol : ℝ) :
    IsGroupTable tbl32 ∧ IsProjRep tbl32 (fun _ _ => 1) rep32 ∧
    (IsProjRep tbl32 (fun _ _ => 1) irr32 ∧ IsUnitaryRep irr32 ∧ IsIrreducible irr32 ∧
      ∃ b, projectToIrrep la rep32 irr32 atol = .ok ([b], false) ∧
        ¬ ∀ g i m, ∑ m', rep32 g m m' * b i m' = ∑ l, b l m * irr32 g l i) ∧
    (IsProjRep tbl32 (fun _ _ => 1) irr32' ∧ IsUnitaryRep irr32' ∧ IsIrreducible irr32' ∧
      ∃ b, projectToIrrep la rep32 irr32' atol = .ok ([b], false) ∧ ∑ m, star (b 0 m) * b 1 m ≠ 0) := by
  refine ⟨tbl32_group, rep32_proj, ⟨irr32_proj, irr32_unitary, irr32_irreducible, ?_⟩,
    irr32'_proj, irr32'_unitary, irr32'_irreducible, ?_⟩
  · obtain ⟨b, hb⟩ := project_32 hla atol
    refine ⟨b, hb, fun hall => ?_⟩
    have hn := ((c78_nonunitary_partial tbl32_group (fun _ _ => one_ne_zero) rep32_proj irr32_proj irr32_unitary
      irr32_irreducible la hla atol 10).2 _ _ hb).2.2.2 b (List.mem_singleton.2 rfl)
    have n0 := hn.1 0
    have n1 := hn.1 1
    have e1 := hall 3 0 0
    have e2 := hall 3 1 0
    have e3 := hall 1 0 0
    simp [Fin.sum_univ_two, rep32, rots32, irr32] at e1 e2 e3 n0 n1
    have h1 : s3 * b 1 0 = - b 0 0 := by linear_combination -2 * e3 - 2 * e1
    have h2 := congrArg (fun z : ℂ => ‖z‖ ^ 2) h1
    have h3 : ‖s3‖ ^ 2 = 3 := by
      rw [sq, ← norm_mul, s3_sq]
      norm_num
    have h4 : b 1 1 = - b 1 0 := by linear_combination e2
    have h5 : b 0 1 = b 0 0 := by linear_combination e1
    simp only [norm_mul, norm_neg, mul_pow, h3] at h2
    rw [h5] at n0
    rw [h4, norm_neg] at n1
    linarith
  · obtain ⟨b, hb⟩ := project_32' hla atol
    refine ⟨b, hb, fun h0 => ?_⟩
    have hn := ((c78_nonunitary_partial tbl32_group (fun _ _ => one_ne_zero) rep32_proj irr32'_proj irr32'_unitary
      irr32'_irreducible la hla atol 10).2 _ _ hb).2.2.2 b (List.mem_singleton.2 rfl)
    have n0 := hn.1 0
    have n1 := hn.1 1
    obtain ⟨c, hc, hh⟩ := hn.2.1
    have c0 : (c 0 : ℂ) ≠ 0 := by exact_mod_cast (hc 0).ne'
    have c1 : (c 1 : ℂ) ≠ 0 := by exact_mod_cast (hc 1).ne'
    have e1 := hh 1 0 0
    have e2 := hh 1 1 0
    simp [Fin.sum_univ_two, rep32, rots32, irr32'] at e1 e2 n0 n1 h0
    have h1 : b 0 1 = -w3 * b 0 0 := by
      apply mul_left_cancel₀ c0
      linear_combination -e1
    have h2 : b 1 1 = (1 + w3) * b 1 0 := by
      apply mul_left_cancel₀ c1
      linear_combination -e2
    rw [h1, h2, map_mul, map_neg, w3_star] at h0
    have h3 : (starRingEnd ℂ) (b 0 0) * b 1 0 * (1 + w3) = 0 := by
      linear_combination h0 - (starRingEnd ℂ) (b 0 0) * b 1 0 * w3_sq
    have h4 : 1 + w3 ≠ 0 := by
      intro h
      have := w3_sq
      rw [show w3 = -1 by linear_combination h] at this
      norm_num at this
    rcases mul_eq_zero.1 h3 with h5 | h5
    · rcases mul_eq_zero.1 h5 with h6 | h6
      · have h7 : b 0 0 = 0 := by simpa using h6
        rw [h1, h7] at n0
        norm_num at n0
      · rw [h2, h6] at n1
        norm_num at n1
    · exact h4 h5

/-- The integer matrices of 32 in the hexagonal basis are not unitary and contain the irrep once. -/
example (la : LinAlg) (hla : la.Contract) :
    ¬ IsUnitaryRep rep32 ∧ ∃ bs w, projectToIrrep la rep32 irr32 1e-6 10 = .ok (bs, w) ∧
      ∀ b ∈ bs, ∀ i, ∑ m, ‖b i m‖ ^ 2 = 1 := by
  constructor
  · intro h
    have := congrFun (congrFun (h 1) 1) 1
    simp [rep32, rots32, Matrix.mul_apply, Matrix.conjTranspose_apply] at this
  · obtain ⟨h1, h2⟩ := c78_nonunitary_partial tbl32_group (fun _ _ => one_ne_zero) rep32_proj irr32_proj irr32_unitary
      irr32_irreducible la hla 1e-6 10
    obtain ⟨⟨bs, w⟩, hr⟩ := h1 (by norm_num)
    exact ⟨bs, w, hr, fun b hb => ((h2 bs w hr).2.2.2 b hb).1⟩

end Spgrep
