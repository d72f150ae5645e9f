/-
C75: does `project_to_irrep` find all basis vectors?
-/
import Verif.Proofs.Frame
import Verif.Props.Adapted

namespace Spgrep

open Spec

variable {n d D : ℕ} {T : Fin n → Fin n → Fin n} {μ : Fin n → Fin n → ℂ}

/-- **C75.** For a unitary representation, a unitary irrep of the same factor system, exact linear algebra routines and at
least one trial, the first pass of `project_to_irrep` already finds every block and no final warning is given: if the irrep
occurs at most three times and (dimension × clipped tolerance) `< 1/2`; or if it occurs at most four times and every projected
unit vector is zero or has an entry above the clipped tolerance. -/
theorem c75_all_blocks_found_partial (hT : IsGroupTable T) (hμ : ∀ g h, μ g h ≠ 0) {rep : RepArr n D} {irrep : RepArr n d}
    (hrep : IsProjRep T μ rep) (hru : IsUnitaryRep rep)
    (hirrep : IsProjRep T μ irrep) (hiu : IsUnitaryRep irrep) (hi : Spec.IsIrreducible irrep)
    (la : LinAlg) (hla : la.Contract) (atol : ℝ) (maxTrials : ℕ) (hmax : 0 < maxTrials)
    (hmult : (Module.finrank ℂ (homSub rep irrep) ≤ 3 ∧ D * min (max atol 1e-10) 1e-2 < 1 / 2) ∨
      (Module.finrank ℂ (homSub rep irrep) ≤ 4 ∧ ∀ c j, projBlock rep irrep c j = 0 ∨
        ∃ i m, min (max atol 1e-10) 1e-2 < ‖projBlock rep irrep c j i m‖)) :
    ∃ bs, projectToIrrep la rep irrep atol maxTrials = .ok (bs, false) ∧
      bs.length = Module.finrank ℂ (homSub rep irrep) := by
  obtain ⟨i0⟩ := hi.1
  have hd : 0 < d := lt_of_le_of_lt (Nat.zero_le _) i0.2
  have hnum := numBasis_eq hT hμ hrep hirrep hiu
  have ha : (0 : ℝ) ≤ min (max atol 1e-10) 1e-2 :=
    le_min (le_trans (by norm_num) (le_max_right _ _)) (by norm_num)
  unfold projectToIrrep
  by_cases h0 : numBasis rep irrep = 0
  · refine ⟨[], by simp only [h0, if_true], ?_⟩
    rw [hnum] at h0
    exact (by exact_mod_cast h0.symm : (0 : ℕ) = _)
  · obtain ⟨bs, hbs, hg, hcov⟩ := projInner_covered hT hμ hrep hru hirrep hiu hi hla ha
    have hcard : bs.length ≤ Module.finrank ℂ (homSub rep irrep) := by
      simpa using (blocks_card hd hg).fintype_card_le_finrank
    have hnot := covered_count hT hμ hrep hru hirrep hiu hi ha hg.hom hcov hmult
    have hlen : bs.length = Module.finrank ℂ (homSub rep irrep) := by omega
    have hc : ((bs.length : ℕ) : ℤ) = numBasis rep irrep := by rw [hnum, hlen]
    refine ⟨bs, ?_, hlen⟩
    obtain ⟨k, rfl⟩ : ∃ k, maxTrials = k + 1 := ⟨maxTrials - 1, by omega⟩
    simp only [h0, if_false]
    have hs : searchTolerance (fun a => do let b ← projInner la rep irrep a; return (b, b.length)) (numBasis rep irrep)
        atol (k + 1) = .ok (bs, false, [min (max atol 1e-10) 1e-2]) := by
      unfold searchTolerance
      dsimp only
      rw [retryLoop, hbs]
      simp only [bind, Except.bind, pure, Except.pure, hc, if_true]
      simp
    rw [hs]
    rfl

/-! ### The claim without bound on the multiplicity is false -/

/-- Numerators (over 650) of the frame of the counter-example: nine vectors of five-dimensional space. -/
def badX : Matrix (Fin 9) (Fin 5) ℤ :=
  !![182, 0, 0, 0, 0;
     0, 182, 0, 0, 0;
     0, 0, 182, 0, 0;
     0, 0, 0, 182, 0;
     408, -216, -216, -216, 300;
     -216, 408, -216, -216, 300;
     -216, -216, 408, -216, 300;
     -216, -216, -216, 408, 300;
     288, 288, 288, 288, 250]

/-- Numerators (over 422500) of the projector on the span of the columns. -/
def badP : Matrix (Fin 9) (Fin 9) ℤ := Matrix.of fun a b => ∑ k, badX a k * badX b k

theorem badP_proj : badP * badP = (422500 : ℤ) • badP := by decide +kernel

theorem badP_symm : badP.transpose = badP := by decide +kernel

theorem badP_trace : badP.trace = 5 * 422500 := by decide +kernel

theorem badP_first : ∀ a b : Fin 4, badP (Fin.castLE (by omega) a) (Fin.castLE (by omega) b) = if a = b then 33124 else 0 := by
  decide +kernel

/-- The other projected unit vectors are near the span of the first four. -/
theorem badP_near : ∀ c : Fin 9, 4 ≤ (c : ℕ) →
    4 * ∑ m, (33124 * badP m c - ∑ k : Fin 4, badP c (Fin.castLE (by omega) k) * badP m (Fin.castLE (by omega) k)) ^ 2 <
      33124 ^ 2 * ∑ m, badP m c ^ 2 := by decide +kernel

/-- The projector. -/
noncomputable def badC : Matrix (Fin 9) (Fin 9) ℂ := (1 / 422500 : ℂ) • badP.map (fun x : ℤ => (x : ℂ))

theorem badC_proj : badC * badC = badC := by
  have h : badP.map (fun x : ℤ => (x : ℂ)) * badP.map (fun x : ℤ => (x : ℂ)) =
      (422500 : ℂ) • badP.map (fun x : ℤ => (x : ℂ)) := by
    have := congrArg (fun M => M.map (Int.castRingHom ℂ)) badP_proj
    simp only [Matrix.map_mul] at this
    rw [show (fun x : ℤ => (x : ℂ)) = Int.castRingHom ℂ from rfl, this]
    ext i j
    simp only [Matrix.map_apply, Matrix.smul_apply, smul_eq_mul, eq_intCast, Int.cast_mul, Int.cast_ofNat]
  unfold badC
  rw [Matrix.smul_mul, Matrix.mul_smul, h, smul_smul, smul_smul]
  norm_num

theorem badC_herm : badC.conjTranspose = badC := by
  ext i j
  have := congrFun (congrFun badP_symm i) j
  rw [Matrix.transpose_apply] at this
  simp only [badC, Matrix.conjTranspose_apply, Matrix.smul_apply, Matrix.map_apply, this, smul_eq_mul, star_mul']
  congr 1
  · rw [RCLike.star_def, map_div₀]; simp [Complex.conj_ofNat]
  · simp

/-- The counter-example: the group of order two acts as the identity and as the reflection in a five-dimensional space. -/
noncomputable def badRep : RepArr 2 9 := fun g => if g = 0 then 1 else (2 : ℂ) • badC - 1

theorem badRep_unitary_sq : ((2 : ℂ) • badC - 1) * ((2 : ℂ) • badC - 1) = 1 := by
  rw [Matrix.sub_mul, Matrix.mul_sub, Matrix.one_mul, Matrix.mul_one, Matrix.smul_mul, Matrix.mul_smul, badC_proj]
  module

theorem badRep_proj : IsProjRep (fun a b : Fin 2 => a + b) (fun _ _ => (1 : ℂ)) badRep := by
  intro g h
  fin_cases g <;> fin_cases h <;> simp [badRep, badRep_unitary_sq]

theorem badRep_unitary : IsUnitaryRep badRep := by
  intro g
  fin_cases g
  · simp [badRep]
  · simp only [badRep, Fin.mk_one, one_ne_zero, if_false]
    rw [Matrix.conjTranspose_sub, Matrix.conjTranspose_smul, badC_herm, Matrix.conjTranspose_one]
    rw [show star (2 : ℂ) = 2 from Complex.conj_ofNat 2]
    exact badRep_unitary_sq

/-- The trivial irrep. -/
def trivRep : RepArr 2 1 := fun _ => 1

theorem trivRep_proj : IsProjRep (fun a b : Fin 2 => a + b) (fun _ _ => (1 : ℂ)) trivRep := by
  intro g h; simp [trivRep]

theorem trivRep_unitary : IsUnitaryRep trivRep := by
  intro g; simp [trivRep]

theorem tbl2_group : IsGroupTable (fun a b : Fin 2 => a + b) := ⟨by decide, 0, by decide, by decide, by decide⟩

theorem trivRep_irreducible : Spec.IsIrreducible trivRep := by
  rw [table_irreducible_iff tbl2_group (fun _ _ => one_ne_zero) trivRep_proj trivRep_unitary]
  simp [trivRep, Matrix.trace]

theorem bad_block (c : Fin 9) (j i : Fin 1) (m : Fin 9) :
    projBlock badRep trivRep c j i m = (badP m c : ℂ) / 422500 := by
  obtain rfl : j = i := Subsingleton.elim _ _
  simp only [projBlock, Matrix.of_apply, Fin.sum_univ_two, badRep, trivRep, Matrix.one_apply_eq, star_one, one_mul,
    if_true, one_ne_zero, if_false, badC, Matrix.sub_apply, Matrix.smul_apply, Matrix.map_apply, smul_eq_mul]
  push_cast
  ring

theorem bad_mult : Module.finrank ℂ (homSub badRep trivRep) = 5 := by
  have h := table_sum_char_conj tbl2_group (fun _ _ => one_ne_zero) badRep_proj trivRep_proj trivRep_unitary
  have ht : (badC).trace = 5 := by
    have := congrArg (fun x : ℤ => (x : ℂ)) badP_trace
    simp only [Matrix.trace, Matrix.diag, Int.cast_sum, Int.cast_mul] at this
    simp only [badC, Matrix.trace, Matrix.diag, Matrix.smul_apply, Matrix.map_apply, smul_eq_mul, ← Finset.mul_sum, this]
    norm_num
  simp only [Fin.sum_univ_two, badRep, trivRep, if_true, one_ne_zero, if_false, Matrix.trace_sub, Matrix.trace_smul, ht,
    Matrix.trace_one, Fintype.card_fin] at h
  have h2 : ((Module.finrank ℂ (homSub badRep trivRep) : ℕ) : ℂ) = (5 : ℕ) := by
    push_cast at h ⊢
    simp at h
    exact h.symm
  exact_mod_cast h2

theorem bad_ne (c : Fin 9) : projBlock badRep trivRep c 0 0 c ≠ 0 := by
  rw [bad_block]
  have : badP c c ≠ 0 := by revert c; decide +kernel
  exact div_ne_zero (by exact_mod_cast this) (by norm_num)

theorem bad_large (c : Fin 9) : (1e-2 : ℝ) < ‖projBlock badRep trivRep c 0 0 c‖ := by
  rw [bad_block]
  have h : 33124 ≤ badP c c := by revert c; decide +kernel
  have h' : (33124 : ℝ) ≤ (badP c c : ℝ) := by exact_mod_cast h
  rw [norm_div, Complex.norm_intCast, abs_of_nonneg (by linarith)]
  rw [show ‖(422500 : ℂ)‖ = 422500 from by simp]
  rw [lt_div_iff₀ (by norm_num)]
  linarith

/-- The normalised block of a column. -/
noncomputable def badN (c : Fin 9) : Matrix (Fin 1) (Fin 9) ℂ := normalizeRows (projBlock badRep trivRep c 0)

theorem badN_spec (c : Fin 9) : badN c * (badN c).conjTranspose = 1 ∧
    ∃ s : ℂ, s ≠ 0 ∧ badN c = s • projBlock badRep trivRep c 0 := by
  have hint := fun g => projBlock_intertwines tbl2_group (fun _ _ => one_ne_zero) badRep_proj trivRep_proj
    trivRep_unitary c 0 g
  obtain ⟨r, hr⟩ := gram_scalar badRep_unitary trivRep_unitary trivRep_irreducible hint
  exact normalizeRows_spec (fun h => bad_ne c (by rw [h]; rfl)) hr

/-- A column orthogonal to the collected ones is added. -/
theorem bad_append {la : LinAlg} (hla : la.Contract) {a : ℝ} (ha : a ≤ 1e-2)
    {bs : List (Matrix (Fin 1) (Fin 9) ℂ)} (hg : GoodBlocks badRep trivRep bs) (c : Fin 9)
    (ho : OrthBlocks bs (projBlock badRep trivRep c 0 0)) :
    projStep la badRep trivRep a bs (c, 0) = .ok (bs ++ [badN c]) := by
  have h1 : ¬ ∀ i m, IsCloseC 1e-5 a (projBlock badRep trivRep c 0 i m) 0 := by
    intro h
    have := h 0 c
    unfold IsCloseC at this
    rw [sub_zero, norm_zero, mul_zero, add_zero] at this
    exact absurd (this.trans ha) (not_le.2 (bad_large c))
  unfold projStep
  dsimp only
  rw [if_neg h1]
  by_cases hl : 0 < bs.length
  · rw [if_pos hl]
    obtain ⟨hn, s, hs, h2⟩ := badN_spec c
    obtain ⟨dist, hdist, hgap0, hgap, -⟩ := grassmann_gap la hla (badN c)
      (stackBlocks bs) (orthonormal_rows_indep hn) (stack_indep hg.indep) (by norm_num) (Nat.le_mul_of_pos_left _ hl)
    unfold badN at hdist
    rw [hdist]
    change (if dist < 0.5 then Except.ok bs else Except.ok (bs ++ [_])) = _
    rw [if_neg, badN]
    have hv : projBlock badRep trivRep c 0 0 ∈ rowSpan (badN c) := by
      have : projBlock badRep trivRep c 0 0 = s⁻¹ • (badN c).row 0 := by
        funext m
        rw [h2]
        simp [Matrix.row, hs]
      rw [this]
      exact Submodule.smul_mem _ _ (Submodule.subset_span ⟨0, rfl⟩)
    have h3 := overlap_of_near (hgap _ hv) ho.span
    set v := projBlock badRep trivRep c 0 0 with hvdef
    have h4 : ‖∑ m, v m * star (v m)‖ = nsq v := by
      have : ∑ m, v m * star (v m) = ((nsq v : ℝ) : ℂ) := by
        unfold nsq; push_cast
        exact Finset.sum_congr rfl fun m _ => by rw [RCLike.star_def, Complex.mul_conj']
      rw [this, Complex.norm_real, Real.norm_of_nonneg (nsq_nonneg v)]
    rw [h4] at h3
    have h5 : 0 < nsq v := by
      refine lt_of_le_of_ne (nsq_nonneg v) fun h => bad_ne c ?_
      exact congrFun (nsq_eq_zero h.symm) c
    intro h6
    norm_num at h6
    have h7 : dist ^ 2 < 1 / 4 := by nlinarith
    nlinarith [mul_pos h5 h5]
  · rw [if_neg hl]
    rfl

/-- A column near the collected ones is dropped. -/
theorem bad_reject {la : LinAlg} (hla : la.Contract) {a : ℝ} (ha : a ≤ 1e-2)
    {bs : List (Matrix (Fin 1) (Fin 9) ℂ)} (hg : GoodBlocks badRep trivRep bs) (hl : 0 < bs.length) (c : Fin 9)
    {w : Fin 9 → ℂ} (hw : w ∈ rowSpan (stackBlocks bs))
    (hn : 4 * ∑ m, ‖projBlock badRep trivRep c 0 0 m - w m‖ ^ 2 < nsq (projBlock badRep trivRep c 0 0)) :
    projStep la badRep trivRep a bs (c, 0) = .ok bs := by
  have h1 : ¬ ∀ i m, IsCloseC 1e-5 a (projBlock badRep trivRep c 0 i m) 0 := by
    intro h
    have := h 0 c
    unfold IsCloseC at this
    rw [sub_zero, norm_zero, mul_zero, add_zero] at this
    exact absurd (this.trans ha) (not_le.2 (bad_large c))
  unfold projStep
  dsimp only
  rw [if_neg h1, if_pos hl]
  obtain ⟨hn', s, hs, h2⟩ := badN_spec c
  obtain ⟨dist, hdist, hgap0, -, v, hv, hv0, hfar⟩ := grassmann_gap la hla (badN c)
    (stackBlocks bs) (orthonormal_rows_indep hn') (stack_indep hg.indep) (by norm_num) (Nat.le_mul_of_pos_left _ hl)
  unfold badN at hdist
  rw [hdist]
  change (if dist < 0.5 then Except.ok bs else Except.ok (bs ++ [_])) = _
  rw [if_pos]
  obtain ⟨x, hx⟩ := (Submodule.mem_span_range_iff_exists_fun ℂ).1 hv
  have hvm : ∀ m, v m = x 0 * s * projBlock badRep trivRep c 0 0 m := by
    intro m
    rw [← hx, Fin.sum_univ_one, h2]
    simp [Matrix.row, mul_assoc]
  have hfar' := hfar ((x 0 * s) • w) (Submodule.smul_mem _ _ hw)
  simp only [hvm, Pi.smul_apply, smul_eq_mul, ← mul_sub, norm_mul, mul_pow, ← Finset.mul_sum] at hfar'
  have hpos : 0 < ‖x 0‖ ^ 2 * ‖s‖ ^ 2 := by
    have hx0 : x 0 ≠ 0 := by
      intro h
      apply hv0
      funext m
      rw [hvm, h, zero_mul, zero_mul]; rfl
    have := norm_pos_iff.2 hx0
    have := norm_pos_iff.2 hs
    positivity
  have h3 : dist ^ 2 * nsq (projBlock badRep trivRep c 0 0) ≤ ∑ m, ‖projBlock badRep trivRep c 0 0 m - w m‖ ^ 2 := by
    rw [mul_left_comm] at hfar'
    exact le_of_mul_le_mul_left hfar' hpos
  have h4 : 0 < nsq (projBlock badRep trivRep c 0 0) :=
    lt_of_le_of_lt (mul_nonneg (by norm_num) (Finset.sum_nonneg fun _ _ => by positivity)) hn
  norm_num
  by_contra hge
  push Not at hge
  have h5 : (1 / 4 : ℝ) ≤ dist ^ 2 := by nlinarith
  have h6 := mul_le_mul_of_nonneg_right h5 h4.le
  linarith

theorem bad_orth {l : List (Fin 9)} {c : Fin 9} (h : ∀ k ∈ l, badP k c = 0) :
    OrthBlocks (l.map badN) (projBlock badRep trivRep c 0 0) := by
  intro b hb i
  obtain ⟨k, hk, rfl⟩ := List.mem_map.1 hb
  obtain ⟨-, s, -, h2⟩ := badN_spec k
  have h3 : ∑ m, badP m k * badP m c = 422500 * badP k c := by
    have := congrFun (congrFun badP_proj k) c
    rw [Matrix.mul_apply] at this
    rw [Matrix.smul_apply, smul_eq_mul] at this
    rw [← this]
    refine Finset.sum_congr rfl fun m _ => ?_
    rw [← congrFun (congrFun badP_symm k) m, Matrix.transpose_apply]
  rw [h k hk, mul_zero] at h3
  have h4 : ∑ m, (badP m k : ℂ) * (badP m c : ℂ) = 0 := by exact_mod_cast h3
  rw [h2]
  have h5 : ∀ m, (s • projBlock badRep trivRep k 0) i m * star (projBlock badRep trivRep c 0 0 m) =
      s / 422500 ^ 2 * ((badP m k : ℂ) * (badP m c : ℂ)) := by
    intro m
    rw [Matrix.smul_apply, bad_block, bad_block, smul_eq_mul, RCLike.star_def, map_div₀, Complex.conj_ofNat,
      map_intCast]
    ring
  rw [Finset.sum_congr rfl fun m _ => h5 m, ← Finset.mul_sum, h4, mul_zero]

/-- The first four columns. -/
def bad4 : List (Fin 9) := [0, 1, 2, 3]

theorem bad_near4 (c : Fin 9) (hc : 4 ≤ (c : ℕ)) : ∃ w ∈ rowSpan (stackBlocks (bad4.map badN)),
    4 * ∑ m, ‖projBlock badRep trivRep c 0 0 m - w m‖ ^ 2 < nsq (projBlock badRep trivRep c 0 0) := by
  have hmem : ∀ k : Fin 4, projBlock badRep trivRep (Fin.castLE (by omega) k) 0 0 ∈
      rowSpan (stackBlocks (bad4.map badN)) := by
    intro k
    obtain ⟨-, s, hs, h2⟩ := badN_spec (Fin.castLE (by omega) k)
    have h3 : projBlock badRep trivRep (Fin.castLE (by omega) k) 0 0 =
        s⁻¹ • (badN (Fin.castLE (by omega) k)).row 0 := by
      funext m
      rw [h2]
      simp [Matrix.row, hs]
    rw [h3, rowSpan_stack]
    refine Submodule.smul_mem _ _ (Submodule.subset_span ⟨(⟨k, by simp [bad4]⟩, 0), ?_⟩)
    fin_cases k <;> rfl
  refine ⟨∑ k : Fin 4, ((badP c (Fin.castLE (by omega) k) : ℂ) / 33124) •
      projBlock badRep trivRep (Fin.castLE (by omega) k) 0 0,
    Submodule.sum_mem _ fun k _ => Submodule.smul_mem _ _ (hmem k), ?_⟩
  let U : Fin 9 → ℤ := fun m =>
    33124 * badP m c - ∑ k : Fin 4, badP c (Fin.castLE (by omega) k) * badP m (Fin.castLE (by omega) k)
  have hU : ∀ m, projBlock badRep trivRep c 0 0 m - (∑ k : Fin 4, ((badP c (Fin.castLE (by omega) k) : ℂ) / 33124) •
      projBlock badRep trivRep (Fin.castLE (by omega) k) 0 0) m = (((U m : ℝ) / (422500 * 33124) : ℝ) : ℂ) := by
    intro m
    simp only [Finset.sum_apply, Pi.smul_apply, smul_eq_mul, bad_block, U]
    push_cast
    rw [Finset.sum_congr rfl fun k _ => show (badP c (Fin.castLE (by omega) k) : ℂ) / 33124 *
      ((badP m (Fin.castLE (by omega) k) : ℂ) / 422500) = 1 / (422500 * 33124) *
        ((badP c (Fin.castLE (by omega) k) : ℂ) * (badP m (Fin.castLE (by omega) k) : ℂ)) from by ring, ← Finset.mul_sum]
    ring
  have hv : ∀ m, ‖projBlock badRep trivRep c 0 0 m‖ ^ 2 = (badP m c : ℝ) ^ 2 / 422500 ^ 2 := by
    intro m
    rw [bad_block, norm_div, Complex.norm_intCast, div_pow, sq_abs]
    simp
  have hw : ∀ m, ‖projBlock badRep trivRep c 0 0 m - (∑ k : Fin 4, ((badP c (Fin.castLE (by omega) k) : ℂ) / 33124) •
      projBlock badRep trivRep (Fin.castLE (by omega) k) 0 0) m‖ ^ 2 = (U m : ℝ) ^ 2 / (422500 * 33124) ^ 2 := by
    intro m
    rw [hU, Complex.norm_real, Real.norm_eq_abs, sq_abs, div_pow]
  unfold nsq
  simp only [hv, hw, ← Finset.sum_div]
  have h := badP_near c hc
  have h' : 4 * ∑ m, (U m : ℝ) ^ 2 < 33124 ^ 2 * ∑ m, (badP m c : ℝ) ^ 2 := by exact_mod_cast h
  rw [mul_div_assoc', div_lt_div_iff₀ (by norm_num) (by norm_num)]
  nlinarith

theorem bad_inner {la : LinAlg} (hla : la.Contract) {a : ℝ} (ha0 : 0 ≤ a) (ha : a ≤ 1e-2) :
    projInner la badRep trivRep a = .ok (bad4.map badN) := by
  have hgood : ∀ bs bs' p, GoodBlocks badRep trivRep bs → projStep la badRep trivRep a bs p = .ok bs' →
      GoodBlocks badRep trivRep bs' := by
    intro bs bs' p h h1
    obtain ⟨bs'', h2, h3⟩ := projStep_good tbl2_group (fun _ _ => one_ne_zero) badRep_proj badRep_unitary trivRep_proj
      trivRep_unitary trivRep_irreducible hla ha0 bs p h
    rw [h1] at h2
    cases h2
    exact h3
  have g0 : GoodBlocks badRep trivRep (([] : List (Fin 9)).map badN) := ⟨by
    have : IsEmpty (Fin (([] : List (Fin 9)).map badN).length × Fin 1) := ⟨fun x => Fin.elim0 x.1⟩
    exact linearIndependent_empty_type, by simp⟩
  have s0 := bad_append hla ha g0 0 (bad_orth (by simp))
  have g1 : GoodBlocks badRep trivRep ([0].map badN) := hgood _ _ _ g0 s0
  have s1 := bad_append hla ha g1 1 (bad_orth (by decide +kernel))
  have g2 : GoodBlocks badRep trivRep ([0, 1].map badN) := hgood _ _ _ g1 s1
  have s2 := bad_append hla ha g2 2 (bad_orth (by decide +kernel))
  have g3 : GoodBlocks badRep trivRep ([0, 1, 2].map badN) := hgood _ _ _ g2 s2
  have s3 := bad_append hla ha g3 3 (bad_orth (by decide +kernel))
  have g4 : GoodBlocks badRep trivRep (bad4.map badN) := hgood _ _ _ g3 s3
  have hrej : ∀ c : Fin 9, 4 ≤ (c : ℕ) → projStep la badRep trivRep a (bad4.map badN) (c, 0) = .ok (bad4.map badN) := by
    intro c hc
    obtain ⟨w, hw, hn⟩ := bad_near4 c hc
    exact bad_reject hla ha g4 (by simp [bad4]) c hw hn
  unfold projInner
  have hl : ((List.finRange 9).flatMap fun c => (List.finRange 1).map fun j => (c, j)) =
      [((0 : Fin 9), (0 : Fin 1)), (1, 0), (2, 0), (3, 0), (4, 0), (5, 0), (6, 0), (7, 0), (8, 0)] := by decide
  rw [hl]
  rw [List.foldlM_cons, show ([] : List (Matrix (Fin 1) (Fin 9) ℂ)) = ([] : List (Fin 9)).map badN from rfl, s0]
  change List.foldlM _ ([0].map badN) _ = _
  rw [List.foldlM_cons, s1]
  change List.foldlM _ ([0, 1].map badN) _ = _
  rw [List.foldlM_cons, s2]
  change List.foldlM _ ([0, 1, 2].map badN) _ = _
  rw [List.foldlM_cons, s3]
  change List.foldlM _ (bad4.map badN) _ = _
  rw [List.foldlM_cons, hrej 4 (by decide)]
  change List.foldlM _ (bad4.map badN) _ = _
  rw [List.foldlM_cons, hrej 5 (by decide)]
  change List.foldlM _ (bad4.map badN) _ = _
  rw [List.foldlM_cons, hrej 6 (by decide)]
  change List.foldlM _ (bad4.map badN) _ = _
  rw [List.foldlM_cons, hrej 7 (by decide)]
  change List.foldlM _ (bad4.map badN) _ = _
  rw [List.foldlM_cons, hrej 8 (by decide)]
  rfl

/-- **C75, refutation of the unrestricted claim.**  There is a nine-dimensional unitary representation of the group of order
two in which the trivial irrep occurs five times, and for which `project_to_irrep`, with exact routines, whatever tolerance
and number of trials are given, ends with the warning and returns four blocks only.  The bound on the multiplicity in
`c75_all_blocks_found_partial` is therefore sharp. -/
theorem c75_refuted : ∃ rep : RepArr 2 9,
    IsProjRep (fun a b : Fin 2 => a + b) (fun _ _ => (1 : ℂ)) rep ∧ IsUnitaryRep rep ∧
    Module.finrank ℂ (homSub rep (fun _ => (1 : Matrix (Fin 1) (Fin 1) ℂ))) = 5 ∧
    ∀ la : LinAlg, la.Contract → ∀ (atol : ℝ) (maxTrials : ℕ), 0 < maxTrials →
      ∃ bs, projectToIrrep la rep (fun _ => (1 : Matrix (Fin 1) (Fin 1) ℂ)) atol maxTrials = .ok (bs, true) ∧
        bs.length = 4 := by
  refine ⟨badRep, badRep_proj, badRep_unitary, bad_mult, fun la hla atol maxTrials hm => ?_⟩
  obtain ⟨h1, h2⟩ := c57_projection_basis tbl2_group (fun _ _ => one_ne_zero) badRep_proj badRep_unitary trivRep_proj
    trivRep_unitary trivRep_irreducible la hla atol maxTrials
  obtain ⟨⟨bs, w⟩, hr⟩ := h1 hm
  obtain ⟨-, -, hw, -⟩ := h2 bs w hr
  have hnum := numBasis_eq tbl2_group (fun _ _ => one_ne_zero) badRep_proj trivRep_proj trivRep_unitary
  rw [bad_mult] at hw hnum
  rcases projectToIrrep_cases hr with ⟨h0, -⟩ | ⟨t, -, ht1, ht2, hp, -⟩
  · rw [hnum] at h0; norm_num at h0
  · rw [bad_inner hla (le_trans (by norm_num) ht1) ht2] at hp
    cases hp
    have hlen : (bad4.map badN).length = 4 := by simp [bad4]
    rw [hlen] at hw
    refine ⟨_, ?_, hlen⟩
    rw [show w = true from hw.2 (by norm_num)] at hr
    exact hr

/-- Non-vacuity of C75: projecting the two-dimensional projective irrep of the Klein group to itself finds one block, without
warning, with the default arguments. -/
theorem repV4_found (la : LinAlg) (hla : la.Contract) : ∃ bs, projectToIrrep la repV4 repV4 = .ok (bs, false) ∧
    bs.length = 1 := by
  have h := c75_all_blocks_found_partial tblV4_group (ne_zero_of_norm_one μV4_norm) repV4_proj repV4_unitary
    repV4_proj repV4_unitary repV4_irreducible la hla 1e-6 10 (by norm_num)
  rw [finrank_homSub_self repV4_irreducible] at h
  refine h (.inl ⟨by norm_num, ?_⟩)
  have : min (max (1e-6 : ℝ) 1e-10) 1e-2 ≤ 1e-2 := min_le_right _ _
  push_cast
  linarith

/-- Non-vacuity of C74: the two-dimensional projective irrep of the Klein group is alone a complete list; projecting it to
itself gives, without warning, a basis of the plane. -/
example (la : LinAlg) (hla : la.Contract) : ∃ bs : List (Matrix (Fin 2) (Fin 2) ℂ),
    projectToIrrep la repV4 repV4 = .ok (bs, false) ∧
    Submodule.span ℂ (Set.range fun x : Fin bs.length × Fin 2 => bs.get x.1 x.2) = ⊤ := by
  obtain ⟨bs, hbs, -⟩ := repV4_found la hla
  have hL : IsCompleteIrreps _ μV4 [(⟨2, repV4⟩ : AnyRep 4)] :=
    isCompleteIrreps_of_card tblV4_group (ne_zero_of_norm_one μV4_norm)
      (by rintro D hD; rw [List.mem_singleton] at hD; subst hD; exact repV4_proj)
      (by rintro D hD; rw [List.mem_singleton] at hD; subst hD; exact repV4_unitary)
      (by rintro D hD; rw [List.mem_singleton] at hD; subst hD; exact repV4_irreducible)
      (List.pairwise_singleton _ _) (by simp)
  have h := (c74_adapted_basis tblV4_group (ne_zero_of_norm_one μV4_norm) repV4_proj repV4_unitary hL la hla 1e-6 10
    (bs := fun i => match i with | ⟨0, _⟩ => bs) (by
      rintro ⟨i, hi⟩
      have : i = 0 := by simpa using hi
      subst this
      exact hbs)).2.1
  refine ⟨bs, hbs, ?_⟩
  rw [eq_top_iff, ← h, Submodule.span_le]
  rintro _ ⟨⟨⟨i, hi⟩, a, j⟩, rfl⟩
  have : i = 0 := by simpa using hi
  subst this
  exact Submodule.subset_span ⟨(a, j), rfl⟩

end Spgrep
