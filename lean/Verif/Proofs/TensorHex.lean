/-
The group 3 in the basal plane, in hexagonal coordinates, and its irreps over the reals.
-/
import Verif.Proofs.TensorNonUnitary
import Verif.Props.RealProjection
import Verif.Props.ProjectCount

namespace Spgrep

open Spec Matrix

variable {n d D p : ℕ} {T : Fin n → Fin n → Fin n}

/-- The integer matrices of the group 3 in the basal plane, in the hexagonal basis: the upper left blocks of the
rotations `rotsP3`. -/
def planeP3 : Fin 3 → Matrix (Fin 2) (Fin 2) ℤ := ![!![1, 0; 0, 1], !![0, -1; 1, -1], !![-1, 1; -1, 0]]

theorem planeP3_block (g : Fin 3) (i j : Fin 2) : planeP3 g i j = rotsP3 g i.castSucc j.castSucc := by
  fin_cases g <;> fin_cases i <;> fin_cases j <;> rfl

theorem planeP3_mul : ∀ g h, planeP3 g * planeP3 h = planeP3 (tblC3 g h) := by decide +kernel

/-- The representation given by these matrices. -/
noncomputable def repP3 : RepArr 3 2 := fun g => (planeP3 g).map (Int.castRingHom ℂ)

theorem repP3_proj : IsProjRep tblC3 (fun _ _ => 1) repP3 := by
  intro g h
  rw [one_smul]
  show (planeP3 g).map _ * (planeP3 h).map _ = (planeP3 (tblC3 g h)).map _
  rw [← planeP3_mul g h, ← Matrix.map_mul (f := Int.castRingHom ℂ)]

/-- Rotations of the plane by 0°, 120° and 240°, in either direction: `s` is plus or minus half the square root of 3. -/
noncomputable def turn3 (s : ℝ) : Fin 3 → Matrix (Fin 2) (Fin 2) ℝ :=
  ![1, !![-1/2, -s; s, -1/2], !![-1/2, s; -s, -1/2]]

theorem turn3_proj {s : ℝ} (hs : s * s = 3 / 4) : IsRealProjRep tblC3 (fun _ _ => 1) (turn3 s) := by
  intro g h
  rw [one_smul]
  fin_cases g <;> fin_cases h <;> ext i j <;> fin_cases i <;> fin_cases j <;>
    simp [turn3, tblC3, Matrix.mul_apply] <;> linarith

theorem turn3_irreducible {s : ℝ} (hs : s * s = 3 / 4) : IsRealIrreducible (turn3 s) := by
  have hs0 : s ≠ 0 := by rintro rfl; norm_num at hs
  refine ⟨⟨0⟩, fun W hW => turn_real_irreducible.2 W fun g v hv => ?_⟩
  have hJ : (!![0, -1; 1, 0] : Matrix (Fin 2) (Fin 2) ℝ).mulVec v ∈ W := by
    have h1 := hW 1 v hv
    have h2 : (!![0, -1; 1, 0] : Matrix (Fin 2) (Fin 2) ℝ).mulVec v =
        s⁻¹ • ((turn3 s 1).mulVec v + (1 / 2 : ℝ) • v) := by
      funext i
      fin_cases i <;> simp [turn3, Matrix.mulVec, dotProduct, Fin.sum_univ_two, Matrix.vecHead, Matrix.vecTail] <;> field_simp <;> ring
    rw [h2]
    exact W.smul_mem _ (W.add_mem h1 (W.smul_mem _ hv))
  have hneg : ∀ u, u ∈ W → -u ∈ W := fun u hu => W.neg_mem hu
  fin_cases g
  · simpa using hv
  · simpa [Matrix.neg_mulVec] using hv
  · exact hJ
  · show (-!![0, -1; 1, 0] : Matrix (Fin 2) (Fin 2) ℝ).mulVec v ∈ W
    rw [Matrix.neg_mulVec]
    exact hneg _ hJ
  · simpa using hv
  · simpa [Matrix.neg_mulVec] using hv
  · exact hJ
  · show (-!![0, -1; 1, 0] : Matrix (Fin 2) (Fin 2) ℝ).mulVec v ∈ W
    rw [Matrix.neg_mulVec]
    exact hneg _ hJ

/-- Orthogonal matrices equivalent to the rotations are the rotations, in one of the directions. -/
theorem turn3_of_equiv {s : ℝ} {R : Fin 3 → Matrix (Fin 2) (Fin 2) ℝ} (hR : IsRealProjRep tblC3 (fun _ _ => 1) R)
    (ho : ∀ g, R g * (R g).transpose = 1) (he : AreRealEquivalent (turn3 s) R) :
    ∃ s' : ℝ, s' * s' = 3 / 4 ∧ R = turn3 s' := by
  obtain ⟨S, S', h1, h2, h3⟩ := he
  have htr : ∀ g, (R g).trace = (turn3 s g).trace := by
    intro g
    have : R g = S' * (turn3 s g * S) := by rw [h3, ← Matrix.mul_assoc, h2, Matrix.one_mul]
    rw [this, Matrix.trace_mul_comm, Matrix.mul_assoc, h1, Matrix.mul_one]
  have h0 : R 0 = 1 := by
    have : R 0 = S' * (turn3 s 0 * S) := by rw [h3, ← Matrix.mul_assoc, h2, Matrix.one_mul]
    rw [this]
    show S' * (1 * S) = 1
    rw [Matrix.one_mul, h2]
  have h11 : R 1 * R 1 = R 2 := by have := hR 1 1; rw [one_smul] at this; exact this
  have h12 : R 1 * R 2 = 1 := by have := hR 1 2; rw [one_smul] at this; exact this.trans h0
  have hT2 : R 2 = (R 1).transpose := by
    have hh := mul_eq_one_comm.1 (ho 1)
    calc R 2 = (R 1).transpose * R 1 * R 2 := by rw [hh, Matrix.one_mul]
      _ = _ := by rw [Matrix.mul_assoc, h12, Matrix.mul_one]
  have t1 := htr 1
  have o1 := ho 1
  rw [← hT2, ← h11] at o1
  have e00 := congrFun (congrFun (ho 1) 0) 0
  have e11 := congrFun (congrFun (ho 1) 1) 1
  have e01 := congrFun (congrFun (ho 1) 0) 1
  have f00 := congrFun (congrFun (h11.trans hT2) 0) 0
  have f01 := congrFun (congrFun (h11.trans hT2) 0) 1
  have f10 := congrFun (congrFun (h11.trans hT2) 1) 0
  simp [Matrix.mul_apply, Fin.sum_univ_two, Matrix.trace_fin_two, turn3] at t1 e00 e11 e01 f00 f01 f10
  set a := R 1 0 0 with ha
  set b := R 1 0 1 with hb
  set c := R 1 1 0 with hc
  set e := R 1 1 1 with hee
  -- the off-diagonal entries are opposite, since b (a + e) = c
  have hbc : b = -c := by
    have : b * (a + e) = c := by linarith
    rw [t1] at this
    linarith
  have hae : a = e := by
    have : a ^ 2 - e ^ 2 = 0 := by rw [hbc] at e00; nlinarith
    have h5 : (a - e) * (a + e) = 0 := by linarith
    rw [t1] at h5
    linarith
  have ha' : a = -1 / 2 := by linarith
  refine ⟨c, by rw [hbc, ha'] at e00; linarith, ?_⟩
  funext g
  fin_cases g
  · exact h0
  · show R 1 = !![-1/2, -c; c, -1/2]
    ext i j
    fin_cases i <;> fin_cases j
    · exact ha'
    · exact hbc
    · rfl
    · show e = -1 / 2
      linarith
  · show R 2 = !![-1/2, c; -c, -1/2]
    rw [hT2]
    ext i j
    fin_cases i <;> fin_cases j
    · exact ha'
    · rfl
    · exact hbc
    · show e = -1 / 2
      linarith

/-- What a complete list of irreps over the reals of the group 3 contains. -/
theorem irreps_P3 {L : List (AnyReal 3)} (hL : IsCompleteRealIrreps tblC3 (fun _ _ => 1) L) :
    (⟨1, fun _ => 1⟩ : AnyReal 3) ∈ L ∧ ∃ s : ℝ, s * s = 3 / 4 ∧ (⟨2, turn3 s⟩ : AnyReal 3) ∈ L := by
  have hdim : ∀ {d e : ℕ} {R : Fin 3 → Matrix (Fin d) (Fin d) ℝ} {R' : Fin 3 → Matrix (Fin e) (Fin e) ℝ},
      AreRealEquivalent R R' → e = d := by
    rintro d e R R' ⟨S, S', h1, h2, -⟩
    have h5 : (S * S').trace = (S' * S).trace := Matrix.trace_mul_comm _ _
    rw [h1, h2, Matrix.trace_one, Matrix.trace_one] at h5
    simp only [Fintype.card_fin] at h5
    exact_mod_cast h5.symm
  constructor
  · obtain ⟨⟨e, R⟩, hR, he⟩ := hL.complete 1 (fun _ => 1) (fun _ _ => by simp) (fun _ => isUnit_one) ⟨⟨0⟩, fun W _ => by
      by_cases hb : W = ⊥
      · exact Or.inl hb
      · right
        obtain ⟨v, hv, hv0⟩ := (Submodule.ne_bot_iff W).1 hb
        have hv1 : v 0 ≠ 0 := fun h => hv0 (by funext i; rw [Subsingleton.elim i 0, h]; rfl)
        rw [Submodule.eq_top_iff']
        intro u
        have : u = (u 0 / v 0) • v := by
          funext i
          rw [Subsingleton.elim i 0, Pi.smul_apply, smul_eq_mul, div_mul_cancel₀ _ hv1]
        rw [this]
        exact W.smul_mem _ hv⟩
    dsimp only at he
    obtain rfl := hdim he
    obtain ⟨S, S', h1, h2, h3⟩ := he
    have : R = fun _ => 1 := by
      funext g
      calc R g = S' * (S * R g) := by rw [← Matrix.mul_assoc, h2, Matrix.one_mul]
        _ = 1 := by rw [← h3, Matrix.one_mul, h2]
    rw [← this]
    exact hR
  · have hs : (Real.sqrt 3 / 2) * (Real.sqrt 3 / 2) = 3 / 4 := by
      have := Real.mul_self_sqrt (show (0 : ℝ) ≤ 3 by norm_num)
      nlinarith
    obtain ⟨⟨e, R⟩, hR, he⟩ := hL.complete 2 _ (turn3_proj hs) (fun g => by
      rw [Matrix.isUnit_iff_isUnit_det, isUnit_iff_ne_zero]
      fin_cases g <;> simp [turn3, Matrix.det_fin_two] <;> nlinarith) (turn3_irreducible hs)
    dsimp only at he
    obtain rfl := hdim he
    obtain ⟨s', hs', rfl⟩ := turn3_of_equiv (hL.rep _ hR) (hL.orthogonal _ hR) he
    exact ⟨s', hs', hR⟩

/-- A product of two entries of a row with real entries after the normalisation. -/
theorem normalizeRows_mul {b : Matrix (Fin d) (Fin D) ℂ} (h : ∀ i m, star (b i m) = b i m) (i : Fin d) (x y : Fin D) :
    normalizeRows b i x * normalizeRows b i y = b i x * b i y / ∑ m, b i m * b i m := by
  unfold normalizeRows
  rw [Matrix.of_apply, Matrix.of_apply, div_mul_div_comm, ← Complex.ofReal_mul, Real.mul_self_sqrt (by positivity)]
  congr 1
  push_cast
  refine Finset.sum_congr rfl fun m _ => ?_
  rw [← Complex.conj_mul']
  congr 1
  exact h i m

/-- Whatever block is found, the sum of the squares of its vectors is not invariant. -/
theorem block_P3 {s : ℝ} (hs : s * s = 3 / 4) (c j : Fin 2) :
    let b := normalizeRows (projBlock repP3 (fun g => (turn3 s g).map Complex.ofReal) c j)
    b 0 0 * b 0 0 + b 1 0 * b 1 0 ≠ b 0 1 * b 0 1 + b 1 1 * b 1 1 := by
  intro b
  have hσ : (s : ℂ) * s = 3 / 4 := by
    rw [← Complex.ofReal_mul, hs]
    norm_num
  have hσ0 : (s : ℂ) ≠ 0 := by intro h; rw [h] at hσ; norm_num at hσ
  have hreal : ∀ i m, star (projBlock repP3 (fun g => (turn3 s g).map Complex.ofReal) c j i m) =
      projBlock repP3 (fun g => (turn3 s g).map Complex.ofReal) c j i m := by
    intro i m
    unfold projBlock
    simp [repP3]
  simp only [b]
  rw [normalizeRows_mul hreal, normalizeRows_mul hreal, normalizeRows_mul hreal, normalizeRows_mul hreal]
  simp only [Fin.sum_univ_two]
  have e1 : 2 / 3 * (s : ℂ) * (2 / 3 * s) = 1 / 3 := by linear_combination (4 / 9 : ℂ) * hσ
  have e2 : 2 / 3 * ((s : ℂ) + s) * (2 / 3 * (s + s)) = 4 / 3 := by linear_combination (16 / 9 : ℂ) * hσ
  have e3 : 2 / 3 * (-(s : ℂ) + -s) * (2 / 3 * (-s + -s)) = 4 / 3 := by linear_combination (16 / 9 : ℂ) * hσ
  fin_cases c <;> fin_cases j <;>
    simp [projBlock, Fin.sum_univ_succ, repP3, planeP3, turn3] <;> simp only [e1, e2, e3] <;> norm_num

theorem rint_3 {m : ℕ} {s : ℂ} (hs : s = ((3 * m : ℕ) : ℂ)) : rint (rintC s / (3 : ℕ)).re = m := by
  rw [hs, rintC_natCast, Nat.cast_mul, mul_div_cancel_left₀ _ (by norm_num)]
  exact_mod_cast rint_intCast (m : ℤ)

theorem turn3_complex_proj {s : ℝ} (hs : s * s = 3 / 4) :
    IsProjRep tblC3 (fun _ _ => 1) fun g => (turn3 s g).map Complex.ofReal := by
  simpa using complex_projRep (turn3_proj hs)

theorem real_unitary {k : ℕ} {R : Fin n → Matrix (Fin k) (Fin k) ℝ} (ho : ∀ g, R g * (R g).transpose = 1) :
    IsUnitaryRep fun g => (R g).map Complex.ofReal := by
  intro g
  have h3 := congrArg (fun M : Matrix _ _ ℝ => M.map Complex.ofRealHom) (ho g)
  rw [Matrix.map_mul, Matrix.map_one _ (map_zero _) (map_one _)] at h3
  rw [← h3]
  congr 1
  ext i j
  simp

theorem turn3_orthogonal {s : ℝ} (hs : s * s = 3 / 4) (g : Fin 3) : turn3 s g * (turn3 s g).transpose = 1 := by
  fin_cases g <;> ext i j <;> fin_cases i <;> fin_cases j <;> simp [turn3, Matrix.mul_apply] <;> linarith

theorem turn3_char (s : ℝ) (g : Fin 3) : getCharacter (fun g => (turn3 s g).map Complex.ofReal) g = ![2, -1, -1] g := by
  fin_cases g <;> simp [getCharacter, turn3] <;> norm_num

/-- The trivial representation. -/
noncomputable def oneRep (n : ℕ) : RepArr n 1 := fun _ => 1

theorem oneRep_proj : IsProjRep T (fun _ _ => 1) (oneRep n) := fun _ _ => by simp [oneRep]

theorem oneRep_unitary : IsUnitaryRep (oneRep n) := fun _ => by simp [oneRep]

/-- What a successful run kept. -/
theorem takeInvariant_mem : ∀ {tbs : List (TensorBasis n D p)} {acc ts : List (Tensor D p)},
    tbs.foldlM invariantStep acc = .ok ts → (∀ t ∈ acc, t ∈ ts) ∧
      ∀ x ∈ tbs, x.Trivial → ∀ h : 0 < x.dim, x.basis ⟨0, h⟩ ∈ ts := by
  intro tbs
  induction tbs with
  | nil =>
    intro acc ts h
    cases h
    exact ⟨fun _ h => h, by simp⟩
  | cons y ys ih =>
    intro acc ts h
    rw [List.foldlM_cons] at h
    simp only [bind, Except.bind, invariantStep] at h
    split_ifs at h with h1 h2 h3
    · obtain ⟨q1, q2⟩ := ih h
      refine ⟨q1, fun x hx ht h0 => ?_⟩
      rcases List.mem_cons.1 hx with rfl | hx
      · exact absurd ht.1 (by omega)
      · exact q2 x hx ht h0
    · obtain ⟨q1, q2⟩ := ih h
      refine ⟨fun t ht => q1 t (List.mem_append_left _ ht), fun x hx ht h0 => ?_⟩
      rcases List.mem_cons.1 hx with rfl | hx
      · exact q1 _ (List.mem_append_right _ (List.mem_singleton.2 rfl))
      · exact q2 x hx ht h0
    · obtain ⟨q1, q2⟩ := ih h
      refine ⟨q1, fun x hx ht h0 => ?_⟩
      rcases List.mem_cons.1 hx with rfl | hx
      · exact absurd ht.2 h2
      · exact q2 x hx ht h0

/-- The block found for the two-dimensional irrep. -/
theorem project_P3 {la : LinAlg} (hla : la.Contract) {s : ℝ} (hs : s * s = 3 / 4) {atol : ℝ} {maxTrials : ℕ}
    {bs : List (Matrix (Fin 2) (Fin 2) ℂ)} {w : Bool}
    (h : projectToIrrep la repP3 (fun g => (turn3 s g).map Complex.ofReal) atol maxTrials = .ok (bs, w)) :
    ∃ b, bs = [b] ∧ b 0 0 * b 0 0 + b 1 0 * b 1 0 ≠ b 0 1 * b 0 1 + b 1 1 * b 1 1 := by
  have hnum : numBasis repP3 (fun g => (turn3 s g).map Complex.ofReal) = 2 := by
    refine rint_3 (m := 2) ?_
    simp only [turn3_char]
    simp [Fin.sum_univ_succ, getCharacter, repP3, planeP3, conj_two]
    norm_num
  rcases projectToIrrep_cases h with ⟨h0, -, -⟩ | ⟨t, -, ht, ht2, hp, -⟩
  · rw [hnum] at h0
    norm_num at h0
  · obtain ⟨bs', h1, h2⟩ := projInner_plane hla (F := repP3) (E := fun g => (turn3 s g).map Complex.ofReal) ht2
      (p := (0, 0)) (i := 0) (m := 0) (by
        simp [projBlock, Fin.sum_univ_succ, repP3, planeP3, turn3]
        norm_num)
    rw [hp] at h1
    cases h1
    obtain ⟨b, rfl⟩ := List.length_eq_one_iff.1 h2
    exact ⟨b, rfl, projInner_all la _ _ (le_trans (by norm_num) ht) (P := fun b : Matrix (Fin 2) (Fin 2) ℂ =>
      b 0 0 * b 0 0 + b 1 0 * b 1 0 ≠ b 0 1 * b 0 1 + b 1 1 * b 1 1) (fun c j _ => block_P3 hs c j) hp b
      (List.mem_singleton.2 rfl)⟩

/-- The projection of the square of the two-dimensional irrep to the trivial one finds the sum of squares. -/
theorem project_square {la : LinAlg} (hla : la.Contract) {s : ℝ} (hs : s * s = 3 / 4) {F : RepArr 3 (2 * 2)}
    (hF : getDirectProduct (fun g => (turn3 s g).map Complex.ofReal) (fun g => (turn3 s g).map Complex.ofReal) = .ok F)
    {atol : ℝ} {cs : List (Matrix (Fin 1) (Fin (2 * 2)) ℂ)} {w : Bool}
    (h : projectToIrrep la F (oneRep 3) atol = .ok (cs, w)) :
    ∃ a : Fin cs.length → ℂ, ∀ i j : Fin 2, ∑ k, a k * cs.get k 0 (finProdFinEquiv (i, j)) = if i = j then 1 else 0 := by
  obtain ⟨F', hF', hFe, hFr, hFu, hFc⟩ := c23_direct_product.2 (fun g => (turn3 s g).map Complex.ofReal)
    (fun g => (turn3 s g).map Complex.ofReal)
  rw [hF] at hF'
  cases hF'
  have hu := real_unitary (turn3_orthogonal hs)
  have hFp : IsProjRep tblC3 (fun _ _ => 1) F := by
    simpa using hFr _ _ _ (turn3_complex_proj hs) (turn3_complex_proj hs)
  have hμ : ∀ g h : Fin 3, (fun _ _ => (1 : ℂ) : Fin 3 → Fin 3 → ℂ) g h ≠ 0 := fun _ _ => one_ne_zero
  have hi := irreducible_dim_one (oneRep 3)
  have hnum : numBasis F (oneRep 3) = 2 := by
    refine rint_3 (m := 2) ?_
    simp only [hFc, turn3_char]
    simp [Fin.sum_univ_succ, getCharacter, oneRep]
    norm_num
  have hfr : Module.finrank ℂ (homSub F (oneRep 3)) = 2 := by
    have := numBasis_eq tblC3_group hμ hFp oneRep_proj oneRep_unitary
    rw [hnum] at this
    exact_mod_cast this.symm
  obtain ⟨bs, hbs, -⟩ := c75_all_blocks_found_partial tblC3_group hμ hFp (hFu hu hu) oneRep_proj oneRep_unitary hi la hla
    atol 10 (by norm_num) (.inl ⟨by omega, by
      have h1 : min (max atol 1e-10) 1e-2 ≤ (1e-2 : ℝ) := min_le_right _ _
      have h2 : ((2 * 2 : ℕ) : ℝ) * 1e-2 < 1 / 2 := by norm_num
      exact lt_of_le_of_lt (mul_le_mul_of_nonneg_left h1 (Nat.cast_nonneg _)) h2⟩)
  rw [h] at hbs
  cases hbs
  obtain ⟨-, -, -, h57⟩ := (c57_projection_basis tblC3_group hμ hFp (hFu hu hu) oneRep_proj oneRep_unitary hi la hla atol
    10).2 _ _ h
  obtain ⟨a, ha⟩ := h57 rfl (Matrix.of fun _ x => if (finProdFinEquiv.symm x).1 = (finProdFinEquiv.symm x).2 then 1 else 0) (by
    intro g i m
    obtain rfl : i = 0 := Subsingleton.elim _ _
    obtain ⟨⟨x, y⟩, rfl⟩ := finProdFinEquiv.surjective m
    rw [← finProdFinEquiv.sum_comp]
    simp only [Matrix.of_apply, Equiv.symm_apply_apply, hFe, Fintype.sum_prod_type]
    have ho := congrFun (congrFun (hu g) x) y
    rw [Matrix.mul_apply] at ho
    simp only [Matrix.conjTranspose_apply] at ho
    simp only [mul_ite, mul_one, mul_zero, Finset.sum_ite_eq, Finset.mem_univ, if_true]
    simp only [oneRep, Fin.sum_univ_one, Matrix.one_apply_eq, mul_one]
    rw [Matrix.one_apply] at ho
    rw [← ho]
    refine Finset.sum_congr rfl fun z _ => ?_
    simp)
  refine ⟨a, fun i j => ?_⟩
  have := congrFun (congrFun ha 0) (finProdFinEquiv (i, j))
  simp only [Matrix.of_apply, Equiv.symm_apply_apply, Matrix.sum_apply, Matrix.smul_apply, smul_eq_mul] at this
  exact this.symm

/-- The tensors of rank two for the group 3 in hexagonal coordinates are not all invariant. -/
theorem tensors_P3_bad {la : LinAlg} (hla : la.Contract) {s : ℝ} (hs : s * s = 3 / 4) {L : List (AnyRep 3)}
    (hA : (⟨1, oneRep 3⟩ : AnyRep 3) ∈ L) (hB : (⟨2, fun g => (turn3 s g).map Complex.ofReal⟩ : AnyRep 3) ∈ L) {atol : ℝ}
    {ts : List (Tensor 2 2)} {w : Bool} (h : tensorsFrom la repP3 L 2 atol = .ok (ts, w)) :
    ∃ t ∈ ts, actTensor (repP3 1) t ≠ t := by
  by_contra hall
  push Not at hall
  unfold tensorsFrom at h
  simp only [bind, Except.bind, pure, Except.pure] at h
  split at h
  · cases h
  rename_i x hx
  split at h
  · cases h
  rename_i y hy
  split at h
  · cases h
  rename_i z hz
  obtain ⟨h6, -⟩ := Prod.mk.inj (Except.ok.inj h)
  subst h6
  -- the vectors
  obtain ⟨b, hb, hne⟩ : ∃ b : Matrix (Fin 2) (Fin 2) ℂ,
      (⟨2, fun g => (turn3 s g).map Complex.ofReal, fun i a => b i (a 0)⟩ : TensorBasis 3 2 1) ∈ x.1 ∧
      b 0 0 * b 0 0 + b 1 0 * b 1 0 ≠ b 0 1 * b 0 1 + b 1 1 * b 1 1 := by
    unfold vectorBasis at hx
    simp only [bind, Except.bind, pure, Except.pure] at hx
    split at hx
    · cases hx
    rename_i ls hls
    cases hx
    obtain ⟨r, hr, he⟩ := forall₂_left (mapM_forall₂ hls) hB
    have he' := he
    split at he'
    · cases he'
    rename_i q hq
    cases he'
    obtain ⟨b, hbs, hne⟩ := project_P3 hla hs hq
    refine ⟨b, mapM_flatten_mem (mapM_forall₂ hls) hB he ?_, hne⟩
    rw [hbs]
    exact List.mem_singleton.2 rfl
  -- the pair
  have hy' : tensorLoop la L atol x.1 1 = .ok y := hy
  unfold tensorLoop tensorLoop at hy'
  simp only [bind, Except.bind, pure, Except.pure] at hy'
  split at hy'
  · cases hy'
  rename_i u hu
  have hyu := Except.ok.inj hy'
  unfold tensorStep at hu
  simp only [bind, Except.bind, pure, Except.pure] at hu
  split at hu
  · cases hu
  rename_i ls hls
  cases hu
  let v : TensorBasis 3 2 1 := ⟨2, fun g => (turn3 s g).map Complex.ofReal, fun i a => b i (a 0)⟩
  have hvv : (v, v) ∈ x.1.flatMap fun t => x.1.map fun v => (t, v) :=
    List.mem_flatMap.2 ⟨v, hb, List.mem_map.2 ⟨v, hb, rfl⟩⟩
  obtain ⟨r, hr, he⟩ := forall₂_left (mapM_forall₂ hls) hvv
  have hsub : ∀ X ∈ r.1, X ∈ y.1 := by
    intro X hX
    rw [← hyu]
    exact mapM_flatten_mem (mapM_forall₂ hls) hvv he hX
  dsimp only at he
  unfold tensorPair at he
  simp only [bind, Except.bind, pure, Except.pure] at he
  split at he
  · cases he
  rename_i F hF
  split at he
  · cases he
  rename_i ls' hls'
  cases he
  obtain ⟨r', hr', he'⟩ := forall₂_left (mapM_forall₂ hls') hA
  have he2 := he'
  split at he2
  · cases he2
  rename_i q hq
  cases he2
  obtain ⟨cs, w'⟩ := q
  have hmem : ∀ c ∈ cs, (⟨1, oneRep 3, contractBasis c v.basis v.basis⟩ : TensorBasis 3 2 2) ∈ y.1 := by
    intro c hc
    exact hsub _ (mapM_flatten_mem (mapM_forall₂ hls') hA he' (List.mem_map.2 ⟨c, hc, rfl⟩))
  obtain ⟨a, ha⟩ := project_square hla hs hF hq
  have hinv : ∀ k : Fin cs.length, actTensor (repP3 1) (contractBasis (cs.get k) v.basis v.basis 0) =
      contractBasis (cs.get k) v.basis v.basis 0 := by
    intro k
    refine hall _ ((takeInvariant_mem hz).2 _ (hmem _ (List.get_mem cs k)) ?_ one_pos)
    exact test_of_equiv_one ⟨1, 1, by simp, by simp, fun g => by simp [oneRep]⟩
  -- the sum of squares
  let G : Tensor 2 2 := fun x => b 0 (x 0) * b 0 (x 1) + b 1 (x 0) * b 1 (x 1)
  have hG : G = fun x => ∑ k, a k * contractBasis (cs.get k) v.basis v.basis 0 x := by
    funext x
    have h1 : ∀ k, a k * contractBasis (cs.get k) v.basis v.basis 0 x =
        ∑ i, ∑ j, (a k * cs.get k 0 (finProdFinEquiv (i, j))) * (b i (x 0) * b j (x 1)) := by
      intro k
      unfold contractBasis
      rw [Finset.mul_sum]
      refine Finset.sum_congr rfl fun i _ => ?_
      rw [Finset.mul_sum]
      refine Finset.sum_congr rfl fun j _ => ?_
      show a k * (cs.get k 0 (finProdFinEquiv (i, j)) * b i (x 0) * b j (x 1)) = _
      ring
    simp only [h1]
    rw [Finset.sum_comm]
    have h2 : ∀ i : Fin 2, ∑ k, ∑ j, (a k * cs.get k 0 (finProdFinEquiv (i, j))) * (b i (x 0) * b j (x 1)) =
        b i (x 0) * b i (x 1) := by
      intro i
      rw [Finset.sum_comm]
      simp only [← Finset.sum_mul, ha]
      simp
    simp only [h2]
    exact (Fin.sum_univ_two fun i => b i (x 0) * b i (x 1)).symm
  have hGi : actTensor (repP3 1) G = G := by
    rw [hG]
    funext x
    unfold actTensor
    simp only [Finset.mul_sum]
    rw [Finset.sum_comm]
    refine Finset.sum_congr rfl fun k _ => ?_
    have := congrFun (hinv k) x
    unfold actTensor at this
    rw [← this, Finset.mul_sum]
    exact Finset.sum_congr rfl fun _ _ => by ring
  have h0 := congrFun hGi fun _ => 0
  unfold actTensor at h0
  rw [← (finTwoArrowEquiv (Fin 2)).symm.sum_comp] at h0
  simp [Fintype.sum_prod_type, Fin.prod_univ_two, Fin.sum_univ_two, repP3, planeP3, G] at h0
  exact hne h0.symm

/-! ### The function returns -/

/-- In the plane the inner loop never raises for a two-dimensional irrep. -/
theorem projInner_plane_total {la : LinAlg} (hla : la.Contract) (F E : RepArr n 2) (a : ℝ) :
    ∃ bs, projInner la F E a = .ok bs := by
  obtain ⟨bs, h, -⟩ := foldlM_ok_inv (f := projStep la F E a) (P := fun bs => bs.length ≤ 1) (by
    intro bs q hbs
    unfold projStep
    dsimp only
    split_ifs with h1 h2
    · exact ⟨_, rfl, hbs⟩
    · obtain ⟨b, rfl⟩ := List.length_eq_one_iff.1 (show bs.length = 1 by omega)
      have := grassmann_plane hla (normalizeRows (projBlock F E q.1 q.2)) (stackBlocks [b])
      erw [this]
      simp only [bind, Except.bind]
      rw [if_pos (by norm_num)]
      exact ⟨_, rfl, hbs⟩
    · exact ⟨_, rfl, by
        rw [List.length_append, List.length_singleton]
        omega⟩) ((List.finRange 2).flatMap fun c => (List.finRange 2).map fun j => (c, j)) []
    (by simp)
  exact ⟨bs, h⟩

/-- The search over tolerances returns if every trial does. -/
theorem project_total {la : LinAlg} {F : RepArr n D} {E : RepArr n d} (h : ∀ a, ∃ bs, projInner la F E a = .ok bs)
    (atol : ℝ) {maxTrials : ℕ} (hm : 0 < maxTrials) : ∃ r, projectToIrrep la F E atol maxTrials = .ok r := by
  unfold projectToIrrep
  by_cases h0 : numBasis F E = 0
  · exact ⟨([], false), by simp only [h0, if_true]⟩
  · obtain ⟨x, hx⟩ := (c16_tolerance_search (n := n) (d := d) (D := D)).1
      (fun a => do let b ← projInner la F E a; return (b, b.length)) (numBasis F E) atol maxTrials
      |>.2.1 hm (by
        intro a _ _
        obtain ⟨bs, hbs⟩ := h a
        rw [hbs]
        exact ⟨_, rfl⟩)
    simp only [h0, if_false, hx]
    exact ⟨_, rfl⟩

theorem tensors_P3_total {la : LinAlg} (hla : la.Contract) {L : List (AnyReal 3)}
    (hL : IsCompleteRealIrreps tblC3 (fun _ _ => 1) L)
    (hd : ∀ R ∈ L, R.1 = 2 ∨ Spec.IsIrreducible fun g => (R.2 g).map Complex.ofReal) (atol : ℝ) :
    ∃ r, tensorsFrom la repP3 (L.map fun R => (⟨R.1, fun g => (R.2 g).map Complex.ofReal⟩ : AnyRep 3)) 2 atol = .ok r := by
  set M := L.map fun R => (⟨R.1, fun g => (R.2 g).map Complex.ofReal⟩ : AnyRep 3) with hM
  have hμ : ∀ g h : Fin 3, (fun _ _ => (1 : ℂ) : Fin 3 → Fin 3 → ℂ) g h ≠ 0 := fun _ _ => one_ne_zero
  have hproj : ∀ R ∈ L, IsProjRep tblC3 (fun _ _ => 1) fun g => (R.2 g).map Complex.ofReal := fun R hR => by
    simpa using complex_projRep (hL.rep R hR)
  -- the vectors
  obtain ⟨ls, hls, hF⟩ := mapM_ok (L := M) (f := fun E : AnyRep 3 => do
      let (bs, w) ← projectToIrrep la repP3 E.2 atol
      return (bs.map fun b => ({ dim := E.1, irrep := E.2, basis := fun i a => b i (a 0) } : TensorBasis 3 2 1), w))
    (Q := fun (E : AnyRep 3) (r : List (TensorBasis 3 2 1) × Bool) => ∀ v ∈ r.1, (⟨v.dim, v.irrep⟩ : AnyRep 3) = E) (by
      intro E hE
      obtain ⟨R, hR, rfl⟩ := List.mem_map.1 hE
      have : ∃ r, projectToIrrep la repP3 (fun g => (R.2 g).map Complex.ofReal) atol = .ok r := by
        rcases hd R hR with h2 | hi
        · obtain ⟨d, R⟩ := R
          dsimp only at h2
          subst h2
          exact project_total (fun a => projInner_plane_total hla _ _ a) atol (by norm_num)
        · exact (c78_nonunitary_partial tblC3_group hμ repP3_proj (hproj R hR) (real_unitary (hL.orthogonal R hR)) hi la
            hla atol 10).1 (by norm_num)
      obtain ⟨r, hr⟩ := this
      refine ⟨_, by dsimp only; rw [hr]; rfl, fun v hv => ?_⟩
      obtain ⟨b, -, rfl⟩ := List.mem_map.1 hv
      rfl)
  set vbs := (ls.map Prod.fst).flatten with hvbs
  have hvec : vectorBasis la repP3 M atol = .ok (vbs, ls.any Prod.snd) := by
    unfold vectorBasis
    rw [hls]
    rfl
  have hvm : ∀ v ∈ vbs, (⟨v.dim, v.irrep⟩ : AnyRep 3) ∈ M := by
    intro v hv
    obtain ⟨l, hl, hv⟩ := List.mem_flatten.1 hv
    obtain ⟨r, hr, rfl⟩ := List.mem_map.1 hl
    obtain ⟨E, hE, hQ⟩ := forall₂_right hF hr
    rw [hQ v hv]
    exact hE
  -- the pairs
  have hpair : ∀ t ∈ vbs, ∀ v ∈ vbs, ∃ r, tensorPair la M atol t v = .ok r ∧
      ∀ X ∈ r.1, (⟨X.dim, X.irrep⟩ : AnyRep 3) ∈ M := by
    intro t ht v hv
    obtain ⟨R1, hR1, e1⟩ := List.mem_map.1 (hvm t ht)
    obtain ⟨R2, hR2, e2⟩ := List.mem_map.1 (hvm v hv)
    obtain ⟨dt, it, bt⟩ := t
    obtain ⟨dv, iv, bv⟩ := v
    obtain ⟨d1, R1⟩ := R1
    obtain ⟨d2, R2⟩ := R2
    dsimp only at e1 e2
    obtain ⟨rfl, e1⟩ := Sigma.mk.inj e1
    obtain rfl := eq_of_heq e1
    obtain ⟨rfl, e2⟩ := Sigma.mk.inj e2
    obtain rfl := eq_of_heq e2
    obtain ⟨F, hFF, hFe, hFr, hFu, -⟩ := c23_direct_product.2 (fun g => (R1 g).map Complex.ofReal)
      (fun g => (R2 g).map Complex.ofReal)
    have hFp : IsProjRep tblC3 (fun _ _ => 1) F := by simpa using hFr _ _ _ (hproj _ hR1) (hproj _ hR2)
    have hFu' := hFu (real_unitary (hL.orthogonal _ hR1)) (real_unitary (hL.orthogonal _ hR2))
    have hFi : ∀ g x y, (F g x y).im = 0 := by
      intro g x y
      obtain ⟨x, rfl⟩ := finProdFinEquiv.surjective x
      obtain ⟨y, rfl⟩ := finProdFinEquiv.surjective y
      rw [hFe]
      simp
    obtain ⟨ls', hls', hF'⟩ := mapM_ok (L := M) (f := fun E : AnyRep 3 => do
        let (cs, w) ← projectToIrrep la F E.2 atol
        return (cs.map fun c => ({ dim := E.1, irrep := E.2, basis := contractBasis c bt bv } : TensorBasis 3 2 2), w))
      (Q := fun (E : AnyRep 3) (r : List (TensorBasis 3 2 2) × Bool) => ∀ v ∈ r.1, (⟨v.dim, v.irrep⟩ : AnyRep 3) = E) (by
        intro E hE
        obtain ⟨R, hR, rfl⟩ := List.mem_map.1 hE
        have : ∃ r, projectToIrrep la F (fun g => (R.2 g).map Complex.ofReal) atol = .ok r := by
          by_cases hi : Spec.IsIrreducible fun g => (R.2 g).map Complex.ofReal
          · exact (c57_projection_basis tblC3_group hμ hFp hFu' (hproj R hR) (real_unitary (hL.orthogonal R hR)) hi la hla
              atol 10).1 (by norm_num)
          · exact (c71_doubled_irrep tblC3_group hFp hFu' hFi (hL.rep R hR) (hL.orthogonal R hR) (hL.irred R hR) hi la hla
              atol 10).1 (by norm_num)
        obtain ⟨r, hr⟩ := this
        refine ⟨_, by dsimp only; rw [hr]; rfl, fun v hv => ?_⟩
        obtain ⟨b, -, rfl⟩ := List.mem_map.1 hv
        rfl)
    refine ⟨((ls'.map Prod.fst).flatten, ls'.any Prod.snd), ?_, fun X hX => ?_⟩
    · unfold tensorPair
      dsimp only
      rw [hFF]
      simp only [bind, Except.bind] at hls' ⊢
      rw [hls']
      rfl
    · obtain ⟨l, hl, hX⟩ := List.mem_flatten.1 hX
      obtain ⟨r, hr, rfl⟩ := List.mem_map.1 hl
      obtain ⟨E, hE, hQ⟩ := forall₂_right hF' hr
      rw [hQ X hX]
      exact hE
  obtain ⟨ps, hps, hP⟩ := mapM_ok (L := vbs.flatMap fun t => vbs.map fun v => (t, v))
    (f := fun tv => tensorPair la M atol tv.1 tv.2) (Q := fun _ (r : List (TensorBasis 3 2 2) × Bool) => ∀ X ∈ r.1, (⟨X.dim, X.irrep⟩ : AnyRep 3) ∈ M) (by
      intro x hx
      obtain ⟨t, ht', hx⟩ := List.mem_flatMap.1 hx
      obtain ⟨v, hv', rfl⟩ := List.mem_map.1 hx
      exact hpair t ht' v hv')
  have hloop : tensorLoop la M atol vbs 1 = .ok ((ps.map Prod.fst).flatten, false || ps.any Prod.snd) := by
    unfold tensorLoop tensorStep tensorLoop
    simp only [bind, Except.bind]
    rw [hps]
    rfl
  have hdim : ∀ t ∈ (ps.map Prod.fst).flatten, 0 < t.dim := by
    intro t ht
    obtain ⟨l, hl, ht⟩ := List.mem_flatten.1 ht
    obtain ⟨r, hr, rfl⟩ := List.mem_map.1 hl
    obtain ⟨_, _, hQ⟩ := forall₂_right hP hr
    obtain ⟨R, hR, e⟩ := List.mem_map.1 (hQ t ht)
    obtain ⟨i⟩ := (hL.irred R hR).1
    have : R.1 = t.dim := congrArg Sigma.fst e
    rw [← this]
    exact lt_of_le_of_lt (Nat.zero_le _) i.2
  unfold tensorsFrom takeInvariant
  rw [hvec]
  have hloop' : tensorLoop la M atol vbs (2 - 1) = .ok ((ps.map Prod.fst).flatten, false || ps.any Prod.snd) := hloop
  simp only [bind, Except.bind, hloop', takeInvariant_eq _ [] hdim]
  exact ⟨_, rfl⟩

end Spgrep
