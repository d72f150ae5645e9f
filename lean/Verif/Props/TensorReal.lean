/-
Property C58: the full statement fails for `real=True` with complex matrices.
-/
import Verif.Props.Tensor
import Verif.Proofs.RealCounter

namespace Spgrep

open Spec Matrix

/-! ### The group 4/m -/

/-- The eight rotations of the point group 4/m, as tabulated: 1, r², r, r³ and their products with the inversion. -/
def rots4m : Fin 8 → M3 := fun i => (pgData_4_m.head!.get i).toM3

theorem rots4m_group : EnumeratesGroup rots4m := by
  apply enumerates_of_isMatrixGroup (by norm_num)
  · decide +kernel
  · decide +kernel

theorem pointgroup_4m : PointgroupContract (PgSymbol.pg_4_m, (1 : M3).map fun x : ℤ => (x : ℝ)) rots4m :=
  contract_of_int (std := pgData_4_m.head!) (by decide +kernel) (List.mem_singleton.2 rfl) (Equiv.refl (Fin 8))
    (by decide +kernel)

/-- One-dimensional real representations of 4/m. -/
noncomputable def one4m (α β : ℂ) : RepArr 8 1 := fun g => (![1, 1, α, α, β, β, β * α, β * α] : Fin 8 → ℂ) g • 1

/-- A quarter turn. -/
def turn : Matrix (Fin 2) (Fin 2) ℂ := !![0, -1; 1, 0]

/-- Two-dimensional representations of 4/m irreducible over the reals. -/
noncomputable def two4m (σ ε : ℂ) : RepArr 8 2 :=
  ![1, -1, σ • turn, -(σ • turn), ε • 1, -(ε • 1), (ε * σ) • turn, -((ε * σ) • turn)]

/-- The sum of two complex one-dimensional representations of 4/m. -/
noncomputable def rep4m : RepArr 8 2 := fun g =>
  Matrix.diagonal ![(![1, -1, Complex.I, -Complex.I, 1, -1, Complex.I, -Complex.I] : Fin 8 → ℂ) g,
    (![1, -1, Complex.I, -Complex.I, -1, 1, -Complex.I, Complex.I] : Fin 8 → ℂ) g]

/-- The multiplication table. -/
def tbl4m : Fin 8 → Fin 8 → Fin 8 :=
  ![![0, 1, 2, 3, 4, 5, 6, 7], ![1, 0, 3, 2, 5, 4, 7, 6], ![2, 3, 1, 0, 6, 7, 5, 4], ![3, 2, 0, 1, 7, 6, 4, 5],
    ![4, 5, 6, 7, 0, 1, 2, 3], ![5, 4, 7, 6, 1, 0, 3, 2], ![6, 7, 5, 4, 2, 3, 1, 0], ![7, 6, 4, 5, 3, 2, 0, 1]]

theorem tbl4m_spec : ∀ i j, rots4m i * rots4m j = rots4m (tbl4m i j) := by decide +kernel

theorem cayley_4m : getCayleyTable rots4m = .ok tbl4m ∧ IsGroupTable tbl4m := by
  obtain ⟨T, hT, hs, hTg⟩ := c01_cayley_table_ordinary rots4m_group
  have : T = tbl4m := by
    funext i j
    exact (hs i j _).2 (tbl4m_spec i j)
  subst this
  exact ⟨hT, hTg⟩

theorem rep4m_proj : IsProjRep tbl4m (fun _ _ => 1) rep4m := by
  intro g h
  rw [one_smul]
  unfold rep4m
  rw [Matrix.diagonal_mul_diagonal]
  congr 1
  funext i
  fin_cases g <;> fin_cases h <;> fin_cases i <;> simp [tbl4m]

theorem rep4m_unitary : IsUnitaryRep rep4m := by
  intro g
  unfold rep4m
  rw [Matrix.diagonal_conjTranspose, Matrix.diagonal_mul_diagonal, ← Matrix.diagonal_one]
  congr 1
  funext i
  fin_cases g <;> fin_cases i <;> simp

theorem rint_8 {m : ℕ} {s : ℂ} (hs : s = ((8 * m : ℕ) : ℂ)) : rint (rintC s / (8 : ℕ)).re = m := by
  rw [hs, rintC_natCast, Nat.cast_mul, mul_div_cancel_left₀ _ (by norm_num)]
  exact_mod_cast rint_intCast (m : ℤ)

theorem numBasis_rep_one {α β : ℂ} : numBasis rep4m (one4m α β) = 0 := by
  refine rint_8 (m := 0) ?_
  simp [Fin.sum_univ_succ, getCharacter, rep4m, one4m]
  ring_nf

theorem numBasis_rep_two {σ ε : ℂ} (hε : ε = 1 ∨ ε = -1) : numBasis rep4m (two4m σ ε) = 1 := by
  refine rint_8 (m := 1) ?_
  rcases hε with rfl | rfl <;> simp [Fin.sum_univ_succ, getCharacter, rep4m, two4m, turn] <;> norm_num

theorem project_rep_two {la : LinAlg} (hla : la.Contract) {σ ε : ℂ} (hε : ε = 1 ∨ ε = -1) (atol : ℝ) :
    ∃ bs, projectToIrrep la rep4m (two4m σ ε) atol = .ok (bs, false) ∧ bs.length = 1 := by
  refine project_silent (m := 1) (by exact_mod_cast numBasis_rep_two hε) one_ne_zero (fun a _ ha => ?_) atol
  rcases hε with rfl | rfl
  · refine projInner_plane hla ha (p := (0, 0)) (i := 0) (m := 0) ?_
    simp [projBlock, Fin.sum_univ_succ, rep4m, two4m, turn]
    norm_num
  · refine projInner_plane hla ha (p := (1, 0)) (i := 0) (m := 1) ?_
    simp [projBlock, Fin.sum_univ_succ, rep4m, two4m, turn]
    norm_num

/-- The direct product of two two-dimensional representations. -/
noncomputable def prod4m (σ ε σ' ε' : ℂ) : RepArr 8 (2 * 2) := fun k => Matrix.of fun x y =>
  two4m σ ε k (finProdFinEquiv.symm x).1 (finProdFinEquiv.symm y).1 *
    two4m σ' ε' k (finProdFinEquiv.symm x).2 (finProdFinEquiv.symm y).2

theorem char_prod (σ ε σ' ε' : ℂ) (g : Fin 8) : getCharacter (prod4m σ ε σ' ε') g =
    getCharacter (two4m σ ε) g * getCharacter (two4m σ' ε') g := by
  unfold getCharacter prod4m
  rw [← finProdFinEquiv.sum_comp]
  simp only [Matrix.of_apply, Equiv.symm_apply_apply]
  rw [Fintype.sum_prod_type, Finset.sum_mul_sum]

theorem numBasis_prod_two {σ ε σ' ε' σ'' ε'' : ℂ} : numBasis (prod4m σ ε σ' ε') (two4m σ'' ε'') = 0 := by
  refine rint_8 (m := 0) ?_
  simp only [char_prod]
  simp [Fin.sum_univ_succ, getCharacter, two4m, turn]
  ring_nf

theorem numBasis_prod_one {σ ε σ' ε' α β : ℂ} (hε : ε = 1 ∨ ε = -1) (hε' : ε' = 1 ∨ ε' = -1) (hβ : β = 1 ∨ β = -1) :
    numBasis (prod4m σ ε σ' ε') (one4m α β) = if β * ε * ε' = 1 then 2 else 0 := by
  have h : numBasis (prod4m σ ε σ' ε') (one4m α β) = ((if β * ε * ε' = 1 then 2 else 0 : ℕ) : ℤ) := by
    refine rint_8 ?_
    simp only [char_prod]
    rcases hε with rfl | rfl <;> rcases hε' with rfl | rfl <;> rcases hβ with rfl | rfl <;>
      simp [Fin.sum_univ_succ, getCharacter, two4m, turn, one4m] <;> norm_num
  rw [h]
  split_ifs <;> rfl

theorem getDirectProduct_4m (σ ε σ' ε' : ℂ) :
    getDirectProduct (two4m σ ε) (two4m σ' ε') = .ok (prod4m σ ε σ' ε') := by
  unfold getDirectProduct
  rw [dif_pos ⟨rfl, rfl, rfl⟩]
  rfl

/-- The tensor square of a quarter turn. -/
def turn2 : Matrix (Fin 4) (Fin 4) ℂ := !![0, 0, 0, 1; 0, 0, -1, 0; 0, -1, 0, 0; 1, 0, 0, 0]

theorem projBlock_4m {σ ε σ' ε' α β : ℂ} (hα : star α = α) (hβ' : star β = β) (hβ : β * ε * ε' = 1) (c : Fin 4) (m : Fin 4) :
    projBlock (prod4m σ ε σ' ε') (one4m α β) c 0 0 m =
      1 / 2 * ((1 : Matrix (Fin 4) (Fin 4) ℂ) m c + α * σ * σ' * turn2 m c) := by
  have h0 : (finProdFinEquiv.symm (0 : Fin (2 * 2))) = ((0 : Fin 2), (0 : Fin 2)) := by decide
  have h1 : (finProdFinEquiv.symm (1 : Fin (2 * 2))) = ((0 : Fin 2), (1 : Fin 2)) := by decide
  have h2 : (finProdFinEquiv.symm (2 : Fin (2 * 2))) = ((1 : Fin 2), (0 : Fin 2)) := by decide
  have h3 : (finProdFinEquiv.symm (3 : Fin (2 * 2))) = ((1 : Fin 2), (1 : Fin 2)) := by decide
  have key : ∀ a b a' b' : Fin 2, ((1 : ℕ) : ℂ) / (8 : ℕ) * ∑ k, star (one4m α β k 0 0) * (two4m σ ε k a a' * two4m σ' ε' k b b') =
      1 / 2 * ((if a = a' ∧ b = b' then 1 else 0) + α * σ * σ' * (turn a a' * turn b b')) := by
    intro a b a' b'
    have hexp : ∑ k, star (one4m α β k 0 0) * (two4m σ ε k a a' * two4m σ' ε' k b b') =
        2 * (1 + β * ε * ε') * ((1 : Matrix (Fin 2) (Fin 2) ℂ) a a' * (1 : Matrix (Fin 2) (Fin 2) ℂ) b b' +
          α * σ * σ' * (turn a a' * turn b b')) := by
      simp only [RCLike.star_def] at hα hβ'
      simp [Fin.sum_univ_succ, one4m, two4m, hα, hβ']
      ring
    rw [hexp, hβ]
    have : ((1 : Matrix (Fin 2) (Fin 2) ℂ) a a' * (1 : Matrix (Fin 2) (Fin 2) ℂ) b b') = if a = a' ∧ b = b' then 1 else 0 := by
      rw [Matrix.one_apply, Matrix.one_apply, ite_and]
      split_ifs <;> simp
    rw [this]
    norm_num
    ring
  unfold projBlock prod4m
  simp only [Matrix.of_apply]
  rw [key]
  congr 1
  fin_cases c <;> fin_cases m <;> simp [h0, h1, h2, h3, turn, turn2]

theorem one4m_proj {α β : ℂ} (hα : α = 1 ∨ α = -1) (hβ : β = 1 ∨ β = -1) : IsProjRep tbl4m (fun _ _ => 1) (one4m α β) := by
  intro g h
  rw [one_smul]
  unfold one4m
  rw [Matrix.smul_mul, Matrix.one_mul, smul_smul]
  congr 1
  rcases hα with rfl | rfl <;> rcases hβ with rfl | rfl <;> fin_cases g <;> fin_cases h <;> simp [tbl4m]

theorem one4m_unitary {α β : ℂ} (hα : α = 1 ∨ α = -1) (hβ : β = 1 ∨ β = -1) : IsUnitaryRep (one4m α β) := by
  intro g
  unfold one4m
  rw [Matrix.conjTranspose_smul, Matrix.conjTranspose_one, Matrix.smul_mul, Matrix.one_mul, smul_smul]
  rcases hα with rfl | rfl <;> rcases hβ with rfl | rfl <;> fin_cases g <;> simp

theorem two4m_proj {σ ε : ℂ} (hσ : σ = 1 ∨ σ = -1) (hε : ε = 1 ∨ ε = -1) : IsProjRep tbl4m (fun _ _ => 1) (two4m σ ε) := by
  have ht : turn * turn = -1 := by
    ext i j; fin_cases i <;> fin_cases j <;> simp [turn]
  intro g h
  rw [one_smul]
  unfold two4m
  rcases hσ with rfl | rfl <;> rcases hε with rfl | rfl <;> fin_cases g <;> fin_cases h <;> simp [tbl4m, ht]

theorem two4m_unitary {σ ε : ℂ} (hσ : σ = 1 ∨ σ = -1) (hε : ε = 1 ∨ ε = -1) : IsUnitaryRep (two4m σ ε) := by
  have ht : turn.conjTranspose = -turn := by
    ext i j; fin_cases i <;> fin_cases j <;> simp [turn]
  have ht' : turn * turn = -1 := by
    ext i j; fin_cases i <;> fin_cases j <;> simp [turn]
  intro g
  unfold two4m
  rcases hσ with rfl | rfl <;> rcases hε with rfl | rfl <;> fin_cases g <;> simp [ht, ht']

theorem project_prod_one {la : LinAlg} (hla : la.Contract) {σ ε σ' ε' α β : ℂ} (hσ : σ = 1 ∨ σ = -1) (hε : ε = 1 ∨ ε = -1)
    (hσ' : σ' = 1 ∨ σ' = -1) (hε' : ε' = 1 ∨ ε' = -1) (hα : α = 1 ∨ α = -1) (hβ : β = 1 ∨ β = -1) (atol : ℝ) :
    ∃ bs, projectToIrrep la (prod4m σ ε σ' ε') (one4m α β) atol = .ok (bs, false) ∧ (β * ε * ε' = 1 → bs.length = 2) := by
  have hnum := numBasis_prod_one (σ := σ) (σ' := σ') (α := α) hε hε' hβ
  by_cases hb : β * ε * ε' = 1
  · rw [if_pos hb] at hnum
    have hsα : star α = α := by rcases hα with rfl | rfl <;> simp
    have hsβ : star β = β := by rcases hβ with rfl | rfl <;> simp
    have hblk := projBlock_4m (σ := σ) (σ' := σ') hsα hsβ hb
    have hP := (c23_direct_product.2 (two4m σ ε) (two4m σ' ε'))
    rw [getDirectProduct_4m] at hP
    obtain ⟨F, hF, -, hFr, hFu, -⟩ := hP
    obtain rfl := Except.ok.inj hF
    have hFr' : IsProjRep tbl4m (fun _ _ => 1) (prod4m σ ε σ' ε') := by
      simpa using hFr tbl4m _ _ (two4m_proj hσ hε) (two4m_proj hσ' hε')
    obtain ⟨bs, h1, h2⟩ := project_silent (la := la) (m := 2) (by exact_mod_cast hnum) two_ne_zero (fun a ha0 ha =>
      projInner_two (D := 2) cayley_4m.2 hFr' (hFu (two4m_unitary hσ hε) (two4m_unitary hσ' hε')) (one4m_proj hα hβ)
        (one4m_unitary hα hβ) (irreducible_dim_one _) hla ha0 ha hnum (m0 := 0) (m1 := 1) (by
          erw [hblk 0 0]
          simp [turn2]
          norm_num) (by
          erw [hblk 1 1]
          simp [turn2]
          norm_num) (by
          have : ∀ m : Fin 4, star (projBlock (prod4m σ ε σ' ε') (one4m α β) (1 : Fin 4) 0 0 m) *
              projBlock (prod4m σ ε σ' ε') (one4m α β) (0 : Fin 4) 0 0 m = 0 := by
            intro m
            rw [hblk, hblk]
            fin_cases m <;> simp [turn2]
          exact Finset.sum_eq_zero fun m _ => this m)) atol
    exact ⟨bs, h1, fun _ => h2⟩
  · rw [if_neg hb] at hnum
    exact ⟨[], project_zero hnum, fun h => absurd h hb⟩

/-! ### The irreps over the reals -/

theorem tbl4m_comm : ∀ g h, tbl4m g h = tbl4m h g := by decide

theorem class_one {R : Fin 8 → Matrix (Fin 1) (Fin 1) ℝ} (hR : IsRealProjRep tbl4m (fun _ _ => 1) R)
    (ho : ∀ g, R g * (R g).transpose = 1) : ∃ α β : ℂ, (α = 1 ∨ α = -1) ∧ (β = 1 ∨ β = -1) ∧
      (fun g => (R g).map Complex.ofReal) = one4m α β := by
  have hm : ∀ g h, R (tbl4m g h) 0 0 = R g 0 0 * R h 0 0 := by
    intro g h
    have := congrFun (congrFun (hR g h) 0) 0
    simpa [Matrix.mul_apply] using this.symm
  have hs : ∀ g, R g 0 0 = 1 ∨ R g 0 0 = -1 := by
    intro g
    have := congrFun (congrFun (ho g) 0) 0
    simp [Matrix.mul_apply] at this
    exact mul_self_eq_one_iff.1 this
  have hsq : ∀ g, R g 0 0 * R g 0 0 = 1 := fun g => mul_self_eq_one_iff.2 (hs g)
  have h0 : R 0 0 0 = 1 := (hm 0 0).trans (hsq 0)
  have h1 : R 1 0 0 = 1 := (hm 2 2).trans (hsq 2)
  have h3 : R 3 0 0 = R 2 0 0 := (hm 2 1).trans (by rw [h1, mul_one])
  have h5 : R 5 0 0 = R 4 0 0 := (hm 4 1).trans (by rw [h1, mul_one])
  have h6 : R 6 0 0 = R 4 0 0 * R 2 0 0 := hm 4 2
  have h7 : R 7 0 0 = R 4 0 0 * R 2 0 0 := (hm 4 3).trans (by rw [h3])
  have hc : ∀ g, (((R g 0 0 : ℝ) : ℂ) = 1 ∨ ((R g 0 0 : ℝ) : ℂ) = -1) := fun g =>
    (hs g).imp (fun h => by rw [h]; simp) (fun h => by rw [h]; simp)
  refine ⟨(R 2 0 0 : ℝ), (R 4 0 0 : ℝ), hc 2, hc 4, ?_⟩
  funext g
  ext i j
  rw [Subsingleton.elim i 0, Subsingleton.elim j 0]
  fin_cases g <;> simp [one4m, h0, h1, h3, h5, h6, h7]

/-- An involution commuting with a family irreducible over the reals. -/
theorem involution_scalar {R : Fin 8 → Matrix (Fin 2) (Fin 2) ℝ} (hi : IsRealIrreducible R)
    {M : Matrix (Fin 2) (Fin 2) ℝ} (hM : ∀ g, R g * M = M * R g) (h1 : M * M = 1) : M = 1 ∨ M = -1 := by
  let W : Submodule ℝ (Fin 2 → ℝ) := LinearMap.ker (M - 1).mulVecLin
  have hW : ∀ v, v ∈ W ↔ (M - 1).mulVec v = 0 := fun v => by
    rw [LinearMap.mem_ker, Matrix.mulVecLin_apply]
  rcases hi.2 W (by
    intro g v hv
    rw [hW] at hv ⊢
    have h2 : (M - 1) * R g = R g * (M - 1) := by
      rw [Matrix.sub_mul, Matrix.mul_sub, hM, Matrix.one_mul, Matrix.mul_one]
    rw [Matrix.mulVec_mulVec, h2, ← Matrix.mulVec_mulVec, hv, Matrix.mulVec_zero]) with h | h
  · right
    have h2 : (M - 1) * (M + 1) = 0 := by
      rw [Matrix.sub_mul, Matrix.mul_add, h1, Matrix.one_mul, Matrix.mul_one]
      abel
    have h3 : ∀ v, (M + 1).mulVec v = 0 := by
      intro v
      have : (M + 1).mulVec v ∈ W := by rw [hW, Matrix.mulVec_mulVec, h2, Matrix.zero_mulVec]
      rwa [h, Submodule.mem_bot] at this
    have h4 : M + 1 = 0 := by
      ext i j
      have := congrFun (h3 (Pi.single j 1)) i
      simpa [Matrix.mulVec_single] using this
    exact eq_neg_of_add_eq_zero_left h4
  · left
    have h3 : ∀ v, (M - 1).mulVec v = 0 := fun v => (hW v).1 (by rw [h]; trivial)
    have h4 : M - 1 = 0 := by
      ext i j
      have := congrFun (h3 (Pi.single j 1)) i
      simpa [Matrix.mulVec_single] using this
    exact sub_eq_zero.1 h4

theorem class_two {R : Fin 8 → Matrix (Fin 2) (Fin 2) ℝ} (hR : IsRealProjRep tbl4m (fun _ _ => 1) R)
    (ho : ∀ g, R g * (R g).transpose = 1) (hi : IsRealIrreducible R) : ∃ σ ε : ℂ, (σ = 1 ∨ σ = -1) ∧ (ε = 1 ∨ ε = -1) ∧
      (fun g => (R g).map Complex.ofReal) = two4m σ ε := by
  have hm : ∀ g h, R (tbl4m g h) = R g * R h := by
    intro g h
    have := hR g h
    rw [one_smul] at this
    exact this.symm
  have hcomm : ∀ h g, R g * R h = R h * R g := fun h g => by rw [← hm, ← hm, tbl4m_comm]
  have h0 : R 0 = 1 := by
    have h1 : R 0 = R 0 * R 0 := hm 0 0
    calc R 0 = R 0 * (R 0 * (R 0).transpose) := by rw [ho, Matrix.mul_one]
      _ = R 0 * (R 0).transpose := by rw [← Matrix.mul_assoc, ← h1]
      _ = 1 := ho 0
  have h22 : R 2 * R 2 = R 1 := (hm 2 2).symm
  have h3 : R 3 = R 2 * R 1 := hm 2 1
  have h5 : R 5 = R 4 * R 1 := hm 4 1
  have h6 : R 6 = R 4 * R 2 := hm 4 2
  have h7 : R 7 = R 4 * R 3 := hm 4 3
  have h4 := involution_scalar hi (hcomm 4) ((hm 4 4).symm.trans h0)
  have hR1 : R 1 = -1 := by
    rcases involution_scalar hi (hcomm 1) ((hm 1 1).symm.trans h0) with h1 | h1
    · exfalso
      have h2 := involution_scalar hi (hcomm 2) (h22.trans h1)
      have hsc : ∀ g, R g = 1 ∨ R g = -1 := by
        intro g
        fin_cases g
        · exact .inl h0
        · exact .inl h1
        · exact h2
        · show R 3 = 1 ∨ R 3 = -1
          rw [h3, h1, Matrix.mul_one]; exact h2
        · exact h4
        · show R 5 = 1 ∨ R 5 = -1
          rw [h5, h1, Matrix.mul_one]; exact h4
        · show R 6 = 1 ∨ R 6 = -1
          rw [h6]
          rcases h4 with h4 | h4 <;> rcases h2 with h2 | h2 <;> rw [h4, h2] <;> simp
        · show R 7 = 1 ∨ R 7 = -1
          rw [h7, h3, h1, Matrix.mul_one]
          rcases h4 with h4 | h4 <;> rcases h2 with h2 | h2 <;> rw [h4, h2] <;> simp
      rcases hi.2 (Submodule.span ℝ {Pi.single (0 : Fin 2) 1}) (by
        intro g v hv
        rcases hsc g with h | h
        · rw [h, Matrix.one_mulVec]; exact hv
        · rw [h, Matrix.neg_mulVec, Matrix.one_mulVec]; exact Submodule.neg_mem _ hv) with h | h
      · rw [Submodule.span_singleton_eq_bot] at h
        have := congrFun h 0
        simp at this
      · have h8 : (Pi.single (1 : Fin 2) (1 : ℝ) : Fin 2 → ℝ) ∈ Submodule.span ℝ {Pi.single (0 : Fin 2) (1 : ℝ)} := by
          rw [h]; trivial
        obtain ⟨c, hc⟩ := Submodule.mem_span_singleton.1 h8
        have := congrFun hc 1
        simp at this
    · exact h1
  -- the quarter turn
  have hA : ∃ s : ℝ, (s = 1 ∨ s = -1) ∧ R 2 = !![0, -s; s, 0] := by
    have e1 : (R 2).transpose = -R 2 := by
      have h8 : R 2 * (R 2).transpose = R 2 * -R 2 := by rw [ho, Matrix.mul_neg, h22, hR1, neg_neg]
      have h9 : (R 2).transpose * R 2 = 1 := mul_eq_one_comm.1 (ho 2)
      calc (R 2).transpose = (R 2).transpose * R 2 * (R 2).transpose := by rw [h9, Matrix.one_mul]
        _ = (R 2).transpose * R 2 * -R 2 := by rw [Matrix.mul_assoc, h8, ← Matrix.mul_assoc]
        _ = -R 2 := by rw [h9, Matrix.one_mul]
    have a00 : R 2 0 0 = 0 := by
      have := congrFun (congrFun e1 0) 0
      simp only [Matrix.transpose_apply, Matrix.neg_apply] at this
      linarith
    have a11 : R 2 1 1 = 0 := by
      have := congrFun (congrFun e1 1) 1
      simp only [Matrix.transpose_apply, Matrix.neg_apply] at this
      linarith
    have a01 : R 2 0 1 = -R 2 1 0 := by
      have := congrFun (congrFun e1 1) 0
      simpa only [Matrix.transpose_apply, Matrix.neg_apply] using this
    have asq : R 2 1 0 * R 2 1 0 = 1 := by
      have := congrFun (congrFun h22 1) 1
      rw [hR1] at this
      simp [Matrix.mul_apply, a11, a01] at this
      linarith
    refine ⟨R 2 1 0, mul_self_eq_one_iff.1 asq, ?_⟩
    ext i j
    fin_cases i <;> fin_cases j <;> simp [a00, a11, a01]
  obtain ⟨s, hs, hA⟩ := hA
  obtain ⟨e, he, h4'⟩ : ∃ e : ℝ, (e = 1 ∨ e = -1) ∧ R 4 = e • 1 := by
    rcases h4 with h | h
    · exact ⟨1, .inl rfl, by rw [h, one_smul]⟩
    · exact ⟨-1, .inr rfl, by rw [h, neg_smul, one_smul]⟩
  have hcast : ∀ {x : ℝ}, (x = 1 ∨ x = -1) → ((x : ℂ) = 1 ∨ (x : ℂ) = -1) := fun h =>
    h.imp (fun h => by rw [h]; simp) (fun h => by rw [h]; simp)
  refine ⟨s, e, hcast hs, hcast he, ?_⟩
  funext g
  fin_cases g
  · show (R 0).map _ = _
    rw [h0]
    ext i j; fin_cases i <;> fin_cases j <;> simp [two4m]
  · show (R 1).map _ = _
    rw [hR1]
    ext i j; fin_cases i <;> fin_cases j <;> simp [two4m]
  · show (R 2).map _ = _
    rw [hA]
    ext i j; fin_cases i <;> fin_cases j <;> simp [two4m, turn]
  · show (R 3).map _ = _
    rw [h3, hR1, hA]
    ext i j; fin_cases i <;> fin_cases j <;> simp [two4m, turn]
  · show (R 4).map _ = _
    rw [h4']
    ext i j; fin_cases i <;> fin_cases j <;> simp [two4m, turn]
  · show (R 5).map _ = _
    rw [h5, h4', hR1]
    ext i j; fin_cases i <;> fin_cases j <;> simp [two4m, turn]
  · show (R 6).map _ = _
    rw [h6, h4', hA]
    ext i j; fin_cases i <;> fin_cases j <;> simp [two4m, turn]
  · show (R 7).map _ = _
    rw [h7, h3, h4', hR1, hA]
    ext i j; fin_cases i <;> fin_cases j <;> simp [two4m, turn]

/-- A complex irreducible family of commuting matrices has dimension one. -/
theorem dim_one_of_comm {n d : ℕ} {E : RepArr n d} (hi : Spec.IsIrreducible E) (hc : ∀ g h, E g * E h = E h * E g) :
    d = 1 := by
  obtain ⟨i⟩ := hi.1
  have hsc : ∀ g, ∃ c : ℂ, E g = c • 1 := fun g => schur_scalar hi fun h => hc h g
  rcases hi.2 (Submodule.span ℂ {Pi.single i 1}) (by
    intro g v hv
    obtain ⟨c, h⟩ := hsc g
    rw [h, Matrix.smul_mulVec, Matrix.one_mulVec]
    exact Submodule.smul_mem _ _ hv) with h | h
  · rw [Submodule.span_singleton_eq_bot] at h
    have := congrFun h i
    simp at this
  · by_contra hd
    obtain ⟨j, hj⟩ : ∃ j : Fin d, j ≠ i := by
      have h1 : 1 < d := by have := i.2; omega
      rcases eq_or_ne i ⟨0, by omega⟩ with h2 | h2
      · exact ⟨⟨1, h1⟩, by rw [h2]; intro h; exact absurd (congrArg Fin.val h) (by simp)⟩
      · exact ⟨_, h2.symm⟩
    have h8 : (Pi.single j (1 : ℂ) : Fin d → ℂ) ∈ Submodule.span ℂ {Pi.single i (1 : ℂ)} := by
      rw [h]; trivial
    obtain ⟨c, hc⟩ := Submodule.mem_span_singleton.1 h8
    have := congrFun hc j
    simp [hj] at this

/-- What may occur in the list of irreps. -/
def Known4m (E : AnyRep 8) : Prop :=
  (∃ α β : ℂ, (α = 1 ∨ α = -1) ∧ (β = 1 ∨ β = -1) ∧ E = ⟨1, one4m α β⟩) ∨
  (∃ σ ε : ℂ, (σ = 1 ∨ σ = -1) ∧ (ε = 1 ∨ ε = -1) ∧ E = ⟨2, two4m σ ε⟩)

theorem known4m {R : AnyReal 8} (hR : IsRealProjRep tbl4m (fun _ _ => 1) R.2) (ho : ∀ g, R.2 g * (R.2 g).transpose = 1)
    (hi : IsRealIrreducible R.2) (hd : R.1 = 2 ∨ Spec.IsIrreducible fun g => (R.2 g).map Complex.ofReal) :
    Known4m ⟨R.1, fun g => (R.2 g).map Complex.ofReal⟩ := by
  obtain ⟨d, R⟩ := R
  dsimp only at hR ho hi hd ⊢
  rcases hd with rfl | hd
  · obtain ⟨σ, ε, h1, h2, h3⟩ := class_two hR ho hi
    exact .inr ⟨σ, ε, h1, h2, by rw [h3]⟩
  · have hd1 : d = 1 := dim_one_of_comm hd fun g h => by
      have h1 : R g * R h = R h * R g := by rw [hR g h, hR h g, tbl4m_comm]
      have h2 := congrArg (fun M : Matrix _ _ ℝ => M.map Complex.ofRealHom) h1
      rw [Matrix.map_mul, Matrix.map_mul] at h2
      exact h2
    subst hd1
    obtain ⟨α, β, h1, h2, h3⟩ := class_one hR ho
    exact .inl ⟨α, β, h1, h2, by rw [h3]⟩

/-! ### The run -/

theorem mapM_all_ok' {α β : Type} {f : α → Except PyErr (List β × Bool)} {l : List α}
    (h : ∀ a ∈ l, ∃ b, f a = .ok (b, false)) : ∃ ls, l.mapM f = .ok ls ∧ ls.any Prod.snd = false ∧
      (∀ x ∈ (ls.map Prod.fst).flatten, ∃ a ∈ l, ∃ b, f a = .ok (b, false) ∧ x ∈ b) ∧
      ∀ a ∈ l, ∀ b, f a = .ok (b, false) → ∀ x ∈ b, x ∈ (ls.map Prod.fst).flatten := by
  obtain ⟨ls, h1, h2⟩ := mapM_all_ok h
  have h3 := mapM_forall₂ h1
  refine ⟨ls, h1, h2, fun x hx => ?_, fun a ha b hb x hx => mapM_flatten_mem h3 ha hb hx⟩
  obtain ⟨b, hb, hx⟩ := List.mem_flatten.1 hx
  obtain ⟨r, hr, rfl⟩ := List.mem_map.1 hb
  obtain ⟨a, ha, har⟩ := forall₂_right h3 hr
  obtain ⟨b', hb'⟩ := h a ha
  rw [hb'] at har
  cases har
  exact ⟨a, ha, b', hb', hx⟩

/-- A list of irreps over the reals of 4/m with the trivial one and a two-dimensional one: the run for `rep4m` and
tensors of rank two gives no warning and returns something. -/
theorem run4m {L : List (AnyRep 8)} (hL : ∀ E ∈ L, Known4m E) (h1 : (⟨1, one4m 1 1⟩ : AnyRep 8) ∈ L)
    (h2 : ∃ σ ε : ℂ, (σ = 1 ∨ σ = -1) ∧ (ε = 1 ∨ ε = -1) ∧ (⟨2, two4m σ ε⟩ : AnyRep 8) ∈ L) {la : LinAlg}
    (hla : la.Contract) (atol : ℝ) :
    ∃ ts, tensorsFrom la rep4m L 2 atol = .ok (ts, false) ∧ ts ≠ [] := by
  -- the vectors
  obtain ⟨vs, hv1, hv2, hv3, hv4⟩ := mapM_all_ok' (l := L) (f := fun E => do
      let (bs, w) ← projectToIrrep la rep4m E.2 atol
      return (bs.map fun b => ({ dim := E.1, irrep := E.2, basis := fun i a => b i (a 0) } : TensorBasis 8 2 1), w)) (by
    intro E hE
    rcases hL E hE with ⟨α, β, -, -, rfl⟩ | ⟨σ, ε, -, hε, rfl⟩
    · dsimp only
      rw [project_zero numBasis_rep_one]
      exact ⟨_, rfl⟩
    · obtain ⟨bs, hbs, -⟩ := project_rep_two (σ := σ) hla hε atol
      dsimp only
      rw [hbs]
      exact ⟨_, rfl⟩)
  set vbs := (vs.map Prod.fst).flatten with hvbs
  have hvec : vectorBasis la rep4m L atol = .ok (vbs, false) := by
    unfold vectorBasis
    rw [hv1]
    show Except.ok (_, _) = _
    rw [hv2]
  have hvk : ∀ v ∈ vbs, ∃ σ ε : ℂ, (σ = 1 ∨ σ = -1) ∧ (ε = 1 ∨ ε = -1) ∧ ∃ b, v = ⟨2, two4m σ ε, b⟩ := by
    intro v hv
    obtain ⟨E, hE, bs, hbs, hx⟩ := hv3 v hv
    rcases hL E hE with ⟨α, β, -, -, rfl⟩ | ⟨σ, ε, hσ, hε, rfl⟩
    · dsimp only at hbs
      rw [project_zero numBasis_rep_one] at hbs
      cases hbs
      cases hx
    · obtain ⟨bs', hbs', -⟩ := project_rep_two (σ := σ) hla hε atol
      dsimp only at hbs
      rw [hbs'] at hbs
      cases hbs
      obtain ⟨b, -, rfl⟩ := List.mem_map.1 hx
      exact ⟨σ, ε, hσ, hε, _, rfl⟩
  have hvne : ∃ v, v ∈ vbs := by
    obtain ⟨σ, ε, hσ, hε, hE⟩ := h2
    obtain ⟨bs', hbs', hlen⟩ := project_rep_two (σ := σ) hla hε atol
    obtain ⟨b, hb⟩ : ∃ b, b ∈ bs' := List.exists_mem_of_length_pos (by omega)
    exact ⟨_, hv4 _ hE _ (by dsimp only; rw [hbs']; rfl) _ (List.mem_map_of_mem hb)⟩
  -- the pairs
  have hpair : ∀ t ∈ vbs, ∀ v ∈ vbs, ∃ bs, tensorPair la L atol t v = .ok (bs, false) ∧
      (∀ x ∈ bs, 0 < x.dim) ∧ (t = v → ∃ x ∈ bs, x.Trivial) := by
    intro t ht v hv
    obtain ⟨σ, ε, hσ, hε, bt, rfl⟩ := hvk t ht
    obtain ⟨σ', ε', hσ', hε', bv, rfl⟩ := hvk v hv
    obtain ⟨ls, hl1, hl2, hl3, hl4⟩ := mapM_all_ok' (l := L) (f := fun E => do
        let (cs, w) ← projectToIrrep la (prod4m σ ε σ' ε') E.2 atol
        return (cs.map fun c => ({ dim := E.1, irrep := E.2, basis := contractBasis c bt bv } : TensorBasis 8 2 2), w)) (by
      intro E hE
      rcases hL E hE with ⟨α, β, hα, hβ, rfl⟩ | ⟨σ'', ε'', -, hε, rfl⟩
      · obtain ⟨bs, hbs, -⟩ := project_prod_one hla hσ hε hσ' hε' hα hβ atol
        dsimp only
        rw [hbs]
        exact ⟨_, rfl⟩
      · dsimp only
        rw [project_zero numBasis_prod_two]
        exact ⟨_, rfl⟩)
    refine ⟨(ls.map Prod.fst).flatten, ?_, fun x hx => ?_, fun htv => ?_⟩
    · unfold tensorPair
      rw [getDirectProduct_4m]
      simp only [bind, Except.bind] at hl1 ⊢
      rw [hl1]
      show Except.ok (_, _) = _
      rw [hl2]
    · obtain ⟨E, hE, bs, hbs, hx⟩ := hl3 x hx
      rcases hL E hE with ⟨α, β, hα, hβ, rfl⟩ | ⟨σ'', ε'', -, -, rfl⟩
      · obtain ⟨bs', hbs', -⟩ := project_prod_one hla hσ hε hσ' hε' hα hβ atol
        dsimp only at hbs
        rw [hbs'] at hbs
        cases hbs
        obtain ⟨b, -, rfl⟩ := List.mem_map.1 hx
        exact one_pos
      · dsimp only at hbs
        rw [project_zero numBasis_prod_two] at hbs
        cases hbs
        cases hx
    · have hee : (1 : ℂ) * ε * ε' = 1 := by
        have h3 : two4m σ ε = two4m σ' ε' := by
          injection htv
        have h4 := congrFun (congrFun (congrFun h3 4) 0) 0
        simp [two4m] at h4
        rw [← h4]
        rcases hε with rfl | rfl <;> norm_num
      obtain ⟨bs', hbs', hlen⟩ := project_prod_one hla hσ hε hσ' hε' (.inl rfl) (.inl rfl) atol
      obtain ⟨b, hb⟩ : ∃ b, b ∈ bs' := List.exists_mem_of_length_pos (by rw [hlen hee]; norm_num)
      refine ⟨_, hl4 _ h1 _ (by dsimp only; rw [hbs']; rfl) _ (List.mem_map_of_mem hb), ?_⟩
      refine test_of_equiv_one ⟨1, 1, by simp, by simp, fun g => ?_⟩
      rw [Matrix.mul_one, Matrix.one_mul]
      fin_cases g <;> simp [one4m]
  obtain ⟨ps, hp1, hp2, hp3, hp4⟩ := mapM_all_ok' (l := vbs.flatMap fun t => vbs.map fun v => (t, v))
    (f := fun tv => tensorPair la L atol tv.1 tv.2) (by
      intro x hx
      obtain ⟨t, ht', hx⟩ := List.mem_flatMap.1 hx
      obtain ⟨v, hv', rfl⟩ := List.mem_map.1 hx
      obtain ⟨bs, hbs, -⟩ := hpair t ht' v hv'
      exact ⟨bs, hbs⟩)
  have hloop : tensorLoop la L atol vbs 1 = .ok ((ps.map Prod.fst).flatten, false) := by
    unfold tensorLoop tensorStep tensorLoop
    simp only [bind, Except.bind]
    rw [hp1]
    show Except.ok (_, _ || _) = _
    rw [hp2]
    rfl
  have hdim : ∀ t ∈ (ps.map Prod.fst).flatten, 0 < t.dim := by
    intro t ht
    obtain ⟨x, hx, bs, hbs, hm⟩ := hp3 t ht
    obtain ⟨t', ht', hx⟩ := List.mem_flatMap.1 hx
    obtain ⟨v', hv', rfl⟩ := List.mem_map.1 hx
    obtain ⟨bs', hbs', hpos, -⟩ := hpair t' ht' v' hv'
    rw [hbs'] at hbs
    cases hbs
    exact hpos t hm
  obtain ⟨v, hv⟩ := hvne
  obtain ⟨bs, hbs, -, htriv⟩ := hpair v hv v hv
  obtain ⟨x, hx, hxt⟩ := htriv rfl
  have hxm : x ∈ (ps.map Prod.fst).flatten :=
    hp4 (v, v) (List.mem_flatMap.2 ⟨v, hv, List.mem_map.2 ⟨v, hv, rfl⟩⟩) bs hbs x hx
  unfold tensorsFrom takeInvariant
  rw [hvec]
  have hloop' : tensorLoop la L atol vbs (2 - 1) = .ok ((ps.map Prod.fst).flatten, false) := hloop
  simp only [bind, Except.bind, hloop', takeInvariant_eq _ [] hdim]
  refine ⟨_, rfl, fun hnil => ?_⟩
  have h3 : x.first ∈ ([] : List (Tensor 2 (2 - 1 + 1))) := by
    rw [← hnil]
    refine List.mem_append_right _ (List.mem_map_of_mem (List.mem_filter.2 ⟨hxm, ?_⟩))
    classical
    exact decide_eq_true hxt
  cases h3

theorem turn_real_irreducible : IsRealIrreducible
    (![1, -1, !![0, -1; 1, 0], -!![0, -1; 1, 0], 1, -1, !![0, -1; 1, 0], -!![0, -1; 1, 0]] : Fin 8 → Matrix (Fin 2) (Fin 2) ℝ) := by
  refine ⟨⟨0⟩, fun W hW => ?_⟩
  by_cases hb : W = ⊥
  · exact .inl hb
  · right
    obtain ⟨v, hv, hv0⟩ := (Submodule.ne_bot_iff W).1 hb
    have hJ : (fun i => ![-v 1, v 0] i) ∈ W := by
      have h1 := hW 2 v hv
      have h2 : (!![0, -1; 1, 0] : Matrix (Fin 2) (Fin 2) ℝ).mulVec v = fun i => ![-v 1, v 0] i := by
        funext i
        fin_cases i <;> simp [Matrix.mulVec, dotProduct, Fin.sum_univ_two]
      rw [← h2]
      exact h1
    have hpos : v 0 * v 0 + v 1 * v 1 ≠ 0 := by
      intro h
      apply hv0
      have h0 : v 0 = 0 := by nlinarith [mul_self_nonneg (v 0), mul_self_nonneg (v 1)]
      have h1 : v 1 = 0 := by nlinarith [mul_self_nonneg (v 0), mul_self_nonneg (v 1)]
      funext i
      fin_cases i
      · exact h0
      · exact h1
    rw [Submodule.eq_top_iff']
    intro u
    have : u = ((u 0 * v 0 + u 1 * v 1) / (v 0 * v 0 + v 1 * v 1)) • v +
        ((u 1 * v 0 - u 0 * v 1) / (v 0 * v 0 + v 1 * v 1)) • (fun i => ![-v 1, v 0] i) := by
      funext i
      fin_cases i
      · show u 0 = (u 0 * v 0 + u 1 * v 1) / (v 0 * v 0 + v 1 * v 1) * v 0 +
          (u 1 * v 0 - u 0 * v 1) / (v 0 * v 0 + v 1 * v 1) * -v 1
        rw [div_mul_eq_mul_div, div_mul_eq_mul_div, ← add_div, eq_div_iff hpos]
        ring
      · show u 1 = (u 0 * v 0 + u 1 * v 1) / (v 0 * v 0 + v 1 * v 1) * v 1 +
          (u 1 * v 0 - u 0 * v 1) / (v 0 * v 0 + v 1 * v 1) * v 0
        rw [div_mul_eq_mul_div, div_mul_eq_mul_div, ← add_div, eq_div_iff hpos]
        ring
    rw [this]
    exact W.add_mem (W.smul_mem _ hv) (W.smul_mem _ hJ)

theorem equiv_scalar {d e : ℕ} {R : Fin 8 → Matrix (Fin d) (Fin d) ℝ} {R' : Fin 8 → Matrix (Fin e) (Fin e) ℝ}
    (h : AreRealEquivalent R R') {g : Fin 8} {c : ℝ} (hg : R g = c • 1) : R' g = c • 1 := by
  obtain ⟨S, S', h1, h2, h3⟩ := h
  calc R' g = S' * S * R' g := by rw [h2, Matrix.one_mul]
    _ = S' * (R g * S) := by rw [Matrix.mul_assoc, h3]
    _ = c • 1 := by rw [hg, Matrix.smul_mul, Matrix.one_mul, Matrix.mul_smul, h2]

/-- **C58, refutation for `real=True`.** The group 4/m acts on the plane by the sum of two complex one-dimensional
representations, one even and one odd.  With routines that satisfy their contracts and suitable draws
`get_symmetry_adapted_tensors` with `real=True` gives no warning, but the returned tensors of rank two are zero. -/
theorem c58_tensors_basis_refuted : ∃ (o : Oracles) (la : LinAlg) (ts : List (Tensor 2 2)),
    EnumeratesGroup rots4m ∧ getCayleyTable rots4m = .ok tbl4m ∧ IsProjRep tbl4m (fun _ _ => 1) rep4m ∧
    IsUnitaryRep rep4m ∧ PointgroupContract o.pointgroup rots4m ∧ EigContract o.eig ∧ la.Contract ∧
    RichDraws 8 o.random 1e-8 4 ∧ getSymmetryAdaptedTensors o la rep4m rots4m 2 true = .ok (ts, false) ∧
    ts ≠ [] ∧ (∀ t ∈ ts, t = 0) ∧ ¬ LinearIndependent ℂ ts.get := by
  obtain ⟨random, hr⟩ := exists_richDraws 1e-8 8 4 fun d hd => by
    have : d ≤ 2 := by by_contra h; push Not at h; nlinarith
    nlinarith
  obtain ⟨eig, heig⟩ := exists_eigContract
  obtain ⟨la, hla⟩ := exists_linAlg_contract
  let o : Oracles := { random := random, eig := eig, eigh := fun d _ => (fun _ => 0, 0),
                       qr := fun _ _ _ => 0,
                       pointgroup := (PgSymbol.pg_4_m, (1 : M3).map fun x : ℤ => (x : ℝ)) }
  obtain ⟨L, w, h0, h1, h2⟩ := c69_real_irreps rots4m_group cayley_4m.1 o pointgroup_4m heig 1e-5 (atol := 1e-8)
    (by norm_num) (by norm_num) 4
  obtain ⟨h3, h4⟩ := h1 hr
  obtain ⟨l, h5, h6, h7⟩ := h2 h3 h4
  have hknown : ∀ x ∈ l, Known4m ⟨x.1.1, fun g => (x.1.2 g).map Complex.ofReal⟩ := fun x hx =>
    known4m (h6.rep _ (List.mem_map_of_mem hx)) (h6.orthogonal _ (List.mem_map_of_mem hx))
      (h6.irred _ (List.mem_map_of_mem hx)) ((h7 x hx).2.1.symm.imp (fun h => h.2) (h7 x hx).2.2)
  have hcast : ∀ {d : ℕ} {M : Matrix (Fin d) (Fin d) ℝ} {c : ℝ}, M = c • 1 → M.map Complex.ofReal = (c : ℂ) • 1 := by
    intro d M c h
    rw [h]
    ext i j
    by_cases hij : i = j <;> simp [hij]
  have hone : (⟨1, one4m 1 1⟩ : AnyRep 8) ∈ (IrrepsOut.real l).irreps := by
    obtain ⟨R, hR, he⟩ := h6.complete 1 (fun _ => 1) (fun _ _ => by simp) (fun _ => isUnit_one) ⟨⟨0⟩, fun W _ => by
      by_cases hb : W = ⊥
      · exact Or.inl hb
      · right
        obtain ⟨v, hv, hv0⟩ := (Submodule.ne_bot_iff W).1 hb
        have hv1 : v 0 ≠ 0 := fun h => hv0 (by funext i; rw [Subsingleton.elim i 0, h]; rfl)
        rw [Submodule.eq_top_iff']
        intro u
        have : u = (u 0 / v 0) • v := by
          funext i
          rw [Subsingleton.elim i 0, Pi.smul_apply, smul_eq_mul, div_mul_cancel₀ _ hv1]
        rw [this]
        exact W.smul_mem _ hv⟩
    obtain ⟨x, hx, rfl⟩ := List.mem_map.1 hR
    have hall : ∀ g, (x.1.2 g).map Complex.ofReal = 1 := fun g => by
      rw [hcast (equiv_scalar he (g := g) (c := 1) (by rw [one_smul]))]
      simp
    have hmem : (⟨x.1.1, fun g => (x.1.2 g).map Complex.ofReal⟩ : AnyRep 8) ∈ (IrrepsOut.real l).irreps :=
      List.mem_map.2 ⟨x, hx, rfl⟩
    have hfun : (⟨x.1.1, fun g => (x.1.2 g).map Complex.ofReal⟩ : AnyRep 8) = ⟨x.1.1, fun _ => 1⟩ := by
      congr 1
      funext g
      exact hall g
    have hk := hknown x hx
    rw [hfun] at hk hmem
    rcases hk with ⟨α, β, -, -, hE⟩ | ⟨σ, ε, -, -, hE⟩
    · rw [hE] at hmem
      have hd : x.1.1 = 1 := congrArg Sigma.fst hE
      rw [hd] at hE
      have hE' := eq_of_heq (Sigma.mk.inj hE).2
      have e2 := congrFun (congrFun (congrFun hE' 2) 0) 0
      have e4 := congrFun (congrFun (congrFun hE' 4) 0) 0
      simp [one4m] at e2 e4
      rw [← e2, ← e4] at hmem
      exact hmem
    · exfalso
      have hd : x.1.1 = 2 := congrArg Sigma.fst hE
      rw [hd] at hE
      have hE' := eq_of_heq (Sigma.mk.inj hE).2
      have e2 := congrFun (congrFun (congrFun hE' 1) 0) 0
      simp [two4m] at e2
      norm_num at e2
  have htwo : ∃ σ ε : ℂ, (σ = 1 ∨ σ = -1) ∧ (ε = 1 ∨ ε = -1) ∧ (⟨2, two4m σ ε⟩ : AnyRep 8) ∈ (IrrepsOut.real l).irreps := by
    have ht : (!![0, -1; 1, 0] : Matrix (Fin 2) (Fin 2) ℝ) * !![0, -1; 1, 0] = -1 := by
      ext i j; fin_cases i <;> fin_cases j <;> simp
    have hrep : IsRealProjRep tbl4m (fun _ _ => 1)
        (![1, -1, !![0, -1; 1, 0], -!![0, -1; 1, 0], 1, -1, !![0, -1; 1, 0], -!![0, -1; 1, 0]] : Fin 8 → Matrix (Fin 2) (Fin 2) ℝ) := by
      intro g h
      rw [one_smul]
      fin_cases g <;> fin_cases h <;> simp [tbl4m, ht, -Matrix.cons_mul, -Matrix.neg_of]
    have hunit : ∀ g, IsUnit
        ((![1, -1, !![0, -1; 1, 0], -!![0, -1; 1, 0], 1, -1, !![0, -1; 1, 0], -!![0, -1; 1, 0]] : Fin 8 → Matrix (Fin 2) (Fin 2) ℝ) g) := by
      intro g
      rw [Matrix.isUnit_iff_isUnit_det]
      fin_cases g <;> simp [Matrix.det_fin_two]
    obtain ⟨R, hR, he⟩ := h6.complete 2 _ hrep hunit turn_real_irreducible
    obtain ⟨x, hx, rfl⟩ := List.mem_map.1 hR
    have h1' : (x.1.2 1).map Complex.ofReal = ((-1 : ℝ) : ℂ) • 1 :=
      hcast (equiv_scalar he (g := 1) (c := -1) (by
        show (-1 : Matrix (Fin 2) (Fin 2) ℝ) = _
        rw [neg_smul, one_smul]))
    have hmem : (⟨x.1.1, fun g => (x.1.2 g).map Complex.ofReal⟩ : AnyRep 8) ∈ (IrrepsOut.real l).irreps :=
      List.mem_map.2 ⟨x, hx, rfl⟩
    rcases hknown x hx with ⟨α, β, -, -, hE⟩ | ⟨σ, ε, hσ, hε, hE⟩
    · exfalso
      have key : ∀ A : AnyRep 8, A = ⟨1, one4m α β⟩ → A.2 1 = ((-1 : ℝ) : ℂ) • 1 → False := by
        rintro A rfl hA
        have := congrFun (congrFun hA 0) 0
        simp [one4m] at this
        norm_num at this
      exact key _ hE h1'
    · rw [hE] at hmem
      exact ⟨σ, ε, hσ, hε, hmem⟩
  obtain ⟨ts, hts, hne⟩ := run4m (L := (IrrepsOut.real l).irreps) (by
    intro E hE
    obtain ⟨x, hx, rfl⟩ := List.mem_map.1 hE
    exact hknown x hx) hone htwo hla 1e-8
  have hrun : getSymmetryAdaptedTensors o la rep4m rots4m 2 true = .ok (ts, false) := by
    unfold getSymmetryAdaptedTensors
    simp only [h5, bind, Except.bind, hts]
    rfl
  have hzero : ∀ t ∈ ts, t = 0 := by
    intro t ht
    have hinv := c24_tensors_invariant rots4m_group cayley_4m.1 rep4m_proj rep4m_unitary o pointgroup_4m la 2 true
      (by norm_num) (by norm_num) (fun _ => ⟨heig, by norm_num⟩) (.inr hr) hrun t ht 2
    have hI : rep4m 2 = Complex.I • 1 := by
      ext i j
      fin_cases i <;> fin_cases j <;> simp [rep4m]
    have hact : actTensor (rep4m 2) t = -t := by
      funext a
      unfold actTensor
      rw [Fintype.sum_eq_single a]
      · rw [hI]
        have : ∏ s : Fin (2 - 1 + 1), (Complex.I • (1 : Matrix (Fin 2) (Fin 2) ℂ)) (a s) (a s) = -1 := by
          show ∏ s : Fin 2, (Complex.I • (1 : Matrix (Fin 2) (Fin 2) ℂ)) (a s) (a s) = -1
          simp [Fin.prod_univ_two]
        rw [this]
        simp
      · intro b hb
        obtain ⟨s, hs⟩ : ∃ s, b s ≠ a s := by
          by_contra h
          push Not at h
          exact hb (funext h)
        rw [Finset.prod_eq_zero (Finset.mem_univ s), zero_mul]
        rw [hI, Matrix.smul_apply, Matrix.one_apply_ne (Ne.symm hs), smul_zero]
    rw [hact] at hinv
    funext a
    have := congrFun hinv a
    simp only [Pi.neg_apply] at this
    have h8 : (2 : ℂ) * t a = 0 := by linear_combination -this
    simpa using h8
  refine ⟨o, la, ts, rots4m_group, cayley_4m.1, rep4m_proj, rep4m_unitary, pointgroup_4m, heig, hla, hr, hrun, hne, hzero,
    fun hli => ?_⟩
  have hpos := List.length_pos_of_ne_nil hne
  exact hli.ne_zero ⟨0, hpos⟩ (hzero _ (List.get_mem _ _))

end Spgrep
