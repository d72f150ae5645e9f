/-
`project_to_irrep` for representations that are not unitary.
-/
import Verif.Props.ProjectBasis

namespace Spgrep

open Spec

variable {n d D : ℕ} {T : Fin n → Fin n → Fin n} {μ : Fin n → Fin n → ℂ}

/-- A block with rescaled rows. -/
noncomputable def scaleRows (c : Fin d → ℝ) (b : Matrix (Fin d) (Fin D) ℂ) : Matrix (Fin d) (Fin D) ℂ :=
  Matrix.of fun i m => (c i : ℂ) * b i m

theorem scaleRows_row (c : Fin d → ℝ) (b : Matrix (Fin d) (Fin D) ℂ) (i : Fin d) :
    (scaleRows c b).row i = (c i : ℂ) • b.row i := rfl

/-- The rows, multiplied with suitable positive numbers, transform like the irrep. -/
def ScaledHom (rep : RepArr n D) (irrep : RepArr n d) (b : Matrix (Fin d) (Fin D) ℂ) : Prop :=
  ∃ c : Fin d → ℝ, (∀ i, 0 < c i) ∧ BlockHom rep irrep (scaleRows c b)

theorem rowSpan_scale {c : Fin d → ℝ} (hc : ∀ i, 0 < c i) (b : Matrix (Fin d) (Fin D) ℂ) :
    rowSpan (scaleRows c b) = rowSpan b := by
  unfold rowSpan
  apply le_antisymm
  · rw [Submodule.span_le]
    rintro _ ⟨i, rfl⟩
    rw [scaleRows_row]
    exact Submodule.smul_mem _ _ (Submodule.subset_span ⟨i, rfl⟩)
  · rw [Submodule.span_le]
    rintro _ ⟨i, rfl⟩
    have h1 : b.row i = ((c i : ℂ)⁻¹) • (scaleRows c b).row i := by
      rw [scaleRows_row, smul_smul, inv_mul_cancel₀ (by exact_mod_cast (hc i).ne'), one_smul]
    show b.row i ∈ _
    rw [h1]
    exact Submodule.smul_mem _ _ (Submodule.subset_span ⟨i, rfl⟩)

/-- The row span of such blocks is invariant. -/
theorem rowSpan_scaled_invariant {rep : RepArr n D} {irrep : RepArr n d} {bs : List (Matrix (Fin d) (Fin D) ℂ)}
    (h : ∀ b ∈ bs, ScaledHom rep irrep b) (g : Fin n) :
    ∀ v ∈ rowSpan (stackBlocks bs), (rep g).mulVec v ∈ rowSpan (stackBlocks bs) := by
  intro v hv
  rw [rowSpan_stack] at hv ⊢
  induction hv using Submodule.span_induction with
  | mem x hx =>
    obtain ⟨y, rfl⟩ := hx
    beta_reduce
    obtain ⟨c, hc, hb⟩ := h _ (List.get_mem bs y.1)
    have h1 : (bs.get y.1).row y.2 = ((c y.2 : ℂ)⁻¹) • (scaleRows c (bs.get y.1)).row y.2 := by
      rw [scaleRows_row, smul_smul, inv_mul_cancel₀ (by exact_mod_cast (hc y.2).ne'), one_smul]
    rw [h1, Matrix.mulVec_smul, hb.row]
    refine Submodule.smul_mem _ _ (Submodule.sum_mem _ fun l _ => Submodule.smul_mem _ _ ?_)
    rw [scaleRows_row]
    exact Submodule.smul_mem _ _ (Submodule.subset_span ⟨(y.1, l), rfl⟩)
  | zero => rw [Matrix.mulVec_zero]; exact Submodule.zero_mem _
  | add x y _ _ hx hy => rw [Matrix.mulVec_add]; exact Submodule.add_mem _ hx hy
  | smul a x _ hx => rw [Matrix.mulVec_smul]; exact Submodule.smul_mem _ _ hx

/-- Properties of the list during the loop. -/
structure GoodScaled (rep : RepArr n D) (irrep : RepArr n d) (bs : List (Matrix (Fin d) (Fin D) ℂ)) : Prop where
  indep : BlocksIndep bs
  hom : ∀ b ∈ bs, ScaledHom rep irrep b

/-- A nonzero intertwiner from an irreducible family is injective. -/
theorem intertwiner_indep {rep : RepArr n D} {irrep : RepArr n d} (hi : IsIrreducible irrep)
    {b : Matrix (Fin d) (Fin D) ℂ} (hb : BlockHom rep irrep b) (hne : b ≠ 0) : LinearIndependent ℂ b.row := by
  have hker : ∀ v : Fin d → ℂ, b.transpose.mulVec v = 0 → v = 0 := by
    rcases hi.2 (LinearMap.ker b.transpose.mulVecLin) (by
      intro g v hv
      rw [LinearMap.mem_ker] at hv ⊢
      simp only [Matrix.mulVecLin_apply] at hv ⊢
      rw [Matrix.mulVec_mulVec, ← hb g, ← Matrix.mulVec_mulVec, hv, Matrix.mulVec_zero]) with h | h
    · intro v hv
      have : v ∈ LinearMap.ker b.transpose.mulVecLin := by rwa [LinearMap.mem_ker]
      rwa [h, Submodule.mem_bot] at this
    · exfalso
      apply hne
      ext i m
      have h1 : (Pi.single i 1 : Fin d → ℂ) ∈ LinearMap.ker b.transpose.mulVecLin := by rw [h]; trivial
      rw [LinearMap.mem_ker] at h1
      have h2 := congrFun h1 m
      simpa [Matrix.mulVec, dotProduct, Pi.single_apply] using h2
  rw [Fintype.linearIndependent_iff]
  intro c hc i
  have h1 : b.transpose.mulVec c = 0 := by
    funext m
    have := congrFun hc m
    simpa [Matrix.mulVec, dotProduct, Matrix.row, mul_comm] using this
  exact congrFun (hker c h1) i

theorem normalizeRows_indep {b : Matrix (Fin d) (Fin D) ℂ} (h : LinearIndependent ℂ b.row) :
    (∀ i, 0 < ∑ m, ‖b i m‖ ^ 2) ∧ LinearIndependent ℂ (normalizeRows b).row ∧
    (∀ i, ∑ m, ‖normalizeRows b i m‖ ^ 2 = 1) ∧
    scaleRows (fun i => Real.sqrt (∑ m, ‖b i m‖ ^ 2)) (normalizeRows b) = b := by
  have hpos : ∀ i, 0 < ∑ m, ‖b i m‖ ^ 2 := by
    intro i
    obtain ⟨m, hm⟩ : ∃ m, b i m ≠ 0 := by
      by_contra hno
      push Not at hno
      exact h.ne_zero i (funext hno)
    refine lt_of_lt_of_le (b := ‖b i m‖ ^ 2) ?_ (Finset.single_le_sum (f := fun m => ‖b i m‖ ^ 2)
      (fun _ _ => by positivity) (Finset.mem_univ m))
    have := norm_pos_iff.2 hm
    positivity
  have hs : ∀ i, (Real.sqrt (∑ m, ‖b i m‖ ^ 2) : ℂ) ≠ 0 := fun i => by
    exact_mod_cast (Real.sqrt_pos.2 (hpos i)).ne'
  refine ⟨hpos, ?_, ?_, ?_⟩
  · have h1 := h.units_smul fun i => (Units.mk0 _ (hs i))⁻¹
    convert h1 using 1
    funext i m
    show b i m / (Real.sqrt (∑ m', ‖b i m'‖ ^ 2) : ℂ) = ((Units.mk0 _ (hs i))⁻¹ : ℂˣ) • b i m
    rw [Units.smul_def, Units.val_inv_eq_inv_val, Units.val_mk0, smul_eq_mul, div_eq_inv_mul]
  · intro i
    have h2 : ∀ m, ‖normalizeRows b i m‖ ^ 2 = ‖b i m‖ ^ 2 / ∑ m', ‖b i m'‖ ^ 2 := by
      intro m
      rw [normalizeRows, Matrix.of_apply, norm_div, div_pow, Complex.norm_real, Real.norm_eq_abs, sq_abs,
        Real.sq_sqrt (hpos i).le]
    simp only [h2]
    rw [← Finset.sum_div, div_self (hpos i).ne']
  · ext i m
    simp only [scaleRows, normalizeRows, Matrix.of_apply]
    exact mul_div_cancel₀ _ (hs i)

theorem goodScaled_append {rep : RepArr n D} {irrep : RepArr n d} (hi : IsIrreducible irrep)
    {bs : List (Matrix (Fin d) (Fin D) ℂ)} (h : GoodScaled rep irrep bs) {b : Matrix (Fin d) (Fin D) ℂ}
    (hb : ScaledHom rep irrep b) (ho : LinearIndependent ℂ b.row) (hne : ¬ rowSpan b ≤ rowSpan (stackBlocks bs)) :
    GoodScaled rep irrep (bs ++ [b]) := by
  constructor
  · refine li_append (fun (b : Matrix (Fin d) (Fin D) ℂ) i => b.row i) bs b h.indep ho ?_
    obtain ⟨c, hc, hb'⟩ := hb
    have := block_disjoint hi hb' (rowSpan_scaled_invariant h.hom) (by rwa [rowSpan_scale hc])
    rwa [rowSpan_stack, rowSpan_scale hc] at this
  · intro c hc
    rcases List.mem_append.1 hc with hc | hc
    · exact h.hom c hc
    · rw [List.mem_singleton] at hc; rw [hc]; exact hb

theorem projStep_scaled (hT : IsGroupTable T) (hμ : ∀ g h, μ g h ≠ 0) {rep : RepArr n D} {irrep : RepArr n d}
    (hrep : IsProjRep T μ rep) (hirrep : IsProjRep T μ irrep) (hiu : IsUnitaryRep irrep) (hi : IsIrreducible irrep)
    {la : LinAlg} (hla : la.Contract) {atol : ℝ} (ha : 0 ≤ atol) (bs : List (Matrix (Fin d) (Fin D) ℂ))
    (p : Fin D × Fin d) (h : GoodScaled rep irrep bs) :
    ∃ bs', projStep la rep irrep atol bs p = .ok bs' ∧ GoodScaled rep irrep bs' := by
  obtain ⟨i0⟩ := hi.1
  have hd : 0 < d := lt_of_le_of_lt (Nat.zero_le _) i0.2
  unfold projStep
  dsimp only
  by_cases h1 : ∀ i m, IsCloseC 1e-5 atol (projBlock rep irrep p.1 p.2 i m) 0
  · rw [if_pos h1]; exact ⟨bs, rfl, h⟩
  rw [if_neg h1]
  have hne : projBlock rep irrep p.1 p.2 ≠ 0 := by
    intro h0; apply h1; intro i m
    rw [h0]; unfold IsCloseC; simp [ha]
  have hint : BlockHom rep irrep (projBlock rep irrep p.1 p.2) :=
    fun g => projBlock_intertwines hT hμ hrep hirrep hiu p.1 p.2 g
  obtain ⟨hpos, hbi, -, hsc⟩ := normalizeRows_indep (intertwiner_indep hi hint hne)
  have hb : ScaledHom rep irrep (normalizeRows (projBlock rep irrep p.1 p.2)) :=
    ⟨_, fun i => Real.sqrt_pos.2 (hpos i), by rw [hsc]; exact hint⟩
  generalize normalizeRows (projBlock rep irrep p.1 p.2) = b at hbi hb
  by_cases hl : 0 < bs.length
  · rw [if_pos hl]
    obtain ⟨_, _, h54⟩ := c54_grassmann la hla b (stackBlocks bs) hbi (stack_indep h.indep) hd (Nat.mul_pos hl hd)
    obtain ⟨dist, hdist, _, hz, _⟩ := h54 .min (Or.inl rfl)
    rw [hdist]
    by_cases h5 : dist < 0.5
    · refine ⟨bs, ?_, h⟩
      show (if dist < 0.5 then _ else _) = _
      rw [if_pos h5]
    · refine ⟨bs ++ [b], ?_, goodScaled_append hi h hb hbi ?_⟩
      · show (if dist < 0.5 then _ else _) = _
        rw [if_neg h5]
      · intro hle
        have := hz.2 (Or.inl hle)
        rw [this] at h5
        norm_num at h5
  · rw [if_neg hl]
    refine ⟨_, rfl, goodScaled_append hi h hb hbi ?_⟩
    have h0 : bs = [] := List.length_eq_zero_iff.1 (by omega)
    subst h0
    intro hle
    have h3 : b.row i0 ∈ rowSpan (stackBlocks ([] : List (Matrix (Fin d) (Fin D) ℂ))) :=
      hle (Submodule.subset_span ⟨i0, rfl⟩)
    rw [rowSpan_stack] at h3
    have h4 : (Set.range fun x : Fin ([] : List (Matrix (Fin d) (Fin D) ℂ)).length × Fin d =>
        (([] : List (Matrix (Fin d) (Fin D) ℂ)).get x.1).row x.2) = ∅ := by
      rw [Set.range_eq_empty_iff]
      exact ⟨fun x => Fin.elim0 x.1⟩
    rw [h4, Submodule.span_empty, Submodule.mem_bot] at h3
    exact hbi.ne_zero i0 h3

theorem projInner_scaled (hT : IsGroupTable T) (hμ : ∀ g h, μ g h ≠ 0) {rep : RepArr n D} {irrep : RepArr n d}
    (hrep : IsProjRep T μ rep) (hirrep : IsProjRep T μ irrep) (hiu : IsUnitaryRep irrep) (hi : IsIrreducible irrep)
    {la : LinAlg} (hla : la.Contract) {atol : ℝ} (ha : 0 ≤ atol) :
    ∃ bs, projInner la rep irrep atol = .ok bs ∧ GoodScaled rep irrep bs := by
  unfold projInner
  refine foldlM_ok_inv (P := GoodScaled rep irrep)
    (fun bs p h => projStep_scaled hT hμ hrep hirrep hiu hi hla ha bs p h) _ _ ⟨?_, by simp⟩
  have : IsEmpty (Fin ([] : List (Matrix (Fin d) (Fin D) ℂ)).length × Fin d) := ⟨fun x => Fin.elim0 x.1⟩
  exact linearIndependent_empty_type

/-- Rescaled blocks with independent rows are independent elements of the space of intertwiners. -/
theorem scaled_card {rep : RepArr n D} {irrep : RepArr n d} (hd : 0 < d)
    {bs : List (Matrix (Fin d) (Fin D) ℂ)} (h : GoodScaled rep irrep bs) :
    bs.length ≤ Module.finrank ℂ (homSub rep irrep) := by
  choose c hc hhom using fun i : Fin bs.length => h.hom _ (List.get_mem bs i)
  have key : LinearIndependent ℂ (fun i : Fin bs.length =>
      (⟨(scaleRows (c i) (bs.get i)).transpose, hhom i⟩ : homSub rep irrep)) := by
    rw [Fintype.linearIndependent_iff]
    intro a ha i
    have h1 := (Fintype.linearIndependent_iff.1 h.indep)
      (fun x => if x.2 = ⟨0, hd⟩ then a x.1 * (c x.1 ⟨0, hd⟩ : ℂ) else 0) (by
      rw [Fintype.sum_prod_type]
      funext m
      have := congrFun (congrFun (congrArg Subtype.val ha) m) ⟨0, hd⟩
      simp [Matrix.sum_apply, scaleRows] at this
      simp [Finset.sum_apply, ite_smul, Matrix.row, mul_assoc]
      exact this) (i, ⟨0, hd⟩)
    simp only [if_true] at h1
    exact (mul_eq_zero.1 h1).resolve_right (by exact_mod_cast (hc i _).ne')
  simpa using key.fintype_card_le_finrank

end Spgrep
