/-
`project_to_irrep` for real representations and irreps over the reals.
-/
import Verif.Proofs.TensorBasis
import Verif.Props.ProjectBasis

namespace Spgrep

open Spec Matrix

variable {n d D : ℕ} {T : Fin n → Fin n → Fin n}

/-- All entries are real. -/
def RealEntries {α β : Type*} (b : Matrix α β ℂ) : Prop := ∀ i j, star (b i j) = b i j

theorem RealEntries.re {α β : Type*} {b : Matrix α β ℂ} (h : RealEntries b) (i : α) (j : β) : ((b i j).re : ℂ) = b i j :=
  Complex.conj_eq_iff_re.1 (h i j)

theorem realEntries_ofReal {α β : Type*} (b : Matrix α β ℝ) : RealEntries (b.map Complex.ofReal) :=
  fun i j => Complex.conj_ofReal (b i j)

theorem RealEntries.conj_mulVec {α : Type*} {k : ℕ} {b : Matrix α (Fin k) ℂ} (h : RealEntries b) (v : Fin k → ℂ) :
    b.mulVec (fun i => star (v i)) = fun i => star (b.mulVec v i) := by
  funext i
  simp only [Matrix.mulVec, dotProduct, star_sum, star_mul']
  exact Finset.sum_congr rfl fun j _ => by rw [h i j]

/-- A real block that is irreducible over the reals and not contained in an invariant subspace closed under
conjugation meets it trivially. -/
theorem block_disjoint_real {rep : RepArr n D} {R : Fin n → Matrix (Fin d) (Fin d) ℝ} (hi : IsRealIrreducible R)
    {b : Matrix (Fin d) (Fin D) ℂ} (hb : BlockHom rep (fun g => (R g).map Complex.ofReal) b) (hbr : RealEntries b)
    {W : Submodule ℂ (Fin D → ℂ)} (hW : ∀ g, ∀ v ∈ W, (rep g).mulVec v ∈ W)
    (hWr : ∀ v ∈ W, (fun i => star (v i)) ∈ W) (hne : ¬ rowSpan b ≤ W) : Disjoint W (rowSpan b) := by
  let U : Submodule ℂ (Fin d → ℂ) := W.comap b.transpose.mulVecLin
  have hbt : RealEntries b.transpose := fun i j => hbr j i
  have hUr : ∀ c ∈ U, (fun i => star (c i)) ∈ U := by
    intro c hc
    show b.transpose.mulVec _ ∈ W
    rw [hbt.conj_mulVec]
    exact hWr _ hc
  let UR : Submodule ℝ (Fin d → ℝ) :=
    { carrier := {u | (fun i => ((u i : ℝ) : ℂ)) ∈ U}
      add_mem' := by
        intro u v hu hv
        have := U.add_mem hu hv
        simp only [Set.mem_setOf_eq]
        convert this using 1
        funext i; simp
      zero_mem' := by
        simp only [Set.mem_setOf_eq]
        convert U.zero_mem using 1
        funext i; simp
      smul_mem' := by
        intro c u hu
        have := U.smul_mem (c : ℂ) hu
        simp only [Set.mem_setOf_eq]
        convert this using 1
        funext i; simp }
  have hre : ∀ c ∈ U, (fun i => (c i).re) ∈ UR := by
    intro c hc
    show (fun i => (((c i).re : ℝ) : ℂ)) ∈ U
    have := U.smul_mem (1 / 2 : ℂ) (U.add_mem hc (hUr c hc))
    convert this using 1
    funext i
    simp only [Pi.smul_apply, Pi.add_apply, smul_eq_mul]
    rw [Complex.re_eq_add_conj]
    simp only [RCLike.star_def]
    ring
  rcases hi.2 UR (by
    intro g v hv
    show b.transpose.mulVec _ ∈ W
    have h1 : (fun i => (((R g).mulVec v i : ℝ) : ℂ)) = ((R g).map Complex.ofReal).mulVec fun i => ((v i : ℝ) : ℂ) := by
      funext i
      simp [Matrix.mulVec, dotProduct]
    rw [h1, Matrix.mulVec_mulVec, ← hb g, ← Matrix.mulVec_mulVec]
    exact hW g _ hv) with hU | hU
  · rw [Submodule.disjoint_def]
    intro v hv hvb
    obtain ⟨c, rfl⟩ := (mem_rowSpan_iff b v).1 hvb
    have hc : c ∈ U := hv
    have h1 := hre c hc
    have h2 := hre _ (U.smul_mem (-Complex.I) hc)
    rw [hU, Submodule.mem_bot] at h1 h2
    have : c = 0 := by
      funext i
      apply Complex.ext
      · exact congrFun h1 i
      · have := congrFun h2 i
        simpa using this
    rw [this, Matrix.mulVec_zero]
  · exfalso
    apply hne
    have hUtop : ∀ c, c ∈ U := by
      intro c
      have h1 : ∀ u : Fin d → ℝ, (fun i => ((u i : ℝ) : ℂ)) ∈ U := fun u => by
        have : u ∈ UR := by rw [hU]; trivial
        exact this
      have h2 := U.add_mem (h1 fun i => (c i).re) (U.smul_mem Complex.I (h1 fun i => (c i).im))
      convert h2 using 1
      funext i
      simp only [Pi.add_apply, Pi.smul_apply, smul_eq_mul]
      rw [mul_comm, Complex.re_add_im]
    intro v hv
    obtain ⟨c, rfl⟩ := (mem_rowSpan_iff b v).1 hv
    exact hUtop c

theorem gram_scalar_real {rep : RepArr n D} {R : Fin n → Matrix (Fin d) (Fin d) ℝ} (hi : IsRealIrreducible R)
    (hr : IsUnitaryRep rep) (hu : IsUnitaryRep fun g => (R g).map Complex.ofReal) {C : Matrix (Fin D) (Fin d) ℂ}
    (hCr : RealEntries C) (hC : ∀ g, rep g * C = C * (R g).map Complex.ofReal) :
    ∃ c : ℂ, C.conjTranspose * C = c • 1 := by
  set irrep : RepArr n d := fun g => (R g).map Complex.ofReal with hirr
  have hcomm : ∀ g, irrep g * (C.conjTranspose * C) = C.conjTranspose * C * irrep g := by
    intro g
    have h1 : (irrep g).conjTranspose * C.conjTranspose = C.conjTranspose * (rep g).conjTranspose := by
      rw [← Matrix.conjTranspose_mul, ← Matrix.conjTranspose_mul, hC]
    have h2 : C.conjTranspose * rep g = irrep g * C.conjTranspose := by
      calc C.conjTranspose * rep g
          = irrep g * (irrep g).conjTranspose * C.conjTranspose * rep g := by rw [hu g, Matrix.one_mul]
        _ = irrep g * C.conjTranspose * ((rep g).conjTranspose * rep g) := by
            rw [Matrix.mul_assoc (irrep g), h1]; simp only [Matrix.mul_assoc]
        _ = irrep g * C.conjTranspose := by rw [IsUnitaryRep.mul_left hr g, Matrix.mul_one]
    rw [← Matrix.mul_assoc, ← h2, Matrix.mul_assoc, hC, Matrix.mul_assoc]
  have hSr : RealEntries (C.conjTranspose * C) := by
    intro i j
    rw [Matrix.mul_apply, star_sum]
    refine Finset.sum_congr rfl fun m _ => ?_
    rw [Matrix.conjTranspose_apply, star_mul', star_star, hCr m i, hCr m j]
  have hmap : ((C.conjTranspose * C).map Complex.re).map Complex.ofReal = C.conjTranspose * C := by
    ext i j
    exact hSr.re i j
  obtain ⟨r, hr'⟩ := real_schur_symm hi (S := (C.conjTranspose * C).map Complex.re) (by
    ext i j
    rw [Matrix.transpose_apply, Matrix.map_apply, Matrix.map_apply]
    have h1 : C.conjTranspose * C = (C.conjTranspose * C).conjTranspose := by
      rw [Matrix.conjTranspose_mul, Matrix.conjTranspose_conjTranspose]
    have h2 := congrFun (congrFun h1 i) j
    rw [Matrix.conjTranspose_apply] at h2
    rw [h2]
    simp) (by
    intro g
    have hinj : Function.Injective (fun M : Matrix (Fin d) (Fin d) ℝ => M.map Complex.ofRealHom) :=
      Matrix.map_injective Complex.ofReal_injective
    apply hinj
    dsimp only
    rw [Matrix.map_mul, Matrix.map_mul]
    have := hcomm g
    rw [← hmap] at this
    exact this)
  refine ⟨r, ?_⟩
  rw [← hmap, hr']
  ext i j
  by_cases hij : i = j
  · subst hij; simp
  · simp [hij]

/-- Properties of the list during the loop. -/
structure GoodRealBlocks (rep : RepArr n D) (irrep : RepArr n d) (bs : List (Matrix (Fin d) (Fin D) ℂ)) : Prop
    extends GoodBlocks rep irrep bs where
  real : ∀ b ∈ bs, RealEntries b

theorem rowSpan_conj {bs : List (Matrix (Fin d) (Fin D) ℂ)} (h : ∀ b ∈ bs, RealEntries b) :
    ∀ v ∈ rowSpan (stackBlocks bs), (fun i => star (v i)) ∈ rowSpan (stackBlocks bs) := by
  intro v hv
  rw [rowSpan_stack] at hv ⊢
  induction hv using Submodule.span_induction with
  | mem x hx =>
    obtain ⟨y, rfl⟩ := hx
    refine Submodule.subset_span ⟨y, ?_⟩
    funext i
    exact (h _ (List.get_mem _ _) _ _).symm
  | zero =>
    convert Submodule.zero_mem _ using 1
    funext i
    exact star_zero _
  | add x y _ _ hx hy =>
    convert Submodule.add_mem _ hx hy using 1
    funext i
    exact star_add _ _
  | smul a x _ hx =>
    convert Submodule.smul_mem _ (star a) hx using 1
    funext i
    exact star_mul' _ _

theorem goodRealBlocks_append {rep : RepArr n D} {R : Fin n → Matrix (Fin d) (Fin d) ℝ} (hi : IsRealIrreducible R)
    {bs : List (Matrix (Fin d) (Fin D) ℂ)} (h : GoodRealBlocks rep (fun g => (R g).map Complex.ofReal) bs)
    {b : Matrix (Fin d) (Fin D) ℂ} (hb : BlockHom rep (fun g => (R g).map Complex.ofReal) b) (hbr : RealEntries b)
    (ho : b * b.conjTranspose = 1) (hne : ¬ rowSpan b ≤ rowSpan (stackBlocks bs)) :
    GoodRealBlocks rep (fun g => (R g).map Complex.ofReal) (bs ++ [b]) := by
  refine ⟨⟨?_, ?_⟩, ?_⟩
  · refine li_append (fun (b : Matrix (Fin d) (Fin D) ℂ) i => b.row i) bs b h.indep (orthonormal_rows_indep ho) ?_
    have := block_disjoint_real hi hb hbr (rowSpan_invariant h.hom) (rowSpan_conj h.real) hne
    rwa [rowSpan_stack] at this
  · intro c hc
    rcases List.mem_append.1 hc with hc | hc
    · exact h.hom c hc
    · rw [List.mem_singleton] at hc; rw [hc]; exact hb
  · intro c hc
    rcases List.mem_append.1 hc with hc | hc
    · exact h.real c hc
    · rw [List.mem_singleton] at hc; rw [hc]; exact hbr

theorem projBlock_real {rep : RepArr n D} {irrep : RepArr n d} (hr : ∀ g, RealEntries (rep g))
    (hi : ∀ g, RealEntries (irrep g)) (c : Fin D) (j : Fin d) : RealEntries (projBlock rep irrep c j) := by
  intro i m
  simp only [projBlock, Matrix.of_apply, star_mul', star_sum, star_star]
  congr 1
  · simp
  · exact Finset.sum_congr rfl fun g _ => by rw [hr g m c, hi g i j]

theorem normalizeRows_real {b : Matrix (Fin d) (Fin D) ℂ} (h : RealEntries b) : RealEntries (normalizeRows b) := by
  intro i m
  simp only [normalizeRows, Matrix.of_apply]
  rw [star_div₀, h i m]
  congr 1
  exact Complex.conj_ofReal _

theorem projStep_good_real (hT : IsGroupTable T) {rep : RepArr n D} {R : Fin n → Matrix (Fin d) (Fin d) ℝ}
    (hrep : IsProjRep T (fun _ _ => 1) rep) (hru : IsUnitaryRep rep) (hrr : ∀ g, RealEntries (rep g))
    (hirrep : IsProjRep T (fun _ _ => 1) fun g => (R g).map Complex.ofReal)
    (hiu : IsUnitaryRep fun g => (R g).map Complex.ofReal) (hi : IsRealIrreducible R) {la : LinAlg}
    (hla : la.Contract) {atol : ℝ} (ha : 0 ≤ atol) (bs : List (Matrix (Fin d) (Fin D) ℂ)) (p : Fin D × Fin d)
    (h : GoodRealBlocks rep (fun g => (R g).map Complex.ofReal) bs) :
    ∃ bs', projStep la rep (fun g => (R g).map Complex.ofReal) atol bs p = .ok bs' ∧
      GoodRealBlocks rep (fun g => (R g).map Complex.ofReal) bs' := by
  obtain ⟨i0⟩ := hi.1
  have hd : 0 < d := lt_of_le_of_lt (Nat.zero_le _) i0.2
  set irrep : RepArr n d := fun g => (R g).map Complex.ofReal with hirr
  unfold projStep
  dsimp only
  by_cases h1 : ∀ i m, IsCloseC 1e-5 atol (projBlock rep irrep p.1 p.2 i m) 0
  · rw [if_pos h1]; exact ⟨bs, rfl, h⟩
  rw [if_neg h1]
  have hne : projBlock rep irrep p.1 p.2 ≠ 0 := by
    intro h0; apply h1; intro i m
    rw [h0]; unfold IsCloseC; simp [ha]
  have hint := fun g => projBlock_intertwines hT (fun _ _ => one_ne_zero) hrep hirrep hiu p.1 p.2 g
  have hpr := projBlock_real hrr (fun g => realEntries_ofReal (R g)) p.1 p.2
  obtain ⟨r, hr⟩ := gram_scalar_real hi hru hiu (C := (projBlock rep irrep p.1 p.2).transpose)
    (fun i j => hpr j i) hint
  obtain ⟨ho, s, hs, h2⟩ := normalizeRows_spec hne hr
  have hb : BlockHom rep irrep (normalizeRows (projBlock rep irrep p.1 p.2)) := by
    intro g
    rw [h2, Matrix.transpose_smul, Matrix.mul_smul, Matrix.smul_mul, hint]
  have hbr := normalizeRows_real hpr
  rw [← hirr] at hbr
  generalize normalizeRows (projBlock rep irrep p.1 p.2) = b at ho hb hbr
  have hbi := orthonormal_rows_indep ho
  by_cases hl : 0 < bs.length
  · rw [if_pos hl]
    obtain ⟨_, _, h54⟩ := c54_grassmann la hla b (stackBlocks bs) hbi (stack_indep h.indep) hd (Nat.mul_pos hl hd)
    obtain ⟨dist, hdist, _, hz, _⟩ := h54 .min (Or.inl rfl)
    rw [hdist]
    by_cases h5 : dist < 0.5
    · refine ⟨bs, ?_, h⟩
      show (if dist < 0.5 then _ else _) = _
      rw [if_pos h5]
    · refine ⟨bs ++ [b], ?_, goodRealBlocks_append hi h hb hbr ho ?_⟩
      · show (if dist < 0.5 then _ else _) = _
        rw [if_neg h5]
      · intro hle
        have := hz.2 (Or.inl hle)
        rw [this] at h5
        norm_num at h5
  · rw [if_neg hl]
    refine ⟨_, rfl, goodRealBlocks_append hi h hb hbr ho ?_⟩
    have h0 : bs = [] := List.length_eq_zero_iff.1 (by omega)
    subst h0
    intro hle
    have h3 : b.row i0 ∈ rowSpan (stackBlocks ([] : List (Matrix (Fin d) (Fin D) ℂ))) :=
      hle (Submodule.subset_span ⟨i0, rfl⟩)
    rw [rowSpan_stack] at h3
    have h4 : (Set.range fun x : Fin ([] : List (Matrix (Fin d) (Fin D) ℂ)).length × Fin d =>
        (([] : List (Matrix (Fin d) (Fin D) ℂ)).get x.1).row x.2) = ∅ := by
      rw [Set.range_eq_empty_iff]
      exact ⟨fun x => Fin.elim0 x.1⟩
    rw [h4, Submodule.span_empty, Submodule.mem_bot] at h3
    exact hbi.ne_zero i0 h3

theorem projInner_good_real (hT : IsGroupTable T) {rep : RepArr n D} {R : Fin n → Matrix (Fin d) (Fin d) ℝ}
    (hrep : IsProjRep T (fun _ _ => 1) rep) (hru : IsUnitaryRep rep) (hrr : ∀ g, RealEntries (rep g))
    (hirrep : IsProjRep T (fun _ _ => 1) fun g => (R g).map Complex.ofReal)
    (hiu : IsUnitaryRep fun g => (R g).map Complex.ofReal) (hi : IsRealIrreducible R) {la : LinAlg}
    (hla : la.Contract) {atol : ℝ} (ha : 0 ≤ atol) :
    ∃ bs, projInner la rep (fun g => (R g).map Complex.ofReal) atol = .ok bs ∧
      GoodRealBlocks rep (fun g => (R g).map Complex.ofReal) bs := by
  unfold projInner
  refine foldlM_ok_inv (P := GoodRealBlocks rep fun g => (R g).map Complex.ofReal)
    (fun bs p h => projStep_good_real hT hrep hru hrr hirrep hiu hi hla ha bs p h) _ _ ⟨⟨?_, by simp⟩, by simp⟩
  have : IsEmpty (Fin ([] : List (Matrix (Fin d) (Fin D) ℂ)).length × Fin d) := ⟨fun x => Fin.elim0 x.1⟩
  exact linearIndependent_empty_type

/-- If a matrix independent of the identity commutes with the irrep, there are twice as many intertwiners as blocks. -/
theorem blocks_card_double {rep : RepArr n D} {irrep : RepArr n d} {bs : List (Matrix (Fin d) (Fin D) ℂ)}
    (h : GoodBlocks rep irrep bs) {J : Matrix (Fin d) (Fin d) ℂ} (hJ : ∀ g, irrep g * J = J * irrep g)
    (hJ1 : ∀ a c : ℂ, a • (1 : Matrix (Fin d) (Fin d) ℂ) + c • J = 0 → a = 0 ∧ c = 0) :
    2 * bs.length ≤ Module.finrank ℂ (homSub rep irrep) := by
  have hli : LinearIndependent ℂ (fun x : Fin bs.length ⊕ Fin bs.length =>
      (match x with
        | .inl i => ⟨(bs.get i).transpose, h.hom _ (List.get_mem _ _)⟩
        | .inr i => ⟨(bs.get i).transpose * J, fun g => by
            rw [← Matrix.mul_assoc, h.hom _ (List.get_mem _ _), Matrix.mul_assoc, hJ, Matrix.mul_assoc]⟩ :
          homSub rep irrep)) := by
    rw [Fintype.linearIndependent_iff]
    intro c hc
    have h0 := congrArg Subtype.val hc
    rw [Fintype.sum_sum_type] at h0
    have h1 : ∑ i, (bs.get i).transpose * (c (.inl i) • 1 + c (.inr i) • J) = 0 := by
      have h2 : ((0 : homSub rep irrep) : Matrix (Fin D) (Fin d) ℂ) = 0 := rfl
      rw [h2] at h0
      rw [← h0, ← Finset.sum_add_distrib]
      simp only [Submodule.coe_sum, Submodule.coe_smul, Submodule.coe_add, ← Finset.sum_add_distrib]
      refine Finset.sum_congr rfl fun i _ => ?_
      rw [Matrix.mul_add, Matrix.mul_smul, Matrix.mul_smul, Matrix.mul_one]
    have h3 : ∀ i, c (.inl i) • (1 : Matrix (Fin d) (Fin d) ℂ) + c (.inr i) • J = 0 := by
      intro i
      ext a b
      have := (Fintype.linearIndependent_iff.1 h.indep)
        (fun x => (c (.inl x.1) • (1 : Matrix (Fin d) (Fin d) ℂ) + c (.inr x.1) • J) x.2 b) (by
          rw [Fintype.sum_prod_type]
          funext m
          have h4 := congrFun (congrFun h1 m) b
          simp only [Matrix.sum_apply, Matrix.mul_apply, Matrix.transpose_apply] at h4
          simp only [Finset.sum_apply, Pi.smul_apply, smul_eq_mul, Matrix.row]
          rw [Pi.zero_apply]
          rw [Matrix.zero_apply] at h4
          rw [← h4]
          exact Finset.sum_congr rfl fun i _ => Finset.sum_congr rfl fun k _ => mul_comm _ _) (i, a)
      exact this
    rintro (i | i)
    · exact (hJ1 _ _ (h3 i)).1
    · exact (hJ1 _ _ (h3 i)).2
  have := hli.fintype_card_le_finrank
  rw [Fintype.card_sum, Fintype.card_fin] at this
  omega

/-- A representation that is not irreducible commutes with a matrix independent of the identity. -/
theorem exists_commuting (hT : IsGroupTable T) {E : RepArr n d} (hE : IsProjRep T (fun _ _ => 1) E)
    (hu : IsUnitaryRep E) (hd : Nonempty (Fin d)) (hi : ¬ Spec.IsIrreducible E) :
    ∃ J : Matrix (Fin d) (Fin d) ℂ, (∀ g, E g * J = J * E g) ∧
      ∀ a c : ℂ, a • (1 : Matrix (Fin d) (Fin d) ℂ) + c • J = 0 → a = 0 ∧ c = 0 := by
  let _ := TG.group hT
  have h1 : ¬ Module.finrank ℂ (homSub E E) = 1 := fun h =>
    hi (irreducible_of_finrank_one (G := TG T) (μ := fun _ _ => 1) (fun _ _ => one_ne_zero) (D := E) hE
      (IsUnitaryRep.isUnit hu _) h)
  have hone : (1 : Matrix (Fin d) (Fin d) ℂ) ∈ homSub E E := by intro g; simp
  have hone' : (⟨1, hone⟩ : homSub E E) ≠ 0 := by
    intro h
    have := congrArg Subtype.val h
    simp at this
  rw [finrank_eq_one_iff_of_nonzero' _ hone'] at h1
  push Not at h1
  obtain ⟨J, hJ⟩ := h1
  refine ⟨J.1, J.2, fun a c h => ?_⟩
  have hc : c = 0 := by
    by_contra hc
    apply hJ (-(c⁻¹ * a))
    apply Subtype.ext
    show (-(c⁻¹ * a)) • (1 : Matrix (Fin d) (Fin d) ℂ) = J.1
    have h2 : c⁻¹ • (a • (1 : Matrix (Fin d) (Fin d) ℂ) + c • J.1) = 0 := by rw [h, smul_zero]
    rw [smul_add, smul_smul, smul_smul, inv_mul_cancel₀ hc, one_smul] at h2
    rw [neg_smul, neg_eq_iff_add_eq_zero, h2]
  subst hc
  rw [zero_smul, add_zero] at h
  obtain ⟨i⟩ := hd
  have := congrFun (congrFun h i) i
  exact ⟨by simpa using this, rfl⟩

/-- Without a warning a real irrep that is reducible over the complex numbers does not occur. -/
theorem no_warning_zero (hT : IsGroupTable T) {F : RepArr n D} {R : Fin n → Matrix (Fin d) (Fin d) ℝ}
    (hF : IsProjRep T (fun _ _ => 1) F) (hFu : IsUnitaryRep F) (hFr : ∀ g, RealEntries (F g))
    (hE : IsProjRep T (fun _ _ => 1) fun g => (R g).map Complex.ofReal)
    (hEu : IsUnitaryRep fun g => (R g).map Complex.ofReal) (hi : IsRealIrreducible R)
    (hn : ¬ Spec.IsIrreducible fun g => (R g).map Complex.ofReal) {la : LinAlg} (hla : la.Contract) {atol : ℝ}
    {maxTrials : ℕ} {bs : List (Matrix (Fin d) (Fin D) ℂ)} {w : Bool}
    (h : projectToIrrep la F (fun g => (R g).map Complex.ofReal) atol maxTrials = .ok (bs, w)) :
    2 * bs.length ≤ Module.finrank ℂ (homSub F fun g => (R g).map Complex.ofReal) ∧
    (w = true ↔ Module.finrank ℂ (homSub F fun g => (R g).map Complex.ofReal) ≠ 0) := by
  have hnum := numBasis_eq hT (fun _ _ => one_ne_zero) hF hE hEu
  rcases projectToIrrep_cases h with ⟨h0, rfl, rfl⟩ | ⟨t, h0, ht, -, hin, hw⟩
  · rw [hnum] at h0
    have h1 : Module.finrank ℂ (homSub F fun g => (R g).map Complex.ofReal) = 0 := by exact_mod_cast h0
    rw [h1]
    simp
  · obtain ⟨bs', hbs', hg⟩ := projInner_good_real hT hF hFu hFr hE hEu hi hla (atol := t) (by linarith)
    rw [hin] at hbs'
    obtain rfl := Except.ok.inj hbs'
    obtain ⟨J, hJ, hJ1⟩ := exists_commuting hT hE hEu hi.1 hn
    have h2 := blocks_card_double hg.toGoodBlocks hJ hJ1
    refine ⟨h2, ?_⟩
    rw [hw, hnum]
    rw [hnum] at h0
    have h1 : Module.finrank ℂ (homSub F fun g => (R g).map Complex.ofReal) ≠ 0 := by exact_mod_cast h0
    refine ⟨fun _ => h1, fun _ => ?_⟩
    norm_cast
    omega

/-- A constituent of a representation that does not occur does not occur either. -/
theorem homSub_constituent {e : ℕ} {F : RepArr n D} {E : RepArr n d} (hEu : IsUnitaryRep E) {C : RepArr n e}
    (hCu : IsUnitaryRep C) (hCi : Spec.IsIrreducible C) {X : Matrix (Fin d) (Fin e) ℂ} (hX0 : X ≠ 0)
    (hX : ∀ g, E g * X = X * C g) (h : Module.finrank ℂ (homSub F E) = 0) : Module.finrank ℂ (homSub F C) = 0 := by
  rw [Submodule.finrank_eq_zero, Submodule.eq_bot_iff] at h ⊢
  intro Y hY
  have hXc : ∀ g, C g * X.conjTranspose = X.conjTranspose * E g := by
    intro g
    have h1 : X.conjTranspose * (E g).conjTranspose = (C g).conjTranspose * X.conjTranspose := by
      rw [← Matrix.conjTranspose_mul, ← Matrix.conjTranspose_mul, hX]
    calc C g * X.conjTranspose = C g * (X.conjTranspose * (E g).conjTranspose) * E g := by
          rw [Matrix.mul_assoc, Matrix.mul_assoc, IsUnitaryRep.mul_left hEu g, Matrix.mul_one]
      _ = X.conjTranspose * E g := by rw [h1, ← Matrix.mul_assoc, hCu g, Matrix.one_mul]
  have h1 := h (Y * X.conjTranspose) (fun g => by
    rw [← Matrix.mul_assoc, hY g, Matrix.mul_assoc, hXc, Matrix.mul_assoc])
  obtain ⟨c, hc⟩ := gram_scalar hEu hCu hCi hX
  have hc0 : c ≠ 0 := by
    rintro rfl
    rw [zero_smul] at hc
    apply hX0
    ext i j
    have h3 := congrFun (congrFun hc j) j
    rw [Matrix.mul_apply, Matrix.zero_apply] at h3
    have h4 : ∑ i, ‖X i j‖ ^ 2 = 0 := by
      have : ((∑ i, ‖X i j‖ ^ 2 : ℝ) : ℂ) = 0 := by
        rw [← h3]
        push_cast
        exact Finset.sum_congr rfl fun i _ => (Complex.conj_mul' _).symm
      exact_mod_cast this
    have h5 := (Finset.sum_eq_zero_iff_of_nonneg fun i _ => sq_nonneg _).1 h4 i (Finset.mem_univ _)
    simpa using h5
  have h2 : Y * X.conjTranspose * X = 0 := by rw [h1, Matrix.zero_mul]
  rw [Matrix.mul_assoc, hc, Matrix.mul_smul, Matrix.mul_one] at h2
  exact (smul_eq_zero.1 h2).resolve_left hc0

/-! ### The loops with a refined list of irreps -/

theorem loop_refine {α β : Type} {f : α → Except PyErr (List β × Bool)} {l : List α} {Ls : List (List α)}
    (h : List.Forall₂ (fun a M => M = [a] ∨ (f a = .ok ([], false) ∧ ∀ m ∈ M, f m = .ok ([], false))) l Ls) :
    ∀ {ls : List (List β × Bool)}, l.mapM f = .ok ls → ls.any Prod.snd = false →
    ∃ ls', Ls.flatten.mapM f = .ok ls' ∧ (ls'.map Prod.fst).flatten = (ls.map Prod.fst).flatten ∧
      ls'.any Prod.snd = false := by
  induction h with
  | nil =>
    intro ls hl hw
    cases hl
    exact ⟨[], rfl, rfl, rfl⟩
  | @cons a M l Ls h1 _ ih =>
    intro ls hl hw
    rw [List.mapM_cons] at hl
    simp only [bind, Except.bind, pure, Except.pure] at hl
    split at hl
    · cases hl
    · rename_i r hr
      split at hl
      · cases hl
      · rename_i rs hrs
        obtain rfl := Except.ok.inj hl
        rw [List.any_cons, Bool.or_eq_false_iff] at hw
        obtain ⟨ls', h2, h3, h4⟩ := ih hrs hw.2
        rw [List.flatten_cons]
        rcases h1 with rfl | ⟨h1, h5⟩
        · refine ⟨r :: ls', ?_, ?_, ?_⟩
          · rw [List.singleton_append, List.mapM_cons]
            simp only [bind, Except.bind, pure, Except.pure, hr, h2]
          · simp [h3]
          · rw [List.any_cons, hw.1, h4]; rfl
        · rw [h1] at hr
          obtain rfl := Except.ok.inj hr
          have h6 : ∀ M' : List α, (∀ m ∈ M', f m = .ok ([], false)) →
              (M' ++ Ls.flatten).mapM f = .ok (M'.map (fun _ => ([], false)) ++ ls') := by
            intro M'
            induction M' with
            | nil => intro _; simpa using h2
            | cons m M' ih' =>
              intro hm
              rw [List.cons_append, List.mapM_cons]
              simp only [bind, Except.bind, pure, Except.pure, hm m (List.mem_cons_self ..),
                ih' fun x hx => hm x (List.mem_cons_of_mem _ hx)]
              rfl
          refine ⟨_, h6 M h5, ?_, ?_⟩
          · simp [h3]
          · rw [List.any_append, h4]
            simp

theorem mapM_congr_ok {α β : Type} {f g : α → Except PyErr (List β × Bool)} : ∀ {l : List α}
    {ls : List (List β × Bool)}, l.mapM f = .ok ls → ls.any Prod.snd = false →
    (∀ a ∈ l, ∀ r, f a = .ok (r, false) → g a = .ok (r, false)) → l.mapM g = .ok ls
  | [], ls, h, _, _ => by cases h; rfl
  | a :: l, ls, h, hw, hfg => by
    rw [List.mapM_cons] at h ⊢
    simp only [bind, Except.bind, pure, Except.pure] at h ⊢
    split at h
    · cases h
    · rename_i r hr
      split at h
      · cases h
      · rename_i rs hrs
        obtain rfl := Except.ok.inj h
        rw [List.any_cons, Bool.or_eq_false_iff] at hw
        obtain ⟨r1, r2⟩ := r
        obtain rfl : r2 = false := hw.1
        rw [hfg a (List.mem_cons_self ..) r1 hr,
          mapM_congr_ok hrs hw.2 fun x hx => hfg x (List.mem_cons_of_mem _ hx)]

/-- `M` consists of constituents of `E`, a real irrep that is reducible over the complex numbers. -/
structure SplitsInto (T : Fin n → Fin n → Fin n) (E : AnyRep n) (M : List (AnyRep n)) : Prop where
  real : ∃ R : Fin n → Matrix (Fin E.1) (Fin E.1) ℝ, E.2 = (fun g => (R g).map Complex.ofReal) ∧ IsRealIrreducible R
  rep : IsProjRep T (fun _ _ => 1) E.2
  unitary : IsUnitaryRep E.2
  reducible : ¬ Spec.IsIrreducible E.2
  parts : ∀ C ∈ M, IsProjRep T (fun _ _ => 1) C.2 ∧ IsUnitaryRep C.2 ∧ Spec.IsIrreducible C.2 ∧
    ∃ X : Matrix (Fin E.1) (Fin C.1) ℂ, X ≠ 0 ∧ ∀ g, E.2 g * X = X * C.2 g

theorem splits_silent (hT : IsGroupTable T) {N : ℕ} {F : RepArr n N} (hF : IsProjRep T (fun _ _ => 1) F)
    (hFu : IsUnitaryRep F) (hFr : ∀ g, RealEntries (F g)) {E : AnyRep n} {M : List (AnyRep n)} (h : SplitsInto T E M)
    {la : LinAlg} (hla : la.Contract) {atol : ℝ} {bs : List (Matrix (Fin E.1) (Fin N) ℂ)}
    (hp : projectToIrrep la F E.2 atol = .ok (bs, false)) :
    bs = [] ∧ ∀ C ∈ M, projectToIrrep la F C.2 atol = .ok ([], false) := by
  obtain ⟨e, E⟩ := E
  obtain ⟨⟨R, hER, hR⟩, hE, hEu, hn, hM⟩ := h
  dsimp only at R hER hR hE hEu hn hM bs hp
  subst hER
  obtain ⟨h1, h2⟩ := no_warning_zero hT hF hFu hFr hE hEu hR hn hla hp
  have h3 : Module.finrank ℂ (homSub F fun g => (R g).map Complex.ofReal) = 0 := by
    by_contra hc
    exact absurd (h2.2 hc) (by simp)
  refine ⟨List.length_eq_zero_iff.1 (by omega), fun C hC => ?_⟩
  obtain ⟨hC1, hC2, hC3, X, hX0, hX⟩ := hM C hC
  have h4 := homSub_constituent hEu hC2 hC3 hX0 hX h3
  have h5 := numBasis_eq hT (fun _ _ => one_ne_zero) hF hC1 hC2
  rw [h4] at h5
  unfold projectToIrrep
  simp only [h5, Nat.cast_zero, if_true]

theorem irrepLoop_refine (hT : IsGroupTable T) {N : ℕ} {F : RepArr n N} (hF : IsProjRep T (fun _ _ => 1) F)
    (hFu : IsUnitaryRep F) (hFr : ∀ g, RealEntries (F g)) {la : LinAlg} (hla : la.Contract) {atol : ℝ}
    {l : List (AnyRep n)} {Ls : List (List (AnyRep n))}
    (hS : List.Forall₂ (fun E M => M = [E] ∨ SplitsInto T E M) l Ls) {β : Type}
    {mk : ∀ E : AnyRep n, Matrix (Fin E.1) (Fin N) ℂ → β} {ls : List (List β × Bool)}
    (h : (l.mapM fun E => do
      let (bs, w) ← projectToIrrep la F E.2 atol
      return (bs.map (mk E), w)) = .ok ls) (hw : ls.any Prod.snd = false) :
    ∃ ls', (Ls.flatten.mapM fun E => do
      let (bs, w) ← projectToIrrep la F E.2 atol
      return (bs.map (mk E), w)) = .ok ls' ∧ (ls'.map Prod.fst).flatten = (ls.map Prod.fst).flatten ∧
      ls'.any Prod.snd = false := by
  have h1 := (irrepLoop h hw).1
  refine loop_refine ?_ h hw
  have h2 : ∀ {l : List (AnyRep n)} {Ls : List (List (AnyRep n))},
      List.Forall₂ (fun E M => M = [E] ∨ SplitsInto T E M) l Ls →
      (∀ E ∈ l, projectToIrrep la F E.2 atol = .ok (projBs la F atol E, false)) →
      List.Forall₂ (fun (a : AnyRep n) M => M = [a] ∨
        ((do
            let (bs, w) ← projectToIrrep la F a.2 atol
            return (bs.map (mk a), w) : Except PyErr (List β × Bool)) = .ok ([], false) ∧
          ∀ m ∈ M, (do
            let (bs, w) ← projectToIrrep la F m.2 atol
            return (bs.map (mk m), w) : Except PyErr (List β × Bool)) = .ok ([], false))) l Ls := by
    intro l Ls hS
    induction hS with
    | nil => intro _; exact .nil
    | @cons E M l Ls h3 _ ih =>
      intro h4
      refine .cons ?_ (ih fun x hx => h4 x (List.mem_cons_of_mem _ hx))
      rcases h3 with h3 | h3
      · exact .inl h3
      · right
        obtain ⟨h5, h6⟩ := splits_silent hT hF hFu hFr h3 hla (h4 E (List.mem_cons_self ..))
        refine ⟨?_, fun m hm => ?_⟩
        · rw [h4 E (List.mem_cons_self ..), h5]; rfl
        · rw [h6 m hm]; rfl
  exact h2 hS h1

theorem vectorBasis_refine (hT : IsGroupTable T) {F : RepArr n D} (hF : IsProjRep T (fun _ _ => 1) F)
    (hFu : IsUnitaryRep F) (hFr : ∀ g, RealEntries (F g)) {la : LinAlg} (hla : la.Contract) {atol : ℝ}
    {l : List (AnyRep n)} {Ls : List (List (AnyRep n))}
    (hS : List.Forall₂ (fun E M => M = [E] ∨ SplitsInto T E M) l Ls) {vbs : List (TensorBasis n D 1)}
    (h : vectorBasis la F l atol = .ok (vbs, false)) : vectorBasis la F Ls.flatten atol = .ok (vbs, false) := by
  unfold vectorBasis at h ⊢
  simp only [bind, Except.bind] at h
  split at h
  · cases h
  · rename_i ls hls
    have h' := Except.ok.inj h
    rw [Prod.mk.injEq] at h'
    obtain ⟨rfl, hw⟩ := h'
    obtain ⟨ls', h1, h2, h3⟩ := irrepLoop_refine hT hF hFu hFr hla hS (mk := fun E b =>
      ({ dim := E.1, irrep := E.2, basis := fun i a => b i (a 0) } : TensorBasis n D 1)) hls hw
    rw [h1]
    simp only [bind, Except.bind, pure, Except.pure, h2, h3]

theorem tensorPair_refine (hT : IsGroupTable T) {p : ℕ} {la : LinAlg} (hla : la.Contract) {atol : ℝ}
    {l : List (AnyRep n)} {Ls : List (List (AnyRep n))}
    (hS : List.Forall₂ (fun E M => M = [E] ∨ SplitsInto T E M) l Ls)
    (hl : ∀ E ∈ l, IsProjRep T (fun _ _ => 1) E.2 ∧ IsUnitaryRep E.2 ∧ ∀ g, RealEntries (E.2 g))
    {t : TensorBasis n D p} {v : TensorBasis n D 1} (ht : (⟨t.dim, t.irrep⟩ : AnyRep n) ∈ l)
    (hv : (⟨v.dim, v.irrep⟩ : AnyRep n) ∈ l) {r : List (TensorBasis n D (p + 1))}
    (h : tensorPair la l atol t v = .ok (r, false)) : tensorPair la Ls.flatten atol t v = .ok (r, false) := by
  obtain ⟨a1, a2, a3⟩ := hl _ ht
  obtain ⟨b1, b2, b3⟩ := hl _ hv
  obtain ⟨F, hF, hFe, hFr, hFu, _⟩ := c23_direct_product.2 t.irrep v.irrep
  have hFr' : IsProjRep T (fun _ _ => 1) F := by
    have := hFr T _ _ a1 b1
    simpa using this
  unfold tensorPair at h ⊢
  simp only [bind, Except.bind, hF] at h ⊢
  split at h
  · cases h
  · rename_i ls hls
    have h' := Except.ok.inj h
    rw [Prod.mk.injEq] at h'
    obtain ⟨rfl, hw⟩ := h'
    have hFreal : ∀ g, RealEntries (F g) := by
      intro g x y
      obtain ⟨x, rfl⟩ := finProdFinEquiv.surjective x
      obtain ⟨y, rfl⟩ := finProdFinEquiv.surjective y
      rw [hFe, star_mul', a3 g x.1 y.1, b3 g x.2 y.2]
    obtain ⟨ls', h1, h2, h3⟩ := irrepLoop_refine hT hFr' (hFu a2 b2) hFreal hla hS (mk := fun E c =>
      ({ dim := E.1, irrep := E.2, basis := contractBasis c t.basis v.basis } : TensorBasis n D (p + 1))) hls hw
    simp only [bind, Except.bind] at h1
    rw [h1]
    simp only [pure, Except.pure, h2, h3]

theorem tensorStep_refine (hT : IsGroupTable T) {p : ℕ} {la : LinAlg} (hla : la.Contract) {atol : ℝ}
    {l : List (AnyRep n)} {Ls : List (List (AnyRep n))}
    (hS : List.Forall₂ (fun E M => M = [E] ∨ SplitsInto T E M) l Ls)
    (hl : ∀ E ∈ l, IsProjRep T (fun _ _ => 1) E.2 ∧ IsUnitaryRep E.2 ∧ ∀ g, RealEntries (E.2 g))
    {tbs : List (TensorBasis n D p)} {vbs : List (TensorBasis n D 1)}
    (ht : ∀ t ∈ tbs, (⟨t.dim, t.irrep⟩ : AnyRep n) ∈ l)
    (hv : ∀ v ∈ vbs, (⟨v.dim, v.irrep⟩ : AnyRep n) ∈ l) {r : List (TensorBasis n D (p + 1))}
    (h : tensorStep la l atol tbs vbs = .ok (r, false)) : tensorStep la Ls.flatten atol tbs vbs = .ok (r, false) := by
  unfold tensorStep at h ⊢
  simp only [bind, Except.bind] at h ⊢
  split at h
  · cases h
  · rename_i ls hls
    have h' := Except.ok.inj h
    rw [Prod.mk.injEq] at h'
    obtain ⟨rfl, hw⟩ := h'
    rw [mapM_congr_ok hls hw (g := fun tv => tensorPair la Ls.flatten atol tv.1 tv.2) fun tv htv r hr => ?_]
    · simp only [pure, Except.pure, hw]
    · obtain ⟨t, ht', htv⟩ := List.mem_flatMap.1 htv
      obtain ⟨v, hv', rfl⟩ := List.mem_map.1 htv
      exact tensorPair_refine hT hla hS hl (ht t ht') (hv v hv') hr

theorem tensorLoop_refine (hT : IsGroupTable T) {rep : RepArr n D} {la : LinAlg} (hla : la.Contract) {atol : ℝ}
    {l : List (AnyRep n)} {Ls : List (List (AnyRep n))}
    (hS : List.Forall₂ (fun E M => M = [E] ∨ SplitsInto T E M) l Ls)
    (hl : ∀ E ∈ l, IsProjRep T (fun _ _ => 1) E.2 ∧ IsUnitaryRep E.2 ∧ ∀ g, RealEntries (E.2 g))
    (hE : ∀ E ∈ l, GoodIrrep T E.2) {vbs : List (TensorBasis n D 1)}
    (hv : ∀ v ∈ vbs, v.Good rep l) : ∀ (q : ℕ) {r : List (TensorBasis n D (q + 1))},
    tensorLoop la l atol vbs q = .ok (r, false) → tensorLoop la Ls.flatten atol vbs q = .ok (r, false)
  | 0, r, h => h
  | q + 1, r, h => by
    unfold tensorLoop at h ⊢
    simp only [bind, Except.bind, pure, Except.pure] at h ⊢
    split at h
    · cases h
    · rename_i y hy
      split at h
      · cases h
      · rename_i z hz
        obtain ⟨h1, h2⟩ := Prod.mk.inj (Except.ok.inj h)
        obtain ⟨y1, y2⟩ := y
        obtain ⟨z1, z2⟩ := z
        obtain ⟨rfl, rfl⟩ := (Bool.or_eq_false_iff).1 h2
        obtain rfl := h1
        rw [tensorLoop_refine hT hla hS hl hE hv q hy]
        dsimp only
        rw [tensorStep_refine hT hla hS hl (fun t ht => (tensorLoop_good hT hE hv q hy t ht).2)
          (fun v hv' => (hv v hv').2) hz]
        rfl

theorem tensorsFrom_refine (hT : IsGroupTable T) {rep : RepArr n D} (hrep : IsProjRep T (fun _ _ => 1) rep)
    (hru : IsUnitaryRep rep) (hrr : ∀ g, RealEntries (rep g)) {la : LinAlg} (hla : la.Contract) {atol : ℝ}
    {l : List (AnyRep n)} {Ls : List (List (AnyRep n))}
    (hS : List.Forall₂ (fun E M => M = [E] ∨ SplitsInto T E M) l Ls)
    (hl : ∀ E ∈ l, IsProjRep T (fun _ _ => 1) E.2 ∧ IsUnitaryRep E.2 ∧ ∀ g, RealEntries (E.2 g))
    (hE : ∀ E ∈ l, GoodIrrep T E.2) {rank : ℕ} {ts : List (Tensor D (rank - 1 + 1))}
    (h : tensorsFrom la rep l rank atol = .ok (ts, false)) :
    tensorsFrom la rep Ls.flatten rank atol = .ok (ts, false) := by
  unfold tensorsFrom at h ⊢
  simp only [bind, Except.bind, pure, Except.pure] at h ⊢
  split at h
  · cases h
  · rename_i x hx
    split at h
    · cases h
    · rename_i y hy
      split at h
      · cases h
      · rename_i z hz
        obtain ⟨h6, h7⟩ := Prod.mk.inj (Except.ok.inj h)
        subst h6
        obtain ⟨x1, x2⟩ := x
        obtain ⟨y1, y2⟩ := y
        obtain ⟨rfl, rfl⟩ := (Bool.or_eq_false_iff).1 h7
        have hvg := vectorBasis_good hT hrep hru hE hx
        rw [vectorBasis_refine hT hrep hru hrr hla hS hx]
        dsimp only
        dsimp only at hy hz
        rw [tensorLoop_refine hT hla hS hl hE hvg _ hy]
        dsimp only
        rw [hz]
        rfl

end Spgrep
