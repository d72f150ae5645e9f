/-
How many blocks the loop of `project_to_irrep` collects.
-/
import Verif.Props.Angles
import Verif.Proofs.Adapted

namespace Spgrep

open Spec

variable {n d D : ℕ} {T : Fin n → Fin n → Fin n} {μ : Fin n → Fin n → ℂ}

/-- Cauchy–Schwarz. -/
theorem cauchy_schwarz (x y : Fin D → ℂ) :
    ‖∑ m, x m * star (y m)‖ ^ 2 ≤ (∑ m, ‖x m‖ ^ 2) * ∑ m, ‖y m‖ ^ 2 := by
  have h1 : ‖∑ m, x m * star (y m)‖ ≤ ∑ m, ‖x m‖ * ‖y m‖ := by
    refine (norm_sum_le _ _).trans (Finset.sum_le_sum fun m _ => ?_)
    rw [norm_mul, norm_star]
  calc ‖∑ m, x m * star (y m)‖ ^ 2 ≤ (∑ m, ‖x m‖ * ‖y m‖) ^ 2 := pow_le_pow_left₀ (norm_nonneg _) h1 2
    _ ≤ _ := Finset.sum_mul_sq_le_sq_mul_sq _ _ _

/-- Sum of squared norms. -/
noncomputable def nsq (x : Fin D → ℂ) : ℝ := ∑ m, ‖x m‖ ^ 2

theorem nsq_nonneg (x : Fin D → ℂ) : 0 ≤ nsq x := Finset.sum_nonneg fun _ _ => by positivity

theorem nsq_eq_zero {x : Fin D → ℂ} (h : nsq x = 0) : x = 0 := by
  funext m
  have := (Finset.sum_eq_zero_iff_of_nonneg fun _ _ => by positivity).1 h m (Finset.mem_univ m)
  simpa using this

/-- A vector orthogonal to `W` has small overlap with a vector near `W`. -/
theorem overlap_of_near {W : Submodule ℂ (Fin D → ℂ)} {v y : Fin D → ℂ} {q : ℝ}
    (hv : ∃ w ∈ W, ∑ m, ‖v m - w m‖ ^ 2 ≤ q * nsq v) (hy : ∀ w ∈ W, ∑ m, w m * star (y m) = 0) :
    ‖∑ m, v m * star (y m)‖ ^ 2 ≤ q * nsq v * nsq y := by
  obtain ⟨w, hw, h⟩ := hv
  have e : ∑ m, v m * star (y m) = ∑ m, (v m - w m) * star (y m) := by
    rw [← sub_zero (∑ m, v m * star (y m)), ← hy w hw, ← Finset.sum_sub_distrib]
    exact Finset.sum_congr rfl fun m _ => by ring
  rw [e]
  exact (cauchy_schwarz (fun m => v m - w m) y).trans (mul_le_mul_of_nonneg_right h (nsq_nonneg y))

/-- `y` is orthogonal to all rows of the blocks. -/
def OrthBlocks (bs : List (Matrix (Fin d) (Fin D) ℂ)) (y : Fin D → ℂ) : Prop :=
  ∀ b ∈ bs, ∀ i, ∑ m, b i m * star (y m) = 0

theorem OrthBlocks.span {bs : List (Matrix (Fin d) (Fin D) ℂ)} {y : Fin D → ℂ} (h : OrthBlocks bs y) :
    ∀ w ∈ rowSpan (stackBlocks bs), ∑ m, w m * star (y m) = 0 := by
  intro w hw
  rw [rowSpan_stack] at hw
  induction hw using Submodule.span_induction with
  | mem x hx =>
    obtain ⟨z, rfl⟩ := hx
    exact h _ (List.get_mem _ _) _
  | zero => simp
  | add x y _ _ hx hy => simp only [Pi.add_apply, add_mul, Finset.sum_add_distrib, hx, hy, add_zero]
  | smul a x _ hx => simp only [Pi.smul_apply, smul_eq_mul, mul_assoc, ← Finset.mul_sum, hx, mul_zero]

/-- What the loop ensures for a pair it has visited. -/
def Covered (rep : RepArr n D) (irrep : RepArr n d) (a : ℝ) (bs : List (Matrix (Fin d) (Fin D) ℂ)) (p : Fin D × Fin d) :
    Prop :=
  (∀ i m, ‖projBlock rep irrep p.1 p.2 i m‖ ≤ a) ∨
  ∃ q : ℝ, q < 1 / 4 ∧ ∀ y, OrthBlocks bs y → ∀ i,
    ‖∑ m, projBlock rep irrep p.1 p.2 i m * star (y m)‖ ^ 2 ≤ q * nsq (projBlock rep irrep p.1 p.2 i) * nsq y

theorem Covered.mono {rep : RepArr n D} {irrep : RepArr n d} {a : ℝ} {bs bs' : List (Matrix (Fin d) (Fin D) ℂ)}
    {p : Fin D × Fin d} (h : Covered rep irrep a bs p) (hs : bs ⊆ bs') : Covered rep irrep a bs' p := by
  rcases h with h | ⟨q, hq, h⟩
  · exact .inl h
  · exact .inr ⟨q, hq, fun y hy => h y fun b hb => hy b (hs hb)⟩

theorem projStep_covered (hT : IsGroupTable T) (hμ : ∀ g h, μ g h ≠ 0) {rep : RepArr n D} {irrep : RepArr n d}
    (hrep : IsProjRep T μ rep) (hru : IsUnitaryRep rep)
    (hirrep : IsProjRep T μ irrep) (hiu : IsUnitaryRep irrep) (hi : Spec.IsIrreducible irrep) {la : LinAlg}
    (hla : la.Contract) {atol : ℝ} (ha : 0 ≤ atol) (bs bs' : List (Matrix (Fin d) (Fin D) ℂ)) (p : Fin D × Fin d)
    (h : GoodBlocks rep irrep bs) (hstep : projStep la rep irrep atol bs p = .ok bs') :
    bs ⊆ bs' ∧ Covered rep irrep atol bs' p := by
  obtain ⟨i0⟩ := hi.1
  have hd : 0 < d := lt_of_le_of_lt (Nat.zero_le _) i0.2
  unfold projStep at hstep
  dsimp only at hstep
  by_cases h1 : ∀ i m, IsCloseC 1e-5 atol (projBlock rep irrep p.1 p.2 i m) 0
  · rw [if_pos h1] at hstep
    cases hstep
    refine ⟨fun _ h => h, .inl fun i m => ?_⟩
    have := h1 i m
    unfold IsCloseC at this
    simpa using this
  rw [if_neg h1] at hstep
  have hne : projBlock rep irrep p.1 p.2 ≠ 0 := by
    intro h0; apply h1; intro i m
    rw [h0]; unfold IsCloseC; simp [ha]
  have hint := fun g => projBlock_intertwines hT hμ hrep hirrep hiu p.1 p.2 g
  obtain ⟨r, hr⟩ := gram_scalar hru hiu hi hint
  obtain ⟨ho, s, hs, h2⟩ := normalizeRows_spec hne hr
  have hadd : Covered rep irrep atol (bs ++ [normalizeRows (projBlock rep irrep p.1 p.2)]) p := by
    refine .inr ⟨0, by norm_num, fun y hy i => ?_⟩
    have h3 := hy _ (List.mem_append_right _ (List.mem_singleton_self _)) i
    rw [h2] at h3
    simp only [Matrix.smul_apply, smul_eq_mul, mul_assoc, ← Finset.mul_sum] at h3
    rw [(mul_eq_zero.1 h3).resolve_left hs]
    simp
  by_cases hl : 0 < bs.length
  · rw [if_pos hl] at hstep
    have hbi := orthonormal_rows_indep ho
    obtain ⟨dist, hdist, hgap0, hgap, -⟩ := grassmann_gap la hla (normalizeRows (projBlock rep irrep p.1 p.2))
      (stackBlocks bs) hbi (stack_indep h.indep) hd (Nat.le_mul_of_pos_left _ hl)
    rw [hdist] at hstep
    change (if dist < 0.5 then Except.ok bs else Except.ok (bs ++ [_])) = _ at hstep
    by_cases h5 : dist < 0.5
    · rw [if_pos h5] at hstep
      cases hstep
      refine ⟨fun _ h => h, .inr ⟨dist ^ 2, by norm_num at h5; nlinarith, fun y hy i => ?_⟩⟩
      refine overlap_of_near (hgap _ ?_) hy.span
      have : (projBlock rep irrep p.1 p.2 i) = s⁻¹ • (normalizeRows (projBlock rep irrep p.1 p.2)).row i := by
        funext m
        rw [h2]
        simp [Matrix.row, hs]
      rw [this]
      exact Submodule.smul_mem _ _ (Submodule.subset_span ⟨i, rfl⟩)
    · rw [if_neg h5] at hstep
      cases hstep
      exact ⟨List.subset_append_left _ _, hadd⟩
  · rw [if_neg hl] at hstep
    cases hstep
    exact ⟨List.subset_append_left _ _, hadd⟩

theorem foldlM_covered {α β : Type*} {f : List β → α → Except PyErr (List β)} {P : List β → Prop}
    {C : List β → α → Prop} (hC : ∀ bs bs' a, C bs a → bs ⊆ bs' → C bs' a)
    (hf : ∀ bs a, P bs → ∃ bs', f bs a = .ok bs' ∧ P bs' ∧ bs ⊆ bs' ∧ C bs' a) :
    ∀ (l : List α) (bs : List β), P bs → ∃ bs', l.foldlM f bs = .ok bs' ∧ P bs' ∧ bs ⊆ bs' ∧ ∀ a ∈ l, C bs' a
  | [], bs, hb => ⟨bs, rfl, hb, fun _ h => h, by simp⟩
  | a :: l, bs, hb => by
    obtain ⟨b', h1, h2, h3, h4⟩ := hf bs a hb
    obtain ⟨b'', h5, h6, h7, h8⟩ := foldlM_covered hC hf l b' h2
    refine ⟨b'', ?_, h6, fun _ h => h7 (h3 h), ?_⟩
    · rw [List.foldlM_cons, h1]; exact h5
    · intro x hx
      rcases List.mem_cons.1 hx with rfl | hx
      · exact hC _ _ _ h4 h7
      · exact h8 x hx

theorem projInner_covered (hT : IsGroupTable T) (hμ : ∀ g h, μ g h ≠ 0) {rep : RepArr n D} {irrep : RepArr n d}
    (hrep : IsProjRep T μ rep) (hru : IsUnitaryRep rep)
    (hirrep : IsProjRep T μ irrep) (hiu : IsUnitaryRep irrep) (hi : Spec.IsIrreducible irrep) {la : LinAlg}
    (hla : la.Contract) {atol : ℝ} (ha : 0 ≤ atol) :
    ∃ bs, projInner la rep irrep atol = .ok bs ∧ GoodBlocks rep irrep bs ∧ ∀ p, Covered rep irrep atol bs p := by
  unfold projInner
  obtain ⟨bs, h1, h2, -, h4⟩ := foldlM_covered (P := GoodBlocks rep irrep) (C := Covered rep irrep atol)
    (f := projStep la rep irrep atol) (fun _ _ _ h hs => h.mono hs)
    (fun bs p h => by
      obtain ⟨bs', h1, h2⟩ := projStep_good hT hμ hrep hru hirrep hiu hi hla ha bs p h
      obtain ⟨h3, h4⟩ := projStep_covered hT hμ hrep hru hirrep hiu hi hla ha bs bs' p h h1
      exact ⟨bs', h1, h2, h3, h4⟩)
    ((List.finRange D).flatMap fun c => (List.finRange d).map fun j => (c, j)) [] ⟨by
      have : IsEmpty (Fin ([] : List (Matrix (Fin d) (Fin D) ℂ)).length × Fin d) := ⟨fun x => Fin.elim0 x.1⟩
      exact linearIndependent_empty_type, by simp⟩
  refine ⟨bs, h1, h2, fun p => h4 p ?_⟩
  rw [List.mem_flatMap]
  exact ⟨p.1, List.mem_finRange _, List.mem_map.2 ⟨p.2, List.mem_finRange _, rfl⟩⟩

/-- Overlap of a projected unit vector with a block. -/
theorem projBlock_overlap (hT : IsGroupTable T) (hμ : ∀ g h, μ g h ≠ 0) {rep : RepArr n D} {irrep : RepArr n d}
    (hru : IsUnitaryRep rep)
    (hirrep : IsProjRep T μ irrep) (hiu : IsUnitaryRep irrep) (hi : Spec.IsIrreducible irrep)
    {z : Matrix (Fin d) (Fin D) ℂ} (hz : BlockHom rep irrep z) (c : Fin D) (i j : Fin d) :
    ∑ m, projBlock rep irrep c j i m * star (z i m) = star (z j c) := by
  have hn : (n : ℂ) ≠ 0 := by exact_mod_cast (table_pos hT).ne'
  have hd : (d : ℂ) ≠ 0 := by
    have : 0 < d := lt_of_le_of_lt (Nat.zero_le _) i.2
    exact_mod_cast this.ne'
  have hadj : ∀ g, ∑ m, star (z i m) * rep g m c = ∑ l, irrep g i l * star (z l c) := by
    intro g
    have := congrFun (congrFun (hz.adjoint hru hiu g) i) c
    simpa [Matrix.mul_apply] using this
  calc ∑ m, projBlock rep irrep c j i m * star (z i m)
      = (d : ℂ) / n * ∑ g, star (irrep g i j) * ∑ m, star (z i m) * rep g m c := by
        simp only [projBlock, Matrix.of_apply, Finset.mul_sum, Finset.sum_mul]
        rw [Finset.sum_comm]
        exact Finset.sum_congr rfl fun g _ => Finset.sum_congr rfl fun m _ => by ring
    _ = (d : ℂ) / n * ∑ l, (∑ g, irrep g i l * star (irrep g i j)) * star (z l c) := by
        simp only [hadj, Finset.mul_sum, Finset.sum_mul]
        rw [Finset.sum_comm]
        exact Finset.sum_congr rfl fun g _ => Finset.sum_congr rfl fun m _ => by ring
    _ = star (z j c) := by
        simp only [table_schur_orthogonality_self hT hμ hirrep hi hiu]
        rw [Finset.sum_eq_single j (fun l _ hl => by simp [hl]) (fun h => absurd (Finset.mem_univ j) h)]
        simp only [and_self, if_true, Fintype.card_fin]
        field_simp

/-- Total squared norm of the projected unit vectors. -/
theorem projBlock_total (hT : IsGroupTable T) (hμ : ∀ g h, μ g h ≠ 0) {rep : RepArr n D} {irrep : RepArr n d}
    (hrep : IsProjRep T μ rep) (hru : IsUnitaryRep rep)
    (hirrep : IsProjRep T μ irrep) (hiu : IsUnitaryRep irrep) (hi : Spec.IsIrreducible irrep) (i : Fin d) :
    ∑ c, ∑ j, nsq (projBlock rep irrep c j i) = d * Module.finrank ℂ (homSub rep irrep) := by
  have hn : (n : ℂ) ≠ 0 := by exact_mod_cast (table_pos hT).ne'
  have h1 : ∀ c j, ((nsq (projBlock rep irrep c j i) : ℝ) : ℂ) = star (projBlock rep irrep c j j c) := by
    intro c j
    rw [← projBlock_overlap hT hμ hru hirrep hiu hi
      (fun g => projBlock_intertwines hT hμ hrep hirrep hiu c j g) c i j]
    unfold nsq
    push_cast
    exact Finset.sum_congr rfl fun m _ => by rw [RCLike.star_def, Complex.mul_conj']
  have h2 : ((∑ c, ∑ j, nsq (projBlock rep irrep c j i) : ℝ) : ℂ) =
      ((d * Module.finrank ℂ (homSub rep irrep) : ℝ) : ℂ) := by
    push_cast
    simp only [h1]
    have h3 := table_sum_char_conj hT hμ hrep hirrep hiu
    have h4 : ∑ c, ∑ j, projBlock rep irrep c j j c = (d : ℂ) / n * ∑ g, (rep g).trace * star (irrep g).trace := by
      simp only [projBlock, Matrix.of_apply, ← Finset.mul_sum]
      congr 1
      simp only [Matrix.trace, Matrix.diag, star_sum, Finset.sum_mul, Finset.mul_sum]
      rw [Finset.sum_congr rfl fun c _ => Finset.sum_comm, Finset.sum_comm]
      refine Finset.sum_congr rfl fun g _ => ?_
      rw [Finset.sum_comm]
      exact Finset.sum_congr rfl fun c _ => Finset.sum_congr rfl fun j _ => mul_comm _ _
    simp only [← star_sum]
    rw [h4, h3]
    rw [div_mul_eq_mul_div, mul_comm (n : ℂ), ← mul_assoc, mul_div_assoc, div_self hn, mul_one]
    simp
  exact_mod_cast h2

/-- If there are too few blocks, a further block is orthogonal to them. -/
theorem exists_orth_block {rep : RepArr n D} {irrep : RepArr n d}
    (hru : IsUnitaryRep rep) (hiu : IsUnitaryRep irrep) (hi : Spec.IsIrreducible irrep)
    {bs : List (Matrix (Fin d) (Fin D) ℂ)} (hbs : ∀ b ∈ bs, BlockHom rep irrep b)
    (hlt : bs.length < Module.finrank ℂ (homSub rep irrep)) :
    ∃ y : Matrix (Fin d) (Fin D) ℂ, BlockHom rep irrep y ∧ (∀ i, OrthBlocks bs (y i)) ∧
      ∃ N : ℝ, 0 < N ∧ ∀ i, nsq (y i) = N := by
  obtain ⟨i0⟩ := hi.1
  let φ : homSub rep irrep →ₗ[ℂ] (Fin bs.length → ℂ) :=
    { toFun := fun z a => ((bs.get a).map star * z.1) i0 i0
      map_add' := fun x y => by funext a; simp [Matrix.mul_add]
      map_smul' := fun c x => by funext a; simp }
  have hker : LinearMap.ker φ ≠ ⊥ := LinearMap.ker_ne_bot_of_finrank_lt (by simpa using hlt)
  obtain ⟨z, hz, hz0⟩ := Submodule.exists_mem_ne_zero_of_ne_bot hker
  have hzh : BlockHom rep irrep z.1.transpose := by
    intro g; rw [Matrix.transpose_transpose]; exact z.2 g
  obtain ⟨c, hc⟩ := gram_scalar hru hiu hi (C := z.1.transpose.transpose) hzh
  obtain ⟨hrow, -⟩ := gram_rows hc
  have hzne : z.1 ≠ 0 := fun h => hz0 (Subtype.ext h)
  refine ⟨z.1.transpose, hzh, ?_, nsq (z.1.transpose i0), ?_, ?_⟩
  · intro i b hb k
    obtain ⟨a, rfl⟩ := List.get_of_mem hb
    obtain ⟨t, ht⟩ := schur_scalar hi (BlockHom.overlap hru hiu (hbs _ hb) hzh)
    have h0 : t = 0 := by
      have := congrFun hz a
      change ((bs.get a).map star * z.1) i0 i0 = 0 at this
      rw [Matrix.transpose_transpose] at ht
      rw [ht] at this
      simpa using this
    rw [h0, zero_smul] at ht
    have := congrArg star (congrFun (congrFun ht k) i)
    simpa [Matrix.mul_apply] using this
  · refine lt_of_le_of_ne (nsq_nonneg _) fun h => hzne ?_
    have : ∀ i, z.1.transpose i = 0 := by
      intro i
      apply nsq_eq_zero
      have h1 : ((nsq (z.1.transpose i) : ℝ) : ℂ) = ((nsq (z.1.transpose i0) : ℝ) : ℂ) := (hrow i).trans (hrow i0).symm
      rw [← h] at h1
      exact_mod_cast h1
    ext m i
    exact congrFun (this i) m
  · intro i
    have h1 : ((nsq (z.1.transpose i) : ℝ) : ℂ) = ((nsq (z.1.transpose i0) : ℝ) : ℂ) := (hrow i).trans (hrow i0).symm
    exact_mod_cast h1

/-- The counting argument. -/
theorem covered_count (hT : IsGroupTable T) (hμ : ∀ g h, μ g h ≠ 0) {rep : RepArr n D} {irrep : RepArr n d}
    (hrep : IsProjRep T μ rep) (hru : IsUnitaryRep rep)
    (hirrep : IsProjRep T μ irrep) (hiu : IsUnitaryRep irrep) (hi : Spec.IsIrreducible irrep)
    {a : ℝ} (ha : 0 ≤ a) {bs : List (Matrix (Fin d) (Fin D) ℂ)} (hbs : ∀ b ∈ bs, BlockHom rep irrep b)
    (hcov : ∀ p, Covered rep irrep a bs p)
    (hmult : (Module.finrank ℂ (homSub rep irrep) ≤ 3 ∧ D * a < 1 / 2) ∨
      (Module.finrank ℂ (homSub rep irrep) ≤ 4 ∧
        ∀ c j, projBlock rep irrep c j = 0 ∨ ∃ i m, a < ‖projBlock rep irrep c j i m‖)) :
    ¬ bs.length < Module.finrank ℂ (homSub rep irrep) := by
  intro hlt
  obtain ⟨y, hy, hyo, N, hN, hyN⟩ := exists_orth_block hru hiu hi hbs hlt
  obtain ⟨i0⟩ := hi.1
  have hd : 0 < d := lt_of_le_of_lt (Nat.zero_le _) i0.2
  have hdr : (0 : ℝ) < d := by exact_mod_cast hd
  have hov : ∀ c j, ‖y j c‖ ^ 2 = ‖∑ m, projBlock rep irrep c j i0 m * star (y i0 m)‖ ^ 2 := by
    intro c j
    rw [projBlock_overlap hT hμ hru hirrep hiu hi hy, norm_star]
  have htot := projBlock_total hT hμ hrep hru hirrep hiu hi i0
  have hsum : ∑ c, ∑ j, ‖y j c‖ ^ 2 = d * N := by
    rw [Finset.sum_comm]
    have : ∀ j, ∑ c, ‖y j c‖ ^ 2 = N := hyN
    simp [this]
  set M := Module.finrank ℂ (homSub rep irrep) with hM
  rcases hmult with ⟨hm, hDa⟩ | ⟨hm, hex⟩
  · have hbound : ∀ c j, ‖y j c‖ ^ 2 ≤ (D * a ^ 2 + 1 / 4 * nsq (projBlock rep irrep c j i0)) * N := by
      intro c j
      rw [hov]
      rcases hcov (c, j) with h | ⟨q, hq, h⟩
      · have h1 := cauchy_schwarz (projBlock rep irrep c j i0) (y i0)
        have h2 : ∑ m, ‖projBlock rep irrep c j i0 m‖ ^ 2 ≤ D * a ^ 2 := by
          calc _ ≤ ∑ _m : Fin D, a ^ 2 := Finset.sum_le_sum fun m _ => pow_le_pow_left₀ (norm_nonneg _) (h i0 m) 2
            _ = _ := by simp
        have h3 : ∑ m, ‖y i0 m‖ ^ 2 = N := hyN i0
        rw [h3] at h1
        refine h1.trans (mul_le_mul_of_nonneg_right ?_ hN.le)
        have := nsq_nonneg (projBlock rep irrep c j i0)
        linarith
      · have h1 := h (y i0) (hyo i0) i0
        rw [hyN] at h1
        refine h1.trans (mul_le_mul_of_nonneg_right ?_ hN.le)
        have h2 := nsq_nonneg (projBlock rep irrep c j i0)
        have h3 : (0 : ℝ) ≤ D * a ^ 2 := by positivity
        show q * nsq (projBlock rep irrep c j i0) ≤ _
        nlinarith
    have h1 : d * N ≤ (D * (d * (D * a ^ 2)) + 1 / 4 * (d * M)) * N := by
      rw [← hsum, ← htot]
      calc _ ≤ ∑ c, ∑ j, (D * a ^ 2 + 1 / 4 * nsq (projBlock rep irrep c j i0)) * N :=
            Finset.sum_le_sum fun c _ => Finset.sum_le_sum fun j _ => hbound c j
        _ = _ := by
          simp only [← Finset.sum_mul, Finset.sum_add_distrib, ← Finset.mul_sum]
          simp only [Finset.sum_const, Finset.card_univ, Fintype.card_fin, nsmul_eq_mul]
          ring
    have h2 := le_of_mul_le_mul_right h1 hN
    have h3 : (M : ℝ) ≤ 3 := by exact_mod_cast hm
    have h4 : (D * a) ^ 2 < 1 / 4 := by
      have : (0 : ℝ) ≤ D * a := by positivity
      nlinarith
    have h5 : (d : ℝ) ≤ d * ((D * a) ^ 2 + 1 / 4 * M) := by
      calc (d : ℝ) ≤ _ := h2
        _ = _ := by ring
    nlinarith
  · have hcov' : ∀ c j, ‖y j c‖ ^ 2 ≤ 1 / 4 * nsq (projBlock rep irrep c j i0) * N ∧
        (0 < nsq (projBlock rep irrep c j i0) → ‖y j c‖ ^ 2 < 1 / 4 * nsq (projBlock rep irrep c j i0) * N) := by
      intro c j
      rw [hov]
      rcases hex c j with h0 | ⟨i, m, him⟩
      · rw [h0]
        simp [nsq]
      · rcases hcov (c, j) with h | ⟨q, hq, h⟩
        · exact absurd (h i m) (not_le.2 him)
        · have h1 := h (y i0) (hyo i0) i0
          rw [hyN] at h1
          have h2 := nsq_nonneg (projBlock rep irrep c j i0)
          constructor
          · refine h1.trans (mul_le_mul_of_nonneg_right ?_ hN.le)
            show q * nsq (projBlock rep irrep c j i0) ≤ _
            nlinarith
          · intro h3
            refine lt_of_le_of_lt h1 (mul_lt_mul_of_pos_right ?_ hN)
            show q * nsq (projBlock rep irrep c j i0) < _
            nlinarith
    have hex2 : ∃ c j, 0 < nsq (projBlock rep irrep c j i0) := by
      by_contra hno
      push Not at hno
      have : ∑ c, ∑ j, ‖y j c‖ ^ 2 ≤ 0 := by
        refine Finset.sum_nonpos fun c _ => Finset.sum_nonpos fun j _ => ?_
        refine (hcov' c j).1.trans ?_
        have := hno c j
        nlinarith [nsq_nonneg (projBlock rep irrep c j i0)]
      rw [hsum] at this
      nlinarith
    obtain ⟨c0, j0, hp⟩ := hex2
    have h1 : d * N < 1 / 4 * (d * M) * N := by
      rw [← hsum, ← htot]
      calc _ < ∑ c, ∑ j, 1 / 4 * nsq (projBlock rep irrep c j i0) * N := by
            refine Finset.sum_lt_sum (fun c _ => Finset.sum_le_sum fun j _ => (hcov' c j).1) ⟨c0, Finset.mem_univ _, ?_⟩
            exact Finset.sum_lt_sum (fun j _ => (hcov' c0 j).1) ⟨j0, Finset.mem_univ _, (hcov' c0 j0).2 hp⟩
        _ = _ := by simp only [← Finset.sum_mul, ← Finset.mul_sum]
    have h2 := lt_of_mul_lt_mul_right h1 hN.le
    have h3 : (M : ℝ) ≤ 4 := by exact_mod_cast hm
    nlinarith

end Spgrep
