/-
The blocks selected by `project_to_irrep` are linearly independent.
-/
import Verif.Props.Projection
import Verif.Props.Utils

namespace Spgrep

open Spec

variable {n d D : ℕ}

/-- Appending one member to a list of independent families. -/
theorem li_append {α ι V : Type*} [AddCommGroup V] [Module ℂ V] (f : α → ι → V) (l : List α) (a : α)
    (hl : LinearIndependent ℂ fun x : Fin l.length × ι => f (l.get x.1) x.2) (ha : LinearIndependent ℂ (f a))
    (hd : Disjoint (Submodule.span ℂ (Set.range fun x : Fin l.length × ι => f (l.get x.1) x.2))
      (Submodule.span ℂ (Set.range (f a)))) :
    LinearIndependent ℂ fun x : Fin (l ++ [a]).length × ι => f ((l ++ [a]).get x.1) x.2 := by
  have hs := hl.sum_type ha hd
  let g : Fin (l ++ [a]).length × ι → (Fin l.length × ι) ⊕ ι := fun x =>
    if h : (x.1 : ℕ) < l.length then Sum.inl (⟨x.1, h⟩, x.2) else Sum.inr x.2
  have hg : Function.Injective g := by
    rintro ⟨x, i⟩ ⟨y, j⟩ h
    simp only [g] at h
    have hx := x.2
    have hy := y.2
    simp only [List.length_append, List.length_singleton] at hx hy
    split_ifs at h with h1 h2 h2
    · simp only [Sum.inl.injEq, Prod.mk.injEq, Fin.mk.injEq] at h
      exact Prod.ext (Fin.ext h.1) h.2
    · simp only [Sum.inr.injEq] at h
      exact Prod.ext (Fin.ext (by simp only; omega)) h
  have hc := hs.comp g hg
  have he : (fun x : Fin (l ++ [a]).length × ι => f ((l ++ [a]).get x.1) x.2) =
      Sum.elim (fun x : Fin l.length × ι => f (l.get x.1) x.2) (f a) ∘ g := ?_
  · rw [he]; exact hc
  funext ⟨x, i⟩
  simp only [Function.comp, g]
  split_ifs with h
  · simp [List.getElem_append_left h]
  · have hx := x.2
    simp only [List.length_append, List.length_singleton] at hx
    have : (x : ℕ) = l.length := by omega
    simp [List.getElem_append_right, this]

/-- Independence of all rows of a list of blocks. -/
def BlocksIndep (bs : List (Matrix (Fin d) (Fin D) ℂ)) : Prop :=
  LinearIndependent ℂ fun x : Fin bs.length × Fin d => (bs.get x.1).row x.2

theorem stackBlocks_row (bs : List (Matrix (Fin d) (Fin D) ℂ)) : (stackBlocks bs).row =
    (fun x : Fin bs.length × Fin d => (bs.get x.1).row x.2) ∘ finProdFinEquiv.symm := rfl

theorem stack_indep {bs : List (Matrix (Fin d) (Fin D) ℂ)} (h : BlocksIndep bs) :
    LinearIndependent ℂ (stackBlocks bs).row := by
  rw [stackBlocks_row]
  exact h.comp _ finProdFinEquiv.symm.injective

theorem rowSpan_stack (bs : List (Matrix (Fin d) (Fin D) ℂ)) : rowSpan (stackBlocks bs) =
    Submodule.span ℂ (Set.range fun x : Fin bs.length × Fin d => (bs.get x.1).row x.2) := by
  unfold rowSpan
  rw [stackBlocks_row, finProdFinEquiv.symm.surjective.range_comp]

/-- A block is an intertwiner. -/
def BlockHom (rep : RepArr n D) (irrep : RepArr n d) (b : Matrix (Fin d) (Fin D) ℂ) : Prop :=
  ∀ g, rep g * b.transpose = b.transpose * irrep g

theorem BlockHom.row {rep : RepArr n D} {irrep : RepArr n d} {b : Matrix (Fin d) (Fin D) ℂ}
    (h : BlockHom rep irrep b) (g : Fin n) (i : Fin d) : (rep g).mulVec (b.row i) = ∑ l, irrep g l i • b.row l := by
  funext m
  have := congrFun (congrFun (h g) m) i
  simp only [Matrix.mul_apply, Matrix.transpose_apply] at this
  simp only [Matrix.mulVec, dotProduct, Matrix.row, Finset.sum_apply, Pi.smul_apply, smul_eq_mul]
  rw [this]
  exact Finset.sum_congr rfl fun _ _ => mul_comm _ _

/-- The row span of intertwiners is invariant. -/
theorem rowSpan_invariant {rep : RepArr n D} {irrep : RepArr n d} {bs : List (Matrix (Fin d) (Fin D) ℂ)}
    (h : ∀ b ∈ bs, BlockHom rep irrep b) (g : Fin n) :
    ∀ v ∈ rowSpan (stackBlocks bs), (rep g).mulVec v ∈ rowSpan (stackBlocks bs) := by
  intro v hv
  rw [rowSpan_stack] at hv ⊢
  induction hv using Submodule.span_induction with
  | mem x hx =>
    obtain ⟨y, rfl⟩ := hx
    beta_reduce
    rw [(h _ (List.get_mem _ _)).row]
    exact Submodule.sum_mem _ fun l _ => Submodule.smul_mem _ _ (Submodule.subset_span ⟨(y.1, l), rfl⟩)
  | zero => rw [Matrix.mulVec_zero]; exact Submodule.zero_mem _
  | add x y _ _ hx hy => rw [Matrix.mulVec_add]; exact Submodule.add_mem _ hx hy
  | smul a x _ hx => rw [Matrix.mulVec_smul]; exact Submodule.smul_mem _ _ hx

theorem mem_rowSpan_iff {k : ℕ} (b : Matrix (Fin k) (Fin D) ℂ) (v : Fin D → ℂ) :
    v ∈ rowSpan b ↔ ∃ c : Fin k → ℂ, b.transpose.mulVec c = v := by
  rw [rowSpan, Submodule.mem_span_range_iff_exists_fun]
  refine exists_congr fun c => ?_
  have : ∑ i, c i • b.row i = b.transpose.mulVec c := by
    funext m
    simp [Matrix.mulVec, dotProduct, Matrix.row, mul_comm]
  rw [this]

/-- An irreducible block not contained in an invariant subspace meets it trivially. -/
theorem block_disjoint {rep : RepArr n D} {irrep : RepArr n d} (hi : IsIrreducible irrep)
    {b : Matrix (Fin d) (Fin D) ℂ} (hb : BlockHom rep irrep b) {W : Submodule ℂ (Fin D → ℂ)}
    (hW : ∀ g, ∀ v ∈ W, (rep g).mulVec v ∈ W) (hne : ¬ rowSpan b ≤ W) : Disjoint W (rowSpan b) := by
  let U : Submodule ℂ (Fin d → ℂ) := W.comap b.transpose.mulVecLin
  rcases hi.2 U (by
    intro g v hv
    show b.transpose.mulVec _ ∈ W
    rw [Matrix.mulVec_mulVec, ← hb g, ← Matrix.mulVec_mulVec]
    exact hW g _ hv) with hU | hU
  · rw [Submodule.disjoint_def]
    intro v hv hvb
    obtain ⟨c, rfl⟩ := (mem_rowSpan_iff b v).1 hvb
    have : c ∈ U := hv
    rw [hU, Submodule.mem_bot] at this
    rw [this, Matrix.mulVec_zero]
  · exfalso
    apply hne
    intro v hv
    obtain ⟨c, rfl⟩ := (mem_rowSpan_iff b v).1 hv
    have : c ∈ U := by rw [hU]; trivial
    exact this

/-- Properties of the list during the loop. -/
structure GoodBlocks (rep : RepArr n D) (irrep : RepArr n d) (bs : List (Matrix (Fin d) (Fin D) ℂ)) : Prop where
  indep : BlocksIndep bs
  hom : ∀ b ∈ bs, BlockHom rep irrep b

theorem orthonormal_rows_indep {b : Matrix (Fin d) (Fin D) ℂ} (h : b * b.conjTranspose = 1) :
    LinearIndependent ℂ b.row := by
  rw [Fintype.linearIndependent_iff]
  intro c hc i
  have h1 : Matrix.vecMul c b = 0 := by
    funext m
    have := congrFun hc m
    simpa [Matrix.vecMul, dotProduct, Matrix.row] using this
  have h2 : Matrix.vecMul c (b * b.conjTranspose) = 0 := by
    rw [← Matrix.vecMul_vecMul, h1, Matrix.zero_vecMul]
  rw [h, Matrix.vecMul_one] at h2
  exact congrFun h2 i

theorem goodBlocks_append {rep : RepArr n D} {irrep : RepArr n d} (hi : IsIrreducible irrep)
    {bs : List (Matrix (Fin d) (Fin D) ℂ)} (h : GoodBlocks rep irrep bs) {b : Matrix (Fin d) (Fin D) ℂ}
    (hb : BlockHom rep irrep b) (ho : b * b.conjTranspose = 1) (hne : ¬ rowSpan b ≤ rowSpan (stackBlocks bs)) :
    GoodBlocks rep irrep (bs ++ [b]) := by
  constructor
  · refine li_append (fun (b : Matrix (Fin d) (Fin D) ℂ) i => b.row i) bs b h.indep (orthonormal_rows_indep ho) ?_
    have := block_disjoint hi hb (rowSpan_invariant h.hom) hne
    rwa [rowSpan_stack] at this
  · intro c hc
    rcases List.mem_append.1 hc with hc | hc
    · exact h.hom c hc
    · rw [List.mem_singleton] at hc; rw [hc]; exact hb

theorem projStep_good {T : Fin n → Fin n → Fin n} (hT : IsGroupTable T)
    {μ : Fin n → Fin n → ℂ} (hμ : ∀ g h, μ g h ≠ 0) {rep : RepArr n D} {irrep : RepArr n d}
    (hrep : IsProjRep T μ rep) (hru : IsUnitaryRep rep)
    (hirrep : IsProjRep T μ irrep) (hiu : IsUnitaryRep irrep) (hi : IsIrreducible irrep) {la : LinAlg}
    (hla : la.Contract) {atol : ℝ} (ha : 0 ≤ atol) (bs : List (Matrix (Fin d) (Fin D) ℂ)) (p : Fin D × Fin d)
    (h : GoodBlocks rep irrep bs) :
    ∃ bs', projStep la rep irrep atol bs p = .ok bs' ∧ GoodBlocks rep irrep bs' := by
  obtain ⟨i0⟩ := hi.1
  have hd : 0 < d := lt_of_le_of_lt (Nat.zero_le _) i0.2
  unfold projStep
  dsimp only
  by_cases h1 : ∀ i m, IsCloseC 1e-5 atol (projBlock rep irrep p.1 p.2 i m) 0
  · rw [if_pos h1]; exact ⟨bs, rfl, h⟩
  rw [if_neg h1]
  have hne : projBlock rep irrep p.1 p.2 ≠ 0 := by
    intro h0; apply h1; intro i m
    rw [h0]; unfold IsCloseC; simp [ha]
  have hint := fun g => projBlock_intertwines hT hμ hrep hirrep hiu p.1 p.2 g
  obtain ⟨r, hr⟩ := gram_scalar hru hiu hi hint
  obtain ⟨ho, s, hs, h2⟩ := normalizeRows_spec hne hr
  have hb : BlockHom rep irrep (normalizeRows (projBlock rep irrep p.1 p.2)) := by
    intro g
    rw [h2, Matrix.transpose_smul, Matrix.mul_smul, Matrix.smul_mul, hint]
  generalize normalizeRows (projBlock rep irrep p.1 p.2) = b at ho hb
  have hbi := orthonormal_rows_indep ho
  by_cases hl : 0 < bs.length
  · rw [if_pos hl]
    obtain ⟨_, _, h54⟩ := c54_grassmann la hla b (stackBlocks bs) hbi (stack_indep h.indep) hd (Nat.mul_pos hl hd)
    obtain ⟨dist, hdist, _, hz, _⟩ := h54 .min (Or.inl rfl)
    rw [hdist]
    by_cases h5 : dist < 0.5
    · refine ⟨bs, ?_, h⟩
      show (if dist < 0.5 then _ else _) = _
      rw [if_pos h5]
    · refine ⟨bs ++ [b], ?_, goodBlocks_append hi h hb ho ?_⟩
      · show (if dist < 0.5 then _ else _) = _
        rw [if_neg h5]
      · intro hle
        have := hz.2 (Or.inl hle)
        rw [this] at h5
        norm_num at h5
  · rw [if_neg hl]
    refine ⟨_, rfl, goodBlocks_append hi h hb ho ?_⟩
    have h0 : bs = [] := List.length_eq_zero_iff.1 (by omega)
    subst h0
    intro hle
    have h3 : b.row i0 ∈ rowSpan (stackBlocks ([] : List (Matrix (Fin d) (Fin D) ℂ))) :=
      hle (Submodule.subset_span ⟨i0, rfl⟩)
    rw [rowSpan_stack] at h3
    have h4 : (Set.range fun x : Fin ([] : List (Matrix (Fin d) (Fin D) ℂ)).length × Fin d =>
        (([] : List (Matrix (Fin d) (Fin D) ℂ)).get x.1).row x.2) = ∅ := by
      rw [Set.range_eq_empty_iff]
      exact ⟨fun x => Fin.elim0 x.1⟩
    rw [h4, Submodule.span_empty, Submodule.mem_bot] at h3
    exact hbi.ne_zero i0 h3

theorem foldlM_ok_inv {α β : Type*} {f : β → α → Except PyErr β} {P : β → Prop}
    (hf : ∀ b a, P b → ∃ b', f b a = .ok b' ∧ P b') :
    ∀ (l : List α) (b : β), P b → ∃ b', l.foldlM f b = .ok b' ∧ P b'
  | [], b, hb => ⟨b, rfl, hb⟩
  | a :: l, b, hb => by
    obtain ⟨b', h1, h2⟩ := hf b a hb
    obtain ⟨b'', h3, h4⟩ := foldlM_ok_inv hf l b' h2
    refine ⟨b'', ?_, h4⟩
    rw [List.foldlM_cons, h1]
    exact h3

theorem projInner_good {T : Fin n → Fin n → Fin n} (hT : IsGroupTable T)
    {μ : Fin n → Fin n → ℂ} (hμ : ∀ g h, μ g h ≠ 0) {rep : RepArr n D} {irrep : RepArr n d}
    (hrep : IsProjRep T μ rep) (hru : IsUnitaryRep rep)
    (hirrep : IsProjRep T μ irrep) (hiu : IsUnitaryRep irrep) (hi : IsIrreducible irrep) {la : LinAlg}
    (hla : la.Contract) {atol : ℝ} (ha : 0 ≤ atol) :
    ∃ bs, projInner la rep irrep atol = .ok bs ∧ GoodBlocks rep irrep bs := by
  unfold projInner
  refine foldlM_ok_inv (P := GoodBlocks rep irrep)
    (fun bs p h => projStep_good hT hμ hrep hru hirrep hiu hi hla ha bs p h) _ _ ⟨?_, by simp⟩
  have : IsEmpty (Fin ([] : List (Matrix (Fin d) (Fin D) ℂ)).length × Fin d) := ⟨fun x => Fin.elim0 x.1⟩
  exact linearIndependent_empty_type

/-- The target count is the multiplicity. -/
theorem numBasis_eq {T : Fin n → Fin n → Fin n} (hT : IsGroupTable T)
    {μ : Fin n → Fin n → ℂ} (hμ : ∀ g h, μ g h ≠ 0) {rep : RepArr n D} {irrep : RepArr n d}
    (hrep : IsProjRep T μ rep) (hirrep : IsProjRep T μ irrep) (hiu : IsUnitaryRep irrep) :
    numBasis rep irrep = Module.finrank ℂ (homSub rep irrep) := by
  have h1 := table_sum_char_conj hT hμ hrep hirrep hiu
  have hn : (n : ℂ) ≠ 0 := by exact_mod_cast (table_pos hT).ne'
  unfold numBasis
  have h2 : ∑ k, star (getCharacter irrep k) * getCharacter rep k =
      ((n * Module.finrank ℂ (homSub rep irrep) : ℕ) : ℂ) := by
    rw [Nat.cast_mul, ← h1]
    exact Finset.sum_congr rfl fun _ _ => by rw [getCharacter_eq_trace, getCharacter_eq_trace, mul_comm]
  dsimp only
  rw [h2, rintC_natCast, Nat.cast_mul, mul_div_cancel_left₀ _ hn]
  exact_mod_cast rint_intCast (Module.finrank ℂ (homSub rep irrep) : ℤ)

/-- Blocks with independent rows are independent elements of the space of intertwiners. -/
theorem blocks_card {rep : RepArr n D} {irrep : RepArr n d} (hd : 0 < d)
    {bs : List (Matrix (Fin d) (Fin D) ℂ)} (h : GoodBlocks rep irrep bs) :
    LinearIndependent ℂ (fun i : Fin bs.length =>
      (⟨(bs.get i).transpose, h.hom _ (List.get_mem _ _)⟩ : homSub rep irrep)) := by
  rw [Fintype.linearIndependent_iff]
  intro c hc i
  have h1 := (Fintype.linearIndependent_iff.1 h.indep) (fun x => if x.2 = ⟨0, hd⟩ then c x.1 else 0) (by
    rw [Fintype.sum_prod_type]
    funext m
    have := congrFun (congrFun (congrArg Subtype.val hc) m) ⟨0, hd⟩
    simp [Matrix.sum_apply] at this
    simp [Finset.sum_apply, ite_smul, Matrix.row]
    exact this) (i, ⟨0, hd⟩)
  simpa using h1

end Spgrep
