/-
Properties C25 and C59: symmetrisation of tensors over permutations of their axes.
-/
import Verif.Proofs.Tensor
import Verif.Proofs.ProjectBasis

namespace Spgrep

open Spec

variable {D p : ℕ}

/-! ### Helpers -/

/-- Flattening is a linear isomorphism. -/
noncomputable def flatEquiv (D p : ℕ) : Tensor D p ≃ₗ[ℂ] (Fin (D ^ p) → ℂ) :=
  LinearEquiv.funCongrLeft ℂ ℂ finFunctionFinEquiv.symm

theorem flatten_row (t : Tensor D p) (i : Fin 1) : (flattenTensor t).row i = flatEquiv D p t := rfl

theorem stack_row (ts : List (Tensor D p)) : (stackTensors ts).row = flatEquiv D p ∘ ts.get := rfl

theorem stack_indep_iff (ts : List (Tensor D p)) :
    LinearIndependent ℂ (stackTensors ts).row ↔ LinearIndependent ℂ ts.get := by
  rw [stack_row]
  exact (flatEquiv D p).toLinearMap.linearIndependent_iff (flatEquiv D p).ker

theorem flatten_indep {t : Tensor D p} (ht : t ≠ 0) : LinearIndependent ℂ (flattenTensor t).row := by
  rw [Fintype.linearIndependent_iff]
  intro g hg i
  rw [Fin.sum_univ_one, flatten_row, smul_eq_zero] at hg
  rw [Subsingleton.elim i 0]
  exact hg.resolve_right fun h => ht ((flatEquiv D p).map_eq_zero_iff.1 h)

theorem li_snoc {ts : List (Tensor D p)} (hts : LinearIndependent ℂ ts.get) {t : Tensor D p} (ht : t ≠ 0)
    (hs : t ∉ Submodule.span ℂ (Set.range ts.get)) : LinearIndependent ℂ (ts ++ [t]).get := by
  have e1 : (Set.range fun x : Fin ts.length × Unit => ts.get x.1) = Set.range ts.get := by
    ext y
    constructor
    · rintro ⟨x, rfl⟩; exact ⟨x.1, rfl⟩
    · rintro ⟨x, rfl⟩; exact ⟨(x, ()), rfl⟩
  have key := li_append (fun (a : Tensor D p) (_ : Unit) => a) ts t
    (hts.comp (fun x : Fin ts.length × Unit => x.1) fun x y h => Prod.ext h rfl)
    (linearIndependent_unique_iff.2 ht) (by
      have e2 : Set.range (fun _ : Unit => t) = {t} := by ext y; simp [eq_comm]
      rw [e1, e2, Submodule.disjoint_span_singleton' ht]
      exact hs)
  exact key.comp (fun i => (i, ())) fun i j h => (Prod.mk.inj h).1

theorem tensorNorm_ne_zero {t : Tensor D p} (h : 0 < tensorNorm t) : t ≠ 0 := by
  rintro rfl
  simp [tensorNorm] at h

theorem tensorNorm_pos {t : Tensor D p} (h : t ≠ 0) : 0 < tensorNorm t := by
  refine lt_of_le_of_ne (tensorNorm_nonneg t) fun h0 => h ?_
  have h1 := tensorNorm_sq t
  rw [← h0] at h1
  funext a
  have := (Finset.sum_eq_zero_iff_of_nonneg fun a _ => sq_nonneg ‖t a‖).1 (by simpa using h1.symm) a (Finset.mem_univ a)
  simpa using this

theorem tensorNorm_smul (c : ℂ) (t : Tensor D p) : tensorNorm (c • t) = ‖c‖ * tensorNorm t := by
  unfold tensorNorm
  rw [← Real.sqrt_sq (norm_nonneg c), ← Real.sqrt_mul (sq_nonneg _), Finset.mul_sum]
  congr 1
  refine Finset.sum_congr rfl fun a _ => ?_
  rw [Pi.smul_apply, norm_smul, mul_pow]

theorem normalized_ne_zero {t : Tensor D p} (h : 0 < tensorNorm t) : ((tensorNorm t)⁻¹ : ℂ) • t ≠ 0 :=
  smul_ne_zero (inv_ne_zero (by exact_mod_cast h.ne')) (tensorNorm_ne_zero h)

theorem normalized_norm {t : Tensor D p} (h : 0 < tensorNorm t) : tensorNorm (((tensorNorm t)⁻¹ : ℂ) • t) = 1 := by
  rw [tensorNorm_smul, norm_inv, Complex.norm_real, Real.norm_eq_abs, abs_of_pos h, inv_mul_cancel₀ h.ne']

theorem intrinsicStep_indep {la : LinAlg} (hla : la.Contract) {atol : ℝ} {basis basis' : List (Tensor D p)}
    {t : Tensor D p} (hb : LinearIndependent ℂ basis.get) (h : intrinsicStep la atol basis t = .ok basis') :
    LinearIndependent ℂ basis'.get := by
  rcases intrinsicStep_cases h with rfl | ⟨-, h2, rfl, h4⟩
  · exact hb
  refine li_snoc hb (normalized_ne_zero h2) fun hmem => ?_
  by_cases h0 : 0 < basis.length
  · obtain ⟨dist, hd, hg⟩ := h4 h0
    obtain ⟨d, hd1, -, hd2, -⟩ := (c54_grassmann la hla _ _ (flatten_indep (normalized_ne_zero h2))
      ((stack_indep_iff basis).2 hb) one_pos h0).2.2 .min (.inl rfl)
    rw [hg] at hd1
    obtain rfl := Except.ok.inj hd1
    have : dist = 0 := hd2.2 (.inl (by
      unfold rowSpan
      rw [Submodule.span_le]
      rintro _ ⟨i, rfl⟩
      rw [flatten_row, stack_row, Set.range_comp]
      have h5 := Submodule.mem_map_of_mem (f := (flatEquiv D p).toLinearMap) hmem
      rw [Submodule.map_span] at h5
      exact h5))
    rw [this] at hd
    norm_num at hd
  · have : basis = [] := List.length_eq_zero_iff.1 (by omega)
    subst this
    have he : Set.range ([] : List (Tensor D p)).get = ∅ := by
      ext x
      simp only [Set.mem_range, Set.mem_empty_iff_false, iff_false]
      rintro ⟨i, -⟩
      exact i.elim0
    rw [he, Submodule.span_empty, Submodule.mem_bot] at hmem
    exact normalized_ne_zero h2 hmem

theorem foldlM_total {α β : Type*} {f : β → α → Except PyErr β} {P : β → Prop} :
    ∀ (l : List α) (b : β), P b → (∀ b, ∀ a ∈ l, P b → ∃ b', f b a = .ok b' ∧ P b') → ∃ b', l.foldlM f b = .ok b'
  | [], b, _, _ => ⟨b, rfl⟩
  | a :: l, b, hb, hf => by
    obtain ⟨c, hc, hP⟩ := hf b a (List.mem_cons_self ..) hb
    obtain ⟨b', hb'⟩ := foldlM_total l c hP fun b a ha => hf b a (List.mem_cons_of_mem _ ha)
    refine ⟨b', ?_⟩
    rw [List.foldlM_cons, hc]
    exact hb'

theorem intrinsicStep_ok {la : LinAlg} (hla : la.Contract) {atol : ℝ} (ha : 0 ≤ atol) {basis : List (Tensor D p)}
    {t : Tensor D p} (hb : LinearIndependent ℂ basis.get) (ht : t ≠ 0) :
    ∃ basis', intrinsicStep la atol basis t = .ok basis' := by
  classical
  unfold intrinsicStep
  dsimp only
  rw [if_neg (tensorNorm_pos ht).ne']
  by_cases h1 : ∀ a, IsCloseC 1e-5 atol (symmetrize t a) 0
  · rw [if_pos h1]; exact ⟨_, rfl⟩
  rw [if_neg h1]
  have h2 : symmetrize t ≠ 0 := by
    intro h0
    apply h1
    intro a
    rw [h0]
    unfold IsCloseC
    simpa using ha
  have h3 := tensorNorm_pos h2
  rw [if_neg h3.ne']
  by_cases h0 : 0 < basis.length
  · rw [if_pos h0]
    have hs : (fun a => symmetrize t a / (tensorNorm (symmetrize t) : ℂ)) =
        ((tensorNorm (symmetrize t))⁻¹ : ℂ) • symmetrize t := by
      funext a
      rw [Pi.smul_apply, smul_eq_mul, div_eq_mul_inv, mul_comm]
    rw [hs]
    obtain ⟨d, hd, -⟩ := (c54_grassmann la hla _ _ (flatten_indep (normalized_ne_zero h3))
      ((stack_indep_iff basis).2 hb) one_pos h0).1
    rw [hd]
    simp only [bind, Except.bind]
    split
    · exact ⟨_, rfl⟩
    · exact ⟨_, rfl⟩
  · rw [if_neg h0]; exact ⟨_, rfl⟩

/-- Sum over all permutations of the axes (not a definition of the model). -/
noncomputable def Spec.symSum (t : (Fin p → Fin D) → ℂ) : (Fin p → Fin D) → ℂ :=
  ∑ σ : Equiv.Perm (Fin p), permTensor σ t

theorem symmetrize_symSum (t : Tensor D p) : symmetrize t = ((tensorNorm t)⁻¹ : ℂ) • symSum t := by
  rw [symmetrize_eq]
  funext a
  simp only [symSum, Pi.smul_apply, Finset.sum_apply, smul_eq_mul, Finset.mul_sum]

theorem li_nil : LinearIndependent ℂ ([] : List (Tensor D p)).get := by
  have : IsEmpty (Fin ([] : List (Tensor D p)).length) := ⟨fun i => i.elim0⟩
  exact linearIndependent_empty_type

/-! ### C25 -/

/-- **C25** for lists without zero tensors.  With routines that satisfy their contracts, the call succeeds and every
returned tensor is invariant under all permutations of its axes, has norm one, is invariant under every matrix that
leaves all inputs invariant, and is a positive multiple of the symmetrised form of one of the inputs; moreover the
returned tensors are linearly independent.  Missing: for a list with a zero tensor the code divides by zero, see
`c25_intrinsic_symmetry_refuted`. -/
theorem c25_intrinsic_symmetry_partial (la : LinAlg) (hla : la.Contract) {atol : ℝ} (ha : 0 ≤ atol)
    (tensors : List (Tensor D p)) (h0 : ∀ t ∈ tensors, t ≠ 0) :
    ∃ out, applyIntrinsicSymmetry la tensors atol = .ok out ∧ LinearIndependent ℂ out.get ∧
      ∀ s ∈ out, (∀ τ : Equiv.Perm (Fin p), permTensor τ s = s) ∧ (∑ a, ‖s a‖ ^ 2 = 1) ∧
        (∀ A : Matrix (Fin D) (Fin D) ℂ, (∀ t ∈ tensors, actTensor A t = t) → actTensor A s = s) ∧
        ∃ t ∈ tensors, ∃ c : ℝ, 0 < c ∧ s = (c : ℂ) • symSum t := by
  obtain ⟨out, hout⟩ := foldlM_total (f := intrinsicStep la atol) (P := fun b => LinearIndependent ℂ b.get) tensors []
    li_nil fun b t ht hb => by
      obtain ⟨b', hb'⟩ := intrinsicStep_ok hla ha hb (h0 t ht)
      exact ⟨b', hb', intrinsicStep_indep hla hb hb'⟩
  refine ⟨out, hout, ?_, ?_⟩
  · exact foldlM_inv_mem (P := fun b : List (Tensor D p) => LinearIndependent ℂ b.get) tensors [] out
      (fun b t _ b' hb hb' => intrinsicStep_indep hla hb hb') li_nil hout
  have key : ∀ s ∈ out, ∃ t ∈ tensors, 0 < tensorNorm t ∧ 0 < tensorNorm (symmetrize t) ∧
      s = ((tensorNorm (symmetrize t))⁻¹ : ℂ) • symmetrize t := by
    refine foldlM_inv_mem (P := fun b : List (Tensor D p) => ∀ s ∈ b, ∃ t ∈ tensors, 0 < tensorNorm t ∧
      0 < tensorNorm (symmetrize t) ∧ s = ((tensorNorm (symmetrize t))⁻¹ : ℂ) • symmetrize t) tensors [] out ?_
      (by simp) hout
    intro b t ht b' hb hb' s hs
    rcases intrinsicStep_cases hb' with rfl | ⟨h1, h2, rfl, -⟩
    · exact hb s hs
    · rcases List.mem_append.1 hs with hs | hs
      · exact hb s hs
      · obtain rfl := List.mem_singleton.1 hs
        exact ⟨t, ht, h1, h2, rfl⟩
  intro s hs
  obtain ⟨t, ht, h1, h2, rfl⟩ := key s hs
  refine ⟨fun τ => ?_, ?_, fun A hA => ?_, t, ht, (tensorNorm (symmetrize t))⁻¹ * (tensorNorm t)⁻¹, by positivity, ?_⟩
  · have := symmetrize_perm t τ
    funext a
    have h3 := congrFun this a
    unfold permTensor at h3 ⊢
    rw [Pi.smul_apply, h3, Pi.smul_apply]
  · rw [← tensorNorm_sq, normalized_norm h2, one_pow]
  · rw [actTensor_smul, symmetrize_act (hA t ht)]
  · rw [symmetrize_symSum t, smul_smul]
    push_cast
    rfl

/-- C25 is false for lists with a zero tensor: its norm is zero and the tensor becomes NaN.  (The model stops here; the
code returns the NaN tensor if it is the first one.) -/
theorem c25_intrinsic_symmetry_refuted (la : LinAlg) (atol : ℝ) :
    applyIntrinsicSymmetry la [(0 : Tensor D p)] atol = .error .nan := by
  unfold applyIntrinsicSymmetry
  rw [List.foldlM_cons]
  unfold intrinsicStep
  rw [if_pos (by simp [tensorNorm])]
  rfl

/-- Case of C25: rank two, the tensor with one off-diagonal entry is replaced by the normalised symmetric one, and an
antisymmetric tensor is dropped. -/
example : ∃ la : LinAlg, la.Contract ∧ ∃ out, applyIntrinsicSymmetry la
      [(fun a => if a = ![0, 1] then 1 else 0 : Tensor 2 2),
       (fun a => if a = ![0, 1] then 1 else if a = ![1, 0] then -1 else 0 : Tensor 2 2)] = .ok out ∧
    LinearIndependent ℂ out.get ∧ ∀ s ∈ out, ∀ τ : Equiv.Perm (Fin 2), permTensor τ s = s := by
  obtain ⟨la, hla⟩ := exists_linAlg_contract
  obtain ⟨out, h1, h2, h3⟩ := c25_intrinsic_symmetry_partial la hla (atol := 1e-6) (by norm_num)
    [(fun a => if a = ![0, 1] then 1 else 0 : Tensor 2 2),
     (fun a => if a = ![0, 1] then 1 else if a = ![1, 0] then -1 else 0 : Tensor 2 2)] (by
      intro t ht h0
      rcases List.mem_cons.1 ht with rfl | ht
      · have := congrFun h0 ![0, 1]; simp at this
      · obtain rfl := List.mem_singleton.1 ht
        have := congrFun h0 ![0, 1]; simp at this)
  exact ⟨la, hla, out, h1, h2, fun s hs => (h3 s hs).1⟩

/-! ### C59 -/

/-- **C59**, as far as it holds: the returned tensors span a subspace of the span of the symmetrised inputs, and all of it
as soon as their number is its dimension.  Missing: the number may be smaller, see
`c59_intrinsic_span_refuted`. -/
theorem c59_intrinsic_span_partial (la : LinAlg) (hla : la.Contract) {atol : ℝ} (ha : 0 ≤ atol)
    (tensors : List (Tensor D p)) (h0 : ∀ t ∈ tensors, t ≠ 0) :
    ∃ out, applyIntrinsicSymmetry la tensors atol = .ok out ∧
      Submodule.span ℂ (Set.range out.get) ≤ Submodule.span ℂ {s | ∃ t ∈ tensors, s = symSum t} ∧
      out.length ≤ Module.finrank ℂ (Submodule.span ℂ {s : Tensor D p | ∃ t ∈ tensors, s = symSum t}) ∧
      (out.length = Module.finrank ℂ (Submodule.span ℂ {s : Tensor D p | ∃ t ∈ tensors, s = symSum t}) →
        Submodule.span ℂ (Set.range out.get) = Submodule.span ℂ {s | ∃ t ∈ tensors, s = symSum t}) := by
  obtain ⟨out, h1, h2, h3⟩ := c25_intrinsic_symmetry_partial la hla ha tensors h0
  have hle : Submodule.span ℂ (Set.range out.get) ≤
      Submodule.span ℂ {s : Tensor D p | ∃ t ∈ tensors, s = symSum t} := by
    rw [Submodule.span_le]
    rintro _ ⟨i, rfl⟩
    obtain ⟨-, -, -, t, ht, c, -, hc⟩ := h3 (out.get i) (List.get_mem _ _)
    rw [hc]
    exact Submodule.smul_mem _ _ (Submodule.subset_span ⟨t, ht, rfl⟩)
  have hf : Module.finrank ℂ (Submodule.span ℂ (Set.range out.get)) = out.length := by
    rw [finrank_span_eq_card h2, Fintype.card_fin]
  refine ⟨out, h1, hle, ?_, fun h => ?_⟩
  · rw [← hf]
    exact Submodule.finrank_mono hle
  · exact Submodule.eq_of_le_of_finrank_eq hle (hf.trans h)

theorem norm_one_by_one {z : ℂ} (h : star z * z = 1) : ‖z‖ = 1 := by
  have h1 := congrArg norm h
  rw [norm_mul, norm_star, norm_one] at h1
  nlinarith [norm_nonneg z]

/-- The distance of two lines spanned by unit vectors with inner product `c`. -/
theorem grassmann_lines {la : LinAlg} (hla : la.Contract) {n : ℕ} {u v : Fin n → ℂ} {b1 b2 : Matrix (Fin 1) (Fin n) ℂ}
    (h1 : b1 = fun _ => u) (h2 : b2 = fun _ => v) (hu : ∑ i, star (u i) * u i = 1) (hv : ∑ i, star (v i) * v i = 1) :
    grassmannDistance la b1 b2 .min = .ok (gMin ‖∑ i, star (u i) * v i‖) := by
  have hne : ∀ (w : Fin n → ℂ), ∑ i, star (w i) * w i = 1 → ∀ b : Matrix (Fin 1) (Fin n) ℂ, b = (fun _ => w) →
      LinearIndependent ℂ b.row := by
    rintro w hw _ rfl
    rw [Fintype.linearIndependent_iff]
    intro g hg i
    rw [Fin.sum_univ_one, smul_eq_zero] at hg
    rw [Subsingleton.elim i 0]
    refine hg.resolve_right fun h => ?_
    have h' : w = 0 := h
    rw [h'] at hw
    simp at hw
  obtain ⟨Q1, Q2, hQ1, hQ2, ⟨-, S1, -, hS1⟩, ⟨-, S2, -, hS2⟩, r, hr, σ, er, hσ, hmin, -⟩ :=
    grassmann_frames hla (hne u hu b1 h1) (hne v hv b2 h2) one_pos one_pos
  have er' : r = 1 := er
  subst er'
  have q1 : ∀ i, Q1 i 0 = u i * S1 0 0 := by intro i; rw [hS1, h1, Matrix.mul_apply, Fin.sum_univ_one]; rfl
  have q2 : ∀ i, Q2 i 0 = v i * S2 0 0 := by intro i; rw [hS2, h2, Matrix.mul_apply, Fin.sum_univ_one]; rfl
  have n1 : ‖S1 0 0‖ = 1 := by
    apply norm_one_by_one
    have := congrFun (congrFun hQ1 0) 0
    rw [Matrix.mul_apply, Matrix.one_apply_eq] at this
    simp only [Matrix.conjTranspose_apply, q1, star_mul'] at this
    have h3 : star (S1 0 0) * S1 0 0 * ∑ i, star (u i) * u i = 1 := by
      rw [Finset.mul_sum, ← this]
      exact Finset.sum_congr rfl fun i _ => by ring
    rwa [hu, mul_one] at h3
  have n2 : ‖S2 0 0‖ = 1 := by
    apply norm_one_by_one
    have := congrFun (congrFun hQ2 0) 0
    rw [Matrix.mul_apply, Matrix.one_apply_eq] at this
    simp only [Matrix.conjTranspose_apply, q2, star_mul'] at this
    have h3 : star (S2 0 0) * S2 0 0 * ∑ i, star (v i) * v i = 1 := by
      rw [Finset.mul_sum, ← this]
      exact Finset.sum_congr rfl fun i _ => by ring
    rwa [hv, mul_one] at h3
  obtain ⟨-, hpos, U, V, hU, hV, hA⟩ := hσ
  have nU : ‖U 0 0‖ = 1 := by
    apply norm_one_by_one
    have := congrFun (congrFun hU 0) 0
    rwa [Matrix.mul_apply, Matrix.one_apply_eq, Fin.sum_univ_one] at this
  have nV : ‖V 0 0‖ = 1 := by
    apply norm_one_by_one
    have := congrFun (congrFun hV 0) 0
    rwa [Matrix.mul_apply, Matrix.one_apply_eq, Fin.sum_univ_one] at this
  have hA0 := congrFun (congrFun hA 0) 0
  rw [Matrix.mul_apply, Matrix.mul_apply, Fin.sum_univ_one, Matrix.mul_diagonal] at hA0
  have hL : ∑ i, Q1.conjTranspose 0 i * Q2 i 0 = star (S1 0 0) * S2 0 0 * ∑ i, star (u i) * v i := by
    rw [Finset.mul_sum]
    refine Finset.sum_congr rfl fun i _ => ?_
    rw [Matrix.conjTranspose_apply, q1, q2, star_mul']
    ring
  rw [hL] at hA0
  have hn := congrArg norm hA0
  simp only [norm_mul, norm_star, n1, n2, nU, nV, Matrix.conjTranspose_apply, Complex.norm_real, one_mul, mul_one] at hn
  rw [hmin, hn, Real.norm_eq_abs, abs_of_nonneg (hpos 0)]
  rfl

theorem symmetrize_rank_one {t : Tensor D 1} (h : tensorNorm t = 1) : symmetrize t = t := by
  rw [symmetrize_symSum, h]
  unfold symSum
  rw [Fintype.sum_unique]
  funext a
  simp only [Pi.smul_apply, permTensor]
  rw [Subsingleton.elim (default : Equiv.Perm (Fin 1)) 1]
  simp

/-- C59 is false of the code: for two independent vectors (tensors of rank one, for which symmetrisation does nothing)
only the first one is returned, because their distance is less than 0.5. -/
theorem c59_intrinsic_span_refuted : ∃ t1 t2 : Tensor 2 1, LinearIndependent ℂ [t1, t2].get ∧
    (∀ t ∈ [t1, t2], symSum t = t) ∧ ∀ la : LinAlg, la.Contract → applyIntrinsicSymmetry la [t1, t2] = .ok [t1] := by
  classical
  let t1 : Tensor 2 1 := fun a => (![1, 0] : Fin 2 → ℂ) (a 0)
  let t2 : Tensor 2 1 := fun a => (![12 / 13, 5 / 13] : Fin 2 → ℂ) (a 0)
  let e : (Fin 1 → Fin 2) ≃ Fin 2 := Equiv.funUnique (Fin 1) (Fin 2)
  have hsum : ∀ (F : (Fin 1 → Fin 2) → ℝ), ∑ a, F a = F (fun _ => 0) + F (fun _ => 1) := by
    intro F
    rw [← Equiv.sum_comp e.symm, Fin.sum_univ_two]
    rfl
  have hsumC : ∀ (F : (Fin 1 → Fin 2) → ℂ), ∑ a, F a = F (fun _ => 0) + F (fun _ => 1) := by
    intro F
    rw [← Equiv.sum_comp e.symm, Fin.sum_univ_two]
    rfl
  have n1 : tensorNorm t1 = 1 := by
    unfold tensorNorm
    rw [hsum]
    simp [t1]
  have n2 : tensorNorm t2 = 1 := by
    unfold tensorNorm
    rw [hsum]
    simp [t2]
    norm_num
  have s1 := symmetrize_rank_one n1
  have s2 := symmetrize_rank_one n2
  refine ⟨t1, t2, ?_, ?_, ?_⟩
  · rw [Fintype.linearIndependent_iff]
    intro g hg
    have hg' : g 0 • t1 + g 1 • t2 = 0 := by
      have : ∑ i : Fin 2, g i • [t1, t2].get i = 0 := hg
      rwa [Fin.sum_univ_two] at this
    have e1 := congrFun hg' fun _ => 1
    have e0 := congrFun hg' fun _ => 0
    simp [t1, t2] at e0 e1
    rw [e1] at e0
    intro i
    have : ∀ i : Fin 2, g i = 0 := by
      intro i
      fin_cases i
      · simpa using e0
      · exact e1
    exact this i
  · intro t ht
    rcases List.mem_cons.1 ht with rfl | ht
    · rw [symmetrize_symSum, n1] at s1; simpa using s1
    · obtain rfl := List.mem_singleton.1 ht
      rw [symmetrize_symSum, n2] at s2; simpa using s2
  · intro la hla
    have hfar : ∀ (t : Tensor 2 1) a, tensorNorm t = 1 → ‖t a‖ = 1 → ¬ IsCloseC 1e-5 1e-6 (t a) 0 := by
      intro t a _ h
      unfold IsCloseC
      simp [h]
      norm_num
    have f1 : ¬ ∀ a, IsCloseC 1e-5 1e-6 (symmetrize t1 a) 0 := by
      intro h
      have := h fun _ => 0
      rw [s1] at this
      exact hfar t1 (fun _ => 0) n1 (by simp [t1]) this
    have f2 : ¬ ∀ a, IsCloseC 1e-5 1e-6 (symmetrize t2 a) 0 := by
      intro h
      have := h fun _ => 0
      rw [s2] at this
      unfold IsCloseC at this
      simp [t2] at this
      norm_num at this
    have d1 : (fun a => symmetrize t1 a / (tensorNorm (symmetrize t1) : ℂ)) = t1 := by
      rw [s1, n1]; funext a; simp
    have d2 : (fun a => symmetrize t2 a / (tensorNorm (symmetrize t2) : ℂ)) = t2 := by
      rw [s2, n2]; funext a; simp
    have hst : stackTensors [t1] = fun _ => flattenTensor t1 0 := by
      funext i
      have : i = 0 := Subsingleton.elim (α := Fin 1) i 0
      rw [this]
      rfl
    have hip : ∀ s t : Tensor 2 1, ∑ i, star (flattenTensor s 0 i) * flattenTensor t 0 i = ∑ a, star (s a) * t a := by
      intro s t
      exact Equiv.sum_comp (finFunctionFinEquiv (m := 2) (n := 1)).symm fun a => star (s a) * t a
    have hdist : grassmannDistance la (flattenTensor t2) (stackTensors [t1]) = .ok (gMin (12 / 13)) := by
      have := grassmann_lines hla (u := flattenTensor t2 0) (v := flattenTensor t1 0) (b1 := flattenTensor t2)
        (b2 := stackTensors [t1]) (by funext i; rw [Subsingleton.elim i 0]) hst
        (by rw [hip, hsumC]; simp [t2]; norm_num) (by rw [hip, hsumC]; simp [t1])
      rw [this, hip, hsumC]
      congr 2
      simp [t1, t2]
    have hlt : gMin (12 / 13) < 0.5 := by
      unfold gMin
      rw [Real.sqrt_lt' (by norm_num)]
      norm_num
    unfold applyIntrinsicSymmetry
    rw [List.foldlM_cons]
    have st1 : intrinsicStep la 1e-6 [] t1 = .ok [t1] := by
      unfold intrinsicStep
      dsimp only
      rw [if_neg (by rw [n1]; norm_num), if_neg f1, if_neg (by rw [s1, n1]; norm_num), d1, if_neg (by simp)]
      rfl
    have st2 : intrinsicStep la 1e-6 [t1] t2 = .ok [t1] := by
      unfold intrinsicStep
      dsimp only
      rw [if_neg (by rw [n2]; norm_num), if_neg f2, if_neg (by rw [s2, n2]; norm_num), d2, if_pos (by simp), hdist]
      simp only [bind, Except.bind]
      rw [if_pos hlt]
    rw [st1]
    simp only [bind, Except.bind, List.foldlM_cons, st2]
    rfl

end Spgrep
