/-
Helper lemmas about tensor.py.
-/
import Verif.Model.Tensor
import Verif.Spec.Tensor
import Verif.Spec.PhysIrrep
import Verif.Props.Projection
import Verif.Props.Representation
import Verif.Props.SmallReal

namespace Spgrep

open Spec Matrix

variable {n D d p : ℕ} {T : Fin n → Fin n → Fin n}

/-- A real symmetric matrix that commutes with a really irreducible family is scalar. -/
theorem real_schur_symm {R : Fin n → Matrix (Fin d) (Fin d) ℝ} (hR : IsRealIrreducible R)
    {S : Matrix (Fin d) (Fin d) ℝ} (hS : S.transpose = S) (hc : ∀ g, R g * S = S * R g) : ∃ r : ℝ, S = r • 1 := by
  have hH : S.IsHermitian := by rw [Matrix.IsHermitian, Matrix.conjTranspose_eq_transpose_of_trivial, hS]
  obtain ⟨i0⟩ := hR.1
  refine ⟨hH.eigenvalues i0, ?_⟩
  let W : Submodule ℝ (Fin d → ℝ) := LinearMap.ker (S - hH.eigenvalues i0 • 1).mulVecLin
  have hW : W = ⊥ ∨ W = ⊤ := by
    apply hR.2
    intro g v hv
    rw [LinearMap.mem_ker, Matrix.mulVecLin_apply] at hv ⊢
    rw [Matrix.mulVec_mulVec, Matrix.sub_mul, ← hc g, Matrix.smul_mul, Matrix.one_mul]
    have : R g * S - hH.eigenvalues i0 • R g = R g * (S - hH.eigenvalues i0 • 1) := by
      rw [Matrix.mul_sub, Matrix.mul_smul, Matrix.mul_one]
    rw [this, ← Matrix.mulVec_mulVec, hv, Matrix.mulVec_zero]
  rcases hW with hW | hW
  · exfalso
    have h1 : (hH.eigenvectorBasis i0 : Fin d → ℝ) ∈ W := by
      rw [LinearMap.mem_ker, Matrix.mulVecLin_apply, Matrix.sub_mulVec, Matrix.smul_mulVec, Matrix.one_mulVec,
        hH.mulVec_eigenvectorBasis, sub_self]
    rw [hW, Submodule.mem_bot] at h1
    exact hH.eigenvectorBasis.orthonormal.ne_zero i0 (by ext i; exact congrFun h1 i)
  · have h2 : ∀ v, (S - hH.eigenvalues i0 • 1).mulVec v = 0 := by
      intro v
      have : v ∈ W := by rw [hW]; trivial
      exact this
    rw [← sub_eq_zero]
    ext i j
    have := congrFun (h2 (Pi.single j 1)) i
    simpa using this

/-- All rows of an intertwiner from a good irrep have the same norm. -/
theorem row_norms {rep : RepArr n D} {E : RepArr n d} (hr : IsUnitaryRep rep) (hE : GoodIrrep T E)
    {C : Matrix (Fin D) (Fin d) ℂ} (hC : ∀ g, rep g * C = C * E g) :
    ∃ r : ℝ, ∀ i, ∑ m, ‖C m i‖ ^ 2 = r := by
  have hcomm : ∀ g, E g * (C.conjTranspose * C) = C.conjTranspose * C * E g := by
    intro g
    have h1 : (E g).conjTranspose * C.conjTranspose = C.conjTranspose * (rep g).conjTranspose := by
      rw [← Matrix.conjTranspose_mul, ← Matrix.conjTranspose_mul, hC]
    have h2 : C.conjTranspose * rep g = E g * C.conjTranspose := by
      have hu := hE.unitary g
      have hr' : (rep g).conjTranspose * rep g = 1 := mul_eq_one_comm.1 (hr g)
      calc C.conjTranspose * rep g
          = E g * (E g).conjTranspose * C.conjTranspose * rep g := by rw [hu, Matrix.one_mul]
        _ = E g * (C.conjTranspose * (rep g).conjTranspose) * rep g := by rw [Matrix.mul_assoc (E g), h1]
        _ = _ := by rw [Matrix.mul_assoc, Matrix.mul_assoc, hr', Matrix.mul_one]
    rw [← Matrix.mul_assoc, ← h2, Matrix.mul_assoc, Matrix.mul_assoc, hC]
  have hdiag : ∀ i, (C.conjTranspose * C) i i = ((∑ m, ‖C m i‖ ^ 2 : ℝ) : ℂ) := by
    intro i
    rw [Matrix.mul_apply]
    push_cast
    refine Finset.sum_congr rfl fun m _ => ?_
    rw [Matrix.conjTranspose_apply, ← Complex.conj_mul']
    rfl
  rcases hE.irred with hi | ⟨R, hR, hi⟩
  · obtain ⟨c, hc⟩ := schur_scalar hi hcomm
    obtain ⟨i0⟩ := hi.1
    refine ⟨∑ m, ‖C m i0‖ ^ 2, fun i => ?_⟩
    have h1 := hdiag i
    have h2 := hdiag i0
    rw [hc] at h1 h2
    simp only [Matrix.smul_apply, Matrix.one_apply_eq] at h1 h2
    exact_mod_cast h1.symm.trans h2
  · have hs : ((C.conjTranspose * C).map Complex.re).transpose = (C.conjTranspose * C).map Complex.re := by
      have h1 : (C.conjTranspose * C).conjTranspose = C.conjTranspose * C := by
        rw [Matrix.conjTranspose_mul, Matrix.conjTranspose_conjTranspose]
      ext i j
      have h2 := congrFun (congrFun h1 i) j
      rw [Matrix.conjTranspose_apply] at h2
      rw [Matrix.transpose_apply, Matrix.map_apply, Matrix.map_apply, ← h2]
      simp
    have hc : ∀ g, R g * (C.conjTranspose * C).map Complex.re = (C.conjTranspose * C).map Complex.re * R g := by
      intro g
      have h1 := hcomm g
      rw [hR g] at h1
      ext i j
      have h2 := congrArg Complex.re (congrFun (congrFun h1 i) j)
      generalize C.conjTranspose * C = M at h2
      rw [Matrix.mul_apply, Matrix.mul_apply, Complex.re_sum, Complex.re_sum] at h2
      rw [Matrix.mul_apply, Matrix.mul_apply]
      simpa using h2
    obtain ⟨r, hr'⟩ := real_schur_symm hi hs hc
    refine ⟨r, fun i => ?_⟩
    have h1 := congrFun (congrFun hr' i) i
    rw [Matrix.map_apply, hdiag, Complex.ofReal_re] at h1
    simpa using h1

theorem projectToIrrep_transforms (hT : IsGroupTable T) {rep : RepArr n D} {E : RepArr n d}
    (hrep : IsProjRep T (fun _ _ => 1) rep) (hru : IsUnitaryRep rep) (hE : GoodIrrep T E) {la : LinAlg} {atol : ℝ}
    {maxTrials : ℕ} {bs : List (Matrix (Fin d) (Fin D) ℂ)} {w : Bool}
    (h : projectToIrrep la rep E atol maxTrials = .ok (bs, w)) :
    ∀ b ∈ bs, ∀ g i m, ∑ m', rep g m m' * b i m' = ∑ l, b l m * E g l i := by
  have hint := fun c j g => projBlock_intertwines hT (fun _ _ => one_ne_zero) hrep hE.rep hE.unitary c j g
  have hP : ∀ c j, projBlock rep E c j ≠ 0 → ∀ g i m,
      ∑ m', rep g m m' * normalizeRows (projBlock rep E c j) i m' =
        ∑ l, normalizeRows (projBlock rep E c j) l m * E g l i := by
    intro c j _ g i m
    obtain ⟨r, hr⟩ := row_norms hru hE (hint c j)
    have h1 : ∀ i m, normalizeRows (projBlock rep E c j) i m = projBlock rep E c j i m * (Real.sqrt r : ℂ)⁻¹ := by
      intro i m
      unfold normalizeRows
      rw [Matrix.of_apply, div_eq_mul_inv]
      have := hr i
      simp only [Matrix.transpose_apply] at this
      rw [this]
    have h2 := congrFun (congrFun (hint c j g) m) i
    simp only [Matrix.mul_apply, Matrix.transpose_apply] at h2
    simp only [h1]
    calc _ = (∑ m', rep g m m' * projBlock rep E c j i m') * (Real.sqrt r : ℂ)⁻¹ := by
          rw [Finset.sum_mul]; exact Finset.sum_congr rfl fun _ _ => by ring
      _ = _ := by rw [h2, Finset.sum_mul]; exact Finset.sum_congr rfl fun _ _ => by ring
  rcases projectToIrrep_cases h with ⟨_, rfl, _⟩ | ⟨t, _, ht, _, hp, _⟩
  · simp
  · exact projInner_all la rep E (le_trans (by norm_num) ht) hP hp

/-- The basis tensors transform like the irrep. -/
def TensorBasis.Transforms (rep : RepArr n D) (t : TensorBasis n D p) : Prop :=
  ∀ g i, actTensor (rep g) (t.basis i) = fun a => ∑ l, t.basis l a * t.irrep g l i

theorem actTensor_one (A : Matrix (Fin D) (Fin D) ℂ) (v : Fin D → ℂ) (a : Fin 1 → Fin D) :
    actTensor A (fun b : Fin 1 → Fin D => v (b 0)) a = ∑ m', A (a 0) m' * v m' := by
  unfold actTensor
  rw [← (Equiv.funUnique (Fin 1) (Fin D)).symm.sum_comp]
  simp [Equiv.funUnique]

theorem actTensor_snoc (A : Matrix (Fin D) (Fin D) ℂ) (t : Tensor D p) (v : Tensor D 1) (a : Fin (p + 1) → Fin D) :
    actTensor A (fun b : Fin (p + 1) → Fin D => t (Fin.init b) * v fun _ => b (Fin.last p)) a =
      actTensor A t (Fin.init a) * actTensor A v fun _ => a (Fin.last p) := by
  unfold actTensor
  rw [Finset.sum_mul_sum, ← (Fin.snocEquiv fun _ : Fin (p + 1) => Fin D).sum_comp, Fintype.sum_prod_type,
    Finset.sum_comm]
  refine Finset.sum_congr rfl fun b _ => ?_
  rw [← (Equiv.funUnique (Fin 1) (Fin D)).symm.sum_comp]
  refine Finset.sum_congr rfl fun x _ => ?_
  have h1 : ((Equiv.funUnique (Fin 1) (Fin D)).symm x : Fin 1 → Fin D) = fun _ => x := rfl
  rw [h1, Fin.prod_univ_one, Fin.prod_univ_castSucc]
  simp only [Fin.snocEquiv, Equiv.coe_fn_mk, Fin.snoc_castSucc, Fin.snoc_last, Fin.init_snoc, Fin.init]
  ring

theorem actTensor_sum {ι : Type*} (s : Finset ι) (A : Matrix (Fin D) (Fin D) ℂ) (f : ι → Tensor D p) (c : ι → ℂ)
    (a : Fin p → Fin D) : actTensor A (fun b => ∑ i ∈ s, c i * f i b) a = ∑ i ∈ s, c i * actTensor A (f i) a := by
  unfold actTensor
  simp only [Finset.mul_sum]
  rw [Finset.sum_comm]
  exact Finset.sum_congr rfl fun _ _ => Finset.sum_congr rfl fun _ _ => by ring

theorem contract_transforms {rep : RepArr n D} {t : TensorBasis n D p} {v : TensorBasis n D 1}
    (ht : t.Transforms rep) (hv : v.Transforms rep) {E : RepArr n d} {F : RepArr n (t.dim * v.dim)}
    (hF : ∀ g x y, F g (finProdFinEquiv x) (finProdFinEquiv y) = t.irrep g x.1 y.1 * v.irrep g x.2 y.2)
    {c : Matrix (Fin d) (Fin (t.dim * v.dim)) ℂ}
    (hc : ∀ g i m, ∑ m', F g m m' * c i m' = ∑ l, c l m * E g l i) (g : Fin n) (i : Fin d) :
    actTensor (rep g) (contractBasis c t.basis v.basis i) =
      fun a => ∑ l, contractBasis c t.basis v.basis l a * E g l i := by
  have h0 : ∀ i (a : Fin (p + 1) → Fin D), contractBasis c t.basis v.basis i a =
      ∑ x : Fin t.dim × Fin v.dim, c i (finProdFinEquiv x) *
        (t.basis x.1 (Fin.init a) * v.basis x.2 fun _ => a (Fin.last p)) := by
    intro i a
    unfold contractBasis
    rw [Fintype.sum_prod_type]
    exact Finset.sum_congr rfl fun _ _ => Finset.sum_congr rfl fun _ _ => by ring
  funext a
  rw [show contractBasis c t.basis v.basis i = _ from funext (h0 i),
    actTensor_sum Finset.univ (rep g) (fun (x : Fin t.dim × Fin v.dim) (b : Fin (p + 1) → Fin D) =>
      t.basis x.1 (Fin.init b) * v.basis x.2 fun _ => b (Fin.last p))]
  have h1 : ∀ x : Fin t.dim × Fin v.dim, actTensor (rep g) (fun b : Fin (p + 1) → Fin D =>
      t.basis x.1 (Fin.init b) * v.basis x.2 fun _ => b (Fin.last p)) a =
      ∑ y : Fin t.dim × Fin v.dim, F g (finProdFinEquiv y) (finProdFinEquiv x) *
        (t.basis y.1 (Fin.init a) * v.basis y.2 fun _ => a (Fin.last p)) := by
    intro x
    rw [actTensor_snoc, ht g x.1, hv g x.2]
    beta_reduce
    rw [Finset.sum_mul_sum, Fintype.sum_prod_type]
    exact Finset.sum_congr rfl fun _ _ => Finset.sum_congr rfl fun _ _ => by rw [hF]; ring
  simp only [h1, h0, Finset.mul_sum, Finset.sum_mul]
  rw [Finset.sum_comm, Finset.sum_comm (s := (Finset.univ : Finset (Fin d)))]
  refine Finset.sum_congr rfl fun y _ => ?_
  have h2 := hc g i (finProdFinEquiv y)
  rw [← finProdFinEquiv.sum_comp] at h2
  calc _ = (∑ x : Fin t.dim × Fin v.dim, F g (finProdFinEquiv y) (finProdFinEquiv x) * c i (finProdFinEquiv x)) *
        (t.basis y.1 (Fin.init a) * v.basis y.2 fun _ => a (Fin.last p)) := by
        rw [Finset.sum_mul]; exact Finset.sum_congr rfl fun _ _ => by ring
    _ = _ := by rw [h2, Finset.sum_mul]; exact Finset.sum_congr rfl fun _ _ => by ring

theorem mem_mapM_flatten {α β : Type} {f : α → Except PyErr (List β × Bool)} {l : List α}
    {ls : List (List β × Bool)} (h : l.mapM f = .ok ls) {b : β} (hb : b ∈ (ls.map Prod.fst).flatten) :
    ∃ a ∈ l, ∃ r, f a = .ok r ∧ b ∈ r.1 := by
  rw [List.mem_flatten] at hb
  obtain ⟨x, hx, hbx⟩ := hb
  obtain ⟨r, hr, rfl⟩ := List.mem_map.1 hx
  obtain ⟨a, ha, har⟩ := forall₂_right (mapM_forall₂ h) hr
  exact ⟨a, ha, r, har, hbx⟩

/-- Invariant of the loops: the basis transforms, and its irrep is one of the list. -/
def TensorBasis.Good (rep : RepArr n D) (irreps : List (AnyRep n)) (t : TensorBasis n D p) : Prop :=
  t.Transforms rep ∧ (⟨t.dim, t.irrep⟩ : AnyRep n) ∈ irreps

theorem vectorBasis_good (hT : IsGroupTable T) {rep : RepArr n D} {irreps : List (AnyRep n)}
    (hrep : IsProjRep T (fun _ _ => 1) rep) (hru : IsUnitaryRep rep) (hE : ∀ E ∈ irreps, GoodIrrep T E.2)
    {la : LinAlg} {atol : ℝ} {vbs : List (TensorBasis n D 1)} {w : Bool}
    (h : vectorBasis la rep irreps atol = .ok (vbs, w)) : ∀ v ∈ vbs, v.Good rep irreps := by
  unfold vectorBasis at h
  simp only [bind, Except.bind, pure, Except.pure] at h
  split at h
  · cases h
  · rename_i ls hls
    cases h
    intro v hv
    obtain ⟨E, hEm, r, hr, hvr⟩ := mem_mapM_flatten hls hv
    split at hr
    · cases hr
    · rename_i x hx
      cases hr
      obtain ⟨b, hb, rfl⟩ := List.mem_map.1 hvr
      refine ⟨fun g i => ?_, hEm⟩
      funext a
      rw [actTensor_one]
      exact projectToIrrep_transforms hT hrep hru (hE E hEm) hx b hb g i (a 0)

theorem tensorPair_good (hT : IsGroupTable T) {rep : RepArr n D} {irreps : List (AnyRep n)}
    (hE : ∀ E ∈ irreps, GoodIrrep T E.2) {la : LinAlg} {atol : ℝ} {t : TensorBasis n D p} {v : TensorBasis n D 1}
    (ht : t.Good rep irreps) (hv : v.Good rep irreps) {r : List (TensorBasis n D (p + 1)) × Bool}
    (h : tensorPair la irreps atol t v = .ok r) : ∀ x ∈ r.1, x.Good rep irreps := by
  have h1 := hE _ ht.2
  have h2 := hE _ hv.2
  unfold tensorPair at h
  simp only [bind, Except.bind, pure, Except.pure] at h
  split at h
  · cases h
  · rename_i F hF
    obtain ⟨F', hF', hFe, hFr, hFu, _⟩ := c23_direct_product.2 t.irrep v.irrep
    rw [hF] at hF'
    cases hF'
    split at h
    · cases h
    · rename_i ls hls
      cases h
      intro x hx
      obtain ⟨E, hEm, r, hr, hxr⟩ := mem_mapM_flatten hls hx
      split at hr
      · cases hr
      · rename_i y hy
        cases hr
        obtain ⟨c, hc, rfl⟩ := List.mem_map.1 hxr
        refine ⟨fun g i => ?_, hEm⟩
        have hFr' : IsProjRep T (fun _ _ => 1) F := by
          have := hFr T _ _ h1.rep h2.rep
          simpa using this
        exact contract_transforms ht.1 hv.1 hFe
          (projectToIrrep_transforms hT hFr' (hFu h1.unitary h2.unitary) (hE E hEm) hy c hc) g i

theorem tensorStep_good (hT : IsGroupTable T) {rep : RepArr n D} {irreps : List (AnyRep n)}
    (hE : ∀ E ∈ irreps, GoodIrrep T E.2) {la : LinAlg} {atol : ℝ} {tbs : List (TensorBasis n D p)}
    {vbs : List (TensorBasis n D 1)} (ht : ∀ t ∈ tbs, t.Good rep irreps) (hv : ∀ v ∈ vbs, v.Good rep irreps)
    {r : List (TensorBasis n D (p + 1)) × Bool} (h : tensorStep la irreps atol tbs vbs = .ok r) :
    ∀ x ∈ r.1, x.Good rep irreps := by
  unfold tensorStep at h
  simp only [bind, Except.bind, pure, Except.pure] at h
  split at h
  · cases h
  · rename_i ls hls
    cases h
    intro x hx
    obtain ⟨tv, htv, r, hr, hxr⟩ := mem_mapM_flatten hls hx
    obtain ⟨t, ht', htv⟩ := List.mem_flatMap.1 htv
    obtain ⟨v, hv', rfl⟩ := List.mem_map.1 htv
    exact tensorPair_good hT hE (ht t ht') (hv v hv') hr x hxr

theorem tensorLoop_good (hT : IsGroupTable T) {rep : RepArr n D} {irreps : List (AnyRep n)}
    (hE : ∀ E ∈ irreps, GoodIrrep T E.2) {la : LinAlg} {atol : ℝ} {vbs : List (TensorBasis n D 1)}
    (hv : ∀ v ∈ vbs, v.Good rep irreps) : ∀ (q : ℕ) {r : List (TensorBasis n D (q + 1)) × Bool},
    tensorLoop la irreps atol vbs q = .ok r → ∀ x ∈ r.1, x.Good rep irreps
  | 0, r, h => by
    cases h
    exact hv
  | q + 1, r, h => by
    unfold tensorLoop at h
    simp only [bind, Except.bind, pure, Except.pure] at h
    split at h
    · cases h
    · rename_i y hy
      split at h
      · cases h
      · rename_i z hz
        have h' := Except.ok.inj h
        subst h'
        exact tensorStep_good hT hE (r := z) (tensorLoop_good hT hE hv q hy) hv hz

/-- A one-dimensional representation whose character passes the comparison with the trivial one is trivial. -/
theorem eq_one_of_test (hT : IsGroupTable T) {E : RepArr n 1} (hE : IsProjRep T (fun _ _ => 1) E)
    (hu : IsUnitaryRep E) (h : IsEquivalentIrrep (charList E) (List.replicate n 1)) (g : Fin n) : E g = 1 := by
  have hn : 0 < n := table_pos hT
  have h1 : (List.replicate n 1 : List ℂ) = List.ofFn fun _ : Fin n => 1 := by rw [List.ofFn_const]
  unfold charList at h
  rw [h1, isEquivalentIrrep_ofFn] at h
  let O : RepArr n 1 := fun _ => 1
  have hO : IsProjRep T (fun _ _ => 1) O := fun _ _ => by simp [O]
  have hOu : IsUnitaryRep O := fun _ => by simp [O]
  obtain ⟨_, h3⟩ := table_char_orthogonality hT (fun _ _ => one_ne_zero) hO hE hOu (irreducible_dim_one O)
    (irreducible_dim_one E) hu
  by_cases he : AreEquivalent O E
  · obtain ⟨S, S', hS, hS', hg⟩ := he
    have h4 := hg g
    have : S' * S * E g = 1 := by rw [Matrix.mul_assoc, ← h4, Matrix.one_mul, hS']
    rw [hS', Matrix.one_mul] at this
    exact this
  · exfalso
    have h4 := h3 he
    have h5 : ∑ k, star (getCharacter E k) * 1 = 0 := by
      rw [← h4]
      refine Finset.sum_congr rfl fun k _ => ?_
      simp [O, getCharacter, Matrix.trace]
    rw [h5] at h
    rw [rintC_zero] at h
    exact hn.ne' (by exact_mod_cast h.symm)

theorem takeInvariant_spec (hT : IsGroupTable T) {rep : RepArr n D} {irreps : List (AnyRep n)}
    (hE : ∀ E ∈ irreps, GoodIrrep T E.2) : ∀ {tbs : List (TensorBasis n D p)} {ts acc : List (Tensor D p)},
    (∀ x ∈ tbs, x.Good rep irreps) → (∀ t ∈ acc, ∀ g, actTensor (rep g) t = t) →
    tbs.foldlM invariantStep acc = .ok ts → ∀ t ∈ ts, ∀ g, actTensor (rep g) t = t := by
  intro tbs
  induction tbs with
  | nil =>
    intro ts acc _ hacc h
    cases h
    exact hacc
  | cons x xs ih =>
    intro ts acc hgood hacc h
    rw [List.foldlM_cons] at h
    simp only [bind, Except.bind, invariantStep] at h
    have hgood' : ∀ y ∈ xs, y.Good rep irreps := fun y hy => hgood y (List.mem_cons_of_mem _ hy)
    split_ifs at h with h1 h2 h3
    · exact ih hgood' hacc h
    · refine ih hgood' ?_ h
      intro t ht g
      rcases List.mem_append.1 ht with ht | ht
      · exact hacc t ht g
      · rw [List.mem_singleton] at ht
        subst ht
        obtain ⟨hx, hxm⟩ := hgood x (List.mem_cons_self ..)
        have hgi := hE _ hxm
        clear hxm
        obtain ⟨d, E, B⟩ := x
        obtain rfl : d = 1 := by simp only at h1 h3; omega
        have h4 := hx g 0
        have h5 : E g = 1 := eq_one_of_test hT hgi.rep hgi.unitary h2 g
        simpa [h5] using h4
    · exact ih hgood' hacc h

theorem tensorsFrom_invariant_of (hT : IsGroupTable T) {rep : RepArr n D} {irreps : List (AnyRep n)}
    (hE : ∀ E ∈ irreps, GoodIrrep T E.2) {la : LinAlg} {rank : ℕ} {atol : ℝ}
    (hvg : ∀ x, vectorBasis la rep irreps atol = .ok x → ∀ v ∈ x.1, v.Good rep irreps)
    {ts : List (Tensor D (rank - 1 + 1))} {w : Bool} (h : tensorsFrom la rep irreps rank atol = .ok (ts, w)) :
    ∀ t ∈ ts, ∀ g, actTensor (rep g) t = t := by
  unfold tensorsFrom at h
  simp only [bind, Except.bind, pure, Except.pure] at h
  split at h
  · cases h
  · rename_i x hx
    split at h
    · cases h
    · rename_i y hy
      split at h
      · cases h
      · rename_i z hz
        cases h
        exact takeInvariant_spec hT hE (tensorLoop_good hT hE (hvg _ hx) _ hy) (by simp) hz

theorem tensorsFrom_invariant (hT : IsGroupTable T) {rep : RepArr n D} (hrep : IsProjRep T (fun _ _ => 1) rep)
    (hru : IsUnitaryRep rep) {irreps : List (AnyRep n)} (hE : ∀ E ∈ irreps, GoodIrrep T E.2) {la : LinAlg} {rank : ℕ}
    {atol : ℝ} {ts : List (Tensor D (rank - 1 + 1))} {w : Bool} (h : tensorsFrom la rep irreps rank atol = .ok (ts, w)) :
    ∀ t ∈ ts, ∀ g, actTensor (rep g) t = t :=
  tensorsFrom_invariant_of hT hE (fun _ hx => vectorBasis_good hT hrep hru hE hx) h

/-! ### apply_intrinsic_symmetry -/

theorem tensorNorm_sq (t : Tensor D p) : tensorNorm t ^ 2 = ∑ a, ‖t a‖ ^ 2 :=
  Real.sq_sqrt (Finset.sum_nonneg fun _ _ => sq_nonneg _)

theorem tensorNorm_nonneg (t : Tensor D p) : 0 ≤ tensorNorm t := Real.sqrt_nonneg _

theorem symmetrize_perm (t : Tensor D p) (τ : Equiv.Perm (Fin p)) : permTensor τ (symmetrize t) = symmetrize t := by
  funext a
  unfold permTensor symmetrize
  rw [← Equiv.sum_comp (Equiv.mulRight τ)]
  refine Finset.sum_congr rfl fun σ _ => ?_
  congr 2
  funext k
  simp [Function.comp, Equiv.Perm.mul_def]

theorem actTensor_perm (A : Matrix (Fin D) (Fin D) ℂ) (t : Tensor D p) (σ : Equiv.Perm (Fin p)) :
    actTensor A (permTensor σ t) = permTensor σ (actTensor A t) := by
  funext a
  unfold permTensor actTensor
  rw [← (Equiv.arrowCongr σ (Equiv.refl (Fin D))).sum_comp]
  refine Finset.sum_congr rfl fun b _ => ?_
  congr 1
  · rw [← Equiv.prod_comp σ]
    simp [Equiv.arrowCongr]
  · show t (_ ∘ σ) = t b
    congr 1
    funext k
    simp [Equiv.arrowCongr]

theorem symmetrize_eq (t : Tensor D p) : symmetrize t =
    fun a => ∑ σ : Equiv.Perm (Fin p), (tensorNorm t : ℂ)⁻¹ * permTensor σ t a := by
  funext a
  unfold symmetrize permTensor
  rw [← Equiv.sum_comp (Equiv.inv (Equiv.Perm (Fin p)))]
  refine Finset.sum_congr rfl fun σ _ => ?_
  rw [div_eq_mul_inv, mul_comm]
  rfl

theorem symmetrize_act {A : Matrix (Fin D) (Fin D) ℂ} {t : Tensor D p} (h : actTensor A t = t) :
    actTensor A (symmetrize t) = symmetrize t := by
  rw [symmetrize_eq]
  funext a
  rw [actTensor_sum Finset.univ A (fun σ : Equiv.Perm (Fin p) => permTensor σ t) (fun _ => (tensorNorm t : ℂ)⁻¹)]
  refine Finset.sum_congr rfl fun σ _ => ?_
  rw [actTensor_perm, h]

theorem actTensor_smul (A : Matrix (Fin D) (Fin D) ℂ) (c : ℂ) (t : Tensor D p) :
    actTensor A (c • t) = c • actTensor A t := by
  funext a
  unfold actTensor
  rw [Pi.smul_apply, smul_eq_mul, Finset.mul_sum]
  exact Finset.sum_congr rfl fun _ _ => by rw [Pi.smul_apply, smul_eq_mul]; ring

/-- The cases of one iteration. -/
theorem intrinsicStep_cases {la : LinAlg} {atol : ℝ} {basis basis' : List (Tensor D p)} {t : Tensor D p}
    (h : intrinsicStep la atol basis t = .ok basis') : basis' = basis ∨ (0 < tensorNorm t ∧
      0 < tensorNorm (symmetrize t) ∧ basis' = basis ++ [((tensorNorm (symmetrize t))⁻¹ : ℂ) • symmetrize t] ∧
      (0 < basis.length → ∃ dist : ℝ, 0.5 ≤ dist ∧ grassmannDistance la
        (flattenTensor (((tensorNorm (symmetrize t))⁻¹ : ℂ) • symmetrize t)) (stackTensors basis) = .ok dist)) := by
  have hs : (fun a => symmetrize t a / (tensorNorm (symmetrize t) : ℂ)) =
      ((tensorNorm (symmetrize t))⁻¹ : ℂ) • symmetrize t := by
    funext a
    rw [Pi.smul_apply, smul_eq_mul, div_eq_mul_inv, mul_comm]
  unfold intrinsicStep at h
  dsimp only at h
  by_cases h1 : tensorNorm t = 0
  · rw [if_pos h1] at h; cases h
  rw [if_neg h1] at h
  by_cases h2 : ∀ a, IsCloseC 1e-5 atol (symmetrize t a) 0
  · rw [if_pos h2] at h; cases h; exact Or.inl rfl
  rw [if_neg h2] at h
  by_cases h3 : tensorNorm (symmetrize t) = 0
  · rw [if_pos h3] at h; cases h
  rw [if_neg h3, hs] at h
  have hp1 := lt_of_le_of_ne (tensorNorm_nonneg t) (Ne.symm h1)
  have hp2 := lt_of_le_of_ne (tensorNorm_nonneg _) (Ne.symm h3)
  by_cases h4 : 0 < basis.length
  · rw [if_pos h4] at h
    simp only [bind, Except.bind] at h
    split at h
    · cases h
    · rename_i dist hd
      split_ifs at h with h5
      · left; cases h; rfl
      · right
        cases h
        exact ⟨hp1, hp2, rfl, fun _ => ⟨dist, not_lt.1 h5, hd⟩⟩
  · rw [if_neg h4] at h
    cases h
    exact Or.inr ⟨hp1, hp2, rfl, fun h => absurd h h4⟩

theorem foldlM_inv_mem {α β : Type*} {f : β → α → Except PyErr β} {P : β → Prop} :
    ∀ (l : List α) (b b' : β), (∀ b, ∀ a ∈ l, ∀ b', P b → f b a = .ok b' → P b') → P b → l.foldlM f b = .ok b' → P b'
  | [], b, b', _, hb, h => by
    simp only [List.foldlM_nil] at h
    cases h; exact hb
  | a :: l, b, b', hf, hb, h => by
    rw [List.foldlM_cons] at h
    simp only [bind, Except.bind] at h
    split at h
    · cases h
    · rename_i c hc
      exact foldlM_inv_mem l c b' (fun b a ha => hf b a (List.mem_cons_of_mem _ ha))
        (hf b a (List.mem_cons_self ..) c hb hc) h

end Spgrep
