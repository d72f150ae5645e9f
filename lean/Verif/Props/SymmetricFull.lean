/-
C104, positive part: for multiplicity-free representations all symmetric invariant tensors of rank two are found.
-/
import Verif.Props.SymmetricCount

namespace Spgrep

open Spec

variable {n D p : ℕ} {T : Fin n → Fin n → Fin n}

/-! ### Lists of tensors whose symmetrised forms are orthogonal or proportional -/

/-- The distance of a vector from the span of vectors orthogonal to it is one. -/
theorem grassmann_orth {la : LinAlg} (hla : la.Contract) {N l : ℕ} {b1 : Matrix (Fin 1) (Fin N) ℂ}
    {b2 : Matrix (Fin l) (Fin N) ℂ} (h1 : LinearIndependent ℂ b1.row) (h2 : LinearIndependent ℂ b2.row) (hl : 0 < l)
    (ho : ∀ j, ∑ x, star (b1 0 x) * b2 j x = 0) : grassmannDistance la b1 b2 .min = .ok 1 := by
  obtain ⟨Q1, Q2, -, -, ⟨-, S1, -, hS1⟩, ⟨-, S2, -, hS2⟩, r, hr, σ, -, ⟨-, -, U, V, hU, hV, hA⟩, hd, -⟩ :=
    grassmann_frames hla h1 h2 one_pos hl
  have h0 : Q1.conjTranspose * Q2 = 0 := by
    have h3 : b1.transpose.conjTranspose * b2.transpose = 0 := by
      ext i j
      rw [Subsingleton.elim i 0, Matrix.mul_apply]
      exact ho j
    rw [hS1, hS2, Matrix.conjTranspose_mul, Matrix.mul_assoc, ← Matrix.mul_assoc b1.transpose.conjTranspose, h3,
      Matrix.zero_mul, Matrix.mul_zero]
  have hσ : ∀ i, σ i = 0 := by
    intro i
    have h4 : Matrix.diagonal (fun i => (σ i : ℂ)) = 0 := by
      calc Matrix.diagonal (fun i => (σ i : ℂ)) = U.conjTranspose * U * Matrix.diagonal (fun i => (σ i : ℂ)) *
            (V.conjTranspose * V) := by rw [hU, hV, Matrix.one_mul, Matrix.mul_one]
        _ = U.conjTranspose * (U * Matrix.diagonal (fun i => (σ i : ℂ)) * V.conjTranspose) * V := by
            simp only [Matrix.mul_assoc]
        _ = 0 := by rw [← hA, h0, Matrix.mul_zero, Matrix.zero_mul]
    have h5 := congrFun (congrFun h4 i) i
    rw [Matrix.diagonal_apply_eq, Matrix.zero_apply] at h5
    exact_mod_cast h5
  rw [hd, hσ, gMin]
  norm_num

theorem flatten_inner (s t : Tensor D p) :
    ∑ x, star (flattenTensor s 0 x) * flattenTensor t 0 x = ∑ a, star (s a) * t a :=
  finFunctionFinEquiv.symm.sum_comp fun a => star (s a) * t a

theorem normalized_symmetrize (t : Tensor D p) : (fun a => symmetrize t a / (tensorNorm (symmetrize t) : ℂ)) =
    (((tensorNorm (symmetrize t))⁻¹ : ℂ) * ((tensorNorm t)⁻¹ : ℂ)) • symSum t := by
  rw [← smul_smul, ← symmetrize_symSum]
  funext a
  rw [Pi.smul_apply, smul_eq_mul, div_eq_mul_inv, mul_comm]

/-- A tensor whose symmetrised form is orthogonal to all previous ones is accepted. -/
theorem step_accept {la : LinAlg} (hla : la.Contract) {atol : ℝ} (ha : 0 ≤ atol) {bs : List (Tensor D p)} {t : Tensor D p}
    (hb : LinearIndependent ℂ bs.get) (ht : t ≠ 0) (hbig : ∃ a, atol < ‖symmetrize t a‖)
    (ho : ∀ u ∈ bs, ∑ a, star (symSum t a) * u a = 0) :
    ∃ c : ℂ, c ≠ 0 ∧ intrinsicStep la atol bs t = .ok (bs ++ [c • symSum t]) := by
  classical
  have hs0 : symmetrize t ≠ 0 := by
    intro h0
    obtain ⟨a, h1⟩ := hbig
    rw [h0] at h1
    simp at h1
    linarith
  have hn1 := tensorNorm_pos ht
  have hn2 := tensorNorm_pos hs0
  refine ⟨((tensorNorm (symmetrize t))⁻¹ : ℂ) * ((tensorNorm t)⁻¹ : ℂ), mul_ne_zero (inv_ne_zero
    (by exact_mod_cast hn2.ne')) (inv_ne_zero (by exact_mod_cast hn1.ne')), ?_⟩
  unfold intrinsicStep
  rw [if_neg hn1.ne']
  dsimp only
  rw [if_neg ?_, if_neg hn2.ne', normalized_symmetrize]
  · by_cases h0 : 0 < bs.length
    · rw [if_pos h0]
      have hne : (((tensorNorm (symmetrize t))⁻¹ : ℂ) * ((tensorNorm t)⁻¹ : ℂ)) • symSum t ≠ 0 := by
        rw [← smul_smul, ← symmetrize_symSum]
        exact normalized_ne_zero hn2
      rw [grassmann_orth hla (flatten_indep hne) ((stack_indep_iff bs).2 hb) h0 ?_]
      · simp only [bind, Except.bind]
        rw [if_neg (by norm_num)]
      · intro j
        have h3 := ho (bs.get j) (List.get_mem _ _)
        refine (flatten_inner _ (bs.get j)).trans ?_
        simp only [Pi.smul_apply, smul_eq_mul, star_mul', mul_assoc]
        simp only [← Finset.mul_sum, h3, mul_zero]
    · rw [if_neg h0]
  · intro hall
    obtain ⟨a, h1⟩ := hbig
    have h2 := hall a
    unfold IsCloseC at h2
    rw [sub_zero, norm_zero, mul_zero, add_zero] at h2
    linarith

/-- If the symmetrised forms are pairwise orthogonal or proportional and none is tiny, nothing is lost. -/
theorem intrinsic_full {la : LinAlg} (hla : la.Contract) {atol : ℝ} (ha : 0 ≤ atol) {ts : List (Tensor D p)}
    (h0 : ∀ t ∈ ts, t ≠ 0) (hbig : ∀ t ∈ ts, symSum t ≠ 0 → ∃ a, atol < ‖symmetrize t a‖)
    (hpair : ∀ t ∈ ts, ∀ t' ∈ ts, (∑ a, star (symSum t a) * symSum t' a = 0) ∨ symSum t' = 0 ∨
      ∃ c : ℂ, symSum t = c • symSum t') :
    ∀ (l : List (Tensor D p)) (bs : List (Tensor D p)), (∀ t ∈ l, t ∈ ts) → LinearIndependent ℂ bs.get →
      (∀ u ∈ bs, ∃ t ∈ ts, ∃ c : ℂ, c ≠ 0 ∧ u = c • symSum t) → ∀ us, l.foldlM (intrinsicStep la atol) bs = .ok us →
      (∀ u ∈ bs, u ∈ us) ∧ ∀ t ∈ l, symSum t ∈ Submodule.span ℂ {u | u ∈ us} := by
  intro l
  induction l with
  | nil =>
    intro bs _ _ _ us h
    cases h
    exact ⟨fun u hu => hu, by simp⟩
  | cons t l ih =>
    intro bs hl hb hbs us h
    have ht := hl t List.mem_cons_self
    rw [List.foldlM_cons] at h
    cases hstep : intrinsicStep la atol bs t with
    | error e => rw [hstep] at h; cases h
    | ok bs' =>
      rw [hstep] at h
      change l.foldlM (intrinsicStep la atol) bs' = .ok us at h
      have hb' := intrinsicStep_indep hla hb hstep
      have hsub : ∀ u ∈ bs, u ∈ bs' := by
        intro u hu
        rcases intrinsicStep_cases hstep with rfl | ⟨-, -, rfl, -⟩
        · exact hu
        · exact List.mem_append_left _ hu
      have hbs' : ∀ u ∈ bs', ∃ t ∈ ts, ∃ c : ℂ, c ≠ 0 ∧ u = c • symSum t := by
        intro u hu
        rcases intrinsicStep_cases hstep with rfl | ⟨q1, q2, rfl, -⟩
        · exact hbs u hu
        · rcases List.mem_append.1 hu with hu | hu
          · exact hbs u hu
          · obtain rfl := List.mem_singleton.1 hu
            refine ⟨t, ht, ((tensorNorm (symmetrize t))⁻¹ : ℂ) * ((tensorNorm t)⁻¹ : ℂ), mul_ne_zero (inv_ne_zero
              (by exact_mod_cast q2.ne')) (inv_ne_zero (by exact_mod_cast q1.ne')), ?_⟩
            rw [← smul_smul, ← symmetrize_symSum]
      have hmem : symSum t ∈ Submodule.span ℂ {u | u ∈ bs'} := by
        by_cases hz : symSum t = 0
        · rw [hz]; exact Submodule.zero_mem _
        by_cases hex : ∃ u ∈ bs, ∃ c : ℂ, symSum t = c • u
        · obtain ⟨u, hu, c, hc⟩ := hex
          rw [hc]
          exact Submodule.smul_mem _ _ (Submodule.subset_span (hsub u hu))
        · obtain ⟨c, hc, hacc⟩ := step_accept hla ha hb (h0 t ht) (hbig t ht hz) (fun u hu => by
            obtain ⟨t', ht', c', hc', rfl⟩ := hbs u hu
            rcases hpair t ht t' ht' with h1 | h1 | ⟨c, h1⟩
            · simp only [Pi.smul_apply, smul_eq_mul]
              simp only [mul_left_comm _ c']
              rw [← Finset.mul_sum, h1, mul_zero]
            · rw [h1]; simp
            · exact absurd ⟨_, hu, c * c'⁻¹, by rw [smul_smul, mul_assoc, inv_mul_cancel₀ hc', mul_one, h1]⟩ hex)
          rw [hstep] at hacc
          obtain rfl := Except.ok.inj hacc
          have h2 : c • symSum t ∈ Submodule.span ℂ {u | u ∈ bs ++ [c • symSum t]} :=
            Submodule.subset_span (List.mem_append_right _ (List.mem_singleton.2 rfl))
          have h3 := Submodule.smul_mem _ c⁻¹ h2
          rwa [smul_smul, inv_mul_cancel₀ hc, one_smul] at h3
      obtain ⟨i1, i2⟩ := ih bs' (fun t ht => hl t (List.mem_cons_of_mem _ ht)) hb' hbs' us h
      refine ⟨fun u hu => i1 u (hsub u hu), fun t' ht' => ?_⟩
      rcases List.mem_cons.1 ht' with rfl | ht'
      · exact Submodule.span_mono (fun u hu => i1 u hu) hmem
      · exact i2 t' ht'

/-! ### Multiplicity-free representations -/

/-- No irrep occurs twice, in terms of the representation alone: the matrices commuting with it commute. -/
def Spec.IsMultiplicityFree (rep : RepArr n D) : Prop :=
  ∀ A B : Matrix (Fin D) (Fin D) ℂ, (∀ g, rep g * A = A * rep g) → (∀ g, rep g * B = B * rep g) → A * B = B * A

theorem adj_intertwine {d : ℕ} {rep : RepArr n D} (hru : IsUnitaryRep rep) {E : RepArr n d} (hEu : IsUnitaryRep E)
    {X : Matrix (Fin D) (Fin d) ℂ} (hX : ∀ g, rep g * X = X * E g) (g : Fin n) :
    E g * X.conjTranspose = X.conjTranspose * rep g := by
  have hr' : (rep g).conjTranspose * rep g = 1 := mul_eq_one_comm.1 (hru g)
  have h := congrArg Matrix.conjTranspose (hX g)
  rw [Matrix.conjTranspose_mul, Matrix.conjTranspose_mul] at h
  calc E g * X.conjTranspose = E g * X.conjTranspose * ((rep g).conjTranspose * rep g) := by rw [hr', Matrix.mul_one]
    _ = E g * (X.conjTranspose * (rep g).conjTranspose) * rep g := by simp only [Matrix.mul_assoc]
    _ = E g * (E g).conjTranspose * (X.conjTranspose * rep g) := by rw [h]; simp only [Matrix.mul_assoc]
    _ = X.conjTranspose * rep g := by rw [hEu g, Matrix.one_mul]

theorem gram_intertwine {d d' : ℕ} {rep : RepArr n D} (hru : IsUnitaryRep rep) {E : RepArr n d} {E' : RepArr n d'}
    (hEu : IsUnitaryRep E) {X : Matrix (Fin D) (Fin d) ℂ} {X' : Matrix (Fin D) (Fin d') ℂ}
    (hX : ∀ g, rep g * X = X * E g) (hX' : ∀ g, rep g * X' = X' * E' g) (g : Fin n) :
    E g * (X.conjTranspose * X') = X.conjTranspose * X' * E' g := by
  rw [← Matrix.mul_assoc, adj_intertwine hru hEu hX g, Matrix.mul_assoc, hX' g, Matrix.mul_assoc]

theorem gram_scalar_ne {d : ℕ} {rep : RepArr n D} (hru : IsUnitaryRep rep) {E : RepArr n d}
    (hEu : IsUnitaryRep E) (hEi : IsIrreducible E) {X : Matrix (Fin D) (Fin d) ℂ}
    (hX : ∀ g, rep g * X = X * E g) (h0 : X ≠ 0) : ∃ s : ℂ, s ≠ 0 ∧ X.conjTranspose * X = s • 1 := by
  obtain ⟨s, hs⟩ := schur_scalar hEi (gram_intertwine hru hEu hX hX)
  refine ⟨s, fun h => h0 ?_, hs⟩
  rw [h, zero_smul] at hs
  exact gram_eq_zero hs

/-- In a multiplicity-free representation two irreducible blocks are orthogonal or the same. -/
theorem block_dichotomy {d d' : ℕ} {rep : RepArr n D} (hru : IsUnitaryRep rep) (hmf : IsMultiplicityFree rep)
    {E : RepArr n d} {E' : RepArr n d'} (hEu : IsUnitaryRep E) (hEi : IsIrreducible E) (hEi' : IsIrreducible E')
    {X : Matrix (Fin D) (Fin d) ℂ} {X' : Matrix (Fin D) (Fin d') ℂ}
    (hX : ∀ g, rep g * X = X * E g) (hX' : ∀ g, rep g * X' = X' * E' g) :
    X.conjTranspose * X' = 0 ∨ ∃ W : Matrix (Fin d) (Fin d') ℂ, X' = X * W := by
  by_cases hz : X.conjTranspose * X' = 0
  · exact .inl hz
  refine .inr ?_
  have hZ := gram_intertwine hru hEu hX hX'
  obtain ⟨Z', h1, h2⟩ := schur_equiv hEi hEi' hZ hz
  set Z := X.conjTranspose * X' with hZd
  have hZ' : ∀ g, E' g * Z' = Z' * E g := by
    intro g
    calc E' g * Z' = Z' * Z * E' g * Z' := by rw [h2, Matrix.one_mul]
      _ = Z' * (Z * E' g) * Z' := by simp only [Matrix.mul_assoc]
      _ = Z' * E g * (Z * Z') := by rw [← hZ g]; simp only [Matrix.mul_assoc]
      _ = Z' * E g := by rw [h1, Matrix.mul_one]
  have hY : ∀ g, rep g * (X' * Z') = X' * Z' * E g := by
    intro g
    rw [← Matrix.mul_assoc, hX' g, Matrix.mul_assoc, hZ' g, Matrix.mul_assoc]
  have hXY : X.conjTranspose * (X' * Z') = 1 := by rw [← Matrix.mul_assoc]; exact h1
  set Y := X' * Z' with hYd
  have hne1 : (1 : Matrix (Fin d) (Fin d) ℂ) ≠ 0 := by
    have : Nonempty (Fin d) := hEi.1
    exact one_ne_zero
  have hX0 : X ≠ 0 := by
    rintro rfl
    rw [Matrix.conjTranspose_zero, Matrix.zero_mul] at hXY
    exact hne1 hXY.symm
  have hY0 : Y ≠ 0 := by
    intro h
    rw [h, Matrix.mul_zero] at hXY
    exact hne1 hXY.symm
  obtain ⟨s, hs, hsX⟩ := gram_scalar_ne hru hEu hEi hX hX0
  obtain ⟨r, hr, hrY⟩ := gram_scalar_ne hru hEu hEi hY hY0
  have hA : ∀ g, rep g * (X * Y.conjTranspose) = X * Y.conjTranspose * rep g := by
    intro g
    rw [← Matrix.mul_assoc, hX g, Matrix.mul_assoc, adj_intertwine hru hEu hY g, Matrix.mul_assoc]
  have hB : ∀ g, rep g * (Y * X.conjTranspose) = Y * X.conjTranspose * rep g := by
    intro g
    rw [← Matrix.mul_assoc, hY g, Matrix.mul_assoc, adj_intertwine hru hEu hX g]
    exact (Matrix.mul_assoc _ _ _).symm
  have hc := congrArg (· * Y) (hmf _ _ hA hB)
  have e1 : X * Y.conjTranspose * (Y * X.conjTranspose) * Y = r • X := by
    calc X * Y.conjTranspose * (Y * X.conjTranspose) * Y = X * (Y.conjTranspose * Y) * (X.conjTranspose * Y) := by
          simp only [Matrix.mul_assoc]
      _ = r • X := by rw [hrY, hXY, Matrix.mul_one, Matrix.mul_smul, Matrix.mul_one]
  have e2 : Y * X.conjTranspose * (X * Y.conjTranspose) * Y = (s * r) • Y := by
    calc Y * X.conjTranspose * (X * Y.conjTranspose) * Y = Y * (X.conjTranspose * X) * (Y.conjTranspose * Y) := by
          simp only [Matrix.mul_assoc]
      _ = (s * r) • Y := by
          rw [hsX, hrY, Matrix.mul_smul, Matrix.mul_smul, Matrix.mul_one, Matrix.mul_one, smul_smul, mul_comm]
  simp only [e1, e2] at hc
  have h3 : X = s • Y := by
    have := congrArg (r⁻¹ • ·) hc
    simp only [smul_smul] at this
    rwa [inv_mul_cancel₀ hr, one_smul, mul_comm s, ← mul_assoc, inv_mul_cancel₀ hr, one_mul] at this
  refine ⟨s⁻¹ • Z, ?_⟩
  rw [h3, Matrix.mul_smul, Matrix.smul_mul, smul_smul, inv_mul_cancel₀ hs, one_smul, hYd, Matrix.mul_assoc, h2,
    Matrix.mul_one]

/-- A matrix supported on a pair of irreducible blocks of a representation. -/
def Supported (rep : RepArr n D) (M : Matrix (Fin D) (Fin D) ℂ) : Prop :=
  ∃ (d e : ℕ) (E : RepArr n d) (F : RepArr n e) (X : Matrix (Fin D) (Fin d) ℂ) (Y : Matrix (Fin D) (Fin e) ℂ)
    (C : Matrix (Fin d) (Fin e) ℂ), IsUnitaryRep E ∧ IsIrreducible E ∧ IsUnitaryRep F ∧ IsIrreducible F ∧
      (∀ g, rep g * X = X * E g) ∧ (∀ g, rep g * Y = Y * F g) ∧ M = X * C * Y.transpose

theorem Supported.transpose {rep : RepArr n D} {M : Matrix (Fin D) (Fin D) ℂ} (h : Supported rep M) :
    Supported rep M.transpose := by
  obtain ⟨d, e, E, F, X, Y, C, h1, h2, h3, h4, h5, h6, rfl⟩ := h
  refine ⟨e, d, F, E, Y, X, C.transpose, h3, h4, h1, h2, h6, h5, ?_⟩
  rw [Matrix.transpose_mul, Matrix.transpose_mul, Matrix.transpose_transpose, Matrix.mul_assoc]

/-- The coefficients of an invariant matrix intertwine. -/
theorem coeff_intertwine {d e : ℕ} {rep : RepArr n D} (hru : IsUnitaryRep rep) {E : RepArr n d} {F : RepArr n e}
    (hEu : IsUnitaryRep E) (hFu : IsUnitaryRep F) {X : Matrix (Fin D) (Fin d) ℂ} {Y : Matrix (Fin D) (Fin e) ℂ}
    (hX : ∀ g, rep g * X = X * E g) (hY : ∀ g, rep g * Y = Y * F g) {s r : ℂ} (hs : s ≠ 0) (hr : r ≠ 0)
    (hsX : X.conjTranspose * X = s • 1) (hrY : Y.conjTranspose * Y = r • 1) {C : Matrix (Fin d) (Fin e) ℂ}
    (hM : ∀ g, rep g * (X * C * Y.transpose) * (rep g).transpose = X * C * Y.transpose) (g : Fin n) :
    E g * C = C * (F g).map star := by
  have hrY' : Y.transpose * Y.map star = r • 1 := by
    have := congrArg Matrix.transpose hrY
    rw [Matrix.transpose_mul, Matrix.transpose_smul, Matrix.transpose_one] at this
    rw [← this]
    rfl
  have hFY : Y.map star * (F g).transpose = (rep g).transpose * Y.map star := by
    have := congrArg Matrix.transpose (adj_intertwine hru hFu hY g)
    rw [Matrix.transpose_mul, Matrix.transpose_mul] at this
    exact this
  have hC : ∀ A : Matrix (Fin d) (Fin e) ℂ, X.conjTranspose * (X * A * Y.transpose) * Y.map star = (s * r) • A := by
    intro A
    calc X.conjTranspose * (X * A * Y.transpose) * Y.map star
        = (X.conjTranspose * X) * A * (Y.transpose * Y.map star) := by simp only [Matrix.mul_assoc]
      _ = (s * r) • A := by
        rw [hsX, hrY', Matrix.smul_mul, Matrix.one_mul, Matrix.smul_mul, Matrix.mul_smul, Matrix.mul_one, smul_smul]
  have h1 : E g * C * (F g).transpose = C := by
    have h2 : (s * r) • (E g * C * (F g).transpose) = (s * r) • C := by
      rw [← hC C]
      conv_rhs => rw [← hM g]
      rw [← Matrix.smul_mul, ← Matrix.mul_smul, ← hC C]
      calc E g * (X.conjTranspose * (X * C * Y.transpose) * Y.map star) * (F g).transpose
          = E g * X.conjTranspose * (X * C * Y.transpose) * (Y.map star * (F g).transpose) := by
            simp only [Matrix.mul_assoc]
        _ = X.conjTranspose * rep g * (X * C * Y.transpose) * ((rep g).transpose * Y.map star) := by
            rw [adj_intertwine hru hEu hX g, hFY]
        _ = _ := by simp only [Matrix.mul_assoc]
    have h3 := congrArg ((s * r)⁻¹ • ·) h2
    simp only [smul_smul] at h3
    rwa [inv_mul_cancel₀ (mul_ne_zero hs hr), one_smul, one_smul] at h3
  have h4 : (F g).transpose * (F g).map star = 1 := by
    have h5 : (F g).conjTranspose * F g = 1 := mul_eq_one_comm.1 (hFu g)
    have := congrArg Matrix.transpose h5
    rw [Matrix.transpose_mul, Matrix.transpose_one] at this
    exact this
  calc E g * C = E g * C * ((F g).transpose * (F g).map star) := by rw [h4, Matrix.mul_one]
    _ = C * (F g).map star := by rw [← Matrix.mul_assoc, h1]

/-- Invariant matrices supported on pairs of blocks are orthogonal or proportional. -/
theorem supported_dichotomy {rep : RepArr n D} (hru : IsUnitaryRep rep) (hmf : IsMultiplicityFree rep)
    {M M' : Matrix (Fin D) (Fin D) ℂ} (h : Supported rep M) (h' : Supported rep M')
    (hM : ∀ g, rep g * M * (rep g).transpose = M) (hM' : ∀ g, rep g * M' * (rep g).transpose = M') :
    (M.conjTranspose * M').trace = 0 ∨ ∃ c : ℂ, M = c • M' := by
  obtain ⟨d, e, E, F, X, Y, C, hEu, hEi, hFu, hFi, hX, hY, rfl⟩ := h
  obtain ⟨d', e', E', F', X', Y', C', hEu', hEi', hFu', hFi', hX', hY', rfl⟩ := h'
  have htr : ((X * C * Y.transpose).conjTranspose * (X' * C' * Y'.transpose)).trace =
      (C.conjTranspose * (X.conjTranspose * X') * C' * (Y.conjTranspose * Y').transpose).trace := by
    have e1 : (X * C * Y.transpose).conjTranspose = Y.map star * C.conjTranspose * X.conjTranspose := by
      rw [Matrix.conjTranspose_mul, Matrix.conjTranspose_mul, Matrix.mul_assoc]
      rfl
    have e2 : (Y.conjTranspose * Y').transpose = Y'.transpose * Y.map star := by
      rw [Matrix.transpose_mul]
      rfl
    rw [e1, e2, Matrix.mul_assoc (Y.map star), Matrix.mul_assoc (Y.map star), Matrix.trace_mul_comm (Y.map star)]
    simp only [Matrix.mul_assoc]
  rcases block_dichotomy hru hmf hEu hEi hEi' hX hX' with h1 | ⟨W, hW⟩
  · left
    rw [htr, h1, Matrix.mul_zero, Matrix.zero_mul, Matrix.zero_mul, Matrix.trace_zero]
  rcases block_dichotomy hru hmf hFu hFi hFi' hY hY' with h1 | ⟨V, hV⟩
  · left
    rw [htr, h1, Matrix.transpose_zero, Matrix.mul_zero, Matrix.trace_zero]
  have hMe : X' * C' * Y'.transpose = X * (W * C' * V.transpose) * Y.transpose := by
    rw [hW, hV, Matrix.transpose_mul]
    simp only [Matrix.mul_assoc]
  by_cases h0 : W * C' * V.transpose = 0
  · left
    rw [hMe, h0, Matrix.mul_zero, Matrix.zero_mul, Matrix.mul_zero, Matrix.trace_zero]
  by_cases hX0 : X = 0
  · left
    rw [hX0, Matrix.zero_mul, Matrix.zero_mul, Matrix.conjTranspose_zero, Matrix.zero_mul, Matrix.trace_zero]
  by_cases hY0 : Y = 0
  · left
    rw [hY0, Matrix.transpose_zero, Matrix.mul_zero, Matrix.conjTranspose_zero, Matrix.zero_mul, Matrix.trace_zero]
  right
  obtain ⟨s, hs, hsX⟩ := gram_scalar_ne hru hEu hEi hX hX0
  obtain ⟨r, hr, hrY⟩ := gram_scalar_ne hru hFu hFi hY hY0
  rw [hMe] at hM' ⊢
  have c1 := coeff_intertwine hru hEu hFu hX hY hs hr hsX hrY hM
  have c2 := coeff_intertwine hru hEu hFu hX hY hs hr hsX hrY hM'
  generalize W * C' * V.transpose = C1 at *
  obtain ⟨S, hS1, hS2⟩ := schur_equiv hEi (conj_irreducible hFi) c2 h0
  obtain ⟨c, hc⟩ := schur_scalar hEi (M := C * S) (fun g => by
    calc E g * (C * S) = C * (F g).map star * S := by rw [← Matrix.mul_assoc, c1 g]
      _ = C * (S * C1) * (F g).map star * S := by rw [hS2, Matrix.mul_one]
      _ = C * S * (C1 * (F g).map star) * S := by simp only [Matrix.mul_assoc]
      _ = C * S * E g * (C1 * S) := by rw [← c2 g]; simp only [Matrix.mul_assoc]
      _ = C * S * E g := by rw [hS1, Matrix.mul_one])
  have h3 : C = c • C1 := by
    calc C = C * S * C1 := by rw [Matrix.mul_assoc, hS2, Matrix.mul_one]
      _ = c • C1 := by rw [hc, Matrix.smul_mul, Matrix.one_mul]
  exact ⟨c, by rw [h3, Matrix.mul_smul, Matrix.smul_mul]⟩

/-! ### Tensors of rank two as matrices -/

/-- A tensor of rank two as a matrix. -/
def tMat (t : Tensor D 2) : Matrix (Fin D) (Fin D) ℂ := Matrix.of fun a b => t ![a, b]

theorem tMat_eta (t : Tensor D 2) (a : Fin 2 → Fin D) : t a = tMat t (a 0) (a 1) := by
  show t a = t ![a 0, a 1]
  congr 1
  funext i
  fin_cases i <;> rfl

theorem tMat_injective {s t : Tensor D 2} (h : tMat s = tMat t) : s = t := by
  funext a
  rw [tMat_eta s, h, ← tMat_eta t]

theorem sum_fin_two {X M : Type*} [Fintype X] [AddCommMonoid M] (f : (Fin 2 → X) → M) : ∑ a, f a = ∑ x, ∑ y, f ![x, y] := by
  rw [← (finTwoArrowEquiv X).symm.sum_comp, Fintype.sum_prod_type]
  rfl

theorem tMat_act (A : Matrix (Fin D) (Fin D) ℂ) (t : Tensor D 2) :
    tMat (actTensor A t) = A * tMat t * A.transpose := by
  ext x y
  show ∑ b, (∏ s, A (![x, y] s) (b s)) * t b = _
  rw [sum_fin_two, Matrix.mul_apply, Finset.sum_comm]
  refine Finset.sum_congr rfl fun j _ => ?_
  rw [Matrix.mul_apply, Finset.sum_mul]
  refine Finset.sum_congr rfl fun i _ => ?_
  simp [Fin.prod_univ_two, tMat]
  ring

theorem tMat_symSum (t : Tensor D 2) : tMat (symSum t) = tMat t + (tMat t).transpose := by
  ext x y
  show symSum t ![x, y] = _
  rw [symSum_eq]
  have hu : (Finset.univ : Finset (Equiv.Perm (Fin 2))) = {1, Equiv.swap 0 1} := by decide
  rw [hu, Finset.sum_pair (by decide), Pi.add_apply]
  show t (![x, y] ∘ _) + t (![x, y] ∘ _) = t _ + t _
  congr 2
  funext i
  fin_cases i <;> rfl

theorem tMat_inner (s t : Tensor D 2) : ∑ a, star (s a) * t a = ((tMat s).conjTranspose * tMat t).trace := by
  rw [sum_fin_two, Finset.sum_comm]
  rfl

theorem tMat_smul (c : ℂ) (t : Tensor D 2) : tMat (c • t) = c • tMat t := rfl

theorem symSum_inner (A B : Matrix (Fin D) (Fin D) ℂ) :
    ((A + A.transpose).conjTranspose * (B + B.transpose)).trace =
      2 * (A.conjTranspose * B).trace + 2 * (A.conjTranspose * B.transpose).trace := by
  have h1 : (A.transpose.conjTranspose * B).trace = (A.conjTranspose * B.transpose).trace := by
    have : A.transpose.conjTranspose = A.conjTranspose.transpose := rfl
    rw [this, ← Matrix.trace_transpose, Matrix.transpose_mul, Matrix.transpose_transpose, Matrix.trace_mul_comm]
  have h2 : (A.transpose.conjTranspose * B.transpose).trace = (A.conjTranspose * B).trace := by
    have : A.transpose.conjTranspose = A.conjTranspose.transpose := rfl
    rw [this, ← Matrix.transpose_mul, Matrix.trace_transpose, Matrix.trace_mul_comm]
  rw [Matrix.conjTranspose_add, Matrix.add_mul, Matrix.mul_add, Matrix.mul_add, Matrix.trace_add, Matrix.trace_add,
    Matrix.trace_add, h1, h2]
  ring

/-! ### The tensors of a run -/

theorem supported_of_contract {rep : RepArr n D} {L : List (AnyRep n)} (hu : ∀ E ∈ L, IsUnitaryRep E.2)
    (hi : ∀ E ∈ L, IsIrreducible E.2) {x y : TensorBasis n D 1} (hx : x.Good rep L) (hy : y.Good rep L) {d : ℕ}
    (c : Matrix (Fin d) (Fin (x.dim * y.dim)) ℂ) (i : Fin d) :
    Supported rep (tMat (contractBasis c x.basis y.basis i)) := by
  have hcol : ∀ z : TensorBasis n D 1, z.Good rep L → ∀ g, rep g * (Matrix.of fun a j => z.basis j fun _ => a) =
      (Matrix.of fun a j => z.basis j fun _ => a) * z.irrep g := by
    intro z hz g
    ext a j
    have h1 := congrFun (hz.1 g j) fun _ => a
    have h2 := actTensor_one (rep g) (fun m => z.basis j fun _ => m) fun _ => a
    have h3 : (fun b : Fin 1 → Fin D => z.basis j fun _ => b 0) = z.basis j := by
      funext b
      congr 1
      funext k
      rw [Subsingleton.elim k 0]
    rw [h3] at h2
    rw [h2] at h1
    exact h1
  refine ⟨x.dim, y.dim, x.irrep, y.irrep, _, _, Matrix.of fun j k => c i (finProdFinEquiv (j, k)), hu _ hx.2, hi _ hx.2,
    hu _ hy.2, hi _ hy.2, hcol x hx, hcol y hy, ?_⟩
  ext a b
  show ∑ j, ∑ k, c i (finProdFinEquiv (j, k)) * x.basis j (Fin.init ![a, b]) * y.basis k (fun _ => ![a, b] (Fin.last 1)) = _
  have h1 : (Fin.init ![a, b] : Fin 1 → Fin D) = fun _ => a := by
    funext k
    rw [Subsingleton.elim k 0]
    rfl
  rw [h1, Matrix.mul_apply, Finset.sum_comm]
  refine Finset.sum_congr rfl fun k _ => ?_
  rw [Matrix.mul_apply, Finset.sum_mul]
  refine Finset.sum_congr rfl fun j _ => ?_
  show c i (finProdFinEquiv (j, k)) * x.basis j (fun _ => a) * y.basis k (fun _ => b) =
    x.basis j (fun _ => a) * c i (finProdFinEquiv (j, k)) * y.basis k fun _ => b
  ring

theorem takeInvariant_mem_basis {tbs : List (TensorBasis n D p)} {ts : List (Tensor D p)} (h : takeInvariant tbs = .ok ts) :
    ∀ t ∈ ts, ∃ x ∈ tbs, ∃ i, t = x.basis i := by
  refine foldlM_inv_mem (P := fun ts => ∀ t ∈ ts, ∃ x ∈ tbs, ∃ i, t = x.basis i) tbs [] ts ?_ (by simp) h
  intro acc x hx acc' hacc hstep
  unfold invariantStep at hstep
  split_ifs at hstep with h1 h2 h3
  · cases hstep; exact hacc
  · cases hstep
    intro t ht
    rcases List.mem_append.1 ht with ht | ht
    · exact hacc t ht
    · exact ⟨x, hx, _, List.mem_singleton.1 ht⟩
  · cases hstep; exact hacc

theorem tensorsFrom_supported (hTg : IsGroupTable T) {L : List (AnyRep n)} (hL : IsCompleteIrreps T (fun _ _ => 1) L)
    {rep : RepArr n D} (hrep : IsProjRep T (fun _ _ => 1) rep) (hru : IsUnitaryRep rep) {la : LinAlg} {atol : ℝ}
    {ts : List (Tensor D 2)} {w : Bool} (h : tensorsFrom la rep L 2 atol = .ok (ts, w)) :
    ∀ t ∈ ts, Supported rep (tMat t) := by
  have hE : ∀ E ∈ L, GoodIrrep T E.2 := fun E hE => ⟨hL.rep E hE, hL.unitary E hE, .inl (hL.irred E hE)⟩
  unfold tensorsFrom at h
  simp only [bind, Except.bind, pure, Except.pure] at h
  split at h
  · cases h
  · rename_i vbs hv
    have hg := vectorBasis_good hTg hrep hru hE hv
    split at h
    · cases h
    · rename_i y hy
      split at h
      · cases h
      · rename_i z hz
        obtain ⟨h6, h7⟩ := Prod.mk.inj (Except.ok.inj h)
        subst h6
        change tensorLoop la L atol vbs.1 1 = _ at hy
        unfold tensorLoop at hy
        simp only [tensorLoop, bind, Except.bind, pure, Except.pure] at hy
        split at hy
        · cases hy
        · rename_i r hr
          cases hy
          intro t ht
          obtain ⟨x, hx, i, rfl⟩ := takeInvariant_mem_basis hz t ht
          unfold tensorStep at hr
          simp only [bind, Except.bind, pure, Except.pure] at hr
          split at hr
          · cases hr
          · rename_i ls hls
            cases hr
            obtain ⟨tv, htv, q, hq, hxq⟩ := mem_mapM_flatten hls hx
            obtain ⟨u, hu', htv⟩ := List.mem_flatMap.1 htv
            obtain ⟨v, hv', rfl⟩ := List.mem_map.1 htv
            unfold tensorPair at hq
            simp only [bind, Except.bind, pure, Except.pure] at hq
            split at hq
            · cases hq
            · split at hq
              · cases hq
              · rename_i ls' hls'
                cases hq
                obtain ⟨E, hEm, q', hq', hxq'⟩ := mem_mapM_flatten hls' hxq
                split at hq'
                · cases hq'
                · cases hq'
                  obtain ⟨c, hc, rfl⟩ := List.mem_map.1 hxq'
                  exact supported_of_contract hL.unitary hL.irred (hg u hu') (hg v hv') c i

/-- The square of the norm as an inner product. -/
theorem tensorNorm_inner (t : Tensor D p) : ((tensorNorm t ^ 2 : ℝ) : ℂ) = ∑ a, star (t a) * t a := by
  unfold tensorNorm
  rw [Real.sq_sqrt (Finset.sum_nonneg fun _ _ => sq_nonneg _)]
  push_cast
  exact Finset.sum_congr rfl fun a _ => (Complex.conj_mul' (t a)).symm

/-- A symmetrised tensor that is not zero has a large entry. -/
theorem symmetrize_large {rep : RepArr n D} (hru : IsUnitaryRep rep) (hmf : IsMultiplicityFree rep) {t : Tensor D 2}
    (hs : Supported rep (tMat t)) (hinv : ∀ g, actTensor (rep g) t = t) (h0 : t ≠ 0) (hne : symSum t ≠ 0) {atol : ℝ}
    (ha : D * atol ≤ 1) (ha0 : 0 ≤ atol) : ∃ a, atol < ‖symmetrize t a‖ := by
  have hn1 := tensorNorm_pos h0
  have hm : ∀ g, rep g * tMat t * (rep g).transpose = tMat t := fun g => by rw [← tMat_act, hinv g]
  have hm' : ∀ g, rep g * (tMat t).transpose * (rep g).transpose = (tMat t).transpose := fun g => by
    have := congrArg Matrix.transpose (hm g)
    rwa [Matrix.transpose_mul, Matrix.transpose_mul, Matrix.transpose_transpose, ← Matrix.mul_assoc] at this
  have hsq : 2 * tensorNorm t ^ 2 ≤ tensorNorm (symSum t) ^ 2 := by
    have e1 := tensorNorm_inner (symSum t)
    rw [tMat_inner, tMat_symSum, symSum_inner] at e1
    have e2 := tensorNorm_inner t
    rw [tMat_inner] at e2
    rw [← e2] at e1
    rcases supported_dichotomy hru hmf hs hs.transpose hm hm' with h1 | ⟨c, hc⟩
    · rw [h1, mul_zero, add_zero] at e1
      have : tensorNorm (symSum t) ^ 2 = 2 * tensorNorm t ^ 2 := by exact_mod_cast e1
      exact this.ge
    · have hc2 : (tMat t).transpose = c • tMat t := by
        have := congrArg Matrix.transpose hc
        rwa [Matrix.transpose_smul, Matrix.transpose_transpose] at this
      have hM0 : tMat t ≠ 0 := fun h => h0 (tMat_injective (h.trans rfl))
      have hcc : (c * c - 1) • tMat t = 0 := by
        rw [sub_smul, one_smul, ← smul_smul, ← hc2, ← hc, sub_self]
      have hcc' : c * c = 1 := sub_eq_zero.1 ((smul_eq_zero.1 hcc).resolve_right hM0)
      rcases mul_self_eq_one_iff.1 hcc' with rfl | rfl
      · rw [one_smul] at hc2
        rw [hc2, ← e2] at e1
        have : tensorNorm (symSum t) ^ 2 = 2 * tensorNorm t ^ 2 + 2 * tensorNorm t ^ 2 := by exact_mod_cast e1
        nlinarith [sq_nonneg (tensorNorm t)]
      · exfalso
        apply hne
        apply tMat_injective
        rw [tMat_symSum, hc2, neg_one_smul, add_neg_cancel]
        rfl
  by_contra hcon
  push Not at hcon
  have hle : tensorNorm (symmetrize t) ^ 2 ≤ (D * atol) ^ 2 := by
    unfold tensorNorm
    rw [Real.sq_sqrt (Finset.sum_nonneg fun _ _ => sq_nonneg _)]
    calc ∑ a, ‖symmetrize t a‖ ^ 2 ≤ ∑ _a : Fin 2 → Fin D, atol ^ 2 :=
          Finset.sum_le_sum fun a _ => pow_le_pow_left₀ (norm_nonneg _) (hcon a) 2
      _ = (D * atol) ^ 2 := by
          rw [Finset.sum_const, Finset.card_univ, Fintype.card_fun, Fintype.card_fin, Fintype.card_fin, nsmul_eq_mul]
          push_cast
          ring
  have heq : tensorNorm (symmetrize t) ^ 2 = tensorNorm (symSum t) ^ 2 / tensorNorm t ^ 2 := by
    rw [symmetrize_symSum, tensorNorm_smul, norm_inv, Complex.norm_real, Real.norm_eq_abs, abs_of_pos hn1, mul_pow, inv_pow]
    field_simp
  have h2 : 2 ≤ tensorNorm (symmetrize t) ^ 2 := by
    rw [heq, le_div_iff₀ (by positivity)]
    exact hsq
  have h3 : (D * atol) ^ 2 ≤ 1 := by
    have : 0 ≤ D * atol := by positivity
    nlinarith
  linarith

/-- **C104, multiplicity-free representations at rank two.** If no irrep occurs twice in the representation (the matrices
commuting with it commute), `apply_intrinsic_symmetry` loses nothing at rank two: for every tolerance up to one over the
dimension it returns a basis of all symmetric invariant tensors, and `2 n` times their number is
`Σ_g tr(A_g)² + tr(A_g²)`. -/
theorem c104_multiplicity_free {rots : Fin n → M3} (h : EnumeratesGroup rots) (hT : getCayleyTable rots = .ok T)
    {rep : RepArr n D} (hrep : IsProjRep T (fun _ _ => 1) rep) (hru : IsUnitaryRep rep) (hmf : IsMultiplicityFree rep)
    (o : Oracles) (ho : PointgroupContract o.pointgroup rots) (la : LinAlg) (hla : la.Contract) {atol : ℝ}
    (ha : 0 ≤ atol) (ha2 : atol ≤ 1 / 2) {ts : List (Tensor D 2)}
    (hrun : getSymmetryAdaptedTensors o la rep rots 2 false atol = .ok (ts, false)) {atol' : ℝ} (ha' : 0 ≤ atol')
    (ha2' : D * atol' ≤ 1) :
    ∃ us : List (Tensor D 2), applyIntrinsicSymmetry la ts atol' = .ok us ∧ (∀ u ∈ us, IsSymInvariant rep u) ∧
      LinearIndependent ℂ us.get ∧ (∀ t, IsSymInvariant rep t → t ∈ Submodule.span ℂ (Set.range us.get)) ∧
      ((2 * n * us.length : ℕ) : ℂ) = ∑ g, ((rep g).trace ^ 2 + (rep g ^ 2).trace) := by
  obtain ⟨us, m, hus, h1, h2, h3, h4, h5⟩ := c104_symmetric_tensors_partial h hT hrep hru o ho la hla 2 ha ha2 hrun ha'
  obtain ⟨T', hT', -, hTg⟩ := c01_cayley_table_ordinary h
  rw [hT] at hT'
  obtain rfl := Except.ok.inj hT'
  obtain ⟨b1, b2, b3⟩ := c58_tensors_basis_partial h hT hrep hru o ho la hla 2 false ha ha2 (by simp) hrun
  have h0 : ∀ t ∈ ts, t ≠ 0 := by
    intro t ht
    obtain ⟨i, rfl⟩ := List.get_of_mem ht
    exact b2.ne_zero i
  obtain ⟨out, w1, w2, r1, r2, r3⟩ := tensors_run hrun
  obtain ⟨rfl, rfl⟩ := (Bool.or_eq_false_iff).1 r3.symm
  have hsup := tensorsFrom_supported hTg (tensors_irreps_exact h hT o ho ha ha2 (.inl rfl) r1) hrep hru r2
  have hm : ∀ t ∈ ts, ∀ g, rep g * tMat t * (rep g).transpose = tMat t := fun t ht g => by
    rw [← tMat_act]
    exact congrArg tMat (b1 t ht g)
  have hm' : ∀ t ∈ ts, ∀ g, rep g * (tMat t).transpose * (rep g).transpose = (tMat t).transpose := fun t ht g => by
    have := congrArg Matrix.transpose (hm t ht g)
    rwa [Matrix.transpose_mul, Matrix.transpose_mul, Matrix.transpose_transpose, ← Matrix.mul_assoc] at this
  have hfull := (intrinsic_full hla ha' h0 (fun t ht hne => symmetrize_large hru hmf (hsup t ht) (b1 t ht) (h0 t ht) hne
    ha2' ha') (fun t ht t' ht' => by
      rcases supported_dichotomy hru hmf (hsup t ht) (hsup t' ht') (hm t ht) (hm t' ht') with q1 | ⟨c, q1⟩
      · rcases supported_dichotomy hru hmf (hsup t ht) (hsup t' ht').transpose (hm t ht) (hm' t' ht') with q2 | ⟨c, q2⟩
        · left
          rw [tMat_inner, tMat_symSum, tMat_symSum, symSum_inner, q1, q2, mul_zero, add_zero]
        · right; right
          refine ⟨c, tMat_injective ?_⟩
          rw [tMat_smul, tMat_symSum, tMat_symSum, q2, Matrix.transpose_smul, Matrix.transpose_transpose, smul_add, add_comm]
      · right; right
        refine ⟨c, tMat_injective ?_⟩
        rw [tMat_smul, tMat_symSum, tMat_symSum, q1, Matrix.transpose_smul, smul_add]) ts [] (fun t ht => ht) li_nil
    (by simp) us hus).2
  have hspan : ∀ t, IsSymInvariant rep t → t ∈ Submodule.span ℂ (Set.range us.get) := by
    intro t ht
    have e1 : t ∈ Submodule.span ℂ {s | ∃ t ∈ ts, s = symSum t} := by
      rw [span_symSum b1 b3]
      exact ht
    refine Submodule.span_le.2 ?_ e1
    rintro _ ⟨t, ht, rfl⟩
    have e2 := hfull t ht
    have e3 : {u | u ∈ us} = Set.range us.get := by
      ext u
      exact List.mem_iff_get
    rwa [e3] at e2
  refine ⟨us, hus, h1, h2, hspan, ?_⟩
  obtain rfl := h5.2 hspan
  have h6 : ∑ g, symTrace (2 - 1 + 1) (rep g) = ∑ g, ((rep g).trace ^ 2 + (rep g ^ 2).trace) :=
    Finset.sum_congr rfl fun g _ => symTrace_two (rep g)
  rw [← h6, ← h3, mul_comm 2 n]
  rfl

/-- Non-vacuity: the rotations of 4/m acting on vectors; the two symmetric tensors of rank two are found. -/
example : ∃ (o : Oracles) (la : LinAlg) (ts us : List (Tensor 3 2)), EnumeratesGroup rots4m ∧
    PointgroupContract o.pointgroup rots4m ∧ la.Contract ∧ IsMultiplicityFree (repOfRots rots4m) ∧
    getSymmetryAdaptedTensors o la (repOfRots rots4m) rots4m 2 = .ok (ts, false) ∧
    applyIntrinsicSymmetry la ts = .ok us ∧ us.length = 2 := by
  obtain ⟨random, hr⟩ := exists_richDraws 1e-8 8 4 fun d hd => by
    have : d ≤ 2 := by by_contra h; push Not at h; nlinarith
    nlinarith
  obtain ⟨la, hla⟩ := exists_linAlg_contract
  let o : Oracles := { random := random, eig := fun d _ => (fun _ => 0, 0), eigh := fun d _ => (fun _ => 0, 0),
                       qr := fun _ _ _ => 0,
                       pointgroup := (PgSymbol.pg_4_m, (1 : M3).map fun x : ℤ => (x : ℝ)) }
  have ho : PointgroupContract o.pointgroup rots4m := pointgroup_4m
  obtain ⟨L, w, hraw, hw2, hw⟩ := c64_exact_entries rots4m_group cayley_4m.1 o ho 1e-5 (atol := 1e-8) (by norm_num)
    (by norm_num) 4
  obtain ⟨l, henum, -⟩ := hw (hw2 hr)
  obtain ⟨ts, h1, -⟩ := c77_tensor_count rots4m_group cayley_4m.1 (repOfRots_proj cayley_4m.1)
    (repOfRots_unitary (by decide +kernel)) o ho la hla 2 (atol := 1e-8) (by norm_num) (by norm_num) ⟨_, henum⟩
    (.inl le_rfl)
  have hmf : IsMultiplicityFree (repOfRots rots4m) := by
    obtain ⟨g, hg⟩ : ∃ g, rots4m g = !![0, -1, 0; 1, 0, 0; 0, 0, 1] := by decide +kernel
    have key : ∀ A : Matrix (Fin 3) (Fin 3) ℂ, (∀ g, repOfRots rots4m g * A = A * repOfRots rots4m g) →
        A 0 2 = 0 ∧ A 1 2 = 0 ∧ A 2 0 = 0 ∧ A 2 1 = 0 ∧ A 1 1 = A 0 0 ∧ A 1 0 = -A 0 1 := by
      intro A hA
      have h2 := hA g
      have e := fun i j => congrFun (congrFun h2 i) j
      simp only [repOfRots, hg, Matrix.mul_apply, Fin.sum_univ_three] at e
      have e00 := e 0 0
      have e01 := e 0 1
      have e02 := e 0 2
      have e12 := e 1 2
      have e20 := e 2 0
      have e21 := e 2 1
      simp at e00 e01 e02 e12 e20 e21
      exact ⟨by linear_combination (1 / 2 : ℂ) * e12 - (1 / 2 : ℂ) * e02,
        by linear_combination (-1 / 2 : ℂ) * e12 - (1 / 2 : ℂ) * e02,
        by linear_combination (1 / 2 : ℂ) * e20 + (1 / 2 : ℂ) * e21,
        by linear_combination (1 / 2 : ℂ) * e21 - (1 / 2 : ℂ) * e20, e01, by linear_combination -e00⟩
    intro A B hA hB
    obtain ⟨a1, a2, a3, a4, a5, a6⟩ := key A hA
    obtain ⟨b1, b2, b3, b4, b5, b6⟩ := key B hB
    ext i j
    fin_cases i <;> fin_cases j <;>
      simp [Matrix.mul_apply, Fin.sum_univ_three, a1, a2, a3, a4, a5, a6, b1, b2, b3, b4, b5, b6] <;> ring
  obtain ⟨us, hus, -, -, -, hlen⟩ := c104_multiplicity_free rots4m_group cayley_4m.1
    (repOfRots_proj cayley_4m.1) (repOfRots_unitary (by decide +kernel)) hmf o ho la hla (by norm_num) (by norm_num) h1
    (atol' := 1e-6) (by norm_num) (by norm_num)
  refine ⟨o, la, ts, us, rots4m_group, ho, hla, hmf, h1, hus, ?_⟩
  have h3 : ∑ g : Fin 8, ((repOfRots rots4m g).trace ^ 2 + (repOfRots rots4m g ^ 2).trace) =
      ((∑ g, ((rots4m g).trace ^ 2 + (rots4m g ^ 2).trace) : ℤ) : ℂ) := by
    push_cast
    refine Finset.sum_congr rfl fun g _ => ?_
    simp [repOfRots, Matrix.trace, Fin.sum_univ_succ, pow_two, Matrix.mul_apply]
  have h4 : ∑ g, ((rots4m g).trace ^ 2 + (rots4m g ^ 2).trace) = 32 := by decide +kernel
  rw [h4] at h3
  have h5 : ((2 * 8 * us.length : ℕ) : ℂ) = ((32 : ℕ) : ℂ) := by
    refine hlen.trans (h3.trans ?_)
    norm_num
  have := Nat.cast_injective h5
  omega

end Spgrep
