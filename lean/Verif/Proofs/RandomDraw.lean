/-
Existence of a draw for which the random enumeration succeeds: a matrix that separates the irreducible parts of the
regular representation.
-/
import Verif.Proofs.Random

namespace Spgrep

open Spec Module

variable {n : ℕ} {T : Fin n → Fin n → Fin n} {μ : Fin n → Fin n → ℂ}

section generic
variable {D : ℕ} {I : Type*} [Fintype I] [DecidableEq I] {U : Matrix (Fin D) I ℂ} {val : I → ℕ}

/-- The Hermitian matrix with eigenvectors `U` and eigenvalues `val`. -/
noncomputable def withEigen (U : Matrix (Fin D) I ℂ) (val : I → ℕ) : Matrix (Fin D) (Fin D) ℂ :=
  U * Matrix.diagonal (fun x => (val x : ℂ)) * U.conjTranspose

theorem withEigen_herm : (withEigen U val).IsHermitian := by
  unfold withEigen Matrix.IsHermitian
  rw [Matrix.conjTranspose_mul, Matrix.conjTranspose_mul, Matrix.conjTranspose_conjTranspose,
    Matrix.diagonal_conjTranspose, Matrix.mul_assoc]
  congr 3
  funext x
  simp

theorem withEigen_mul (hU : U.conjTranspose * U = 1) :
    withEigen U val * U = U * Matrix.diagonal (fun x => (val x : ℂ)) := by
  unfold withEigen
  rw [Matrix.mul_assoc, hU, Matrix.mul_one]

/-- For well separated eigenvalues every eigenvalue has its group, and the trace over a group does not depend on the
choice of eigenvectors. -/
theorem withEigen_groups (hU1 : U.conjTranspose * U = 1) (hU2 : U * U.conjTranspose = 1) {N : ℕ} (hval : ∀ x, val x ≤ N)
    {rtol : ℝ} (hr : 0 ≤ rtol) (hrn : rtol * N ≤ 1 / 2) {w : Fin D → ℝ} {V : Matrix (Fin D) (Fin D) ℂ}
    (hVM : IsEigh (withEigen U val) w V) (x : I) :
    ∃ sp ∈ groupEig rtol w, ∀ A : Matrix (Fin D) (Fin D) ℂ,
      ((groupCols V sp.2).conjTranspose * A * groupCols V sp.2).trace =
        ∑ y, if val y = val x then (U.conjTranspose * A * U) y y else 0 := by
  classical
  obtain ⟨hV, hMV⟩ := hVM
  have hV' : V * V.conjTranspose = 1 := mul_eq_one_comm.1 hV
  have hW : ∀ x c, (U.conjTranspose * V) x c ≠ 0 → (val x : ℝ) = w c := by
    intro x c hne
    have h1 : Matrix.diagonal (fun x => (val x : ℂ)) * (U.conjTranspose * V) =
        U.conjTranspose * V * Matrix.diagonal (fun i => (w i : ℂ)) := by
      calc _ = U.conjTranspose * U * Matrix.diagonal (fun x => (val x : ℂ)) * U.conjTranspose * V := by
            rw [hU1, Matrix.one_mul, Matrix.mul_assoc]
        _ = U.conjTranspose * (withEigen U val * V) := by unfold withEigen; simp only [Matrix.mul_assoc]
        _ = _ := by rw [hMV, Matrix.mul_assoc]
    have h2 := congrFun (congrFun h1 x) c
    rw [Matrix.mul_diagonal, Matrix.diagonal_mul, mul_comm] at h2
    exact_mod_cast mul_left_cancel₀ hne h2
  have hVU : V = U * (U.conjTranspose * V) := by rw [← Matrix.mul_assoc, hU2, Matrix.one_mul]
  have hUV : U = V * (V.conjTranspose * U) := by rw [← Matrix.mul_assoc, hV', Matrix.one_mul]
  have hwval : ∀ c, ∃ x, (val x : ℝ) = w c := by
    intro c
    by_contra hno
    push Not at hno
    have h0 : ∀ x, (U.conjTranspose * V) x c = 0 := fun x => by
      by_contra h
      exact hno x (hW x c h)
    have h1 := congrFun (congrFun hV c) c
    rw [Matrix.one_apply_eq, Matrix.mul_apply] at h1
    have h2 : ∀ y, V y c = 0 := by
      intro y
      rw [hVU, Matrix.mul_apply]
      exact Finset.sum_eq_zero fun x _ => by rw [h0, mul_zero]
    simp [h2] at h1
  have hvalw : ∀ x, ∃ c, w c = val x := by
    intro x
    by_contra hno
    push Not at hno
    have h0 : ∀ c, (V.conjTranspose * U) c x = 0 := fun c => by
      by_contra h
      refine hno c (hW x c ?_).symm
      intro h2
      apply h
      have h3 : V.conjTranspose * U = (U.conjTranspose * V).conjTranspose := by
        rw [Matrix.conjTranspose_mul, Matrix.conjTranspose_conjTranspose]
      rw [h3, Matrix.conjTranspose_apply, h2, star_zero]
    have h1 := congrFun (congrFun hU1 x) x
    rw [Matrix.one_apply_eq, Matrix.mul_apply] at h1
    have h2 : ∀ y, U y x = 0 := by
      intro y
      rw [hUV, Matrix.mul_apply]
      exact Finset.sum_eq_zero fun c _ => by rw [h0, mul_zero]
    simp [h2] at h1
  have hclose : ∀ c c', IsClose rtol 1e-8 (w c) (w c') → w c = w c' := by
    intro c c' h
    obtain ⟨x, hx⟩ := hwval c
    obtain ⟨x', hx'⟩ := hwval c'
    by_contra hne
    rw [← hx, ← hx'] at h hne
    unfold IsClose at h
    have h1 : (1 : ℝ) ≤ |(val x : ℝ) - val x'| := by
      have h2 : (val x : ℤ) - (val x' : ℤ) ≠ 0 := by
        intro h0
        exact hne (by exact_mod_cast sub_eq_zero.1 h0)
      have h3 := Int.one_le_abs h2
      exact_mod_cast h3
    have h4 : (val x' : ℝ) ≤ N := by exact_mod_cast hval x'
    rw [abs_of_nonneg (Nat.cast_nonneg (val x') : (0 : ℝ) ≤ (val x' : ℝ))] at h
    nlinarith [mul_le_mul_of_nonneg_left h4 hr]
  obtain ⟨c0, hc0x⟩ := hvalw x
  obtain ⟨sp, hsp, hc0⟩ := List.mem_flatMap.1 ((groupEig_perm (rtol := rtol) w).mem_iff.2 (List.mem_finRange c0))
  refine ⟨sp, hsp, fun A => ?_⟩
  have hmem : ∀ c, c ∈ sp.2 ↔ w c = val x := by
    intro c
    constructor
    · intro hc
      obtain ⟨⟨i, -, hi⟩, hcl⟩ := (groupEig_good hr w).rep sp hsp
      have h1 := hclose c i (hi ▸ hcl c hc)
      have h2 := hclose c0 i (hi ▸ hcl c0 hc0)
      rw [h1, ← h2, hc0x]
    · intro hc
      exact groupEig_closed hr hsp hc0 (hc.trans hc0x.symm)
  have hD : Matrix.diagonal (fun y => if val y = val x then (1 : ℂ) else 0) * (U.conjTranspose * V) =
      U.conjTranspose * V * Matrix.diagonal (fun c => if w c = val x then (1 : ℂ) else 0) := by
    ext y c
    rw [Matrix.mul_diagonal, Matrix.diagonal_mul]
    by_cases h0 : (U.conjTranspose * V) y c = 0
    · rw [h0]; simp
    · rw [← hW y c h0, mul_comm]
      simp only [Nat.cast_inj]
  have e1 : ((groupCols V sp.2).conjTranspose * A * groupCols V sp.2).trace =
      (V.conjTranspose * A * V * Matrix.diagonal (fun c => if w c = val x then (1 : ℂ) else 0)).trace := by
    rw [cols_trace (n := 1) (reg := fun _ => A) V sp.2 0, Matrix.trace]
    simp only [Matrix.diag_apply, Matrix.mul_diagonal]
    have : (sp.2.map fun i => (V.conjTranspose * A * V) i i).sum =
        ∑ i ∈ sp.2.toFinset, (V.conjTranspose * A * V) i i :=
      (List.sum_toFinset _ (groupEig_nodup hsp)).symm
    rw [this]
    simp only [mul_ite, mul_one, mul_zero]
    rw [← Finset.sum_filter]
    refine Finset.sum_congr ?_ fun _ _ => rfl
    ext c
    simp [hmem c]
  have e2 : (V.conjTranspose * A * V * Matrix.diagonal (fun c => if w c = val x then (1 : ℂ) else 0)).trace =
      (U.conjTranspose * A * U * Matrix.diagonal (fun y => if val y = val x then (1 : ℂ) else 0)).trace := by
    calc _ = (V.conjTranspose * (A * U * (U.conjTranspose * V *
            Matrix.diagonal (fun c => if w c = val x then (1 : ℂ) else 0)))).trace := by
          congr 1
          have e : A * U * (U.conjTranspose * V *
              Matrix.diagonal (fun c => if w c = val x then (1 : ℂ) else 0)) =
              A * (U * U.conjTranspose) * V *
                Matrix.diagonal (fun c => if w c = val x then (1 : ℂ) else 0) := by
            simp only [Matrix.mul_assoc]
          rw [e, hU2, Matrix.mul_one]
          simp only [Matrix.mul_assoc]
      _ = (A * U * Matrix.diagonal (fun y => if val y = val x then (1 : ℂ) else 0) *
            (U.conjTranspose * (V * V.conjTranspose))).trace := by
          rw [← hD, Matrix.trace_mul_comm]
          simp only [Matrix.mul_assoc]
      _ = _ := by
          rw [hV', Matrix.mul_one, Matrix.trace_mul_comm]
          simp only [Matrix.mul_assoc]
  rw [e1, e2, Matrix.trace]
  refine Finset.sum_congr rfl fun y _ => ?_
  rw [Matrix.diag_apply, Matrix.mul_diagonal, mul_ite, mul_one, mul_zero]

/-- An irrep whose character is the trace over one eigenvalue is found. -/
theorem withEigen_finds (hT : IsGroupTable T) (hμ : ∀ g h, μ g h ≠ 0) {reg : RepArr n D} (hreg : IsProjRep T μ reg)
    (hregu : IsUnitaryRep reg) (hU1 : U.conjTranspose * U = 1) (hU2 : U * U.conjTranspose = 1)
    (hcomm : ∀ g, reg g * withEigen U val = withEigen U val * reg g) {N : ℕ} (hval : ∀ x, val x ≤ N)
    {eigh : EighOracle} (hh : ∀ d (M : Matrix (Fin d) (Fin d) ℂ), M.IsHermitian → IsEigh M (eigh d M).1 (eigh d M).2)
    {qr : QROracle} (hqr : ∀ n k A, IsQR A (qr n k A)) {rtol : ℝ} (hr : 0 ≤ rtol) (hr' : rtol ≤ 1 / 2)
    (hrn : rtol * N ≤ 1 / 2) {d : ℕ} {F : RepArr n d} (hF : IsProjRep T μ F) (hFu : IsUnitaryRep F)
    (hFi : IsIrreducible F) (x : I)
    (hx : ∀ g, (F g).trace = ∑ y, if val y = val x then (U.conjTranspose * reg g * U) y y else 0) :
    ∃ F' ∈ getIrrepsFromMatrix eigh qr reg (withEigen U val) rtol, AreEquivalent F F'.2 := by
  obtain ⟨g1, -, -, g3⟩ := irrepsFromMatrix_spec hT hμ hreg hregu hh hqr hr hr' withEigen_herm hcomm
  obtain ⟨sp, hsp, htr⟩ := withEigen_groups hU1 hU2 hval hr hrn (hh D _ (withEigen_herm (U := U) (val := val))) x
  obtain ⟨E', q1, q2, q3, q4⟩ := g3 sp hsp
  have ht : ∀ g, (E' g).trace = (F g).trace := fun g => (q3 g).trans ((htr _).trans (hx g).symm)
  have hirr : IsIrreducible E' := by
    rw [table_irreducible_iff hT hμ q1 q2]
    have := (table_irreducible_iff hT hμ hF hFu).1 hFi
    rw [← this]
    exact Finset.sum_congr rfl fun g _ => by rw [ht]
  have heq : AreEquivalent E' F := by
    by_contra hne
    have h1 := (table_char_orthogonality hT hμ q1 hF q2 hirr hFi hFu).2 hne
    have h2 := (table_irreducible_iff hT hμ q1 q2).1 hirr
    simp only [← ht] at h1
    rw [h1] at h2
    have : (n : ℂ) ≠ 0 := by exact_mod_cast (table_pos hT).ne'
    exact this h2.symm
  obtain ⟨F', hF', hE'⟩ := q4 hirr
  exact ⟨F', hF', AreEquivalent.trans (AreEquivalent.symm heq) hE'⟩

end generic

section
variable (L : List (AnyRep n))

/-- Pairs `(irrep, column)`. -/
abbrev ColIdx := Σ a : Fin L.length, Fin (L.get a).1

/-- Triples `(irrep, row, column)`. -/
abbrev CoefIdx := Σ a : Fin L.length, Fin (L.get a).1 × Fin (L.get a).1

/-- Orthonormal basis of matrix coefficients. -/
noncomputable def coefBasis : Matrix (Fin n) (CoefIdx L) ℂ :=
  Matrix.of fun y x => ((Real.sqrt ((L.get x.1).1 / n) : ℝ) : ℂ) * star ((L.get x.1).2 y x.2.1 x.2.2)

/-- Distinct natural numbers for the columns. -/
noncomputable def colVal (x : CoefIdx L) : ℕ :=
  (Fintype.equivFin (ColIdx L) ⟨x.1, x.2.2⟩ : ℕ)

variable {L}

theorem colVal_eq_iff {x y : CoefIdx L} : colVal L x = colVal L y ↔
    (⟨x.1, x.2.2⟩ : ColIdx L) = ⟨y.1, y.2.2⟩ := by
  unfold colVal
  rw [Fin.val_inj, Equiv.apply_eq_iff_eq]

theorem card_coef (hs : (L.map fun E => E.1 ^ 2).sum = n) : Fintype.card (CoefIdx L) = n := by
  rw [Fintype.card_sigma]
  refine Eq.trans ?_ hs
  conv_rhs => rw [← List.ofFn_get L, List.map_ofFn, List.sum_ofFn]
  refine Finset.sum_congr rfl fun a _ => ?_
  rw [Fintype.card_prod, Fintype.card_fin]
  exact (sq _).symm

theorem colVal_bound (hs : (L.map fun E => E.1 ^ 2).sum = n) (x : CoefIdx L) : colVal L x ≤ n := by
  unfold colVal
  have h1 := (Fintype.equivFin (ColIdx L) ⟨x.1, x.2.2⟩).2
  have h2 : Fintype.card (ColIdx L) ≤ Fintype.card (CoefIdx L) :=
    Fintype.card_le_of_injective (fun c => ⟨c.1, (c.2, c.2)⟩) (by
      rintro ⟨a, c⟩ ⟨b, c'⟩ h
      simp only [Sigma.mk.injEq] at h
      obtain ⟨rfl, h⟩ := h
      simp only [heq_eq_eq, Prod.mk.injEq] at h
      rw [h.1])
  rw [card_coef hs] at h2
  exact (h1.trans_le h2).le

theorem coefBasis_orth (hT : IsGroupTable T) (hμ : ∀ g h, μ g h ≠ 0) (hL : GoodIrreps T μ L) :
    (coefBasis L).conjTranspose * coefBasis L = 1 := by
  have hn : (0 : ℝ) < n := by exact_mod_cast table_pos hT
  ext ⟨a, i, k⟩ ⟨b, j, l⟩
  have hmem : ∀ a, L.get a ∈ L := fun a => List.get_mem L a
  rw [Matrix.mul_apply]
  have h1 : ∑ y, (coefBasis L).conjTranspose ⟨a, i, k⟩ y * coefBasis L y ⟨b, j, l⟩ =
      ((Real.sqrt ((L.get a).1 / n) : ℝ) : ℂ) * ((Real.sqrt ((L.get b).1 / n) : ℝ) : ℂ) *
        ∑ y, (L.get a).2 y i k * star ((L.get b).2 y j l) := by
    rw [Finset.mul_sum]
    refine Finset.sum_congr rfl fun y _ => ?_
    simp only [Matrix.conjTranspose_apply, coefBasis, Matrix.of_apply, star_mul', Complex.star_def,
      Complex.conj_ofReal, Complex.conj_conj]
    ring
  rw [h1]
  by_cases hab : a = b
  · subst hab
    rw [table_schur_orthogonality_self hT hμ (hL.rep _ (hmem a)) (hL.irred _ (hmem a)) (hL.unitary _ (hmem a))]
    have hd : (0 : ℝ) < (L.get a).1 := by
      have := (hL.irred _ (hmem a)).1
      exact_mod_cast Fin.pos_iff_nonempty.2 this
    rw [Matrix.one_apply]
    by_cases hx : i = j ∧ k = l
    · obtain ⟨rfl, rfl⟩ := hx
      rw [if_pos ⟨rfl, rfl⟩, if_pos rfl, ← Complex.ofReal_mul, Real.mul_self_sqrt (by positivity), Fintype.card_fin]
      push_cast
      have h2 : ((L.get a).1 : ℂ) ≠ 0 := by exact_mod_cast hd.ne'
      have h3 : (n : ℂ) ≠ 0 := by exact_mod_cast hn.ne'
      field_simp
    · rw [if_neg hx, mul_zero, if_neg]
      intro h
      simp only [Sigma.mk.injEq, heq_eq_eq, true_and, Prod.mk.injEq] at h
      exact hx h
  · have hne : ¬ AreEquivalent (L.get a).2 (L.get b).2 := by
      have hd := List.pairwise_iff_get.1 hL.inequiv
      rcases lt_or_gt_of_ne hab with h | h
      · exact hd a b h
      · exact fun he => hd b a h (AreEquivalent.symm he)
    rw [table_schur_orthogonality_ne hT hμ (hL.rep _ (hmem a)) (hL.rep _ (hmem b)) (hL.irred _ (hmem a))
      (hL.irred _ (hmem b)) (hL.unitary _ (hmem b)) hne, mul_zero, Matrix.one_apply, if_neg]
    intro h
    exact hab (congrArg Sigma.fst h)

/-- The regular representation acts on the rows of the matrix coefficients. -/
theorem reg_coef (hL : GoodIrreps T μ L) (hn : ∀ g h, ‖μ g h‖ = 1) {reg : RepArr n n}
    (hreg : ∀ k i j, reg k i j = if i = T k j then μ k j else 0) (hT : IsGroupTable T) (g x : Fin n)
    (a : Fin L.length) (i k : Fin (L.get a).1) :
    (reg g * coefBasis L) x ⟨a, i, k⟩ = ∑ j, coefBasis L x ⟨a, j, k⟩ * (L.get a).2 g j i := by
  have hmem : L.get a ∈ L := List.get_mem L a
  obtain ⟨y, rfl⟩ : ∃ y, x = T g y := by
    have hinj : Function.Injective (T g) := fun a b h => table_left_cancel hT h
    obtain ⟨y, hy⟩ := (Finite.injective_iff_surjective.1 hinj) x
    exact ⟨y, hy.symm⟩
  rw [Matrix.mul_apply, Finset.sum_eq_single y]
  · rw [hreg, if_pos rfl]
    have hlaw := hL.rep _ hmem g y
    have hμμ : μ g y * star (μ g y) = 1 := by
      rw [Complex.star_def, Complex.mul_conj, Complex.normSq_eq_norm_sq, hn]; simp
    have hu := IsUnitaryRep.mul_left (hL.unitary _ hmem) g
    -- star of the law
    have h1 : ∀ j, star ((L.get a).2 (T g y) j k) =
        μ g y * ∑ l, star ((L.get a).2 g j l) * star ((L.get a).2 y l k) := by
      intro j
      have h2 := congrArg star (congrFun (congrFun hlaw j) k)
      rw [Matrix.mul_apply, star_sum, Matrix.smul_apply, smul_eq_mul, star_mul'] at h2
      have h3 : ∑ l, star ((L.get a).2 g j l) * star ((L.get a).2 y l k) =
          star (μ g y) * star ((L.get a).2 (T g y) j k) := by
        rw [← h2]
        exact Finset.sum_congr rfl fun l _ => by rw [star_mul']
      rw [h3, ← mul_assoc, hμμ, one_mul]
    have h4 : ∑ j, star ((L.get a).2 (T g y) j k) * (L.get a).2 g j i = μ g y * star ((L.get a).2 y i k) := by
      calc _ = μ g y * ∑ l, (∑ j, star ((L.get a).2 g j l) * (L.get a).2 g j i) * star ((L.get a).2 y l k) := by
            rw [Finset.mul_sum]
            simp only [Finset.sum_mul, Finset.mul_sum, h1]
            rw [Finset.sum_comm]
            refine Finset.sum_congr rfl fun l _ => Finset.sum_congr rfl fun j _ => by ring
        _ = μ g y * ∑ l, (if l = i then 1 else 0) * star ((L.get a).2 y l k) := by
            congr 1
            refine Finset.sum_congr rfl fun l _ => ?_
            have h5 := congrFun (congrFun hu l) i
            rw [Matrix.mul_apply, Matrix.one_apply] at h5
            rw [← h5]
            rfl
        _ = _ := by simp
    simp only [coefBasis, Matrix.of_apply]
    simp only [mul_assoc]
    rw [← Finset.mul_sum, h4]
    ring
  · intro b _ hb
    rw [hreg, if_neg, zero_mul]
    intro h
    exact hb (table_left_cancel hT h).symm
  · intro h; exact absurd (Finset.mem_univ _) h

theorem coefBasis_orth' (hT : IsGroupTable T) (hμ : ∀ g h, μ g h ≠ 0) (hL : GoodIrreps T μ L)
    (hs : (L.map fun E => E.1 ^ 2).sum = n) : coefBasis L * (coefBasis L).conjTranspose = 1 := by
  have h := coefBasis_orth hT hμ hL
  let e : CoefIdx L ≃ Fin n := Fintype.equivFinOfCardEq (card_coef hs)
  exact (Matrix.mul_eq_one_comm_of_equiv e).1 h

/-- The matrix with the matrix coefficients as eigenvectors. -/
noncomputable def sepMatrix (L : List (AnyRep n)) : Matrix (Fin n) (Fin n) ℂ := withEigen (coefBasis L) (colVal L)

theorem sepMatrix_herm : (sepMatrix L).IsHermitian := withEigen_herm

theorem sepMatrix_mul (hT : IsGroupTable T) (hμ : ∀ g h, μ g h ≠ 0) (hL : GoodIrreps T μ L) :
    sepMatrix L * coefBasis L = coefBasis L * Matrix.diagonal (fun x => (colVal L x : ℂ)) :=
  withEigen_mul (coefBasis_orth hT hμ hL)

theorem sepMatrix_comm (hT : IsGroupTable T) (hn : ∀ g h, ‖μ g h‖ = 1) (hL : GoodIrreps T μ L)
    (hs : (L.map fun E => E.1 ^ 2).sum = n) {reg : RepArr n n}
    (hreg : ∀ k i j, reg k i j = if i = T k j then μ k j else 0) (g : Fin n) :
    reg g * sepMatrix L = sepMatrix L * reg g := by
  have hμ := ne_zero_of_norm_one hn
  have h1 : reg g * sepMatrix L * coefBasis L = sepMatrix L * reg g * coefBasis L := by
    rw [Matrix.mul_assoc, sepMatrix_mul hT hμ hL, ← Matrix.mul_assoc, Matrix.mul_assoc (sepMatrix L)]
    ext x ⟨a, i, k⟩
    rw [Matrix.mul_diagonal, reg_coef hL hn hreg hT]
    have h2 : (sepMatrix L * (reg g * coefBasis L)) x ⟨a, i, k⟩ =
        ∑ j, (sepMatrix L * coefBasis L) x ⟨a, j, k⟩ * (L.get a).2 g j i := by
      rw [Matrix.mul_apply]
      simp only [reg_coef hL hn hreg hT, Finset.mul_sum]
      rw [Finset.sum_comm]
      refine Finset.sum_congr rfl fun j _ => ?_
      rw [Matrix.mul_apply, Finset.sum_mul]
      exact Finset.sum_congr rfl fun y _ => by ring
    rw [h2, sepMatrix_mul hT hμ hL, Finset.sum_mul]
    refine Finset.sum_congr rfl fun j _ => ?_
    rw [Matrix.mul_diagonal]
    have h3 : colVal L ⟨a, j, k⟩ = colVal L ⟨a, i, k⟩ := colVal_eq_iff.2 rfl
    rw [h3]
    ring
  have h2 := congrArg (fun X => X * (coefBasis L).conjTranspose) h1
  simpa only [Matrix.mul_assoc, coefBasis_orth' hT hμ hL hs, Matrix.mul_one] using h2

theorem coef_trace (hT : IsGroupTable T) (hn : ∀ g h, ‖μ g h‖ = 1) (hL : GoodIrreps T μ L)
    {reg : RepArr n n} (hreg : ∀ k i j, reg k i j = if i = T k j then μ k j else 0) (g : Fin n) (x : CoefIdx L) :
    ((coefBasis L).conjTranspose * reg g * coefBasis L) x x = (L.get x.1).2 g x.2.1 x.2.1 := by
  obtain ⟨a, i, k⟩ := x
  have hμ := ne_zero_of_norm_one hn
  rw [Matrix.mul_assoc, Matrix.mul_apply]
  simp only [reg_coef hL hn hreg hT, Finset.mul_sum]
  rw [Finset.sum_comm, Finset.sum_eq_single i]
  · have h1 := congrFun (congrFun (coefBasis_orth hT hμ hL) ⟨a, i, k⟩) ⟨a, i, k⟩
    rw [Matrix.mul_apply, Matrix.one_apply_eq] at h1
    simp only [← mul_assoc]
    rw [← Finset.sum_mul, h1, one_mul]
  · intro j _ hj
    have h1 := congrFun (congrFun (coefBasis_orth hT hμ hL) ⟨a, i, k⟩) ⟨a, j, k⟩
    rw [Matrix.mul_apply, Matrix.one_apply_ne (by
      intro h
      simp only [Sigma.mk.injEq, heq_eq_eq, true_and, Prod.mk.injEq, and_true] at h
      exact hj h.symm)] at h1
    simp only [← mul_assoc]
    rw [← Finset.sum_mul, h1, zero_mul]
  · intro h; exact absurd (Finset.mem_univ _) h

/-- Applied to this matrix, the decomposition finds all irreps. -/
theorem sepMatrix_complete (hT : IsGroupTable T) (hn : ∀ g h, ‖μ g h‖ = 1) (hc : IsCocycle T μ)
    (hL : IsCompleteIrreps T μ L) {reg : RepArr n n}
    (hreg : ∀ k i j, reg k i j = if i = T k j then μ k j else 0) (hregp : IsProjRep T μ reg) (hregu : IsUnitaryRep reg)
    {eigh : EighOracle} (hh : ∀ d (M : Matrix (Fin d) (Fin d) ℂ), M.IsHermitian → IsEigh M (eigh d M).1 (eigh d M).2)
    {qr : QROracle} (hqr : ∀ n k A, IsQR A (qr n k A)) {rtol : ℝ} (hr : 0 ≤ rtol) (hrn : rtol * n ≤ 1 / 2) :
    IsCompleteIrreps T μ (getIrrepsFromMatrix eigh qr reg (sepMatrix L) rtol) := by
  classical
  have hμ := ne_zero_of_norm_one hn
  have hs : (L.map fun E => E.1 ^ 2).sum = n := IsCompleteIrreps.sum_sq hT hμ hc hL
  have hG : GoodIrreps T μ L := ⟨hL.rep, hL.unitary, hL.irred, hL.inequiv⟩
  have hn1 : (1 : ℝ) ≤ n := by exact_mod_cast table_pos hT
  have hr' : rtol ≤ 1 / 2 := by nlinarith
  obtain ⟨g1, -, -, g3⟩ := irrepsFromMatrix_spec hT hμ hregp hregu hh hqr hr hr' sepMatrix_herm
    (sepMatrix_comm hT hn hG hs hreg)
  refine ⟨g1.rep, g1.unitary, g1.irred, g1.inequiv, fun e E hE hEu hEi => ?_⟩
  obtain ⟨F, hF, hEF⟩ := hL.complete e E hE hEu hEi
  obtain ⟨a, rfl⟩ := List.get_of_mem hF
  have hd : 0 < (L.get a).1 := Fin.pos_iff_nonempty.2 (hL.irred _ hF).1
  let x : CoefIdx L := ⟨a, (⟨0, hd⟩, ⟨0, hd⟩)⟩
  obtain ⟨F', hF', hFF'⟩ := withEigen_finds hT hμ hregp hregu (coefBasis_orth hT hμ hG) (coefBasis_orth' hT hμ hG hs)
    (sepMatrix_comm hT hn hG hs hreg) (colVal_bound hs) hh hqr hr hr' hrn (hL.rep _ hF) (hL.unitary _ hF) (hL.irred _ hF) x
    (fun g => by
      simp only [coef_trace hT hn hG hreg]
      rw [Fintype.sum_sigma, Finset.sum_eq_single a]
      · rw [Fintype.sum_prod_type]
        unfold Matrix.trace
        refine Finset.sum_congr rfl fun i _ => ?_
        rw [Finset.sum_eq_single x.2.2]
        · have : colVal L ⟨a, (i, x.2.2)⟩ = colVal L x := colVal_eq_iff.2 rfl
          rw [if_pos this]
          rfl
        · intro k _ hk
          rw [if_neg]
          intro h
          have := colVal_eq_iff.1 h
          simp only [Sigma.mk.injEq, heq_eq_eq] at this
          exact hk this.2
        · intro h; exact absurd (Finset.mem_univ _) h
      · intro b _ hb
        refine Finset.sum_eq_zero fun p _ => ?_
        rw [if_neg]
        intro h
        exact hb (congrArg Sigma.fst (colVal_eq_iff.1 h))
      · intro h; exact absurd (Finset.mem_univ _) h)
  exact ⟨F', hF', AreEquivalent.trans hEF hFF'⟩

end

/-! ### A draw that decomposes a multiplicity-free representation -/

section free
variable {D : ℕ} {L : List (AnyRep n)} {rep : RepArr n D} {U : Matrix (Fin D) (ColIdx L) ℂ}

/-- The number of the irrep of a column. -/
def irrepVal (L : List (AnyRep n)) (x : ColIdx L) : ℕ := x.1

theorem free_comm (hU1 : U.conjTranspose * U = 1) (hU2 : U * U.conjTranspose = 1)
    (hrep : ∀ g y (x : ColIdx L), (rep g * U) y x = ∑ j, U y ⟨x.1, j⟩ * (L.get x.1).2 g j x.2) (g : Fin n) :
    rep g * withEigen U (irrepVal L) = withEigen U (irrepVal L) * rep g := by
  have h1 : rep g * withEigen U (irrepVal L) * U = withEigen U (irrepVal L) * rep g * U := by
    rw [Matrix.mul_assoc, withEigen_mul hU1, ← Matrix.mul_assoc, Matrix.mul_assoc (withEigen U (irrepVal L))]
    ext y ⟨a, i⟩
    rw [Matrix.mul_diagonal, hrep]
    have h2 : (withEigen U (irrepVal L) * (rep g * U)) y ⟨a, i⟩ =
        ∑ j, (withEigen U (irrepVal L) * U) y ⟨a, j⟩ * (L.get a).2 g j i := by
      rw [Matrix.mul_apply]
      simp only [hrep, Finset.mul_sum]
      rw [Finset.sum_comm]
      refine Finset.sum_congr rfl fun j _ => ?_
      rw [Matrix.mul_apply, Finset.sum_mul]
      exact Finset.sum_congr rfl fun z _ => by ring
    rw [h2, withEigen_mul hU1, Finset.sum_mul]
    refine Finset.sum_congr rfl fun j _ => ?_
    rw [Matrix.mul_diagonal]
    simp only [irrepVal]
    ring
  have h2 := congrArg (fun X => X * U.conjTranspose) h1
  simpa only [Matrix.mul_assoc, hU2, Matrix.mul_one] using h2

theorem free_trace (hU1 : U.conjTranspose * U = 1)
    (hrep : ∀ g y (x : ColIdx L), (rep g * U) y x = ∑ j, U y ⟨x.1, j⟩ * (L.get x.1).2 g j x.2) (g : Fin n) (x : ColIdx L) :
    (U.conjTranspose * rep g * U) x x = (L.get x.1).2 g x.2 x.2 := by
  obtain ⟨a, i⟩ := x
  rw [Matrix.mul_assoc, Matrix.mul_apply]
  simp only [hrep, Finset.mul_sum]
  rw [Finset.sum_comm, Finset.sum_eq_single i]
  · have h1 := congrFun (congrFun hU1 ⟨a, i⟩) ⟨a, i⟩
    rw [Matrix.mul_apply, Matrix.one_apply_eq] at h1
    simp only [← mul_assoc]
    rw [← Finset.sum_mul, h1, one_mul]
  · intro j _ hj
    have h1 := congrFun (congrFun hU1 ⟨a, i⟩) ⟨a, j⟩
    rw [Matrix.mul_apply, Matrix.one_apply_ne (by
      intro h
      simp only [Sigma.mk.injEq, heq_eq_eq, true_and] at h
      exact hj h.symm)] at h1
    simp only [← mul_assoc]
    rw [← Finset.sum_mul, h1, zero_mul]
  · intro h; exact absurd (Finset.mem_univ _) h

theorem AreEquivalent.dim_eq {d e : ℕ} {A : RepArr n d} {B : RepArr n e} (h : AreEquivalent A B) : d = e := by
  obtain ⟨S, S', h1, h2, -⟩ := h
  have h3 := congrArg Matrix.trace h1
  rw [Matrix.trace_mul_comm, h2, Matrix.trace_one, Matrix.trace_one, Fintype.card_fin, Fintype.card_fin] at h3
  exact_mod_cast h3.symm

/-- Inequivalent irreps found in another list have at most its total dimension. -/
theorem dims_le {L' : List (AnyRep n)} (hL : L.Pairwise fun E F => ¬ AreEquivalent E.2 F.2)
    (h : ∀ E ∈ L, ∃ F ∈ L', AreEquivalent E.2 F.2) : (L.map fun E => E.1).sum ≤ (L'.map fun E => E.1).sum := by
  have h' : ∀ a : Fin L.length, ∃ b : Fin L'.length, AreEquivalent (L.get a).2 (L'.get b).2 := by
    intro a
    obtain ⟨F, hF, hE⟩ := h _ (List.get_mem L a)
    obtain ⟨b, rfl⟩ := List.get_of_mem hF
    exact ⟨b, hE⟩
  choose f hf using h'
  have hinj : Function.Injective f := by
    intro a b hab
    by_contra hne
    have h1 : AreEquivalent (L.get a).2 (L.get b).2 :=
      AreEquivalent.trans (hf a) (AreEquivalent.symm (hab ▸ hf b))
    rcases lt_or_gt_of_ne hne with hlt | hlt
    · exact List.pairwise_iff_get.1 hL a b hlt h1
    · exact List.pairwise_iff_get.1 hL b a hlt (AreEquivalent.symm h1)
  have e1 : ∀ M : List (AnyRep n), (M.map fun E => E.1).sum = ∑ a, (M.get a).1 := by
    intro M
    conv_lhs => rw [← List.ofFn_get M, List.map_ofFn, List.sum_ofFn]
    rfl
  rw [e1, e1]
  calc ∑ a, (L.get a).1 = ∑ a, (L'.get (f a)).1 := Finset.sum_congr rfl fun a _ => AreEquivalent.dim_eq (hf a)
    _ = ∑ b ∈ Finset.univ.image f, (L'.get b).1 :=
        (Finset.sum_image (f := fun b => (L'.get b).1) fun a _ b _ h => hinj h).symm
    _ ≤ _ := Finset.sum_le_sum_of_subset (Finset.subset_univ _)

theorem length_le_dims : ∀ {L : List (AnyRep n)}, (∀ E ∈ L, 0 < E.1) → L.length ≤ (L.map fun E => E.1).sum
  | [], _ => by simp
  | E :: L, hpos => by
    rw [List.length_cons, List.map_cons, List.sum_cons]
    have h1 := length_le_dims fun F hF => hpos F (List.mem_cons_of_mem E hF)
    have h2 := hpos E (List.mem_cons_self ..)
    omega

/-- The decomposition with this matrix finds all parts. -/
theorem free_dims (hT : IsGroupTable T) (hμ : ∀ g h, μ g h ≠ 0) (hG : GoodIrreps T μ L) (hrepp : IsProjRep T μ rep)
    (hrepu : IsUnitaryRep rep) (hU1 : U.conjTranspose * U = 1) (hU2 : U * U.conjTranspose = 1)
    (hrep : ∀ g y (x : ColIdx L), (rep g * U) y x = ∑ j, U y ⟨x.1, j⟩ * (L.get x.1).2 g j x.2)
    {eigh : EighOracle} (hh : ∀ d (M : Matrix (Fin d) (Fin d) ℂ), M.IsHermitian → IsEigh M (eigh d M).1 (eigh d M).2)
    {qr : QROracle} (hqr : ∀ n k A, IsQR A (qr n k A)) {rtol : ℝ} (hr : 0 ≤ rtol) (hr' : rtol ≤ 1 / 2)
    (hrn : rtol * D ≤ 1 / 2) :
    ((getIrrepsFromMatrix eigh qr rep (withEigen U (irrepVal L)) rtol).map fun E => E.1).sum = D := by
  obtain ⟨g1, g2, -, -⟩ := irrepsFromMatrix_spec hT hμ hrepp hrepu hh hqr hr hr' withEigen_herm
    (free_comm hU1 hU2 hrep)
  have hcard : Fintype.card (ColIdx L) = D := by
    have h1 := Matrix.trace_mul_comm U U.conjTranspose
    rw [hU1, hU2, Matrix.trace_one, Matrix.trace_one, Fintype.card_fin] at h1
    exact_mod_cast h1.symm
  have hsum : (L.map fun E => E.1).sum = D := by
    rw [← hcard, Fintype.card_sigma]
    conv_lhs => rw [← List.ofFn_get L, List.map_ofFn, List.sum_ofFn]
    exact Finset.sum_congr rfl fun a _ => (Fintype.card_fin _).symm
  have hpos : ∀ E ∈ L, 0 < E.1 := fun E hE => Fin.pos_iff_nonempty.2 (hG.irred E hE).1
  have hlen : L.length ≤ D := by
    rw [← hsum]
    exact length_le_dims hpos
  refine le_antisymm g2 ?_
  refine hsum.symm.le.trans (dims_le hG.inequiv fun E hE => ?_)
  obtain ⟨a, rfl⟩ := List.get_of_mem hE
  let x : ColIdx L := ⟨a, ⟨0, hpos _ hE⟩⟩
  refine withEigen_finds hT hμ hrepp hrepu hU1 hU2 (free_comm hU1 hU2 hrep) (N := D)
    (fun y => (y.1.2.le).trans hlen) hh hqr hr hr' hrn (hG.rep _ hE) (hG.unitary _ hE) (hG.irred _ hE) x fun g => ?_
  simp only [free_trace hU1 hrep]
  rw [Fintype.sum_sigma, Finset.sum_eq_single a]
  · unfold Matrix.trace
    refine Finset.sum_congr rfl fun i _ => ?_
    have : irrepVal L ⟨a, i⟩ = irrepVal L x := rfl
    rw [if_pos this]
    rfl
  · intro b _ hb
    refine Finset.sum_eq_zero fun p _ => ?_
    rw [if_neg]
    intro h
    exact hb (Fin.ext h)
  · intro h; exact absurd (Finset.mem_univ _) h

end free

end Spgrep
