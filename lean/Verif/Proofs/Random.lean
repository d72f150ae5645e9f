/-
Enumeration and decomposition by a random Hermitian matrix: eigenspaces are invariant, restrictions are unitary
representations, and the two character tests select inequivalent irreps.
-/
import Verif.Proofs.ProjectBasis
import Verif.Model.Irreps

namespace Spgrep

open Spec Module

variable {n : ℕ} {T : Fin n → Fin n → Fin n} {μ : Fin n → Fin n → ℂ}

/-! ### Grouping of eigenvalues -/

section grouping
variable {D : ℕ} {rtol : ℝ} {w : Fin D → ℝ}

/-- Every eigenvalue is in the first group to whose representative it is close. -/
def GoodGroups (rtol : ℝ) (w : Fin D → ℝ) : List (ℝ × List (Fin D)) → Prop
  | [] => True
  | sp :: rest => (∀ i ∈ sp.2, IsClose rtol 1e-8 (w i) sp.1) ∧ (∃ i ∈ sp.2, sp.1 = w i) ∧
      (∀ i ∈ rest.flatMap Prod.snd, ¬ IsClose rtol 1e-8 (w i) sp.1) ∧ GoodGroups rtol w rest

theorem insertEig_perm (i : Fin D) : ∀ L : List (ℝ × List (Fin D)),
    ((insertEig rtol w L i).flatMap Prod.snd).Perm (L.flatMap Prod.snd ++ [i])
  | [] => by simp [insertEig]
  | (v, l) :: rest => by
    unfold insertEig
    split
    · simp only [List.flatMap_cons, List.append_assoc]
      exact (List.perm_append_comm.append_left l)
    · simp only [List.flatMap_cons, List.append_assoc]
      exact (insertEig_perm i rest).append_left l

theorem insertEig_good (hr : 0 ≤ rtol) (i : Fin D) : ∀ {L : List (ℝ × List (Fin D))}, GoodGroups rtol w L →
    GoodGroups rtol w (insertEig rtol w L i)
  | [], _ => by
    refine ⟨?_, ⟨i, by simp, rfl⟩, by simp, trivial⟩
    intro j hj
    obtain rfl := List.mem_singleton.1 hj
    unfold IsClose
    simp only [sub_self, abs_zero]
    have := abs_nonneg (w j)
    positivity
  | (v, l) :: rest, h => by
    obtain ⟨h1, h2, h3, h4⟩ := h
    unfold insertEig
    split
    · rename_i hc
      refine ⟨?_, by obtain ⟨j, hj, e⟩ := h2; exact ⟨j, List.mem_append_left _ hj, e⟩, h3, h4⟩
      intro j hj
      rcases List.mem_append.1 hj with hj | hj
      · exact h1 j hj
      · obtain rfl := List.mem_singleton.1 hj
        exact hc
    · rename_i hc
      refine ⟨h1, h2, ?_, insertEig_good hr i h4⟩
      intro j hj
      rcases List.mem_append.1 ((insertEig_perm i rest).mem_iff.1 hj) with hj | hj
      · exact h3 j hj
      · obtain rfl := List.mem_singleton.1 hj
        exact hc

theorem groupEig_good (hr : 0 ≤ rtol) (w : Fin D → ℝ) : GoodGroups rtol w (groupEig rtol w) := by
  unfold groupEig
  suffices h : ∀ (l : List (Fin D)) (L : List (ℝ × List (Fin D))), GoodGroups rtol w L →
      GoodGroups rtol w (l.foldl (insertEig rtol w) L) from h _ _ trivial
  intro l
  induction l with
  | nil => exact fun L hL => hL
  | cons i l ih => exact fun L hL => ih _ (insertEig_good hr i hL)

theorem groupEig_perm (w : Fin D → ℝ) : ((groupEig rtol w).flatMap Prod.snd).Perm (List.finRange D) := by
  unfold groupEig
  suffices h : ∀ (l : List (Fin D)) (L : List (ℝ × List (Fin D))),
      ((l.foldl (insertEig rtol w) L).flatMap Prod.snd).Perm (L.flatMap Prod.snd ++ l) by
    simpa using h (List.finRange D) []
  intro l
  induction l with
  | nil => intro L; simp
  | cons i l ih =>
    intro L
    refine (ih _).trans ?_
    have := (insertEig_perm (rtol := rtol) (w := w) i L).append_right l
    simpa using this

theorem GoodGroups.closed : ∀ {L : List (ℝ × List (Fin D))}, GoodGroups rtol w L → ∀ sp ∈ L, ∀ i ∈ sp.2,
    ∀ j ∈ L.flatMap Prod.snd, w j = w i → j ∈ sp.2
  | [], _, sp, hsp, _, _, _, _, _ => by cases hsp
  | sp0 :: rest, ⟨h1, _, h3, h4⟩, sp, hsp, i, hi, j, hj, hw => by
    rw [List.flatMap_cons] at hj
    rcases List.mem_cons.1 hsp with rfl | hsp
    · rcases List.mem_append.1 hj with hj | hj
      · exact hj
      · exact absurd (hw ▸ h1 i hi) (h3 j hj)
    · have hir : i ∈ rest.flatMap Prod.snd := List.mem_flatMap.2 ⟨sp, hsp, hi⟩
      rcases List.mem_append.1 hj with hj | hj
      · exact absurd (hw ▸ h1 j hj) (h3 i hir)
      · exact GoodGroups.closed h4 sp hsp i hi j hj hw

theorem GoodGroups.rep : ∀ {L : List (ℝ × List (Fin D))}, GoodGroups rtol w L → ∀ sp ∈ L,
    (∃ i ∈ sp.2, sp.1 = w i) ∧ ∀ i ∈ sp.2, IsClose rtol 1e-8 (w i) sp.1
  | [], _, _, h => by cases h
  | _ :: _, ⟨h1, h2, _, h4⟩, sp, hsp => by
    rcases List.mem_cons.1 hsp with rfl | hsp
    · exact ⟨h2, h1⟩
    · exact GoodGroups.rep h4 sp hsp

theorem GoodGroups.ne_nil {L : List (ℝ × List (Fin D))} (h : GoodGroups rtol w L) (sp) (hsp : sp ∈ L) : sp.2 ≠ [] := by
  obtain ⟨⟨i, hi, -⟩, -⟩ := h.rep sp hsp
  exact List.ne_nil_of_mem hi

theorem groupEig_closed (hr : 0 ≤ rtol) {sp : ℝ × List (Fin D)} (hsp : sp ∈ groupEig rtol w) {i j : Fin D}
    (hi : i ∈ sp.2) (hw : w j = w i) : j ∈ sp.2 :=
  (groupEig_good hr w).closed sp hsp i hi j ((groupEig_perm w).mem_iff.2 (List.mem_finRange j)) hw

theorem groupEig_nodup {sp : ℝ × List (Fin D)} (hsp : sp ∈ groupEig rtol w) : sp.2.Nodup := by
  have h : ((groupEig rtol w).flatMap Prod.snd).Nodup := (groupEig_perm w).nodup_iff.2 (List.nodup_finRange D)
  exact (List.nodup_flatMap.1 h).1 sp hsp

end grouping

/-! ### Restriction to a group of eigenvectors -/

section restrict
variable {D k r : ℕ} {reg : RepArr n D}

/-- The columns of `A` are orthonormal and span an invariant subspace. -/
structure InvColumns (reg : RepArr n D) (A : Matrix (Fin D) (Fin k) ℂ) : Prop where
  orth : A.conjTranspose * A = 1
  inv : ∀ g, A * A.conjTranspose * (reg g * A) = reg g * A

theorem qr_invColumns {A : Matrix (Fin D) (Fin k) ℂ} (hA : InvColumns reg A) (hr : r = Nat.min D k)
    {Q : Matrix (Fin D) (Fin r) ℂ} (hQ : IsQR A Q) :
    r = k ∧ InvColumns reg Q ∧ Q * Q.conjTranspose = A * A.conjTranspose := by
  have hrow : LinearIndependent ℂ A.transpose.row := by
    apply orthonormal_rows_indep
    have h1 := congrArg Matrix.transpose hA.orth
    rw [Matrix.transpose_mul, Matrix.transpose_one] at h1
    rw [← h1]
    congr 1
  obtain ⟨rfl, R, S, -, hS⟩ := qr_basis hr hrow (Q := Q) (by rwa [Matrix.transpose_transpose])
  rw [Matrix.transpose_transpose] at hS
  have hSS : S.conjTranspose * S = 1 := by
    have h1 := hQ.1
    rw [hS, Matrix.conjTranspose_mul, Matrix.mul_assoc, ← Matrix.mul_assoc A.conjTranspose, hA.orth,
      Matrix.one_mul] at h1
    exact h1
  have hSS' : S * S.conjTranspose = 1 := mul_eq_one_comm.1 hSS
  have hP : Q * Q.conjTranspose = A * A.conjTranspose := by
    rw [hS, Matrix.conjTranspose_mul, Matrix.mul_assoc, ← Matrix.mul_assoc S, hSS', Matrix.one_mul]
  refine ⟨rfl, ⟨hQ.1, fun g => ?_⟩, hP⟩
  rw [hP]
  rw [hS, ← Matrix.mul_assoc (reg g), ← Matrix.mul_assoc, hA.inv]

theorem restrict_proj {Q : Matrix (Fin D) (Fin r) ℂ} (hQ : InvColumns reg Q) (hreg : IsProjRep T μ reg) :
    IsProjRep T μ (restrictTo reg Q) := by
  intro g h
  unfold restrictTo
  calc Q.conjTranspose * reg g * Q * (Q.conjTranspose * reg h * Q)
      = Q.conjTranspose * reg g * (Q * Q.conjTranspose * (reg h * Q)) := by simp only [Matrix.mul_assoc]
    _ = Q.conjTranspose * (reg g * reg h) * Q := by rw [hQ.inv h]; simp only [Matrix.mul_assoc]
    _ = _ := by rw [hreg g h, Matrix.mul_smul, Matrix.smul_mul]

theorem restrict_unitary {Q : Matrix (Fin D) (Fin r) ℂ} (hQ : InvColumns reg Q) (hreg : IsUnitaryRep reg) :
    IsUnitaryRep (restrictTo reg Q) := by
  intro g
  rw [mul_eq_one_comm]
  unfold restrictTo
  rw [Matrix.conjTranspose_mul, Matrix.conjTranspose_mul, Matrix.conjTranspose_conjTranspose]
  calc Q.conjTranspose * ((reg g).conjTranspose * Q) * (Q.conjTranspose * reg g * Q)
      = Q.conjTranspose * (reg g).conjTranspose * (Q * Q.conjTranspose * (reg g * Q)) := by
        simp only [Matrix.mul_assoc]
    _ = Q.conjTranspose * ((reg g).conjTranspose * reg g) * Q := by rw [hQ.inv g]; simp only [Matrix.mul_assoc]
    _ = 1 := by rw [IsUnitaryRep.mul_left hreg g, Matrix.mul_one, hQ.orth]

theorem restrict_trace {A : Matrix (Fin D) (Fin k) ℂ} {Q : Matrix (Fin D) (Fin r) ℂ}
    (h : Q * Q.conjTranspose = A * A.conjTranspose) (g : Fin n) :
    (restrictTo reg Q g).trace = (A.conjTranspose * reg g * A).trace := by
  unfold restrictTo
  rw [Matrix.mul_assoc, Matrix.trace_mul_comm, Matrix.mul_assoc, h, ← Matrix.mul_assoc, Matrix.trace_mul_comm,
    ← Matrix.mul_assoc]

/-- The matrix of an eigenbasis restricted to a set of columns closed under equality of eigenvalues. -/
theorem eigen_invColumns {M V : Matrix (Fin D) (Fin D) ℂ} {w : Fin D → ℝ} (hV : V.conjTranspose * V = 1)
    (hMV : M * V = V * Matrix.diagonal fun i => (w i : ℂ)) (hcomm : ∀ g, reg g * M = M * reg g)
    (f : Fin k → Fin D) (hf : Function.Injective f) (hcl : ∀ c j, w j = w (f c) → j ∈ Set.range f) :
    InvColumns reg (Matrix.of fun x c => V x (f c)) := by
  have hV' : V * V.conjTranspose = 1 := mul_eq_one_comm.1 hV
  have hadj : V.conjTranspose * M = (Matrix.diagonal fun i => (w i : ℂ)) * V.conjTranspose := by
    calc V.conjTranspose * M = V.conjTranspose * M * (V * V.conjTranspose) := by rw [hV', Matrix.mul_one]
      _ = V.conjTranspose * (M * V) * V.conjTranspose := by simp only [Matrix.mul_assoc]
      _ = V.conjTranspose * V * (Matrix.diagonal fun i => (w i : ℂ)) * V.conjTranspose := by
        rw [hMV]; simp only [Matrix.mul_assoc]
      _ = _ := by rw [hV, Matrix.one_mul]
  have hB : ∀ g i j, w i ≠ w j → (V.conjTranspose * reg g * V) i j = 0 := by
    intro g i j hij
    have h1 : V.conjTranspose * reg g * V * (Matrix.diagonal fun i => (w i : ℂ)) =
        (Matrix.diagonal fun i => (w i : ℂ)) * (V.conjTranspose * reg g * V) := by
      calc _ = V.conjTranspose * reg g * (M * V) := by rw [hMV]; simp only [Matrix.mul_assoc]
        _ = V.conjTranspose * (reg g * M) * V := by simp only [Matrix.mul_assoc]
        _ = V.conjTranspose * M * reg g * V := by rw [hcomm]; simp only [Matrix.mul_assoc]
        _ = _ := by rw [hadj]; simp only [Matrix.mul_assoc]
    have h2 := congrFun (congrFun h1 i) j
    rw [Matrix.mul_diagonal, Matrix.diagonal_mul] at h2
    have h3 : ((w j : ℂ) - w i) ≠ 0 := by
      intro h
      exact hij (by exact_mod_cast (sub_eq_zero.1 h).symm)
    apply mul_left_cancel₀ h3
    rw [mul_zero, sub_mul, ← h2]
    ring
  have hrV : ∀ g, reg g * V = V * (V.conjTranspose * reg g * V) := by
    intro g
    rw [Matrix.mul_assoc, ← Matrix.mul_assoc V, hV', Matrix.one_mul]
  refine ⟨?_, fun g => ?_⟩
  · ext c c'
    have h1 := congrFun (congrFun hV (f c)) (f c')
    rw [Matrix.mul_apply] at h1 ⊢
    simp only [Matrix.conjTranspose_apply, Matrix.of_apply] at h1 ⊢
    rw [h1, Matrix.one_apply, Matrix.one_apply]
    simp only [hf.eq_iff]
  · ext x c
    have h1 : ∀ y c, (reg g * Matrix.of fun x c => V x (f c)) y c = ∑ i, V y i * (V.conjTranspose * reg g * V) i (f c) := by
      intro y c
      have := congrFun (congrFun (hrV g) y) (f c)
      rw [Matrix.mul_apply, Matrix.mul_apply] at this
      rw [Matrix.mul_apply, ← this]
      rfl
    have h2 : ∀ y c, ∑ i, V y i * (V.conjTranspose * reg g * V) i (f c) =
        ∑ c', V y (f c') * (V.conjTranspose * reg g * V) (f c') (f c) := by
      intro y c
      symm
      refine Fintype.sum_of_injective f hf _ _ (fun i hi => ?_) (fun _ => rfl)
      rw [hB g i (f c) fun h => hi (hcl c i h), mul_zero]
    have h3 : ∀ c' c, ((Matrix.of fun x c => V x (f c)).conjTranspose * (reg g * Matrix.of fun x c => V x (f c))) c' c =
        (V.conjTranspose * reg g * V) (f c') (f c) := by
      intro c' c
      rw [Matrix.mul_assoc, Matrix.mul_apply, Matrix.mul_apply]
      refine Finset.sum_congr rfl fun y _ => ?_
      rw [Matrix.mul_apply, Matrix.mul_apply]
      rfl
    rw [Matrix.mul_assoc, Matrix.mul_apply, h1, h2]
    refine Finset.sum_congr rfl fun c' _ => ?_
    rw [h3]
    rfl

end restrict

/-! ### The matrix commutes -/

theorem decomposeMatrix_eq {D : ℕ} (rep : RepArr n D) (H : Matrix (Fin D) (Fin D) ℂ) :
    decomposeMatrix rep H = ∑ m, rep m * H * (rep m).conjTranspose := by
  ext i j
  unfold decomposeMatrix
  rw [Matrix.of_apply, Matrix.sum_apply]
  refine Finset.sum_congr rfl fun m _ => ?_
  rw [Matrix.mul_apply, Finset.sum_comm]
  refine Finset.sum_congr rfl fun l _ => ?_
  rw [Matrix.mul_apply, Finset.sum_mul]
  rfl

theorem commutingMatrix_eq {reg : RepArr n n} {lookup : Fin n → Fin n → Fin n}
    (hl : ∀ m i j, j ≠ lookup m i → reg m i j = 0) (H : Matrix (Fin n) (Fin n) ℂ) :
    commutingMatrix reg lookup H = ∑ m, reg m * H.transpose * (reg m).conjTranspose := by
  ext i j
  unfold commutingMatrix
  rw [Matrix.of_apply, Matrix.sum_apply]
  refine Finset.sum_congr rfl fun m _ => ?_
  rw [Matrix.mul_apply, Finset.sum_eq_single (lookup m j)]
  · rw [Matrix.mul_apply, Finset.sum_eq_single (lookup m i)]
    · rfl
    · intro b _ hb
      rw [hl m i b hb, zero_mul]
    · intro h; exact absurd (Finset.mem_univ _) h
  · intro b _ hb
    rw [Matrix.conjTranspose_apply, hl m j b hb, star_zero, mul_zero]
  · intro h; exact absurd (Finset.mem_univ _) h

theorem hermitize_herm {D : ℕ} (X : Matrix (Fin D) (Fin D) ℂ) : (hermitize X).IsHermitian := by
  unfold hermitize Matrix.IsHermitian
  rw [Matrix.conjTranspose_add, Matrix.conjTranspose_conjTranspose, add_comm]

theorem sum_herm {D : ℕ} (rep : RepArr n D) {H : Matrix (Fin D) (Fin D) ℂ} (hH : H.IsHermitian) :
    (∑ m, rep m * H * (rep m).conjTranspose).IsHermitian := by
  unfold Matrix.IsHermitian
  rw [Matrix.conjTranspose_sum]
  refine Finset.sum_congr rfl fun m _ => ?_
  rw [Matrix.conjTranspose_mul, Matrix.conjTranspose_mul, Matrix.conjTranspose_conjTranspose, hH.eq, Matrix.mul_assoc]

/-! ### The loop over the groups -/

section loop
variable {D : ℕ} {reg : RepArr n D}

/-- Pairwise inequivalent unitary irreps. -/
structure GoodIrreps (T : Fin n → Fin n → Fin n) (μ : Fin n → Fin n → ℂ) (L : List (AnyRep n)) : Prop where
  rep : ∀ E ∈ L, IsProjRep T μ E.2
  unitary : ∀ E ∈ L, IsUnitaryRep E.2
  irred : ∀ E ∈ L, IsIrreducible E.2
  inequiv : L.Pairwise fun E F => ¬ AreEquivalent E.2 F.2

theorem self_test_iff (hT : IsGroupTable T) (hμ : ∀ g h, μ g h ≠ 0) {d : ℕ} {E : RepArr n d}
    (hE : IsProjRep T μ E) (hEu : IsUnitaryRep E) :
    IsEquivalentIrrep (List.ofFn (getCharacter E)) (List.ofFn (getCharacter E)) ↔ IsIrreducible E := by
  rw [isEquivalentIrrep_ofFn, table_irreducible_iff hT hμ hE hEu]
  have h1 : ∑ g, star (getCharacter E g) * getCharacter E g = ∑ g, (E g).trace * star (E g).trace := by
    refine Finset.sum_congr rfl fun g _ => ?_
    rw [getCharacter_eq_trace, mul_comm]
  rw [h1, table_sum_char_conj hT hμ hE hE hEu]
  have h2 : (n : ℂ) * (finrank ℂ (homSub E E) : ℂ) = ((n * finrank ℂ (homSub E E) : ℕ) : ℂ) := by push_cast; rfl
  rw [h2, rintC_natCast]

theorem unique_test_iff (hT : IsGroupTable T) (hμ : ∀ g h, μ g h ≠ 0) {rtol : ℝ} (hr : 0 ≤ rtol) (hr' : rtol ≤ 1 / 2)
    {d e : ℕ} {E : RepArr n d} {F : RepArr n e} (hE : IsProjRep T μ E) (hEu : IsUnitaryRep E) (hEi : IsIrreducible E)
    (hF : IsProjRep T μ F) (hFu : IsUnitaryRep F) (hFi : IsIrreducible F) :
    IsCloseC rtol 1e-8 (rintC (∑ k, star (getCharacter E k) * getCharacter F k)) n ↔ AreEquivalent E F := by
  have hn := table_pos hT
  have h1 : ∑ g, star (getCharacter E g) * getCharacter F g = ∑ g, (F g).trace * star (E g).trace := by
    refine Finset.sum_congr rfl fun g _ => ?_
    rw [getCharacter_eq_trace, getCharacter_eq_trace, mul_comm]
  have ho := table_char_orthogonality hT hμ hF hE hFu hFi hEi hEu
  rw [h1]
  have hn' : (1 : ℝ) ≤ n := by exact_mod_cast hn
  by_cases heq : AreEquivalent E F
  · rw [ho.1 (AreEquivalent.symm heq), rintC_natCast]
    refine iff_of_true ?_ heq
    unfold IsCloseC
    simp only [sub_self, norm_zero]
    positivity
  · rw [ho.2 fun h => heq (AreEquivalent.symm h), rintC_zero]
    refine iff_of_false ?_ heq
    unfold IsCloseC
    simp only [zero_sub, norm_neg, Complex.norm_natCast, not_le]
    nlinarith

/-- Columns selected by a group. -/
def groupCols (V : Matrix (Fin D) (Fin D) ℂ) (l : List (Fin D)) : Matrix (Fin D) (Fin l.length) ℂ :=
  Matrix.of fun x c => V x (l.get c)

/-- Effect of one iteration. -/
theorem irrepStep_cases (hT : IsGroupTable T) (hμ : ∀ g h, μ g h ≠ 0) (hreg : IsProjRep T μ reg)
    (hregu : IsUnitaryRep reg) {qr : QROracle} (hqr : ∀ n k A, IsQR A (qr n k A)) {rtol : ℝ} (hr : 0 ≤ rtol)
    (hr' : rtol ≤ 1 / 2) {V : Matrix (Fin D) (Fin D) ℂ} {sp : ℝ × List (Fin D)}
    (hA : InvColumns reg (groupCols V sp.2)) {L : List (AnyRep n)} (hL : GoodIrreps T μ L) :
    ∃ E : RepArr n sp.2.length, IsProjRep T μ E ∧ IsUnitaryRep E ∧
      (∀ g, (E g).trace = ((groupCols V sp.2).conjTranspose * reg g * groupCols V sp.2).trace) ∧
      ((irrepStep qr reg V rtol L sp = L ∧ (IsIrreducible E → ∃ F ∈ L, AreEquivalent E F.2)) ∨
       (irrepStep qr reg V rtol L sp = L ++ [⟨_, E⟩] ∧ IsIrreducible E ∧ ∀ F ∈ L, ¬ AreEquivalent E F.2)) := by
  classical
  -- separate the dimension of the result from its value
  have key : ∀ (r : ℕ) (hrr : r = Nat.min D sp.2.length) (Q : Matrix (Fin D) (Fin r) ℂ), IsQR (groupCols V sp.2) Q →
      ∃ E : RepArr n sp.2.length, (⟨r, restrictTo reg Q⟩ : AnyRep n) = ⟨_, E⟩ ∧ IsProjRep T μ E ∧ IsUnitaryRep E ∧
      (∀ g, (E g).trace = ((groupCols V sp.2).conjTranspose * reg g * groupCols V sp.2).trace) := by
    intro r hrr Q hQ
    obtain ⟨h1, h2, h3⟩ := qr_invColumns hA hrr hQ
    clear hrr
    subst h1
    exact ⟨_, rfl, restrict_proj h2 hreg, restrict_unitary h2 hregu, restrict_trace h3⟩
  obtain ⟨E, hE, hEp, hEu, hEt⟩ := key _ rfl (qr _ _ (groupCols V sp.2)) (hqr _ _ _)
  refine ⟨E, hEp, hEu, hEt, ?_⟩
  have hstep : irrepStep qr reg V rtol L sp =
      if ¬ IsEquivalentIrrep (List.ofFn (getCharacter E)) (List.ofFn (getCharacter E)) then L
      else if L.any fun r => decide (IsCloseC rtol 1e-8 (rintC (∑ k, star (getCharacter E k) * getCharacter r.2 k)) n)
        then L
      else L ++ [⟨_, E⟩] := by
    have hF : ∀ X : AnyRep n, X = ⟨_, E⟩ →
        (if ¬ IsEquivalentIrrep (List.ofFn (getCharacter X.2)) (List.ofFn (getCharacter X.2)) then L
        else if L.any fun r => decide (IsCloseC rtol 1e-8
          (rintC (∑ k, star (getCharacter X.2 k) * getCharacter r.2 k)) n) then L
        else L ++ [X]) =
        if ¬ IsEquivalentIrrep (List.ofFn (getCharacter E)) (List.ofFn (getCharacter E)) then L
        else if L.any fun r => decide (IsCloseC rtol 1e-8
          (rintC (∑ k, star (getCharacter E k) * getCharacter r.2 k)) n) then L
        else L ++ [⟨_, E⟩] := by
      rintro _ rfl; rfl
    refine Eq.trans ?_ (hF _ hE)
    unfold irrepStep
    dsimp only
    rfl
  rw [hstep]
  by_cases hirr : IsIrreducible E
  · rw [if_neg (not_not.2 ((self_test_iff hT hμ hEp hEu).2 hirr))]
    by_cases hex : ∃ F ∈ L, AreEquivalent E F.2
    · left
      obtain ⟨F, hF, hEF⟩ := hex
      rw [if_pos]
      · exact ⟨rfl, fun _ => ⟨F, hF, hEF⟩⟩
      · rw [List.any_eq_true]
        exact ⟨F, hF, decide_eq_true
          ((unique_test_iff hT hμ hr hr' hEp hEu hirr (hL.rep F hF) (hL.unitary F hF) (hL.irred F hF)).2 hEF)⟩
    · right
      push Not at hex
      rw [if_neg]
      · exact ⟨rfl, hirr, hex⟩
      · rw [List.any_eq_true]
        rintro ⟨F, hF, h⟩
        exact hex F hF
          ((unique_test_iff hT hμ hr hr' hEp hEu hirr (hL.rep F hF) (hL.unitary F hF) (hL.irred F hF)).1
            (of_decide_eq_true h))
  · left
    rw [if_pos (fun h => hirr ((self_test_iff hT hμ hEp hEu).1 h))]
    exact ⟨rfl, fun h => absurd h hirr⟩

theorem GoodIrreps.append {L : List (AnyRep n)} (hL : GoodIrreps T μ L) {d : ℕ} {E : RepArr n d}
    (hE : IsProjRep T μ E) (hEu : IsUnitaryRep E) (hEi : IsIrreducible E) (hne : ∀ F ∈ L, ¬ AreEquivalent E F.2) :
    GoodIrreps T μ (L ++ [⟨d, E⟩]) := by
  have hmem : ∀ {F : AnyRep n}, F ∈ L ++ [⟨d, E⟩] → F ∈ L ∨ F = ⟨d, E⟩ := fun h => by simpa using h
  refine ⟨fun F hF => ?_, fun F hF => ?_, fun F hF => ?_, ?_⟩
  · rcases hmem hF with h | rfl
    · exact hL.rep F h
    · exact hE
  · rcases hmem hF with h | rfl
    · exact hL.unitary F h
    · exact hEu
  · rcases hmem hF with h | rfl
    · exact hL.irred F h
    · exact hEi
  · rw [List.pairwise_append]
    refine ⟨hL.inequiv, by simp, fun F hF G hG h => ?_⟩
    obtain rfl := List.mem_singleton.1 hG
    exact hne F hF (AreEquivalent.symm h)

theorem GoodIrreps.perm {L L' : List (AnyRep n)} (hL : GoodIrreps T μ L) (h : L.Perm L') : GoodIrreps T μ L' :=
  ⟨fun E hE => hL.rep E (h.mem_iff.2 hE), fun E hE => hL.unitary E (h.mem_iff.2 hE),
   fun E hE => hL.irred E (h.mem_iff.2 hE),
   (h.pairwise_iff fun {_ _} hne heq => hne (AreEquivalent.symm heq)).1 hL.inequiv⟩

theorem cols_trace (V : Matrix (Fin D) (Fin D) ℂ) (l : List (Fin D)) (g : Fin n) :
    ((groupCols V l).conjTranspose * reg g * groupCols V l).trace =
      (l.map fun i => (V.conjTranspose * reg g * V) i i).sum := by
  unfold Matrix.trace
  have h : ∀ c, ((groupCols V l).conjTranspose * reg g * groupCols V l).diag c =
      (V.conjTranspose * reg g * V) (l.get c) (l.get c) := by
    intro c
    rw [Matrix.diag_apply, Matrix.mul_assoc, Matrix.mul_assoc, Matrix.mul_apply, Matrix.mul_apply]
    refine Finset.sum_congr rfl fun y _ => ?_
    rw [Matrix.mul_apply, Matrix.mul_apply]
    rfl
  rw [Finset.sum_congr rfl fun c _ => h c, ← List.sum_ofFn]
  congr 1
  conv_rhs => rw [← List.ofFn_get l, List.map_ofFn]
  rfl

/-- The loop over eigenspaces. -/
theorem irrepLoop_spec (hT : IsGroupTable T) (hμ : ∀ g h, μ g h ≠ 0) (hreg : IsProjRep T μ reg)
    (hregu : IsUnitaryRep reg) {qr : QROracle} (hqr : ∀ n k A, IsQR A (qr n k A)) {rtol : ℝ} (hr : 0 ≤ rtol)
    (hr' : rtol ≤ 1 / 2) {V : Matrix (Fin D) (Fin D) ℂ} :
    ∀ {sps : List (ℝ × List (Fin D))}, (∀ sp ∈ sps, sp.2 ≠ [] ∧ InvColumns reg (groupCols V sp.2)) →
    ∀ {L : List (AnyRep n)}, GoodIrreps T μ L →
    ∃ L', sps.foldl (irrepStep qr reg V rtol) L = L ++ L' ∧ GoodIrreps T μ (L ++ L') ∧
      (L'.map Sigma.fst).sum ≤ (sps.flatMap Prod.snd).length ∧
      ((L'.map Sigma.fst).sum = (sps.flatMap Prod.snd).length → ∀ g, (L'.map fun E => (E.2 g).trace).sum =
        ((sps.flatMap Prod.snd).map fun i => (V.conjTranspose * reg g * V) i i).sum) ∧
      ∀ sp ∈ sps, ∃ E : RepArr n sp.2.length, IsProjRep T μ E ∧ IsUnitaryRep E ∧
        (∀ g, (E g).trace = ((groupCols V sp.2).conjTranspose * reg g * groupCols V sp.2).trace) ∧
        (IsIrreducible E → ∃ F ∈ L ++ L', AreEquivalent E F.2)
  | [], _, L, hL => ⟨[], by simp, by simpa using hL, by simp, by simp, by simp⟩
  | sp :: sps, hsp, L, hL => by
    obtain ⟨hne, hinv⟩ := hsp sp (List.mem_cons_self ..)
    have hpos : 0 < sp.2.length := List.length_pos_iff.2 hne
    obtain ⟨E, hEp, hEu, hEt, hcase⟩ := irrepStep_cases hT hμ hreg hregu hqr hr hr' hinv hL
    have hrest := fun s hs => hsp s (List.mem_cons_of_mem _ hs)
    rcases hcase with ⟨h1, h2⟩ | ⟨h1, h2, h3⟩
    · obtain ⟨L', e, g1, g2, g3, g4⟩ := irrepLoop_spec hT hμ hreg hregu hqr hr hr' hrest hL
      refine ⟨L', by rw [List.foldl_cons, h1, e], g1, ?_, ?_, ?_⟩
      · rw [List.flatMap_cons, List.length_append]; omega
      · rw [List.flatMap_cons, List.length_append]; omega
      · intro s hs
        rcases List.mem_cons.1 hs with rfl | hs
        · refine ⟨E, hEp, hEu, hEt, fun h => ?_⟩
          obtain ⟨F, hF, hEF⟩ := h2 h
          exact ⟨F, List.mem_append_left _ hF, hEF⟩
        · exact g4 s hs
    · obtain ⟨L', e, g1, g2, g3, g4⟩ := irrepLoop_spec hT hμ hreg hregu hqr hr hr' hrest (hL.append hEp hEu h2 h3)
      have ha : L ++ [(⟨_, E⟩ : AnyRep n)] ++ L' = L ++ (⟨_, E⟩ :: L') := by simp
      rw [ha] at e g1
      refine ⟨⟨_, E⟩ :: L', by rw [List.foldl_cons, h1, e], g1, ?_, ?_, ?_⟩
      · rw [List.flatMap_cons, List.length_append, List.map_cons, List.sum_cons]; dsimp only; omega
      · rw [List.flatMap_cons, List.length_append, List.map_cons, List.sum_cons]
        dsimp only
        intro h g
        rw [List.map_cons, List.sum_cons, List.map_append, List.sum_append, g3 (by omega) g, ← cols_trace V sp.2 g, ← hEt]
      · intro s hs
        rcases List.mem_cons.1 hs with rfl | hs
        · exact ⟨E, hEp, hEu, hEt, fun _ => ⟨⟨_, E⟩, by simp, AreEquivalent.refl _⟩⟩
        · obtain ⟨E', q1, q2, q3, q4⟩ := g4 s hs
          rw [ha] at q4
          exact ⟨E', q1, q2, q3, q4⟩

/-- Groups of an eigenbasis of a commuting matrix. -/
theorem groups_inv {eigh : EighOracle} (hh : ∀ d (M : Matrix (Fin d) (Fin d) ℂ), M.IsHermitian →
    IsEigh M (eigh d M).1 (eigh d M).2) {M : Matrix (Fin D) (Fin D) ℂ} (hM : M.IsHermitian)
    (hcomm : ∀ g, reg g * M = M * reg g) {rtol : ℝ} (hr : 0 ≤ rtol) :
    ∀ sp ∈ groupEig rtol (eigh D M).1, sp.2 ≠ [] ∧ InvColumns reg (groupCols (eigh D M).2 sp.2) := by
  intro sp hsp
  refine ⟨(groupEig_good hr _).ne_nil sp hsp, ?_⟩
  obtain ⟨hV, hMV⟩ := hh D M hM
  refine eigen_invColumns hV hMV hcomm sp.2.get (List.nodup_iff_injective_get.1 (groupEig_nodup hsp)) fun c j hw => ?_
  have hj := groupEig_closed hr hsp (List.get_mem sp.2 c) hw
  obtain ⟨c', hc'⟩ := List.get_of_mem hj
  exact ⟨c', hc'⟩

/-- `_get_irreps_from_matrix` on a Hermitian matrix commuting with the representation. -/
theorem irrepsFromMatrix_spec (hT : IsGroupTable T) (hμ : ∀ g h, μ g h ≠ 0) (hreg : IsProjRep T μ reg)
    (hregu : IsUnitaryRep reg) {eigh : EighOracle} (hh : ∀ d (M : Matrix (Fin d) (Fin d) ℂ), M.IsHermitian →
    IsEigh M (eigh d M).1 (eigh d M).2) {qr : QROracle} (hqr : ∀ n k A, IsQR A (qr n k A)) {rtol : ℝ} (hr : 0 ≤ rtol)
    (hr' : rtol ≤ 1 / 2) {M : Matrix (Fin D) (Fin D) ℂ} (hM : M.IsHermitian) (hcomm : ∀ g, reg g * M = M * reg g) :
    GoodIrreps T μ (getIrrepsFromMatrix eigh qr reg M rtol) ∧
    ((getIrrepsFromMatrix eigh qr reg M rtol).map fun E => E.1).sum ≤ D ∧
    (((getIrrepsFromMatrix eigh qr reg M rtol).map Sigma.fst).sum = D →
      ∀ g, ((getIrrepsFromMatrix eigh qr reg M rtol).map fun E => (E.2 g).trace).sum = (reg g).trace) ∧
    ∀ sp ∈ groupEig rtol (eigh D M).1, ∃ E : RepArr n sp.2.length, IsProjRep T μ E ∧ IsUnitaryRep E ∧
        (∀ g, (E g).trace = ((groupCols (eigh D M).2 sp.2).conjTranspose * reg g * groupCols (eigh D M).2 sp.2).trace) ∧
        (IsIrreducible E → ∃ F ∈ getIrrepsFromMatrix eigh qr reg M rtol, AreEquivalent E F.2) := by
  obtain ⟨L, e, g1, g2, g3, g4⟩ := irrepLoop_spec hT hμ hreg hregu hqr hr hr'
    (groups_inv hh hM hcomm hr) (L := []) ⟨by simp, by simp, by simp, by simp⟩
  rw [List.nil_append] at e g1 g4
  have hperm : (getIrrepsFromMatrix eigh qr reg M rtol).Perm L := by
    unfold getIrrepsFromMatrix
    dsimp only
    rw [e]
    exact List.mergeSort_perm _ _
  have hp := groupEig_perm (rtol := rtol) (eigh D M).1
  refine ⟨g1.perm hperm.symm, ?_, fun hs g => ?_, fun sp hsp => ?_⟩
  · rw [(hperm.map _).sum_eq]
    exact g2.trans (by rw [hp.length_eq, List.length_finRange])
  · rw [(hperm.map _).sum_eq] at hs
    rw [(hperm.map _).sum_eq, g3 (by rw [hs, hp.length_eq, List.length_finRange]) g, (hp.map _).sum_eq]
    obtain ⟨hV, -⟩ := hh D M hM
    have hV' : (eigh D M).2 * (eigh D M).2.conjTranspose = 1 := mul_eq_one_comm.1 hV
    have : (((eigh D M).2.conjTranspose * reg g * (eigh D M).2).trace) = (reg g).trace := by
      rw [Matrix.mul_assoc, Matrix.trace_mul_comm, Matrix.mul_assoc, hV', Matrix.mul_one]
    rw [← this, ← List.ofFn_eq_map, List.sum_ofFn]
    rfl
  · obtain ⟨E, q1, q2, q3, q4⟩ := g4 sp hsp
    refine ⟨E, q1, q2, q3, fun h => ?_⟩
    obtain ⟨F, hF, hEF⟩ := q4 h
    exact ⟨F, hperm.mem_iff.2 hF, hEF⟩

end loop

theorem retryRandom_cases {attempt : ℕ → List (AnyRep n)} {accept : List (AnyRep n) → Prop} :
    ∀ l : List ℕ, (retryRandom attempt accept l = ([], true) ∧ ∀ t ∈ l, ¬ accept (attempt t)) ∨
      ∃ t ∈ l, accept (attempt t) ∧ retryRandom attempt accept l = (attempt t, false)
  | [] => .inl ⟨rfl, by simp⟩
  | t :: l => by
    unfold retryRandom
    by_cases h : accept (attempt t)
    · rw [if_pos h]
      exact .inr ⟨t, List.mem_cons_self .., h, rfl⟩
    · rw [if_neg h]
      rcases retryRandom_cases l with ⟨h1, h2⟩ | ⟨s, hs, h1, h2⟩
      · refine .inl ⟨h1, fun s hs => ?_⟩
        rcases List.mem_cons.1 hs with rfl | hs
        · exact h
        · exact h2 s hs
      · exact .inr ⟨s, List.mem_cons_of_mem _ hs, h1, h2⟩

end Spgrep
