/-
Runs of `project_to_irrep` whose outcome can be followed.
-/
import Verif.Proofs.TensorBasis
import Verif.Props.ProjectBasis

namespace Spgrep

open Spec Matrix

variable {n d D : ℕ} {T : Fin n → Fin n → Fin n}

/-- Four vectors fill the plane as far as `grassmann_distance` is concerned, even if they are parallel. -/
theorem grassmann_plane {la : LinAlg} (hla : la.Contract) (b1 : Matrix (Fin 2) (Fin 2) ℂ)
    (b2 : Matrix (Fin (1 * 2)) (Fin 2) ℂ) : grassmannDistance la b1 b2 = .ok 0 := by
  have key : ∀ (a b : ℕ), a = 2 → b = 2 → ∀ (q1 : Matrix (Fin 2) (Fin a) ℂ) (q2 : Matrix (Fin 2) (Fin b) ℂ),
      q1.conjTranspose * q1 = 1 → q2.conjTranspose * q2 = 1 → grassmannCore la 2 2 q1 q2 .min = .ok 0 := by
    rintro a b rfl rfl q1 q2 h1 h2
    obtain ⟨r, hr, σ, er, hσ, hmin, -⟩ := grassmannCore_eq hla.2 (k := 2) (l := 2) rfl rfl (by norm_num) (by norm_num) q1 q2
    obtain ⟨-, hone⟩ := corr_spec er h1 h2 hσ
    have h3 : q2 * q2.conjTranspose = 1 := mul_eq_one_comm.1 h2
    have := hone.2 (.inl ⟨q2.conjTranspose * q1, by rw [← Matrix.mul_assoc, h3, Matrix.one_mul]⟩) ⟨r - 1, by omega⟩
    rw [hmin, this]
    simp [gMin]
  unfold grassmannDistance
  rw [if_neg (by simp)]
  exact key _ _ rfl rfl _ _ (hla.1 _ _ _).1 (hla.1 _ _ _).1

/-- Orthogonal subspaces have distance one. -/
theorem grassmann_orthogonal {la : LinAlg} (hla : la.Contract) {k l : ℕ} {b1 : Matrix (Fin k) (Fin D) ℂ}
    {b2 : Matrix (Fin l) (Fin D) ℂ} (h1 : LinearIndependent ℂ b1.row) (h2 : LinearIndependent ℂ b2.row) (hk : 0 < k)
    (hl : 0 < l) (h : b1.map star * b2.transpose = 0) : grassmannDistance la b1 b2 = .ok 1 := by
  obtain ⟨Q1, Q2, -, -, ⟨-, S1, -, e1⟩, ⟨-, S2, -, e2⟩, r, hr, σ, -, ⟨-, hσ0, U, V, hU, hV, hσ⟩, hmin, -⟩ :=
    grassmann_frames hla h1 h2 hk hl
  have h0 : Q1.conjTranspose * Q2 = 0 := by
    have h3 : b1.transpose.conjTranspose = b1.map star := by ext i j; rfl
    rw [e1, e2, Matrix.conjTranspose_mul, Matrix.mul_assoc, ← Matrix.mul_assoc b1.transpose.conjTranspose, h3, h,
      Matrix.zero_mul, Matrix.mul_zero]
  rw [h0] at hσ
  have h4 : Matrix.diagonal (fun i => (σ i : ℂ)) = 0 := by
    calc Matrix.diagonal (fun i => (σ i : ℂ))
        = U.conjTranspose * (U * Matrix.diagonal (fun i => (σ i : ℂ)) * V.conjTranspose) * V := by
          rw [Matrix.mul_assoc, Matrix.mul_assoc, hV, Matrix.mul_one, ← Matrix.mul_assoc, hU, Matrix.one_mul]
      _ = 0 := by rw [← hσ, Matrix.mul_zero, Matrix.zero_mul]
  have h5 : ∀ i, σ i = 0 := by
    intro i
    have := congrFun (congrFun h4 i) i
    rw [Matrix.diagonal_apply_eq, Matrix.zero_apply] at this
    exact_mod_cast this
  rw [hmin, h5]
  simp [gMin]

theorem project_zero {la : LinAlg} {F : RepArr n D} {E : RepArr n d} {atol : ℝ} (h : numBasis F E = 0) :
    projectToIrrep la F E atol = .ok ([], false) := by
  unfold projectToIrrep
  simp only [h, if_true]

/-- The first trial finds the expected number of blocks. -/
theorem project_silent {la : LinAlg} {F : RepArr n D} {E : RepArr n d} {m : ℕ} (h : numBasis F E = m) (hm : m ≠ 0)
    (hin : ∀ a : ℝ, 0 ≤ a → a ≤ 1e-2 → ∃ bs, projInner la F E a = .ok bs ∧ bs.length = m) (atol : ℝ) :
    ∃ bs, projectToIrrep la F E atol = .ok (bs, false) ∧ bs.length = m := by
  have ha0 : min (max atol 1e-10) 1e-2 ≤ (1e-2 : ℝ) := min_le_right _ _
  have ha1 : 0 ≤ min (max atol 1e-10) (1e-2 : ℝ) := le_min (le_max_of_le_right (by norm_num)) (by norm_num)
  obtain ⟨bs, h1, h2⟩ := hin _ ha1 ha0
  refine ⟨bs, ?_, h2⟩
  have h0 : numBasis F E ≠ 0 := by rw [h]; exact_mod_cast hm
  have hs : searchTolerance (fun a => do let b ← projInner la F E a; return (b, b.length)) (numBasis F E) atol 10 =
      .ok (bs, false, [min (max atol 1e-10) 1e-2]) := by
    unfold searchTolerance retryLoop
    simp only [h1, bind, Except.bind, pure, Except.pure, h, h2]
    simp
  unfold projectToIrrep
  simp only [h0, if_false, hs]
  rfl

/-- In the plane at most one block is found for a two-dimensional irrep. -/
theorem projInner_plane {la : LinAlg} (hla : la.Contract) {F : RepArr n 2} {E : RepArr n 2} {a : ℝ} (ha : a ≤ 1e-2)
    {p : Fin 2 × Fin 2} {i m : Fin 2} (hp : ¬ ‖projBlock F E p.1 p.2 i m‖ ≤ 1e-2) :
    ∃ bs, projInner la F E a = .ok bs ∧ bs.length = 1 := by
  have hstep1 : ∀ b q, projStep la F E a [b] q = .ok [b] := by
    intro b q
    unfold projStep
    dsimp only
    split_ifs with h1 h2
    · rfl
    · have := grassmann_plane hla (normalizeRows (projBlock F E q.1 q.2)) (stackBlocks [b])
      erw [this]
      simp only [bind, Except.bind]
      rw [if_pos (by norm_num)]
    · simp at h2
  have hstep0 : ∀ q, projStep la F E a [] q = .ok [] ∨ ∃ b, projStep la F E a [] q = .ok [b] := by
    intro q
    unfold projStep
    dsimp only
    split_ifs with h1 h2
    · exact .inl rfl
    · simp at h2
    · exact .inr ⟨_, rfl⟩
  have hfold1 : ∀ (l : List (Fin 2 × Fin 2)) b, l.foldlM (projStep la F E a) [b] = .ok [b] := by
    intro l b
    induction l with
    | nil => rfl
    | cons q l ih => rw [List.foldlM_cons, hstep1]; exact ih
  have hfold : ∀ l : List (Fin 2 × Fin 2), p ∈ l → ∃ b, l.foldlM (projStep la F E a) [] = .ok [b] := by
    intro l
    induction l with
    | nil => intro h; cases h
    | cons q l ih =>
      intro hmem
      rw [List.foldlM_cons]
      rcases hstep0 q with h | ⟨b, h⟩
      · rw [h]
        refine ih ((List.mem_cons.1 hmem).resolve_left ?_)
        rintro rfl
        unfold projStep at h
        dsimp only at h
        rw [if_neg] at h
        · simp at h
        · intro h1
          have := h1 i m
          unfold IsCloseC at this
          simp at this
          exact hp (this.trans ha)
      · rw [h]
        exact ⟨b, hfold1 l b⟩
  obtain ⟨b, hb⟩ := hfold ((List.finRange 2).flatMap fun c => (List.finRange 2).map fun j => (c, j)) (by
    simp only [List.mem_flatMap, List.mem_map]
    exact ⟨p.1, List.mem_finRange _, p.2, List.mem_finRange _, rfl⟩)
  exact ⟨[b], hb, rfl⟩

theorem projStep_length {la : LinAlg} {F : RepArr n D} {E : RepArr n d} {a : ℝ} (ha : 0 ≤ a)
    {l : List (Fin D × Fin d)} : ∀ {bs bs' : List (Matrix (Fin d) (Fin D) ℂ)},
    l.foldlM (projStep la F E a) bs = .ok bs' → bs.length ≤ bs'.length := by
  induction l with
  | nil => intro bs bs' h; cases h; exact le_rfl
  | cons q l ih =>
    intro bs bs' h
    rw [List.foldlM_cons] at h
    cases hq : projStep la F E a bs q with
    | error e => rw [hq] at h; cases h
    | ok b =>
      rw [hq] at h
      refine le_trans ?_ (ih h)
      rcases projStep_cases la F E ha hq with rfl | ⟨rfl, -⟩
      · exact le_rfl
      · simp

/-- Two orthogonal first blocks of a one-dimensional irrep that occurs twice. -/
theorem projInner_two (hT : IsGroupTable T) {F : RepArr n (D + 2)} {E : RepArr n 1} (hF : IsProjRep T (fun _ _ => 1) F)
    (hFu : IsUnitaryRep F) (hE : IsProjRep T (fun _ _ => 1) E) (hEu : IsUnitaryRep E) (hEi : Spec.IsIrreducible E)
    {la : LinAlg} (hla : la.Contract) {a : ℝ} (ha0 : 0 ≤ a) (ha : a ≤ 1e-2) (hnum : numBasis F E = 2)
    {m0 m1 : Fin (D + 2)} (h0 : ¬ ‖projBlock F E 0 0 0 m0‖ ≤ 1e-2) (h1 : ¬ ‖projBlock F E 1 0 0 m1‖ ≤ 1e-2)
    (horth : ∑ m, star (projBlock F E 1 0 0 m) * projBlock F E 0 0 0 m = 0) :
    ∃ bs, projInner la F E a = .ok bs ∧ bs.length = 2 := by
  obtain ⟨bs, hbs, hgood⟩ := projInner_good hT (fun _ _ => one_ne_zero) hF hFu hE hEu hEi hla ha0
  refine ⟨bs, hbs, le_antisymm ?_ ?_⟩
  · have h2 := (blocks_card one_pos hgood).fintype_card_le_finrank
    rw [Fintype.card_fin] at h2
    have h3 := numBasis_eq hT (fun _ _ => one_ne_zero) hF hE hEu
    rw [hnum] at h3
    have : Module.finrank ℂ (homSub F E) = 2 := by exact_mod_cast h3.symm
    omega
  · have hclose : ∀ {c m}, ¬ ‖projBlock F E c 0 0 m‖ ≤ 1e-2 → ¬ ∀ i m, IsCloseC 1e-5 a (projBlock F E c 0 i m) 0 := by
      intro c m h hc
      have := hc 0 m
      unfold IsCloseC at this
      simp at this
      exact h (this.trans ha)
    have hli : ∀ {c m}, ¬ ‖projBlock F E c 0 0 m‖ ≤ 1e-2 → LinearIndependent ℂ (normalizeRows (projBlock F E c 0)).row := by
      intro c m h
      have hne : projBlock F E c 0 ≠ 0 := by
        intro h0
        rw [h0] at h
        simp at h
        norm_num at h
      obtain ⟨r, hr⟩ := gram_scalar hFu hEu hEi fun g =>
        projBlock_intertwines hT (fun _ _ => one_ne_zero) hF hE hEu c 0 g
      exact orthonormal_rows_indep (normalizeRows_spec hne hr).1
    have hs0 : projStep la F E a [] (0, 0) = .ok [normalizeRows (projBlock F E 0 0)] := by
      unfold projStep
      dsimp only
      rw [if_neg (hclose h0), if_neg (by simp)]
      rfl
    have hs1 : projStep la F E a [normalizeRows (projBlock F E 0 0)] (1, 0) =
        .ok [normalizeRows (projBlock F E 0 0), normalizeRows (projBlock F E 1 0)] := by
      unfold projStep
      dsimp only
      rw [if_neg (hclose h1), if_pos (by simp)]
      have hst : LinearIndependent ℂ (stackBlocks [normalizeRows (projBlock F E 0 0)]).row := by
        refine stack_indep ?_
        have h2 := hli h0
        unfold BlocksIndep
        rw [Fintype.linearIndependent_iff] at h2 ⊢
        intro g hg x
        have h3 := h2 (fun i => g (0, i)) (by
          rw [Fintype.sum_prod_type] at hg
          have h4 : ∀ f : Fin [normalizeRows (projBlock F E 0 0)].length → (Fin (D + 2) → ℂ), ∑ i, f i = f ⟨0, by simp⟩ :=
            fun f => Fin.sum_univ_one f
          rw [h4] at hg
          exact hg) x.2
        have hx : x.1 = 0 := by
          apply Fin.ext
          have := x.1.2
          simp only [List.length_cons, List.length_nil] at this
          show x.1.val = 0
          omega
        have : x = (0, x.2) := Prod.ext hx rfl
        rw [this]
        exact h3
      have hz : (normalizeRows (projBlock F E 1 0)).map star *
          (stackBlocks [normalizeRows (projBlock F E 0 0)]).transpose = 0 := by
        ext i j
        rw [Subsingleton.elim i 0]
        obtain ⟨⟨x, y⟩, rfl⟩ := finProdFinEquiv.surjective j
        rw [Matrix.mul_apply, Matrix.zero_apply]
        have hx : [normalizeRows (projBlock F E 0 0)].get x = normalizeRows (projBlock F E 0 0) :=
          List.mem_singleton.1 (List.get_mem _ _)
        simp only [Matrix.map_apply, Matrix.transpose_apply, stackBlocks, Matrix.of_apply, Equiv.symm_apply_apply]
        rw [hx, Subsingleton.elim y 0]
        simp only [normalizeRows, Matrix.of_apply, star_div₀]
        have : ∀ m, star (projBlock F E 1 0 0 m) / star ((Real.sqrt (∑ m', ‖projBlock F E 1 0 0 m'‖ ^ 2) : ℝ) : ℂ) *
            (projBlock F E 0 0 0 m / ((Real.sqrt (∑ m', ‖projBlock F E 0 0 0 m'‖ ^ 2) : ℝ) : ℂ)) =
            (star (projBlock F E 1 0 0 m) * projBlock F E 0 0 0 m) *
            ((star ((Real.sqrt (∑ m', ‖projBlock F E 1 0 0 m'‖ ^ 2) : ℝ) : ℂ))⁻¹ *
              ((Real.sqrt (∑ m', ‖projBlock F E 0 0 0 m'‖ ^ 2) : ℝ) : ℂ)⁻¹) := by
          intro m
          rw [div_eq_mul_inv, div_eq_mul_inv]
          ring
        rw [Finset.sum_congr rfl fun m _ => this m, ← Finset.sum_mul, horth, zero_mul]
      have := grassmann_orthogonal hla (hli h1) hst one_pos (by simp) hz
      rw [this]
      simp only [bind, Except.bind]
      rw [if_neg (by norm_num)]
      rfl
    have hl : ((List.finRange (D + 2)).flatMap fun c => (List.finRange 1).map fun j => (c, j)) =
        ((0 : Fin (D + 2)), (0 : Fin 1)) :: (1, 0) ::
          (((List.finRange D).map fun i => i.succ.succ).flatMap fun c => (List.finRange 1).map fun j => (c, j)) := by
      rw [List.finRange_succ, List.finRange_succ, List.finRange_succ]
      simp
      rfl
    unfold projInner at hbs
    rw [hl, List.foldlM_cons, hs0] at hbs
    change List.foldlM _ _ _ = _ at hbs
    rw [List.foldlM_cons, hs1] at hbs
    exact projStep_length ha0 hbs

end Spgrep
