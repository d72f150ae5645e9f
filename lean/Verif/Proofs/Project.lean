/-
Helper lemmas for `project_to_irrep`.
-/
import Verif.Proofs.RepModel

namespace Spgrep

open Spec

set_option linter.unusedSectionVars false

variable {n d D : ℕ}

theorem projBlock_eq (rep : RepArr n D) (irrep : RepArr n d) (c : Fin D) (j : Fin d) :
    (projBlock rep irrep c j).transpose = ((d : ℂ) / n) •
      ∑ g, rep g * Matrix.single c j (1 : ℂ) * (irrep g).conjTranspose := by
  ext m i
  rw [Matrix.smul_apply, Matrix.sum_apply, Matrix.transpose_apply]
  simp only [mul_single_mul_apply, projBlock, Matrix.of_apply, Matrix.conjTranspose_apply, smul_eq_mul]
  congr 1
  exact Finset.sum_congr rfl fun g _ => mul_comm _ _

/-- The unnormalised block is an intertwiner. -/
theorem projBlock_intertwines {T : Fin n → Fin n → Fin n} (hT : IsGroupTable T)
    {μ : Fin n → Fin n → ℂ} (hμ : ∀ g h, μ g h ≠ 0) {rep : RepArr n D} {irrep : RepArr n d}
    (hrep : IsProjRep T μ rep) (hirrep : IsProjRep T μ irrep) (hu : IsUnitaryRep irrep)
    (c : Fin D) (j : Fin d) (g : Fin n) :
    rep g * (projBlock rep irrep c j).transpose = (projBlock rep irrep c j).transpose * irrep g := by
  rw [projBlock_eq, Matrix.mul_smul, Matrix.smul_mul, table_avg_intertwines hT hμ hrep hirrep hu]

/-- For unitary families an intertwiner `C` from an irreducible one has `C† C` scalar. -/
theorem gram_scalar {rep : RepArr n D} {irrep : RepArr n d} (hr : IsUnitaryRep rep)
    (hu : IsUnitaryRep irrep) (hi : IsIrreducible irrep) {C : Matrix (Fin D) (Fin d) ℂ}
    (hC : ∀ g, rep g * C = C * irrep g) : ∃ c : ℂ, C.conjTranspose * C = c • 1 := by
  apply schur_scalar hi
  intro g
  have h1 : (irrep g).conjTranspose * C.conjTranspose = C.conjTranspose * (rep g).conjTranspose := by
    rw [← Matrix.conjTranspose_mul, ← Matrix.conjTranspose_mul, hC]
  have h2 : C.conjTranspose * rep g = irrep g * C.conjTranspose := by
    calc C.conjTranspose * rep g
        = irrep g * (irrep g).conjTranspose * C.conjTranspose * rep g := by rw [hu g, Matrix.one_mul]
      _ = irrep g * C.conjTranspose * ((rep g).conjTranspose * rep g) := by
          rw [Matrix.mul_assoc (irrep g), h1]; simp only [Matrix.mul_assoc]
      _ = irrep g * C.conjTranspose := by rw [IsUnitaryRep.mul_left hr g, Matrix.mul_one]
  rw [← Matrix.mul_assoc, ← h2, Matrix.mul_assoc, hC, Matrix.mul_assoc]

/-- Rows of `b` are orthogonal with common squared norm `r`. -/
theorem gram_rows {b : Matrix (Fin d) (Fin D) ℂ} {c : ℂ}
    (h : (b.transpose).conjTranspose * b.transpose = c • 1) :
    (∀ i, ((∑ m, ‖b i m‖ ^ 2 : ℝ) : ℂ) = c) ∧ b * b.conjTranspose = c • 1 := by
  have key : b * b.conjTranspose = c • 1 := by
    have h2 := congrArg Matrix.transpose h
    rw [Matrix.transpose_mul, Matrix.transpose_smul, Matrix.transpose_one] at h2
    rw [Matrix.transpose_transpose] at h2
    have h3 : (b.transpose).conjTranspose.transpose = b.conjTranspose := by
      ext; simp
    rw [h3] at h2
    exact h2
  refine ⟨fun i => ?_, key⟩
  have h4 := congrFun (congrFun key i) i
  rw [Matrix.mul_apply, Matrix.smul_apply, Matrix.one_apply_eq, smul_eq_mul, mul_one] at h4
  rw [← h4, Complex.ofReal_sum]
  refine Finset.sum_congr rfl fun m _ => ?_
  rw [Matrix.conjTranspose_apply]
  have := Complex.mul_conj (b i m)
  simp only [RCLike.star_def]
  rw [this, Complex.normSq_eq_norm_sq]

theorem normalizeRows_spec {b : Matrix (Fin d) (Fin D) ℂ} {c : ℂ} (hb : b ≠ 0)
    (h : (b.transpose).conjTranspose * b.transpose = c • 1) :
    normalizeRows b * (normalizeRows b).conjTranspose = 1 ∧
      ∃ s : ℂ, s ≠ 0 ∧ normalizeRows b = s • b := by
  obtain ⟨h1, h2⟩ := gram_rows h
  have hex : ∃ i m, b i m ≠ 0 := by
    by_contra hno; push Not at hno; exact hb (by ext i m; exact hno i m)
  obtain ⟨i0, m0, hne⟩ := hex
  set r : ℝ := ∑ m, ‖b i0 m‖ ^ 2 with hr
  have hrc : (r : ℂ) = c := h1 i0
  have hr0 : 0 < r := by
    apply lt_of_lt_of_le (b := ‖b i0 m0‖ ^ 2)
    · have := norm_pos_iff.2 hne; positivity
    · exact Finset.single_le_sum (f := fun m => ‖b i0 m‖ ^ 2) (fun _ _ => by positivity)
        (Finset.mem_univ m0)
  have hall : ∀ i, ∑ m, ‖b i m‖ ^ 2 = r := by
    intro i
    have := (h1 i).trans hrc.symm
    exact_mod_cast this
  have hs : Real.sqrt r ≠ 0 := (Real.sqrt_pos.2 hr0).ne'
  have hsC : ((Real.sqrt r : ℝ) : ℂ) ≠ 0 := by exact_mod_cast hs
  have heq : normalizeRows b = ((Real.sqrt r : ℝ) : ℂ)⁻¹ • b := by
    ext i m
    simp only [normalizeRows, Matrix.of_apply, hall, Matrix.smul_apply, smul_eq_mul]
    rw [div_eq_inv_mul]
  refine ⟨?_, _, inv_ne_zero hsC, heq⟩
  rw [heq, Matrix.conjTranspose_smul, Matrix.smul_mul, Matrix.mul_smul, h2, smul_smul, smul_smul]
  have : ((Real.sqrt r : ℝ) : ℂ)⁻¹ * (star ((Real.sqrt r : ℝ) : ℂ)⁻¹ * c) = 1 := by
    rw [← hrc]
    have h5 : ((Real.sqrt r : ℝ) : ℂ) * ((Real.sqrt r : ℝ) : ℂ) = r := by
      rw [← Complex.ofReal_mul, Real.mul_self_sqrt hr0.le]
    simp only [RCLike.star_def, map_inv₀, Complex.conj_ofReal]
    rw [← h5]; field_simp
  rw [mul_assoc, this, one_smul]

/-- Invariant of a monadic fold over `Except`. -/
theorem foldlM_inv {α β : Type*} {f : β → α → Except PyErr β} {P : β → Prop}
    (hf : ∀ b a b', P b → f b a = .ok b' → P b') :
    ∀ (l : List α) (b b' : β), P b → l.foldlM f b = .ok b' → P b'
  | [], b, b', hb, h => by
    simp only [List.foldlM_nil] at h
    cases h; exact hb
  | a :: l, b, b', hb, h => by
    rw [List.foldlM_cons] at h
    cases hfa : f b a with
    | error e => rw [hfa] at h; cases h
    | ok b'' => rw [hfa] at h; exact foldlM_inv hf l b'' b' (hf _ _ _ hb hfa) h

theorem projStep_cases (la : LinAlg) (rep : RepArr n D) (irrep : RepArr n d) {atol : ℝ}
    (ha : 0 ≤ atol) {bs bs' : List (Matrix (Fin d) (Fin D) ℂ)} {p : Fin D × Fin d}
    (h : projStep la rep irrep atol bs p = .ok bs') :
    bs' = bs ∨ (bs' = bs ++ [normalizeRows (projBlock rep irrep p.1 p.2)] ∧
      projBlock rep irrep p.1 p.2 ≠ 0) := by
  unfold projStep at h
  simp only at h
  split_ifs at h with h1 h2
  · cases h; exact Or.inl rfl
  · have hne : projBlock rep irrep p.1 p.2 ≠ 0 := by
      intro h0; apply h1; intro i m
      rw [h0]; unfold IsCloseC; simp [ha]
    cases hd : grassmannDistance la (normalizeRows (projBlock rep irrep p.1 p.2)) (stackBlocks bs) with
    | error e => rw [hd] at h; cases h
    | ok dist =>
      rw [hd] at h
      change (if dist < 0.5 then Except.ok bs else Except.ok (bs ++ [_])) = _ at h
      split_ifs at h
      · cases h; exact Or.inl rfl
      · cases h; exact Or.inr ⟨rfl, hne⟩
  · have hne : projBlock rep irrep p.1 p.2 ≠ 0 := by
      intro h0; apply h1; intro i m
      rw [h0]; unfold IsCloseC; simp [ha]
    cases h; exact Or.inr ⟨rfl, hne⟩

theorem projInner_all (la : LinAlg) (rep : RepArr n D) (irrep : RepArr n d) {atol : ℝ}
    (ha : 0 ≤ atol) {P : Matrix (Fin d) (Fin D) ℂ → Prop}
    (hP : ∀ c j, projBlock rep irrep c j ≠ 0 → P (normalizeRows (projBlock rep irrep c j)))
    {bs : List (Matrix (Fin d) (Fin D) ℂ)} (h : projInner la rep irrep atol = .ok bs) :
    ∀ b ∈ bs, P b := by
  unfold projInner at h
  refine foldlM_inv (P := fun bs => ∀ b ∈ bs, P b) ?_ _ _ _ (by simp) h
  intro bs p bs' hbs hstep
  rcases projStep_cases la rep irrep ha hstep with rfl | ⟨rfl, hne⟩
  · exact hbs
  · intro b hb
    rcases List.mem_append.1 hb with hb | hb
    · exact hbs b hb
    · rw [List.mem_singleton] at hb; rw [hb]; exact hP _ _ hne

section Search
variable {α : Type*} {inner : ℝ → Except PyErr (α × ℕ)} {num : ℤ}

/-- Next tolerance after a trial (independent of the loop): between the old one and a bound. -/
theorem sqrt_mul_mem {lo hi a : ℝ} (hlo : 0 < lo) (h1 : lo ≤ a) (h2 : a ≤ hi) :
    (lo ≤ Real.sqrt (lo * a) ∧ Real.sqrt (lo * a) ≤ a) ∧
      (a ≤ Real.sqrt (hi * a) ∧ Real.sqrt (hi * a) ≤ hi) := by
  have ha : 0 < a := lt_of_lt_of_le hlo h1
  refine ⟨⟨?_, ?_⟩, ?_, ?_⟩
  · apply Real.le_sqrt_of_sq_le; nlinarith
  · rw [Real.sqrt_le_left ha.le]; nlinarith
  · apply Real.le_sqrt_of_sq_le; nlinarith
  · rw [Real.sqrt_le_left (by linarith)]; nlinarith

theorem retryLoop_spec : ∀ (trials : ℕ) (atol : ℝ) (last r : Option (α × ℕ)) (ts : List ℝ),
    1e-10 ≤ atol → atol ≤ 1e-2 → retryLoop inner num trials atol last = .ok (r, ts) →
    ts.length ≤ trials ∧ (∀ t ∈ ts, 1e-10 ≤ t ∧ t ≤ 1e-2) ∧
    (trials = 0 → r = last ∧ ts = []) ∧
    (0 < trials → ∃ init t basis count, ts = init ++ [t] ∧ inner t = .ok (basis, count) ∧
      r = some (basis, count) ∧ ((count : ℤ) ≠ num → ts.length = trials) ∧
      (∀ s ∈ init, ∃ b c, inner s = .ok (b, c) ∧ (c : ℤ) ≠ num) ∧ ts.head? = some atol)
  | 0, atol, last, r, ts, _, _, h => by
    unfold retryLoop at h
    cases h
    simp
  | trials + 1, atol, last, r, ts, h1, h2, h => by
    unfold retryLoop at h
    cases hi : inner atol with
    | error e => rw [hi] at h; cases h
    | ok bc =>
      obtain ⟨basis, count⟩ := bc
      rw [hi] at h
      change (if (count : ℤ) = num then Except.ok (some (basis, count), [atol])
        else _) = _ at h
      by_cases hc : (count : ℤ) = num
      · rw [if_pos hc] at h
        cases h
        refine ⟨by simp, by simpa using ⟨h1, h2⟩, by simp, fun _ => ⟨[], atol, basis, count, by simp,
          hi, rfl, fun h => absurd hc h, by simp, by simp⟩⟩
      · rw [if_neg hc] at h
        obtain ⟨hm1, hm2⟩ := sqrt_mul_mem (by norm_num) h1 h2
        set a' := if (count : ℤ) < num then Real.sqrt (1e-10 * atol) else Real.sqrt (1e-2 * atol) with ha'
        have hb : 1e-10 ≤ a' ∧ a' ≤ 1e-2 := by
          rw [ha']; split_ifs
          · exact ⟨hm1.1, hm1.2.trans h2⟩
          · exact ⟨h1.trans hm2.1, hm2.2⟩
        cases hr : retryLoop inner num trials a' (some (basis, count)) with
        | error e =>
          rw [hr] at h; cases h
        | ok rts =>
          obtain ⟨r', ts'⟩ := rts
          rw [hr] at h
          cases h
          obtain ⟨i1, i2, i3, i4⟩ := retryLoop_spec trials a' _ r ts' hb.1 hb.2 hr
          refine ⟨by simpa using i1, ?_, by simp, fun _ => ?_⟩
          · intro t ht
            rcases List.mem_cons.1 ht with rfl | ht
            · exact ⟨h1, h2⟩
            · exact i2 t ht
          · rcases Nat.eq_zero_or_pos trials with h0 | h0
            · obtain ⟨rfl, rfl⟩ := i3 h0
              exact ⟨[], atol, basis, count, by simp, hi, rfl, by simp [h0], by simp, by simp⟩
            · obtain ⟨init, t, b, c, e1, e2, e3, e4, e5, e6⟩ := i4 h0
              refine ⟨atol :: init, t, b, c, by simp [e1], e2, e3, ?_, ?_, by simp⟩
              · intro hne; simpa using e4 hne
              · intro s hs
                rcases List.mem_cons.1 hs with rfl | hs
                · exact ⟨basis, count, hi, hc⟩
                · exact e5 s hs

theorem retryLoop_ok (hin : ∀ a, 1e-10 ≤ a → a ≤ 1e-2 → ∃ x, inner a = .ok x) : ∀ (trials : ℕ) (atol : ℝ)
    (last : Option (α × ℕ)), 1e-10 ≤ atol → atol ≤ 1e-2 → ∃ x, retryLoop inner num trials atol last = .ok x
  | 0, _, _, _, _ => ⟨_, rfl⟩
  | trials + 1, atol, last, h1, h2 => by
    unfold retryLoop
    obtain ⟨⟨b, c⟩, hbc⟩ := hin atol h1 h2
    obtain ⟨hm1, hm2⟩ := sqrt_mul_mem (by norm_num) h1 h2
    rw [hbc]
    change ∃ x, (if (c : ℤ) = num then Except.ok (some (b, c), [atol]) else _) = _
    split_ifs with h h3
    · exact ⟨_, rfl⟩
    · obtain ⟨x, hx⟩ := retryLoop_ok hin trials (Real.sqrt (1e-10 * atol)) (some (b, c)) hm1.1 (hm1.2.trans h2)
      rw [hx]; exact ⟨_, rfl⟩
    · obtain ⟨x, hx⟩ := retryLoop_ok hin trials (Real.sqrt (1e-2 * atol)) (some (b, c)) (h1.trans hm2.1) hm2.2
      rw [hx]; exact ⟨_, rfl⟩

theorem searchTolerance_spec {atol : ℝ} {maxTrials : ℕ} (basis : α) (w : Bool) (ts : List ℝ)
    (h : searchTolerance inner num atol maxTrials = .ok (basis, w, ts)) :
    ts.length ≤ maxTrials ∧ (∀ t ∈ ts, 1e-10 ≤ t ∧ t ≤ 1e-2) ∧
      ts.head? = some (min (max atol 1e-10) 1e-2) ∧
      ∃ init t count, ts = init ++ [t] ∧ inner t = .ok (basis, count) ∧
        (∀ s ∈ init, ∃ b c, inner s = .ok (b, c) ∧ (c : ℤ) ≠ num) ∧
        ((count : ℤ) ≠ num → ts.length = maxTrials) ∧ (w = true ↔ (count : ℤ) ≠ num) := by
  have hb1 : (1e-10 : ℝ) ≤ min (max atol 1e-10) 1e-2 := le_min (le_max_right _ _) (by norm_num)
  have hb2 : min (max atol 1e-10) 1e-2 ≤ (1e-2 : ℝ) := min_le_right _ _
  unfold searchTolerance at h
  simp only at h
  cases hr : retryLoop inner num maxTrials (min (max atol 1e-10) 1e-2) none with
  | error e => rw [hr] at h; cases h
  | ok rts =>
    obtain ⟨r, ts'⟩ := rts
    rw [hr] at h
    obtain ⟨i1, i2, i3, i4⟩ := retryLoop_spec _ _ _ _ _ hb1 hb2 hr
    rcases Nat.eq_zero_or_pos maxTrials with hz | hz
    · obtain ⟨rfl, rfl⟩ := i3 hz
      cases h
    · obtain ⟨init, t, b, count, e1, e2, rfl, e4, e5, e6⟩ := i4 hz
      cases h
      exact ⟨i1, i2, e6, init, t, count, e1, e2, e5, e4, by simp⟩

end Search

theorem projectToIrrep_cases {la : LinAlg} {rep : RepArr n D} {irrep : RepArr n d} {atol : ℝ}
    {maxTrials : ℕ} {bs : List (Matrix (Fin d) (Fin D) ℂ)} {w : Bool}
    (h : projectToIrrep la rep irrep atol maxTrials = .ok (bs, w)) :
    (numBasis rep irrep = 0 ∧ bs = [] ∧ w = false) ∨
    (∃ t, numBasis rep irrep ≠ 0 ∧ 1e-10 ≤ t ∧ t ≤ 1e-2 ∧ projInner la rep irrep t = .ok bs ∧
      (w = true ↔ (bs.length : ℤ) ≠ numBasis rep irrep)) := by
  unfold projectToIrrep at h
  by_cases h0 : numBasis rep irrep = 0
  · simp only [h0, if_true] at h
    cases h; exact Or.inl ⟨h0, rfl, rfl⟩
  · simp only [h0, if_false] at h
    right
    cases hs : searchTolerance
      (fun a => do let b ← projInner la rep irrep a; return (b, b.length))
        (numBasis rep irrep) atol maxTrials with
    | error e => rw [hs] at h; cases h
    | ok x =>
      obtain ⟨basis, w', ts⟩ := x
      rw [hs] at h
      cases h
      obtain ⟨_, h2, _, init, t, count, e1, e2, _, _, e5⟩ := searchTolerance_spec _ _ _ hs
      have ht := h2 t (by simp [e1])
      cases hp : projInner la rep irrep t with
      | error e => rw [hp] at e2; cases e2
      | ok bs' =>
        rw [hp] at e2
        cases e2
        exact ⟨t, h0, ht.1, ht.2, hp, e5⟩

end Spgrep
