/-
Property C73: the order in which irreps are returned.
-/
import Verif.Proofs.TrivialFirst
import Verif.Props.RealIrreps
import Verif.Props.Random

namespace Spgrep

open Spec Matrix

variable {n : ℕ} {T : Fin n → Fin n → Fin n}

/-- Sorted by dimension, then by decreasing sum of the characters (real part, then imaginary part). -/
def Spec.IsSortedIrreps (L : List (Σ d : ℕ, Fin n → Matrix (Fin d) (Fin d) ℂ)) : Prop :=
  L.Pairwise fun D E => D.1 < E.1 ∨ D.1 = E.1 ∧
    ((∑ g, (E.2 g).trace).re < (∑ g, (D.2 g).trace).re ∨
      (∑ g, (E.2 g).trace).re = (∑ g, (D.2 g).trace).re ∧ (∑ g, (E.2 g).trace).im ≤ (∑ g, (D.2 g).trace).im)

theorem irrepLe_iff (D E : AnyRep n) : irrepLe D E = true ↔ D.1 < E.1 ∨ D.1 = E.1 ∧
    ((∑ g, (E.2 g).trace).re < (∑ g, (D.2 g).trace).re ∨
      (∑ g, (E.2 g).trace).re = (∑ g, (D.2 g).trace).re ∧ (∑ g, (E.2 g).trace).im ≤ (∑ g, (D.2 g).trace).im) := by
  unfold irrepLe getCharacter Matrix.trace
  simp only [decide_eq_true_eq, Complex.neg_re, Complex.neg_im, neg_lt_neg_iff, neg_inj, neg_le_neg_iff, Matrix.diag_apply]
  constructor
  · rintro (h | ⟨h, h1 | ⟨h1, h2⟩⟩)
    · exact .inl h
    · exact .inr ⟨h, .inl h1⟩
    · exact .inr ⟨h, .inr ⟨h1.symm, h2⟩⟩
  · rintro (h | ⟨h, h1 | ⟨h1, h2⟩⟩)
    · exact .inl h
    · exact .inr ⟨h, .inl h1⟩
    · exact .inr ⟨h, .inr ⟨h1.symm, h2⟩⟩

theorem irrepsFromMatrix_sorted {D : ℕ} (eigh : EighOracle) (qr : QROracle) (reg : RepArr n D)
    (M : Matrix (Fin D) (Fin D) ℂ) (rtol : ℝ) : IsSortedIrreps (getIrrepsFromMatrix eigh qr reg M rtol) := by
  have h : (getIrrepsFromMatrix eigh qr reg M rtol).Pairwise fun D E => irrepLe D E = true := by
    refine List.pairwise_mergeSort (fun a b c h1 h2 => ?_) (fun a b => ?_) _
    · rw [irrepLe_iff] at h1 h2 ⊢
      rcases h1 with h1 | ⟨h1, h3 | ⟨h3, h4⟩⟩ <;> rcases h2 with h2 | ⟨h2, h5 | ⟨h5, h6⟩⟩
      · exact .inl (h1.trans h2)
      · exact .inl (h2 ▸ h1)
      · exact .inl (h2 ▸ h1)
      · exact .inl (h1 ▸ h2)
      · exact .inr ⟨h1.trans h2, .inl (h5.trans h3)⟩
      · exact .inr ⟨h1.trans h2, .inl (h5 ▸ h3)⟩
      · exact .inl (h1 ▸ h2)
      · exact .inr ⟨h1.trans h2, .inl (h3 ▸ h5)⟩
      · exact .inr ⟨h1.trans h2, .inr ⟨h5.trans h3, h6.trans h4⟩⟩
    · rw [Bool.or_eq_true, irrepLe_iff, irrepLe_iff]
      rcases lt_trichotomy a.1 b.1 with h | h | h
      · exact .inl (.inl h)
      · rcases lt_trichotomy (∑ g, (a.2 g).trace).re (∑ g, (b.2 g).trace).re with h1 | h1 | h1
        · exact .inr (.inr ⟨h.symm, .inl h1⟩)
        · rcases le_total (∑ g, (a.2 g).trace).im (∑ g, (b.2 g).trace).im with h2 | h2
          · exact .inr (.inr ⟨h.symm, .inr ⟨h1, h2⟩⟩)
          · exact .inl (.inr ⟨h, .inr ⟨h1.symm, h2⟩⟩)
        · exact .inl (.inr ⟨h, .inl h1⟩)
      · exact .inr (.inl h)
  exact h.imp fun h => (irrepLe_iff _ _).1 h

/-- **C73, sorting.** Whatever the input, the draws and the linear-algebra routines, the irreps returned by
`enumerate_unitary_irreps_from_regular_representation` and by `decompose_representation` are sorted by dimension, then by
decreasing sum of the characters. -/
theorem c73_sorted (eigh : EighOracle) (qr : QROracle) (rtol : ℝ) (maxGen : ℕ) :
    (∀ (random : ℕ → Matrix (Fin n) (Fin n) ℂ) (reg : RepArr n n) L w,
      enumerateFromRegular eigh qr random reg rtol maxGen = .ok (L, w) → IsSortedIrreps L) ∧
    ∀ (D : ℕ) (random : ℕ → Matrix (Fin D) (Fin D) ℂ) (rep : RepArr n D) L w,
      decomposeRepresentation eigh qr random rep rtol maxGen = (L, w) → IsSortedIrreps L := by
  classical
  have key : ∀ {attempt : ℕ → List (AnyRep n)} {accept : List (AnyRep n) → Prop} {l : List ℕ} {L w},
      (∀ t, IsSortedIrreps (attempt t)) → retryRandom attempt accept l = (L, w) → IsSortedIrreps L := by
    intro attempt accept l L w h1 h
    rcases retryRandom_cases (attempt := attempt) (accept := accept) l with ⟨h2, -⟩ | ⟨t, -, -, h2⟩
    · rw [h2] at h
      obtain ⟨rfl, -⟩ := Prod.mk.inj h
      exact List.Pairwise.nil
    · rw [h2] at h
      obtain ⟨rfl, -⟩ := Prod.mk.inj h
      exact h1 t
  constructor
  · intro random reg L w h
    unfold enumerateFromRegular at h
    split_ifs at h with h1
    exact key (fun t => irrepsFromMatrix_sorted ..) (Except.ok.inj h)
  · intro D random rep L w h
    exact key (fun t => irrepsFromMatrix_sorted ..) h

/-- Equivalent one-dimensional representations are equal. -/
theorem eq_one_of_equiv {d : ℕ} {D : RepArr n d} (h : AreEquivalent (fun _ : Fin n => (1 : Matrix (Fin 1) (Fin 1) ℂ)) D) :
    ∀ g, D g = 1 := by
  obtain ⟨X, Y, h1, h2, h3⟩ := h
  intro g
  have := h3 g
  rw [Matrix.one_mul] at this
  calc D g = (Y * X) * D g := by rw [h2, Matrix.one_mul]
    _ = Y * (X * D g) := Matrix.mul_assoc ..
    _ = 1 := by rw [← this, h2]

theorem trivial_head {T : Fin n → Fin n → Fin n} (hT : IsGroupTable T) {L : List (AnyRep n)}
    (hL : IsCompleteIrreps T (fun _ _ => 1) L) (hs : IsSortedIrreps L) : ∃ rest, L = ⟨1, fun _ => 1⟩ :: rest := by
  have hn := table_pos hT
  have htriv : IsProjRep T (fun _ _ => (1 : ℂ)) fun _ : Fin n => (1 : Matrix (Fin 1) (Fin 1) ℂ) := fun _ _ => by simp
  obtain ⟨D, hD, hDe⟩ := hL.complete 1 (fun _ => 1) htriv (fun _ => isUnit_one) (irreducible_dim_one _)
  have hd : D = ⟨1, fun _ => 1⟩ := by
    have h1 := eq_one_of_equiv hDe
    obtain ⟨d, D⟩ := D
    obtain rfl : 1 = d := by
      obtain ⟨X, Y, h2, h3, -⟩ := hDe
      have h4 := Matrix.trace_mul_comm X Y
      dsimp only at h2 h3 h4
      rw [h2, h3, Matrix.trace_one, Matrix.trace_one] at h4
      exact_mod_cast (by simpa using h4 : (1 : ℂ) = (d : ℂ))
    congr 1
    exact funext h1
  subst hd
  rcases L with _ | ⟨E, rest⟩
  · simp at hD
  · rcases List.mem_cons.1 hD with h | h
    · exact ⟨rest, by rw [← h]⟩
    · exfalso
      have h1 := (List.pairwise_cons.1 hs).1 _ h
      have h2 := (List.pairwise_cons.1 hL.inequiv).1 _ h
      have hEm : E ∈ E :: rest := List.mem_cons_self
      have h3 := (table_char_orthogonality hT (fun _ _ => one_ne_zero) (hL.rep E hEm) htriv (hL.unitary E hEm)
        (hL.irred E hEm) (irreducible_dim_one _) fun _ => by simp).2 h2
      have hsum : ∑ g, (E.2 g).trace = 0 := by simpa using h3
      dsimp only at h1
      rw [hsum] at h1
      have hn' : (0 : ℝ) < n := by exact_mod_cast hn
      rcases h1 with h1 | ⟨h1, h4 | ⟨h4, -⟩⟩
      · have h5 := (hL.irred E hEm).1
        have : E.1 = 0 := by omega
        rw [this] at h5
        exact h5.elim fun x => Fin.elim0 x
      · simp at h4
        linarith
      · simp at h4
        linarith

theorem raw_head {rots : Fin n → M3} (h : EnumeratesGroup rots) {o : Oracles} (ho : EigenContract o.eigh o.qr)
    {method : IrrepMethod} {rtol atol : ℝ} (hr : 0 ≤ rtol) (hr2 : rtol ≤ 1 / 2) (ha : 0 ≤ atol) {maxGen : ℕ}
    {L : List (AnyRep n)} (hraw : rawIrreps o rots (fun _ _ => 1) method rtol atol maxGen = .ok (L, false)) :
    ∃ rest, L = ⟨1, fun _ => 1⟩ :: rest := by
  obtain ⟨T, hT, -, hTg⟩ := c01_cayley_table_ordinary h
  cases method with
  | neto =>
    unfold rawIrreps at hraw
    dsimp only at hraw
    rw [hT] at hraw
    simp only [bind, Except.bind] at hraw
    rcases h1 : getPointgroupChainGenerators o.pointgroup rots with err | gens
    · rw [h1] at hraw; cases hraw
    rw [h1] at hraw
    dsimp only at hraw
    rcases h2 : gens.mapM (toIndex n) with err | gens'
    · rw [h2] at hraw; cases hraw
    rw [h2] at hraw
    dsimp only at hraw
    rcases h3 : enumerateFromChain o.random T (fun _ _ => 1) gens' atol maxGen with err | ⟨L', w, ins⟩
    · rw [h3] at hraw; cases hraw
    rw [h3] at hraw
    obtain ⟨rfl, h4⟩ := Prod.mk.inj (Except.ok.inj hraw)
    obtain ⟨rfl, rfl⟩ := Bool.or_eq_false_iff.1 h4
    exact enumerateFromChain_head ha h3
  | random =>
    obtain ⟨reg, lookup, q1, -, -, L', w, q3, q4, -⟩ := c35_random_enumeration (μ := fun _ _ => 1) h hT (fun _ _ => by simp)
      (fun _ _ _ => by simp) ho (o.random n) hr hr2 maxGen
    unfold rawIrreps at hraw
    dsimp only at hraw
    simp only [q1, bind, Except.bind, q3] at hraw
    obtain ⟨rfl, rfl⟩ := Prod.mk.inj (Except.ok.inj hraw)
    exact trivial_head hTg (q4 rfl).1 ((c73_sorted ..).1 _ _ _ _ q3)
  | other => cases hraw

theorem purify_trivial {atol : ℝ} (h0 : 0 ≤ atol) (ha : atol ≤ 1 / 2) :
    purifyIrrepValue (fun _ : Fin n => (1 : Matrix (Fin 1) (Fin 1) ℂ)) atol = fun _ => 1 := by
  funext g
  ext i j
  obtain rfl : i = j := Subsingleton.elim _ _
  change purifyEntry atol ((1 : Matrix (Fin 1) (Fin 1) ℂ) i i) = (1 : Matrix (Fin 1) (Fin 1) ℂ) i i
  rw [Matrix.one_apply_eq, purifyEntry_eq]
  obtain ⟨h1, h2, h3⟩ := sqrt3_bounds
  exact snap_of_sep fun w hw => purify_sep h0 (by norm_num at h3; nlinarith) (1 : ℂ) (by simp [purifyValues]) w hw

theorem frobenius_trivial (hn : 0 < n) : frobeniusSchur (fun _ : Fin n => (1 : Matrix (Fin 1) (Fin 1) ℂ)) = .ok 1 := by
  unfold frobeniusSchur
  have hn' : (n : ℂ) ≠ 0 := by exact_mod_cast hn.ne'
  have : rint (1 : ℝ) = 1 := by simpa using rint_natCast 1
  simp [hn', this]

theorem pairsOf_head (x : AnyRep n) (L : List (AnyRep n)) : ∃ j rest, pairsOf (x :: L) = (0, j) :: rest := by
  unfold pairsOf conjugatedPairs
  generalize (fun i j : Fin (x :: L).length => IsEquivalentIrrep ((charList ((x :: L).get i).2).map star)
    (charList ((x :: L).get j).2)) = eqv
  have hkeep : ∀ (l : List (Fin (x :: L).length)) (st : List (Fin (x :: L).length) × List (Fin (x :: L).length × _)) a b,
      st.2 = a :: b → ∃ b', (l.foldl (pairStep eqv) st).2 = a :: b' := by
    intro l
    induction l with
    | nil => intro st a b h; exact ⟨b, h⟩
    | cons i l ih =>
      intro st a b h
      rw [List.foldl_cons]
      have h1 : ∃ b', (pairStep eqv st i).2 = a :: b' := by
        unfold pairStep
        split_ifs
        · exact ⟨b, h⟩
        · dsimp only
          split
          · exact ⟨b ++ [_], by rw [h]; rfl⟩
          · exact ⟨b ++ [_], by rw [h]; rfl⟩
      obtain ⟨b', h1⟩ := h1
      exact ih _ a b' h1
  have hfin : List.finRange (x :: L).length = 0 :: (List.finRange L.length).map Fin.succ := List.finRange_succ
  rw [hfin, List.foldl_cons]
  have h1 : ∃ j, (pairStep eqv ([], []) 0).2 = [(0, j)] := by
    unfold pairStep
    rw [if_neg (by simp)]
    dsimp only
    split
    · exact ⟨_, rfl⟩
    · exact ⟨_, rfl⟩
  obtain ⟨j, h1⟩ := h1
  obtain ⟨rest, h2⟩ := hkeep ((List.finRange L.length).map Fin.succ) _ _ _ h1
  exact ⟨j, rest, h2⟩

theorem phys_trivial (hn : 0 < n) {eig : EigOracle} (heig : EigContract eig) {random : ℕ → Matrix (Fin 1) (Fin 1) ℂ}
    {atol : ℝ} (h0 : 0 ≤ atol) (ha : atol ≤ 1 / 10) {maxGen : ℕ}
    (hw : (getIntertwiner random (fun _ : Fin n => (1 : Matrix (Fin 1) (Fin 1) ℂ)) (fun _ => 1) atol maxGen).2 = false) :
    (getPhysicallyIrrep eig random (fun _ : Fin n => (1 : Matrix (Fin 1) (Fin 1) ℂ)) 1 atol maxGen).map
      (fun r => (⟨r.1, purifyRealIrrepValue r.2 atol⟩ : AnyReal n)) = .ok ⟨1, fun _ => 1⟩ := by
  unfold getPhysicallyIrrep
  rw [if_pos rfl]
  have hst : (fun k : Fin n => (1 : Matrix (Fin 1) (Fin 1) ℂ).map star) = fun _ => 1 := by
    funext k
    ext i j
    obtain rfl : i = j := Subsingleton.elim _ _
    simp
  rw [hst]
  have hU := intertwinerLoop_one (rep1 := fun _ : Fin n => (1 : Matrix (Fin 1) (Fin 1) ℂ)) (rep2 := fun _ => 1)
    (fun _ => rfl) (fun _ => rfl) h0 ((List.range maxGen).map random)
    (U := (getIntertwiner random (fun _ : Fin n => (1 : Matrix (Fin 1) (Fin 1) ℂ)) (fun _ => 1) atol maxGen).1)
    (Prod.ext rfl hw)
  dsimp only
  rw [hU]
  have hE := heig.isEig 1 1 ⟨_, by simpa using isEig_one (d := 1) 1⟩
  obtain ⟨h1, -, h2⟩ := hE
  set w := (eig 1 1).1
  set V := (eig 1 1).2
  have hV : ‖V 0 0‖ = 1 := by
    have := h2 0
    rw [Fin.sum_univ_one] at this
    nlinarith [norm_nonneg (V 0 0)]
  have hw1 : w 0 = 1 := by
    have h3 := congrFun (congrFun h1 0) 0
    rw [Matrix.one_mul, Matrix.mul_diagonal] at h3
    have hV0 : V 0 0 ≠ 0 := fun h => by rw [h] at hV; simp at hV
    exact (mul_left_cancel₀ hV0 (by rw [mul_one]; exact h3)).symm
  have hS : (realEigMatrix atol V 0 0) ^ 2 = 1 := by
    unfold realEigMatrix realEigvec
    dsimp only
    rw [Matrix.of_apply]
    have hns : (V 0 0).re ^ 2 + (V 0 0).im ^ 2 = 1 := by
      have := Complex.sq_norm (V 0 0)
      rw [hV, Complex.normSq_apply] at this
      nlinarith
    have hdiv : ∀ x : ℝ, x ≠ 0 → (x / Real.sqrt (x ^ 2)) ^ 2 = 1 := by
      intro x hx
      rw [div_pow, Real.sq_sqrt (sq_nonneg x), div_self (pow_ne_zero 2 hx)]
    split_ifs with hc
    · rw [Fin.sum_univ_one]
      apply hdiv
      intro h3
      replace h3 : (V 0 0).im = 0 := h3
      have h4 := hc 0
      unfold IsClose at h4
      simp only [sub_zero, abs_zero, mul_zero, add_zero] at h4
      rw [h3] at hns
      nlinarith [sq_abs (V 0 0).re, abs_nonneg (V 0 0).re]
    · rw [Fin.sum_univ_one]
      apply hdiv
      intro h3
      replace h3 : (V 0 0).re = 0 := h3
      apply hc
      intro i
      obtain rfl : i = 0 := Subsingleton.elim _ _
      unfold IsClose
      rw [h3]
      simpa using h0
  have hroot : nroot 1 2 = 1 := nroot_one (by norm_num)
  have hT1 : sqrtIntertwiner (realEigMatrix atol V) w = 1 := by
    ext i j
    obtain rfl : i = 0 := Subsingleton.elim _ _
    obtain rfl : j = 0 := Subsingleton.elim _ _
    unfold sqrtIntertwiner
    rw [Matrix.mul_apply, Fin.sum_univ_one, Matrix.mul_diagonal, hw1, hroot]
    simp only [Matrix.transpose_apply, Matrix.map_apply, mul_one, Matrix.one_apply_eq]
    rw [← Complex.ofReal_mul, ← sq, hS, Complex.ofReal_one]
  have hphys : physRealFrom eig atol (1 : Matrix (Fin 1) (Fin 1) ℂ) (fun _ : Fin n => (1 : Matrix (Fin 1) (Fin 1) ℂ)) =
      fun _ => 1 := by
    funext k
    ext i j
    obtain rfl : i = j := Subsingleton.elim _ _
    unfold physRealFrom
    dsimp only
    rw [hT1]
    simp
  rw [hphys]
  have hp : purifyRealIrrepValue (fun _ : Fin n => (1 : Matrix (Fin 1) (Fin 1) ℝ)) atol = fun _ => 1 := by
    funext k
    ext i j
    obtain rfl : i = j := Subsingleton.elim _ _
    change purifyRealEntry atol ((1 : Matrix (Fin 1) (Fin 1) ℝ) i i) = (1 : Matrix (Fin 1) (Fin 1) ℝ) i i
    rw [Matrix.one_apply_eq, purifyRealEntry_eq]
    obtain ⟨h3, h4, h5⟩ := sqrt3_bounds
    exact snap_of_sep fun w hw => purifyReal_sep (by norm_num at h5; linarith) (1 : ℝ) (by simp [purifyRealValues]) w hw
  simp only [Except.map, hp]

theorem complex_head (hn : 0 < n) {rest : List (AnyRep n)} {l : List (AnyRep n × ℤ)}
    (h : withIndicators (⟨1, fun _ => 1⟩ :: rest) = .ok l) : ∃ rest', l = (⟨1, fun _ => 1⟩, 1) :: rest' := by
  have h1 := mapM_forall₂ h
  cases h1 with
  | cons h2 h3 =>
    dsimp only at h2
    rw [frobenius_trivial hn] at h2
    cases h2
    exact ⟨_, rfl⟩

theorem real_head (hn : 0 < n) {o : Oracles} (heig : EigContract o.eig) {atol : ℝ} (h0 : 0 ≤ atol) (ha : atol ≤ 1 / 10)
    {maxGen : ℕ} (hw : (getIntertwiner (o.random 1) (fun _ : Fin n => (1 : Matrix (Fin 1) (Fin 1) ℂ)) (fun _ => 1) atol
      maxGen).2 = false) {rest : List (AnyRep n)} {l : List (AnyReal n × ℤ)}
    (h : realIrreps o (⟨1, fun _ => 1⟩ :: rest) false atol maxGen = .ok l) :
    ∃ rest', l = (⟨1, fun _ => 1⟩, 1) :: rest' := by
  unfold realIrreps at h
  have h1 := mapM_forall₂ h
  obtain ⟨j, rp, hp⟩ := pairsOf_head (⟨1, fun _ => 1⟩ : AnyRep n) rest
  rw [hp] at h1
  cases h1 with
  | cons h2 h3 =>
    have hg : (⟨1, fun _ => 1⟩ :: rest : List (AnyRep n)).get 0 = ⟨1, fun _ => 1⟩ := rfl
    dsimp only at h2
    rw [hg] at h2
    dsimp only at h2
    rw [frobenius_trivial hn] at h2
    simp only [bind, Except.bind, Bool.false_eq_true, if_false] at h2
    have h4 := phys_trivial hn heig (random := o.random 1) h0 ha hw
    rcases h5 : getPhysicallyIrrep o.eig (o.random 1) (fun _ : Fin n => (1 : Matrix (Fin 1) (Fin 1) ℂ)) 1 atol maxGen with
      err | r
    · rw [h5] at h4; cases h4
    · rw [h5] at h4 h2
      have h6 := Except.ok.inj h4
      dsimp only at h6 h2
      rw [h6] at h2
      cases h2
      exact ⟨_, rfl⟩

/-- **C73, the trivial irrep comes first.** For every list of rotations that is a group and both methods, a run without a
warning for ordinary irreps puts the trivial representation, exactly, with indicator one, in the first place.  The same
holds with `real=True`, unless the intertwiner search for this one-dimensional irrep gave up, and for the small
representations at the zone centre, whatever the translations. -/
theorem c73_trivial_first {rots : Fin n → M3} (h : EnumeratesGroup rots) (o : Oracles) (ho : EigenContract o.eigh o.qr)
    (method : IrrepMethod) {rtol atol : ℝ} (hr : 0 ≤ rtol) (hr2 : rtol ≤ 1 / 2) (h0 : 0 ≤ atol) (ha : atol ≤ 1 / 10)
    (maxGen : ℕ) :
    (∀ l, enumerateUnitaryIrreps o rots none false method rtol atol maxGen = .ok (.complex l, false) →
      ∃ rest, l = (⟨1, fun _ => 1⟩, 1) :: rest) ∧
    (∀ trans l, enumerateSmallReps o rots trans (fun _ => 0) false method rtol atol maxGen = .ok (.complex l, false) →
      ∃ rest, l = (⟨1, fun _ => 1⟩, 1) :: rest) ∧
    (EigContract o.eig →
      (getIntertwiner (o.random 1) (fun _ : Fin n => (1 : Matrix (Fin 1) (Fin 1) ℂ)) (fun _ => 1) atol maxGen).2 = false →
      (∀ l, enumerateUnitaryIrreps o rots none true method rtol atol maxGen = .ok (.real l, false) →
        ∃ rest, l = (⟨1, fun _ => 1⟩, 1) :: rest) ∧
      ∀ trans l, enumerateSmallReps o rots trans (fun _ => 0) true method rtol atol maxGen = .ok (.real l, false) →
        ∃ rest, l = (⟨1, fun _ => 1⟩, 1) :: rest) := by
  classical
  obtain ⟨T, hT, -, hTg⟩ := c01_cayley_table_ordinary h
  have hn := table_pos hTg
  have hpur := purify_trivial (n := n) h0 (ha.trans (by norm_num))
  have hcore : ∀ {μ : Option (Fin n → Fin n → ℂ)} {real : Bool} {out}, (μ.getD fun _ _ => 1) = (fun _ _ => (1 : ℂ)) →
      enumerateUnitaryIrreps o rots μ real method rtol atol maxGen = .ok (out, false) →
      ∃ rest, (real = true → (realIrreps o (⟨1, fun _ => 1⟩ :: rest) false atol maxGen).map IrrepsOut.real = .ok out) ∧
        (real = false → (withIndicators (⟨1, fun _ => 1⟩ :: rest)).map IrrepsOut.complex = .ok out) := by
    intro μ real out hμ hrun
    unfold enumerateUnitaryIrreps at hrun
    rw [hμ] at hrun
    rcases h1 : rawIrreps o rots (fun _ _ => 1) method rtol atol maxGen with err | ⟨L, w⟩
    · rw [h1] at hrun; cases hrun
    rw [h1] at hrun
    simp only [bind, Except.bind] at hrun
    have hw : w = false := by
      cases real
      · simp only [Bool.false_eq_true, if_false] at hrun
        split at hrun
        · cases hrun
        · exact (Prod.mk.inj (Except.ok.inj hrun)).2
      · simp only [if_true] at hrun
        split at hrun
        · cases hrun
        · exact (Prod.mk.inj (Except.ok.inj hrun)).2
    subst hw
    obtain ⟨rest, rfl⟩ := raw_head h ho hr hr2 h0 h1
    refine ⟨rest.map fun D => ⟨D.1, purifyIrrepValue D.2 atol⟩, fun hreal => ?_, fun hreal => ?_⟩
    · subst hreal
      simp only [if_true, List.map_cons, hpur] at hrun
      split at hrun
      · cases hrun
      · next he =>
        rw [he]
        have := (Prod.mk.inj (Except.ok.inj hrun)).1
        rw [← this]
        rfl
    · subst hreal
      simp only [Bool.false_eq_true, if_false, List.map_cons, hpur] at hrun
      split at hrun
      · cases hrun
      · next he =>
        rw [he]
        have := (Prod.mk.inj (Except.ok.inj hrun)).1
        rw [← this]
        rfl
  have hC : ∀ {μ : Option (Fin n → Fin n → ℂ)} {l}, (μ.getD fun _ _ => 1) = (fun _ _ => (1 : ℂ)) →
      enumerateUnitaryIrreps o rots μ false method rtol atol maxGen = .ok (.complex l, false) →
      ∃ rest, l = (⟨1, fun _ => 1⟩, 1) :: rest := by
    intro μ l hμ hrun
    obtain ⟨rest, -, h2⟩ := hcore hμ hrun
    have h2 := h2 rfl
    rcases h3 : withIndicators (⟨1, fun _ => 1⟩ :: rest : List (AnyRep n)) with err | l'
    · rw [h3] at h2; cases h2
    · rw [h3] at h2
      cases h2
      exact complex_head hn h3
  have hμ0 : ∀ trans : Fin n → V3, ((some (getFactorSystem rots trans fun _ => 0)).getD fun _ _ => 1) =
      fun _ _ => (1 : ℂ) := by
    intro trans
    funext i j
    simp [getFactorSystem, expPhase, dot3, residual]
  have hphase : ∀ (trans : Fin n → V3) {d : ℕ} (D : RepArr n d), phaseMul trans (fun _ => 0) D = D := by
    intro trans d D
    funext i
    simp [phaseMul, dot3, expPhase]
  have hsmall : ∀ {trans : Fin n → V3} {real : Bool} {out},
      enumerateSmallReps o rots trans (fun _ => 0) real method rtol atol maxGen = .ok (out, false) →
      ∃ rest, (real = true → (realIrreps o (⟨1, fun _ => 1⟩ :: rest) false atol maxGen).map IrrepsOut.real = .ok out) ∧
        (real = false → (withIndicators (⟨1, fun _ => 1⟩ :: rest)).map IrrepsOut.complex = .ok out) := by
    intro trans real out hrun
    unfold enumerateSmallReps at hrun
    dsimp only at hrun
    rcases h1 : enumerateUnitaryIrreps o rots (some (getFactorSystem rots trans fun _ => 0)) false method rtol atol maxGen
      with err | ⟨out', w⟩
    · rw [h1] at hrun; cases hrun
    rw [h1] at hrun
    simp only [bind, Except.bind] at hrun
    cases out' with
    | real l' => cases hrun
    | complex l' =>
      dsimp only at hrun
      have hf : decide (¬ AllClose 1e-5 1e-8 (fun a : Fin 3 => 2 * (0 : ℝ) - rint (2 * (0 : ℝ))) fun _ => 0) = false := by
        have : rint 0 = 0 := by simpa using rint_natCast 0
        have h9 : AllClose 1e-5 1e-8 (fun a : Fin 3 => 2 * (0 : ℝ) - rint (2 * (0 : ℝ))) fun _ => 0 := by
          intro a
          simp [IsClose, this]
          norm_num
        exact decide_eq_false (not_not.2 h9)
      have hw : w = false := by
        cases real
        · simp only [Bool.false_eq_true, if_false] at hrun
          split at hrun
          · cases hrun
          · exact (Prod.mk.inj (Except.ok.inj hrun)).2
        · simp only [if_true] at hrun
          split at hrun
          · cases hrun
          · exact (Prod.mk.inj (Except.ok.inj hrun)).2
      subst hw
      obtain ⟨rest, rfl⟩ := hC (hμ0 trans) h1
      simp only [List.map_cons, hphase] at hrun
      refine ⟨rest.map fun D => ⟨D.1.1, D.1.2⟩, fun hreal => ?_, fun hreal => ?_⟩
      · subst hreal
        simp only [if_true] at hrun
        rw [hf] at hrun
        split at hrun
        · cases hrun
        · next he =>
          rw [he]
          have := (Prod.mk.inj (Except.ok.inj hrun)).1
          rw [← this]
          rfl
      · subst hreal
        simp only [Bool.false_eq_true, if_false] at hrun
        split at hrun
        · cases hrun
        · next he =>
          rw [he]
          have := (Prod.mk.inj (Except.ok.inj hrun)).1
          rw [← this]
          rfl
  refine ⟨fun l => hC rfl, fun trans l hrun => ?_, fun heig hw => ⟨fun l hrun => ?_, fun trans l hrun => ?_⟩⟩
  · obtain ⟨rest, -, h2⟩ := hsmall hrun
    have h2 := h2 rfl
    rcases h3 : withIndicators (⟨1, fun _ => 1⟩ :: rest : List (AnyRep n)) with err | l'
    · rw [h3] at h2; cases h2
    · rw [h3] at h2
      cases h2
      exact complex_head hn h3
  · obtain ⟨rest, h2, -⟩ := hcore rfl hrun
    have h2 := h2 rfl
    rcases h3 : realIrreps o (⟨1, fun _ => 1⟩ :: rest : List (AnyRep n)) false atol maxGen with err | l'
    · rw [h3] at h2; cases h2
    · rw [h3] at h2
      cases h2
      exact real_head hn heig h0 ha hw h3
  · obtain ⟨rest, h2, -⟩ := hsmall hrun
    have h2 := h2 rfl
    rcases h3 : realIrreps o (⟨1, fun _ => 1⟩ :: rest : List (AnyRep n)) false atol maxGen with err | l'
    · rw [h3] at h2; cases h2
    · rw [h3] at h2
      cases h2
      exact real_head hn heig h0 ha hw h3

set_option maxHeartbeats 1000000 in
/-- Non-vacuity of C73: the group 23 of order 12, both with `real=False` and with `real=True`. -/
example : ∃ (o : Oracles) (l : List (AnyReal 12 × ℤ)) (lc : List (AnyRep 12 × ℤ)),
    enumerateUnitaryIrreps o rots23 none true .neto 1e-5 1e-8 9 = .ok (.real ((⟨1, fun _ => 1⟩, 1) :: l), false) ∧
    enumerateUnitaryIrreps o rots23 none false .neto 1e-5 1e-8 9 = .ok (.complex ((⟨1, fun _ => 1⟩, 1) :: lc), false) := by
  obtain ⟨T, hT, hs, hTg⟩ := c01_cayley_table_ordinary rots23_group
  obtain ⟨random, hr⟩ := exists_richDraws 1e-8 12 9 fun d hd => by
    have : d ≤ 3 := by by_contra h; push Not at h; nlinarith
    nlinarith
  obtain ⟨eig, heig⟩ := exists_eigContract
  obtain ⟨eigh, qr, ho⟩ := eigenContract_exists
  let o : Oracles := { random := random, eig := eig, eigh := eigh, qr := qr,
                       pointgroup := (PgSymbol.pg_23, (1 : M3).map fun x : ℤ => (x : ℝ)) }
  obtain ⟨L, w, h0, h1, h2⟩ := c69_real_irreps rots23_group hT o pointgroup_23 heig 1e-5 (atol := 1e-8) (by norm_num)
    (by norm_num) 9
  obtain ⟨h3, h4⟩ := h1 hr
  obtain ⟨l, h5, h6, -⟩ := h2 h3 h4
  obtain ⟨L', w', h0', h1', h2'⟩ := c70_indicators rots23_group hT o pointgroup_23 1e-5 (atol := 1e-8) (by norm_num)
    (by norm_num) 9
  obtain ⟨lc, h7, -, h8⟩ := h2' (h1' hr)
  obtain ⟨q1, -, q2⟩ := c73_trivial_first rots23_group o ho .neto (rtol := 1e-5) (atol := 1e-8) (by norm_num) (by norm_num)
    (by norm_num) (by norm_num) 9
  obtain ⟨rest, hrest⟩ := q1 lc h7
  have hmem : (⟨1, fun _ => 1⟩ : AnyRep 12) ∈ L := by
    rw [h3] at h0
    obtain ⟨rest, hrest⟩ := raw_head (o := o) (rtol := 1e-5) (atol := 1e-8) rots23_group ho (by norm_num) (by norm_num)
      (by norm_num) h0
    rw [hrest]
    exact List.mem_cons_self
  have hst : (fun _ : Fin 12 => (1 : Matrix (Fin 1) (Fin 1) ℂ).map star) = fun _ => 1 := by
    funext k
    ext i j
    obtain rfl : i = j := Subsingleton.elim _ _
    simp
  have hint : (getIntertwiner (o.random 1) (fun _ : Fin 12 => (1 : Matrix (Fin 1) (Fin 1) ℂ)) (fun _ => 1) 1e-8 9).2 =
      false := by
    have h9 : (getIntertwiner (o.random 1) (fun _ : Fin 12 => (1 : Matrix (Fin 1) (Fin 1) ℂ))
        (fun _ => (1 : Matrix (Fin 1) (Fin 1) ℂ).map star) 1e-8 9).2 = false :=
      h4 _ hmem (frobenius_trivial (by norm_num))
    rwa [hst] at h9
  obtain ⟨rest', hrest'⟩ := (q2 heig hint).1 l h5
  refine ⟨o, rest', rest, ?_, ?_⟩
  · rw [h5, hrest']
  · rw [h7, hrest]

/-- Non-vacuity of the sorting clause: a list in the right order and one in the wrong order. -/
example : IsSortedIrreps [(⟨1, fun _ => 1⟩ : AnyRep 2), ⟨1, fun g => if g = 0 then 1 else -1⟩, ⟨2, fun _ => 1⟩] ∧
    ¬ IsSortedIrreps [(⟨1, fun g => if g = 0 then 1 else -1⟩ : AnyRep 2), ⟨1, fun _ => 1⟩] := by
  constructor
  · simp [IsSortedIrreps, Fin.sum_univ_two]
  · simp [IsSortedIrreps, Fin.sum_univ_two]

end Spgrep
