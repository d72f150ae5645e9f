/-
C119: the returned Frobenius-Schur indicators and complex conjugation of the irreducible representations of the whole space group.
-/
import Verif.Props.StarPairs
import Verif.Props.Rounding
import Verif.Props.SmallReal
import Verif.Props.Plancherel

namespace Spgrep

open Spec

variable {n : ℕ} {rots : Fin n → M3} {trans : Fin n → V3} {e : ℕ}

theorem conj_irreducible_any {I : Type*} {D : I → Matrix (Fin e) (Fin e) ℂ} (hD : Spec.IsIrreducible D) :
    Spec.IsIrreducible fun g => (D g).map star := by
  refine ⟨hD.1, fun W hW => ?_⟩
  let W' : Submodule ℂ (Fin e → ℂ) :=
    { carrier := {v | (fun i => star (v i)) ∈ W}
      add_mem' := by
        intro v w hv hw
        have := W.add_mem hv hw
        simpa [Pi.add_def] using this
      zero_mem' := by
        have := W.zero_mem
        simpa [Pi.zero_def] using this
      smul_mem' := by
        intro c v hv
        have := W.smul_mem (star c) hv
        simpa [Pi.smul_def] using this }
  have hmem : ∀ v, v ∈ W' ↔ (fun i => star (v i)) ∈ W := fun v => Iff.rfl
  have hinv : ∀ g, ∀ v ∈ W', (D g).mulVec v ∈ W' := by
    intro g v hv
    rw [hmem] at hv ⊢
    have := hW g _ hv
    convert this using 1
    funext i
    simp [Matrix.mulVec, dotProduct]
  rcases hD.2 W' hinv with h | h
  · left
    rw [Submodule.eq_bot_iff]
    intro w hw
    have : (fun i => star (w i)) ∈ W' := by
      rw [hmem]; simpa using hw
    rw [h, Submodule.mem_bot] at this
    funext i
    have := congrFun this i
    simpa using this
  · right
    rw [Submodule.eq_top_iff']
    intro w
    have : (fun i => star (w i)) ∈ W' := by rw [h]; trivial
    rw [hmem] at this
    simpa using this

/-- The complex conjugate of a representation of the whole group. -/
noncomputable def conjRep (E : spaceGroup rots trans →* Matrix (Fin e) (Fin e) ℂ) : spaceGroup rots trans →* Matrix (Fin e) (Fin e) ℂ where
  toFun g := (E g).map star
  map_one' := by rw [map_one, map_star_one]
  map_mul' g g' := by rw [map_mul, map_star_mul]

theorem star_transPhase (k t : V3) : star (transPhase k t) = transPhase (fun a => -k a) t := by
  unfold transPhase
  rw [Complex.star_def, ← Complex.exp_conj]
  congr 1
  simp only [map_mul, map_neg, Complex.conj_I, Complex.conj_ofReal, map_ofNat, neg_mul, Finset.sum_neg_distrib]
  push_cast
  ring

theorem subduces_conj {k : V3} {M : List (Fin n)} {d : ℕ} {Γ : RepArr M.length d}
    {E : spaceGroup rots trans →* Matrix (Fin e) (Fin e) ℂ} (hs : SubducesTo k M Γ E) :
    SubducesTo (fun a => -k a) M (fun p => (Γ p).map star) (conjRep E) := by
  obtain ⟨X, hX, hXg⟩ := hs
  refine ⟨X.map star, fun h0 => hX ?_, fun g p t hg => ?_⟩
  · ext i j
    have := congrFun (congrFun h0 i) j
    simpa using this
  · have h1 := congrArg (fun A : Matrix (Fin e) (Fin d) ℂ => A.map star) (hXg g p t hg)
    change (E g).map star * X.map star = _
    rw [← star_transPhase]
    ext i j
    have h2 := congrFun (congrFun h1 i) j
    simpa [Matrix.mul_apply] using h2

theorem subduces_change {k : V3} {M : List (Fin n)} {d d' : ℕ} {Γ : RepArr M.length d} {Γ' : RepArr M.length d'}
    {E : spaceGroup rots trans →* Matrix (Fin e) (Fin e) ℂ} (hΓ : AreEquivalent Γ Γ') (hs : SubducesTo k M Γ E) :
    SubducesTo k M Γ' E := by
  obtain ⟨Y, Y', h1, h2, h3⟩ := hΓ
  obtain ⟨X, hX, hXg⟩ := hs
  refine ⟨X * Y, fun h0 => hX ?_, fun g p t hg => ?_⟩
  · rw [← Matrix.mul_one X, ← h1, ← Matrix.mul_assoc, h0, Matrix.zero_mul]
  · rw [← Matrix.mul_assoc, hXg g p t hg, Matrix.smul_mul, Matrix.mul_assoc, h3 p, Matrix.mul_assoc]

theorem subduces_congr {k k' : V3} (hk : ∀ a, ∃ m : ℤ, k a - k' a = m) {M : List (Fin n)} {d : ℕ} {Γ : RepArr M.length d}
    {E : spaceGroup rots trans →* Matrix (Fin e) (Fin e) ℂ} (hs : SubducesTo k M Γ E) : SubducesTo k' M Γ E := by
  obtain ⟨X, hX, hXg⟩ := hs
  exact ⟨X, hX, fun g p t hg => by rw [hXg g p t hg, transPhase_congr.2 hk t]⟩

/-- **C119, k-points without time reversal.**  If no operation carries `k` to `-k`, no irreducible representation of the whole
space group that contains a returned small representation is equivalent to its complex conjugate. -/
theorem c119_not_self_conjugate (h : IsSpaceGroup rots trans) {k : V3}
    (hk : ∀ s, ¬ ∀ a, ∃ m : ℤ, -k a - (∑ b, (rots s b a : ℝ) * k b) = m)
    {o : Oracles} {method : IrrepMethod} {rtol atol : ℝ} (ha : 0 < atol) (hnm : NoNearMiss 1 rots k atol) {maxGen : ℕ}
    {M : List (Fin n)} {out : IrrepsOut M.length}
    (hrun : irrepsFromPrimitive o rots trans k false method rtol atol maxGen = .ok ⟨M, out, false⟩)
    {d : ℕ} (Γ : RepArr M.length d) (E : spaceGroup rots trans →* Matrix (Fin e) (Fin e) ℂ)
    (hE : Spec.IsIrreducible fun g => E g) (hs : SubducesTo k M Γ E) : ¬ AreEquivalent (fun g => E g) fun g => (E g).map star := by
  intro heq
  obtain ⟨rfl, -⟩ := primitive_ok hrun
  have hM := little_lists (rots := rots) ha.le hnm
  have hM' : ListsLittle rots (fun a => -k a) (littleMapping rots k atol) :=
    ⟨hM.1, fun i => (hM.2 i).trans ⟨fixesK_neg, fun hf => by simpa using fixesK_neg hf⟩⟩
  have h1 : SubducesTo (fun a => -k a) _ (fun p => (Γ p).map star) E :=
    subduces_equiv (E := conjRep E) (AreEquivalent.symm heq) (subduces_conj hs)
  obtain ⟨s, hs'⟩ := (c117_star h E hE (subduces_bloch h hM hs) _).1 (subduces_bloch h hM' h1)
  exact hk s hs'

theorem latticePhase_sign {T : Fin n → Fin n → Fin n} (h : IsSpaceGroup rots trans) (hT : getCayleyTable rots = .ok T) {k : V3}
    (h2k : ∀ a, ∃ m : ℤ, 2 * k a = m) (i j : Fin n) :
    latticePhase rots T trans k i j = 1 ∨ latticePhase rots T trans k i j = -1 := by
  choose m hm using h2k
  have hlat := h.2 i j (T i j) (cayley_none_spec hT i j).1.symm
  choose t ht using hlat
  refine expPhase_sign ⟨∑ a, m a * t a, ?_⟩
  unfold dot3 rotVec
  push_cast
  rw [Finset.mul_sum]
  refine Finset.sum_congr rfl fun a _ => ?_
  rw [ht a, ← hm a]
  ring

/-- An array with the indicator that the code computes for it, and what makes this meaningful. -/
def HasIndicator {m d : ℕ} (Γ : RepArr m d) (c : ℤ) : Prop :=
  frobeniusSchur Γ = .ok c ∧ IsUnitaryRep Γ ∧ Spec.IsIrreducible Γ ∧ ∃ (T : Fin m → Fin m → Fin m) (μ : Fin m → Fin m → ℂ),
    IsGroupTable T ∧ (∀ g h, μ g h = 1 ∨ μ g h = -1) ∧ IsProjRep T μ Γ

theorem indicator_core (h : IsSpaceGroup rots trans) {k : V3} (h2k : ∀ a, ∃ m : ℤ, 2 * k a = m)
    {o : Oracles} {method : IrrepMethod} {rtol atol : ℝ} (ha : 0 < atol) (ha5 : atol ≤ 1 / 5) (hnm : NoNearMiss 1 rots k atol)
    (ho : MethodContract o method rtol fun i => rots ((littleMapping rots k atol).get i)) {maxGen : ℕ}
    {M : List (Fin n)} (hsmall : (M.length : ℝ) * (2 * atol + atol ^ 2) < 1 / 2) {out : IrrepsOut M.length}
    (hrun : irrepsFromPrimitive o rots trans k false method rtol atol maxGen = .ok ⟨M, out, false⟩) :
    ∃ (l : List (AnyRep M.length × ℤ)) (S : List (AnyRep M.length)), out = .complex l ∧ LabelsIrreps rots trans k M S ∧
      List.Forall₂ (fun Γ x => NearRep atol Γ x.1 ∧ HasIndicator Γ.2 x.2 ∧ ∀ (e : ℕ) (E : spaceGroup rots trans →* Matrix (Fin e) (Fin e) ℂ),
        Spec.IsIrreducible (fun g => E g) → SubducesTo k M Γ.2 E →
          (x.2 = 0 ↔ ¬ AreEquivalent (fun g => E g) fun g => (E g).map star)) S l := by
  obtain ⟨rfl, e1⟩ := primitive_ok hrun
  have hM := little_lists (rots := rots) ha.le hnm
  have hG := little_spaceGroup h ha.le hnm
  have hfix := fun i => (hM.2 _).1 (List.get_mem (littleMapping rots k atol) i)
  obtain ⟨l, S, rfl, hnear, h2, h3, h4, h5⟩ := small_reps_complete hG hfix o ho ha ha5 maxGen e1
  have hL : LabelsIrreps rots trans k _ S := labels_irreps h hM ⟨h2, h3, h4, h5⟩ hG.1
  obtain ⟨T, -, hT, hTg, -, -, -, -⟩ := small_setup hG hfix
  have hsgn := fun i j => latticePhase_sign hG hT h2k i j
  have hfs : ∀ x ∈ l, frobeniusSchur x.1.2 = .ok x.2 := by
    obtain ⟨L, -, hl0, -⟩ := smallReps_ok e1
    obtain ⟨l', hl', hl⟩ := hl0 rfl
    cases hl'
    have hF := withIndicators_forall₂ hl
    intro x hx
    obtain ⟨a, rfl⟩ := List.mem_iff_get.1 hx
    have h1 := (List.forall₂_iff_get.1 hF).2 a (by rw [hF.length_eq]; exact a.2) a.2
    obtain ⟨q1, q2⟩ := h1
    rw [← q1] at q2
    exact q2
  have h2k' : ∀ a, ∃ m : ℤ, (fun a => -k a) a - k a = m := fun a => by
    obtain ⟨m, hm⟩ := h2k a
    exact ⟨-m, by push_cast; rw [← hm]; ring⟩
  refine ⟨l, S, rfl, hL, ?_⟩
  rw [List.forall₂_iff_get] at hnear ⊢
  refine ⟨hnear.1, fun i hi hi' => ?_⟩
  obtain ⟨A, hA, hAn⟩ := hnear.2 i hi hi'
  have hSi := List.get_mem S ⟨i, hi⟩
  have hxi := hfs _ (List.get_mem l ⟨i, hi'⟩)
  have hlaw := h2 _ hSi
  generalize hΓ : S.get ⟨i, hi⟩ = Γ at *
  generalize l.get ⟨i, hi'⟩ = x at *
  obtain ⟨x, c⟩ := x
  dsimp only at hA hxi ⊢
  subst hA
  have hd : (Γ.1 : ℝ) ^ 2 ≤ (littleMapping rots k atol).length := by
    have : Γ.1 ^ 2 ≤ (S.map fun Γ => Γ.1 ^ 2).sum := List.le_sum_of_mem (List.mem_map_of_mem (f := fun Γ : AnyRep _ => Γ.1 ^ 2) hSi)
    rw [h5] at this
    exact_mod_cast this
  obtain ⟨c', hc1, hc2, hc3⟩ := c97_frobenius_schur hTg hsgn ((spaceGroupLaw_iff hG.1 hT _ k _).1 hlaw.1) hlaw.2.1 hlaw.2.2 hAn (by
    have : 0 ≤ 2 * atol + atol ^ 2 := by positivity
    nlinarith)
  obtain rfl : c' = c := by
    have := hc1.symm.trans hxi
    exact Except.ok.inj this
  refine ⟨⟨A, rfl, hAn⟩, ⟨hc2, hlaw.2.1, hlaw.2.2, T, _, hTg, hsgn, (spaceGroupLaw_iff hG.1 hT _ k _).1 hlaw.1⟩, fun e E hE hs => ?_⟩
  rw [hc3, not_iff_not]
  have hsc : SubducesTo k _ (fun p => (Γ.2 p).map star) (conjRep E) := subduces_congr h2k' (subduces_conj hs)
  have hsΓ : SubducesTo k _ (S.get ⟨i, hi⟩).2 E := by rw [hΓ]; exact hs
  constructor
  · intro hΓc
    have h1 : SubducesTo k _ (S.get ⟨i, hi⟩).2 (conjRep E) := by
      rw [hΓ]
      exact subduces_change (AreEquivalent.symm hΓc) hsc
    exact hL.unique e e E (conjRep E) hE (conj_irreducible_any hE) _ hsΓ h1
  · intro hEc
    have hproj := (spaceGroupLaw_iff hG.1 hT _ k _).1 hlaw.1
    have hreal : ∀ g h, star (latticePhase _ T _ k g h) = latticePhase _ T _ k g h := fun g h => by
      rcases hsgn g h with q | q <;> rw [q] <;> simp
    obtain ⟨Δ, hΔ, heq⟩ := h4 _ _ ((spaceGroupLaw_iff hG.1 hT _ k _).2 (conj_projRep hreal hproj))
      (IsUnitaryRep.isUnit (conj_unitary hlaw.2.1)) (conj_irreducible hlaw.2.2)
    obtain ⟨b, rfl⟩ := List.mem_iff_get.1 hΔ
    have h1 : SubducesTo k _ (S.get b).2 E :=
      subduces_equiv (E := conjRep E) (AreEquivalent.symm hEc) (subduces_change heq hsc)
    have h2 := (hL.label e E hE (subduces_bloch h hM hs)).unique h1 hsΓ
    rw [h2, hΓ] at heq
    exact AreEquivalent.symm heq

/-- **C119, time-reversal invariant k-points.**  If `2k` is a reciprocal lattice vector, the indicator computed for a small
representation is zero exactly if the irreducible representations of the whole space group that contain it are not equivalent
to their complex conjugates. -/
theorem c119_indicator (h : IsSpaceGroup rots trans) {k : V3} (h2k : ∀ a, ∃ m : ℤ, 2 * k a = m)
    {o : Oracles} {method : IrrepMethod} {rtol atol : ℝ} (ha : 0 < atol) (ha5 : atol ≤ 1 / 5) (hnm : NoNearMiss 1 rots k atol)
    (ho : MethodContract o method rtol fun i => rots ((littleMapping rots k atol).get i)) {maxGen : ℕ}
    {M : List (Fin n)} (hsmall : (M.length : ℝ) * (2 * atol + atol ^ 2) < 1 / 2) {out : IrrepsOut M.length}
    (hrun : irrepsFromPrimitive o rots trans k false method rtol atol maxGen = .ok ⟨M, out, false⟩) :
    ∃ (l : List (AnyRep M.length × ℤ)) (S : List (AnyRep M.length)), out = .complex l ∧ LabelsIrreps rots trans k M S ∧
      List.Forall₂ (fun Γ x => NearRep atol Γ x.1 ∧ ∀ (e : ℕ) (E : spaceGroup rots trans →* Matrix (Fin e) (Fin e) ℂ),
        Spec.IsIrreducible (fun g => E g) → SubducesTo k M Γ.2 E →
          (x.2 = 0 ↔ ¬ AreEquivalent (fun g => E g) fun g => (E g).map star)) S l := by
  obtain ⟨l, S, h1, h2, h3⟩ := indicator_core h h2k ha ha5 hnm ho hsmall hrun
  exact ⟨l, S, h1, h2, h3.imp fun _ _ q => ⟨q.1, q.2.2⟩⟩

/-- Runs of symmorphic groups of order up to 12 at k-points fixed by all operations. -/
theorem run_fixed {rots : Fin n → M3} (hn : n ≤ 12) (hr : EnumeratesGroup rots) {k : V3} (hnm : NoNearMiss 1 rots k 1e-8)
    (hall : ∀ i, FixesK (rots i) k) {s : PgSymbol × R3} (hc : PointgroupContract s rots) :
    ∃ (o : Oracles) (M : List (Fin n)) (out : IrrepsOut M.length), (M.length : ℝ) ≤ 12 ∧
      MethodContract o .neto 1e-5 (fun i => rots ((littleMapping rots k 1e-8).get i)) ∧
      irrepsFromPrimitive o rots (fun _ _ => 0) k false .neto 1e-5 1e-8 9 = .ok ⟨M, out, false⟩ := by
  have hM := little_lists (rots := rots) (atol := 1e-8) (by norm_num) hnm
  have hsg : IsSpaceGroup rots (fun _ _ => 0) := ⟨hr, fun _ _ _ _ _ => ⟨0, by simp⟩⟩
  have hc' : PointgroupContract s fun i => rots ((littleMapping rots k 1e-8).get i) := by
    refine hc.reindex hr.1 (fun i j hij => List.nodup_iff_injective_get.1 hM.1 (hr.1 hij)) fun S => ⟨?_, ?_⟩
    · rintro ⟨j, rfl⟩
      exact ⟨_, rfl⟩
    · rintro ⟨j, rfl⟩
      obtain ⟨i, hi⟩ := List.get_of_mem ((hM.2 j).2 (hall j))
      exact ⟨i, by rw [hi]⟩
  have hfix := fun i => (hM.2 _).1 (List.get_mem (littleMapping rots k 1e-8) i)
  have hG := little_spaceGroup hsg (atol := 1e-8) (by norm_num) hnm
  have hlen : (littleMapping rots k 1e-8).length ≤ 12 := by
    have := (littleMapping_nodup rots k 1e-8).length_le_card
    rw [Fintype.card_fin] at this
    omega
  have hlen' : ((littleMapping rots k 1e-8).length : ℝ) ≤ 12 := by exact_mod_cast hlen
  obtain ⟨random, hrd⟩ := exists_richDraws 1e-8 (littleMapping rots k 1e-8).length 9 fun d hd => by
    have : d ≤ 3 := by by_contra h; push Not at h; nlinarith
    nlinarith
  let o : Oracles := { random := random, eig := fun d _ => (fun _ => 0, 0), eigh := fun d _ => (fun _ => 0, 0),
                       qr := fun _ _ _ => 0, pointgroup := s }
  have hna : ((littleMapping rots k 1e-8).length : ℝ) * 1e-8 ≤ 1 / 5 := by nlinarith
  obtain ⟨L, w, -, hw, hrw⟩ := c18_small_reps_partial hG hfix (.of_symmorphic fun _ _ => rfl) o hc' 1e-5 (by norm_num) hna 9 false
  obtain ⟨out, hrun⟩ := hw (hrw hrd)
  refine ⟨o, _, out, hlen', hc', ?_⟩
  unfold irrepsFromPrimitive
  rw [primitiveCheck_eq (by norm_num) (by norm_num) (by norm_num), if_neg]
  · simp only [bind, Except.bind, pure, Except.pure]
    rw [hrun]
  · rintro ⟨_, -, a, h⟩
    simp at h
    norm_num at h

/-- Non-vacuity of `c119_indicator`: the group 23 at the zone centre. -/
example : ∃ (o : Oracles) (M : List (Fin 12)) (l : List (AnyRep M.length × ℤ)) (S : List (AnyRep M.length)),
    irrepsFromPrimitive o rots23 (fun _ _ => 0) (kAxis 0 0) false .neto 1e-5 1e-8 9 = .ok ⟨M, .complex l, false⟩ ∧
    LabelsIrreps rots23 (fun _ _ => 0) (kAxis 0 0) M S ∧ S.length = l.length := by
  have hnm := noMiss23 0 0 (atol := 1e-8) (by norm_num) (by norm_num)
  obtain ⟨o, M, out, hlen, hc, hrun⟩ := run_fixed (by norm_num) rots23_group hnm (fun i a => ⟨0, by simp [kAxis]⟩) pointgroup_23
  obtain ⟨l, S, rfl, h1, h2⟩ := c119_indicator group23 (fun a => ⟨0, by simp [kAxis]⟩) (by norm_num) (by norm_num) hnm hc
    (by norm_num; nlinarith) hrun
  exact ⟨o, M, l, S, hrun, h1, h2.length_eq⟩

/-- The group of a twofold rotation. -/
def rotsTwo : Fin 2 → M3 := fun j => rots23 (if j = 0 then 0 else 3)

/-- Non-vacuity of `c119_not_self_conjugate`: the group P2 at a quarter of the reciprocal axis parallel to the rotation axis. -/
example : ∃ (o : Oracles) (M : List (Fin 2)) (out : IrrepsOut M.length) (d e : ℕ) (Γ : RepArr M.length d)
    (E : spaceGroup rotsTwo (fun _ _ => 0) →* Matrix (Fin e) (Fin e) ℂ),
    (∀ s, ¬ ∀ a, ∃ m : ℤ, -kAxis 1 0 a - (∑ b, (rotsTwo s b a : ℝ) * kAxis 1 0 b) = m) ∧
    irrepsFromPrimitive o rotsTwo (fun _ _ => 0) (kAxis 1 0) false .neto 1e-5 1e-8 9 = .ok ⟨M, out, false⟩ ∧
    Spec.IsIrreducible (fun g => E g) ∧ SubducesTo (kAxis 1 0) M Γ E := by
  have hr : EnumeratesGroup rotsTwo := by
    apply enumerates_of_isMatrixGroup (by norm_num)
    · decide +kernel
    · decide +kernel
  have hg : IsSpaceGroup rotsTwo (fun _ _ => 0) := ⟨hr, fun _ _ _ _ _ => ⟨0, by simp⟩⟩
  have hnm : NoNearMiss 1 rotsTwo (kAxis 1 0) 1e-8 := noNearMiss_primitive rotsTwo (by norm_num) (kAxis_int 1 0) (by norm_num) (by norm_num)
  have hall : ∀ i, FixesK (rotsTwo i) (kAxis 1 0) := fun i => (fixesK_axis (.inl rfl) 0 _).2 (by
    by_cases h : i = 0
    · left; rw [if_pos h]
    · right; rw [if_neg h]; rfl)
  have hc : PointgroupContract (PgSymbol.pg_2, (1 : M3).map fun x : ℤ => (x : ℝ)) rotsTwo :=
    contract_of_int (s := .pg_2) (std := pgData_2[0]) (by decide +kernel) (by decide +kernel) (Equiv.refl (Fin 2)) (by decide +kernel)
  obtain ⟨o, M, out, -, hmc, hrun⟩ := run_fixed (by norm_num) hr hnm hall hc
  obtain ⟨S, hS, hL⟩ := c116_full_group hg (by norm_num) (by norm_num) hnm hmc hrun
  have hpos : 0 < S.length := by
    obtain ⟨rfl, e1⟩ := primitive_ok hrun
    have hM := little_lists (rots := rotsTwo) (atol := 1e-8) (by norm_num) hnm
    obtain ⟨l, S', rfl, q1, -, -, -, q5⟩ := small_reps_complete (little_spaceGroup hg (atol := 1e-8) (by norm_num) hnm)
      (fun i => (hM.2 _).1 (List.get_mem _ i)) o hmc (by norm_num) (by norm_num) 9 e1
    rcases Nat.eq_zero_or_pos S.length with h0 | h0
    · exfalso
      have h1 : (IrrepsOut.irreps (.complex l)).length = 0 := by rw [← hS.length_eq, h0]
      have h2 : l.length = 0 := by simpa [IrrepsOut.irreps] using h1
      have h3 : S'.length = 0 := by rw [q1.length_eq, h2]
      rw [List.length_eq_zero_iff.1 h3] at q5
      have h4 := List.length_pos_of_mem ((hM.2 0).2 (hall 0))
      simp at q5
      omega
    · exact h0
  obtain ⟨e, E, hE, hs⟩ := hL.occurs_fin ⟨0, hpos⟩
  refine ⟨o, M, out, _, e, _, E, fun s hs' => ?_, hrun, hE, hs⟩
  obtain ⟨m, hm⟩ := hs' 0
  have h11 : ∀ s, rotsTwo s 0 0 = 1 := by decide +kernel
  have h2 : (2 * m : ℝ) = -1 := by
    rw [← hm]
    simp [kAxis, h11]
    norm_num
  have : (2 * m : ℤ) = -1 := by exact_mod_cast h2
  omega

end Spgrep
