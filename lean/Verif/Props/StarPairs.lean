/-
C118: calls at two k-points and the irreducible representations of the whole space group.
-/
import Verif.Props.Stars

namespace Spgrep

open Spec

variable {n : ℕ} {rots : Fin n → M3} {trans : Fin n → V3}

theorem subduces_bloch (h : IsSpaceGroup rots trans) {k : V3} {M : List (Fin n)} (hM : ListsLittle rots k M) {d e : ℕ}
    {Γ : RepArr M.length d} {E : spaceGroup rots trans →* Matrix (Fin e) (Fin e) ℂ} (hs : SubducesTo k M Γ E) : HasBloch k E := by
  obtain ⟨X, hX, hXg⟩ := hs
  obtain ⟨e0, he0, u, hu⟩ := exists_one h
  obtain ⟨p, hp⟩ := List.get_of_mem ((hM.2 e0).2 (by rw [he0]; exact fixesK_one k))
  have hop : ∀ (g : spaceGroup rots trans) (t : Fin 3 → ℤ), IsOperation 1 0 t g.1 →
      IsOperation (rots (M.get p)) (trans (M.get p)) (t - u) g.1 := by
    intro g t hg x a
    rw [hp, he0, hu, hg x a]
    simp
  have h1 : X = transPhase k (fun a => ((0 - u) a : ℤ)) • (X * Γ p) := by
    have := hXg 1 p (0 - u) (hop 1 0 ((translation_iff h).2 ⟨(rotOf_one h).1, by rw [(rotOf_one h).2]; funext a; simp⟩))
    rwa [map_one, Matrix.one_mul] at this
  obtain ⟨j, hj⟩ : ∃ j, (fun i => X i j) ≠ 0 := by
    by_contra hall
    push Not at hall
    exact hX (Matrix.ext fun i j => congrFun (hall j) i)
  refine ⟨fun i => X i j, hj, fun g t hg => ?_⟩
  have h2 : E g * X = transPhase k (fun a => (t a : ℝ)) • X := by
    rw [hXg g p (t - u) (hop g t hg)]
    conv_rhs => rw [h1]
    rw [smul_smul, ← transPhase_add]
    congr 2
    funext a
    simp
    ring
  funext i
  exact congrFun (congrFun h2 i) j

theorem subduces_equiv {k : V3} {M : List (Fin n)} {d : ℕ} {Γ : RepArr M.length d} {ε ε' : Type*} [Fintype ε] [DecidableEq ε]
    [Fintype ε'] [DecidableEq ε'] {E : spaceGroup rots trans →* Matrix ε ε ℂ} {E' : spaceGroup rots trans →* Matrix ε' ε' ℂ}
    (hE : AreEquivalent (fun g => E g) fun g => E' g) (hs : SubducesTo k M Γ E) : SubducesTo k M Γ E' := by
  obtain ⟨Y, Y', h1, h2, h3⟩ := AreEquivalent.symm hE
  obtain ⟨X, hX, hXg⟩ := hs
  refine ⟨Y * X, fun h0 => hX ?_, fun g p t hg => ?_⟩
  · rw [← Matrix.one_mul X, ← h2, Matrix.mul_assoc, h0, Matrix.mul_zero]
  · rw [← Matrix.mul_assoc, h3 g, Matrix.mul_assoc, hXg g p t hg, Matrix.mul_smul, Matrix.mul_assoc]

/-- Each label occurs in an irreducible representation with rows numbered from 0. -/
theorem LabelsIrreps.occurs_fin {k : V3} {M : List (Fin n)} {S : List (AnyRep M.length)} (hL : LabelsIrreps rots trans k M S)
    (a : Fin S.length) : ∃ (e : ℕ) (E : spaceGroup rots trans →* Matrix (Fin e) (Fin e) ℂ), Spec.IsIrreducible (fun g => E g) ∧
      SubducesTo k M (S.get a).2 E := by
  obtain ⟨q, E, -, hE, -, hs⟩ := hL.occurs a
  let f : Fin q × Fin (S.get a).1 ≃ Fin (q * (S.get a).1) := finProdFinEquiv
  let E' : spaceGroup rots trans →* Matrix (Fin (q * (S.get a).1)) (Fin (q * (S.get a).1)) ℂ :=
    ((Matrix.reindexAlgEquiv ℂ ℂ f : _ →* _)).comp E
  have hE' : ∀ g, E' g = (E g).submatrix f.symm f.symm := fun g => rfl
  have heq : AreEquivalent (fun g => E g) fun g => E' g := by
    refine ⟨(1 : Matrix _ _ ℂ).submatrix id f.symm, (1 : Matrix _ _ ℂ).submatrix f.symm id, ?_, ?_, fun g => ?_⟩
    · rw [Matrix.submatrix_mul_equiv, Matrix.one_mul, Matrix.submatrix_id_id]
    · rw [← Matrix.submatrix_mul _ _ _ id _ Function.bijective_id, Matrix.one_mul, Matrix.submatrix_one_equiv]
    · change E g * _ = _ * E' g
      rw [hE', Matrix.submatrix_mul_equiv, Matrix.one_mul]
      ext i j
      simp [Matrix.mul_apply, Matrix.one_apply]
  exact ⟨_, E', AreEquivalent.irreducible (AreEquivalent.symm heq) hE, subduces_equiv heq hs⟩

theorem star_symm (h : IsSpaceGroup rots trans) {k k' : V3} {s : Fin n}
    (hk : ∀ a, ∃ m : ℤ, k' a - (∑ b, (rots s b a : ℝ) * k b) = m) :
    ∃ i, ∀ a, ∃ m : ℤ, k a - (∑ b, (rots i b a : ℝ) * k' b) = m := by
  obtain ⟨v, hv⟩ := enum_inv h.1 s
  refine ⟨v, transPhase_congr.1 fun t => ?_⟩
  have h1 := transPhase_congr.2 hk ((rots v).mulVec t)
  have h2 := starPoint_phase (rots s) k ((rots v).mulVec t)
  rw [Matrix.mulVec_mulVec, hv, Matrix.one_mulVec] at h2
  exact (h2.symm.trans h1.symm).trans (starPoint_phase (rots v) k' t).symm

/-- **C118, two points of one star.**  The small representations returned without warnings at `k` and at another point of its
star correspond to each other, with equal dimensions, such that each pair occurs in the same irreducible representations of the
whole space group. -/
theorem c118_same_star (h : IsSpaceGroup rots trans) {k k' : V3} {s : Fin n}
    (hk : ∀ a, ∃ m : ℤ, k' a - (∑ b, (rots s b a : ℝ) * k b) = m)
    {o o' : Oracles} {method method' : IrrepMethod} {rtol rtol' atol atol' : ℝ}
    (ha : 0 < atol) (ha' : 0 < atol') (hle : atol ≤ 1 / 5) (hle' : atol' ≤ 1 / 5)
    (hnm : NoNearMiss 1 rots k atol) (hnm' : NoNearMiss 1 rots k' atol')
    (ho : MethodContract o method rtol fun i => rots ((littleMapping rots k atol).get i))
    (ho' : MethodContract o' method' rtol' fun i => rots ((littleMapping rots k' atol').get i)) {maxGen maxGen' : ℕ}
    {M M' : List (Fin n)} {out : IrrepsOut M.length} {out' : IrrepsOut M'.length}
    (hrun : irrepsFromPrimitive o rots trans k false method rtol atol maxGen = .ok ⟨M, out, false⟩)
    (hrun' : irrepsFromPrimitive o' rots trans k' false method' rtol' atol' maxGen' = .ok ⟨M', out', false⟩) :
    ∃ (S : List (AnyRep M.length)) (S' : List (AnyRep M'.length)), List.Forall₂ (NearRep atol) S out.irreps ∧
      List.Forall₂ (NearRep atol') S' out'.irreps ∧
      ∃ σ : Fin S.length ≃ Fin S'.length, ∀ a, (S.get a).1 = (S'.get (σ a)).1 ∧
        ∀ (e : ℕ) (E : spaceGroup rots trans →* Matrix (Fin e) (Fin e) ℂ), Spec.IsIrreducible (fun g => E g) →
          (SubducesTo k M (S.get a).2 E ↔ SubducesTo k' M' (S'.get (σ a)).2 E) := by
  obtain ⟨S, h1, hL⟩ := c116_full_group h ha hle hnm ho hrun
  obtain ⟨S', h1', hL'⟩ := c116_full_group h ha' hle' hnm' ho' hrun'
  obtain ⟨rfl, -⟩ := primitive_ok hrun
  obtain ⟨rfl, -⟩ := primitive_ok hrun'
  have hM := little_lists (rots := rots) ha.le hnm
  have hM' := little_lists (rots := rots) ha'.le hnm'
  obtain ⟨G, hG⟩ : ∃ G : Fin 3 → ℤ, ∀ a, k' a = (∑ b, (rots s b a : ℝ) * k b) + G a := by
    choose G hG using hk
    exact ⟨G, fun a => by rw [← hG a]; ring⟩
  obtain ⟨π, -, -, -⟩ := little_conj h s hG hM hM'
  have hlen : (littleMapping rots k' atol').length = (littleMapping rots k atol).length := by simpa using Fintype.card_congr π
  have hn : 0 < n := by
    obtain ⟨e0, -⟩ := exists_one h
    exact e0.pos
  have hto : ∀ a, ∃ b, ∀ (e : ℕ) (E : spaceGroup rots trans →* Matrix (Fin e) (Fin e) ℂ), Spec.IsIrreducible (fun g => E g) →
      SubducesTo k _ (S.get a).2 E → SubducesTo k' _ (S'.get b).2 E := by
    intro a
    obtain ⟨e, E, hE, hs⟩ := hL.occurs_fin a
    obtain ⟨b, hb, -⟩ := hL'.label e E hE ((c117_star h E hE (subduces_bloch h hM hs) k').2 ⟨s, hk⟩)
    exact ⟨b, fun e' E' hE' hs' => subduces_equiv (hL.unique e e' E E' hE hE' a hs hs') hb⟩
  have hfrom : ∀ b, ∃ a, ∀ (e : ℕ) (E : spaceGroup rots trans →* Matrix (Fin e) (Fin e) ℂ), Spec.IsIrreducible (fun g => E g) →
      SubducesTo k' _ (S'.get b).2 E → SubducesTo k _ (S.get a).2 E := by
    intro b
    obtain ⟨e, E, hE, hs⟩ := hL'.occurs_fin b
    obtain ⟨a, hb, -⟩ := hL.label e E hE ((c117_star h E hE (subduces_bloch h hM' hs) k).2 (star_symm h hk))
    exact ⟨a, fun e' E' hE' hs' => subduces_equiv (hL'.unique e e' E E' hE hE' b hs hs') hb⟩
  choose f hf using hto
  choose g hg using hfrom
  have hgf : ∀ a, g (f a) = a := by
    intro a
    obtain ⟨e, E, hE, hs⟩ := hL.occurs_fin a
    exact (hL.label e E hE (subduces_bloch h hM hs)).unique (hg _ e E hE (hf a e E hE hs)) hs
  have hfg : ∀ b, f (g b) = b := by
    intro b
    obtain ⟨e, E, hE, hs⟩ := hL'.occurs_fin b
    exact (hL'.label e E hE (subduces_bloch h hM' hs)).unique (hf _ e E hE (hg b e E hE hs)) hs
  refine ⟨S, S', h1, h1', ⟨f, g, hgf, hfg⟩, fun a => ⟨?_, fun e E hE => ⟨hf a e E hE, fun hs => ?_⟩⟩⟩
  · obtain ⟨e, E, hE, hs⟩ := hL.occurs_fin a
    have d1 := hL.dim e E hE a hs
    have d2 := hL'.dim e E hE (f a) (hf a e E hE hs)
    exact Nat.eq_of_mul_eq_mul_left hn ((d1.symm.trans (congrArg (e * ·) hlen.symm)).trans d2)
  · have : SubducesTo k _ (S.get (g (f a))).2 E := hg _ e E hE hs
    rwa [hgf] at this

/-- **C118, different stars.**  If no operation carries `k` to `k'` modulo reciprocal lattice vectors, no irreducible
representation of the whole space group contains small representations of both k-points. -/
theorem c118_other_star (h : IsSpaceGroup rots trans) {k k' : V3}
    (hk : ∀ s, ¬ ∀ a, ∃ m : ℤ, k' a - (∑ b, (rots s b a : ℝ) * k b) = m)
    {o o' : Oracles} {method method' : IrrepMethod} {rtol rtol' atol atol' : ℝ}
    (ha : 0 < atol) (ha' : 0 < atol') (hnm : NoNearMiss 1 rots k atol) (hnm' : NoNearMiss 1 rots k' atol') {maxGen maxGen' : ℕ}
    {M M' : List (Fin n)} {out : IrrepsOut M.length} {out' : IrrepsOut M'.length}
    (hrun : irrepsFromPrimitive o rots trans k false method rtol atol maxGen = .ok ⟨M, out, false⟩)
    (hrun' : irrepsFromPrimitive o' rots trans k' false method' rtol' atol' maxGen' = .ok ⟨M', out', false⟩)
    {d d' : ℕ} (Γ : RepArr M.length d) (Γ' : RepArr M'.length d')
    {e : ℕ} (E : spaceGroup rots trans →* Matrix (Fin e) (Fin e) ℂ) (hE : Spec.IsIrreducible fun g => E g) :
    ¬ (SubducesTo k M Γ E ∧ SubducesTo k' M' Γ' E) := by
  rintro ⟨h1, h2⟩
  obtain ⟨rfl, -⟩ := primitive_ok hrun
  obtain ⟨rfl, -⟩ := primitive_ok hrun'
  have b1 := subduces_bloch h (little_lists (rots := rots) ha.le hnm) h1
  have b2 := subduces_bloch h (little_lists (rots := rots) ha'.le hnm') h2
  obtain ⟨s, hs⟩ := (c117_star h E hE b1 k').1 b2
  exact hk s hs

/-- A run at the zone centre. -/
theorem run_gamma : ∃ (o : Oracles) (M : List (Fin 12)) (out : IrrepsOut M.length),
    irrepsFromPrimitive o rots23 (fun _ _ => 0) (kAxis 0 0) false .neto 1e-5 1e-8 9 = .ok ⟨M, out, false⟩ := by
  have hnm := noMiss23 0 0 (atol := 1e-8) (by norm_num) (by norm_num)
  have hM := little_lists (atol := 1e-8) (by norm_num) hnm
  have hmem : ∀ i, i ∈ littleMapping rots23 (kAxis 0 0) 1e-8 := fun i => (hM.2 i).2 fun a => ⟨0, by simp [kAxis]⟩
  have hc : PointgroupContract (PgSymbol.pg_23, (1 : M3).map fun x : ℤ => (x : ℝ))
      fun i => rots23 ((littleMapping rots23 (kAxis 0 0) 1e-8).get i) := by
    refine pointgroup_23.reindex rots23_group.1 (fun i j hij => List.nodup_iff_injective_get.1 hM.1 (rots23_group.1 hij))
      fun S => ⟨?_, ?_⟩
    · rintro ⟨j, rfl⟩
      exact ⟨_, rfl⟩
    · rintro ⟨j, rfl⟩
      obtain ⟨i, hi⟩ := List.get_of_mem (hmem j)
      exact ⟨i, by rw [hi]⟩
  have hfix := fun i => (hM.2 _).1 (List.get_mem (littleMapping rots23 (kAxis 0 0) 1e-8) i)
  have hG := little_spaceGroup group23 (atol := 1e-8) (by norm_num) hnm
  have hlen := little_axis_length 0 0 1e-8
  obtain ⟨random, hr⟩ := exists_richDraws 1e-8 (littleMapping rots23 (kAxis 0 0) 1e-8).length 9 fun d hd => by
    have : d ≤ 3 := by by_contra h; push Not at h; nlinarith
    nlinarith
  let o : Oracles := { random := random, eig := fun d _ => (fun _ => 0, 0), eigh := fun d _ => (fun _ => 0, 0),
                       qr := fun _ _ _ => 0, pointgroup := (PgSymbol.pg_23, (1 : M3).map fun x : ℤ => (x : ℝ)) }
  have hna : ((littleMapping rots23 (kAxis 0 0) 1e-8).length : ℝ) * 1e-8 ≤ 1 / 5 := by
    have : ((littleMapping rots23 (kAxis 0 0) 1e-8).length : ℝ) ≤ 12 := by exact_mod_cast hlen
    nlinarith
  obtain ⟨L, w, -, hw, hrw⟩ := c18_small_reps_partial hG hfix (.of_symmorphic fun _ _ => rfl) o hc 1e-5 (by norm_num) hna 9 false
  obtain ⟨out, hrun⟩ := hw (hrw hr)
  refine ⟨o, _, out, ?_⟩
  unfold irrepsFromPrimitive
  rw [check23 (by norm_num) (by norm_num) (by norm_num)]
  simp only [bind, Except.bind, pure, Except.pure]
  rw [hrun]

/-- Non-vacuity of `c118_same_star`: the group 23 at `(1/4, 0, 0)` and `(0, 1/4, 0)`. -/
example : ∃ (o o' : Oracles) (M M' : List (Fin 12)) (out : IrrepsOut M.length) (out' : IrrepsOut M'.length)
    (S : List (AnyRep M.length)) (S' : List (AnyRep M'.length)),
    irrepsFromPrimitive o rots23 (fun _ _ => 0) (kAxis 1 0) false .neto 1e-5 1e-8 9 = .ok ⟨M, out, false⟩ ∧
    irrepsFromPrimitive o' rots23 (fun _ _ => 0) (kAxis 1 1) false .neto 1e-5 1e-9 9 = .ok ⟨M', out', false⟩ ∧
    List.Forall₂ (NearRep 1e-8) S out.irreps ∧ List.Forall₂ (NearRep 1e-9) S' out'.irreps ∧ S.length = S'.length := by
  obtain ⟨o, -, hc, ⟨M, out, hrun⟩, -⟩ := run_axis (t := 1) (.inl rfl) 0 (atol := 1e-8) (by norm_num) (by norm_num)
  obtain ⟨o', -, hc', ⟨M', out', hrun'⟩, -⟩ := run_axis (t := 1) (.inl rfl) 1 (atol := 1e-9) (by norm_num) (by norm_num)
  obtain ⟨S, S', h1, h2, σ, -⟩ := c118_same_star group23 (s := 8) (fun a => ⟨0, by rw [kAxis_star 1 a]; ring⟩)
    (by norm_num) (by norm_num) (by norm_num) (by norm_num) (noMiss23 1 0 (by norm_num) (by norm_num))
    (noMiss23 1 1 (by norm_num) (by norm_num)) hc hc' hrun hrun'
  exact ⟨o, o', M, M', out, out', S, S', hrun, hrun', h1, h2, by simpa using Fintype.card_congr σ⟩

/-- Non-vacuity of `c118_other_star`: the group 23 at the zone centre and at `(1/4, 0, 0)`. -/
example : (∀ s, ¬ ∀ a, ∃ m : ℤ, kAxis 1 0 a - (∑ b, (rots23 s b a : ℝ) * kAxis 0 0 b) = m) ∧
    (∃ (o : Oracles) (M : List (Fin 12)) (out : IrrepsOut M.length),
      irrepsFromPrimitive o rots23 (fun _ _ => 0) (kAxis 0 0) false .neto 1e-5 1e-8 9 = .ok ⟨M, out, false⟩) ∧
    ∃ (o : Oracles) (M : List (Fin 12)) (out : IrrepsOut M.length),
      irrepsFromPrimitive o rots23 (fun _ _ => 0) (kAxis 1 0) false .neto 1e-5 1e-8 9 = .ok ⟨M, out, false⟩ := by
  refine ⟨fun s hs => ?_, run_gamma, ?_⟩
  · obtain ⟨m, hm⟩ := hs 0
    have h4 : (4 * m : ℝ) = 1 := by
      rw [← hm]
      simp [kAxis]
    have : (4 * m : ℤ) = 1 := by exact_mod_cast h4
    omega
  · obtain ⟨o, -, -, ⟨M, out, hrun⟩, -⟩ := run_axis (t := 1) (.inl rfl) 0 (atol := 1e-8) (by norm_num) (by norm_num)
    exact ⟨o, M, out, hrun⟩

end Spgrep
