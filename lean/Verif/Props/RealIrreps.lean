/-
C68: when the doubled representation is irreducible over the reals.  C69: the real irreps returned for point groups.
C70: the indicators of point-group irreps.
-/
import Verif.Proofs.RealForm
import Verif.Proofs.TensorBasis

namespace Spgrep

open Spec Matrix

variable {n d : ℕ} {T : Fin n → Fin n → Fin n}

/-! ### C68 -/

/-- **C68.** For a unitary irrep with factors plus or minus one, the matrices `[[Re D, Im D], [-Im D, Re D]]` returned
by `get_physically_irrep` when the indicator is not one are irreducible over the reals exactly when the
Frobenius-Schur indicator computed by the code is not one. -/
theorem c68_doubled_irreducible {μ : Fin n → Fin n → ℂ} (hT : IsGroupTable T)
    (hμ : ∀ g h, μ g h = 1 ∨ μ g h = -1) {D : RepArr n d} (hD : IsProjRep T μ D) (hDu : IsUnitaryRep D)
    (hDi : Spec.IsIrreducible D) (eig : EigOracle) (random : ℕ → Matrix (Fin d) (Fin d) ℂ) {s : ℤ}
    (hs : s = -1 ∨ s = 0) (atol : ℝ) (maxGen : ℕ) :
    ∃ R : Fin n → Matrix (Fin d ⊕ Fin d) (Fin d ⊕ Fin d) ℝ,
      getPhysicallyIrrep eig random D s atol maxGen =
        .ok ⟨d + d, fun g => (R g).reindex finSumFinEquiv finSumFinEquiv⟩ ∧
      (IsRealIrreducible R ↔ frobeniusSchur D ≠ .ok 1) := by
  refine ⟨physDouble D, ?_, double_irreducible hT hμ hD hDu hDi⟩
  unfold getPhysicallyIrrep
  rw [if_neg (by rcases hs with rfl | rfl <;> norm_num), if_pos hs]

/-- Non-vacuity of C68, both ways: the doubled complex irrep of the cyclic group of order three is irreducible over the
reals, the doubled projective irrep of the Klein four-group, whose indicator is one, is not. -/
example : IsRealIrreducible (physDouble repC3) ∧ ¬ IsRealIrreducible (physDouble repW) := by
  constructor
  · obtain ⟨s, h1, -, h2, -⟩ := c17_frobenius_schur tblC3_group (μ := fun _ _ => 1) (fun _ _ => .inl rfl) repC3_proj
      repC3_unitary (irreducible_dim_one _)
    refine (double_irreducible tblC3_group (μ := fun _ _ => 1) (fun _ _ => .inl rfl) repC3_proj repC3_unitary
      (irreducible_dim_one _)).2 ?_
    rw [h1, h2.2 repC3_not_conj]
    intro h
    have := Except.ok.inj h
    norm_num at this
  · rw [double_irreducible tblV4_group μV4_real repW_proj repW_unitary repW_irreducible, not_not]
    exact repW_indicator

/-- The run of the Neto method for ordinary irreps. -/
theorem point_run {rots : Fin n → M3} (h : EnumeratesGroup rots) (hT : getCayleyTable rots = .ok T) (o : Oracles)
    (ho : PointgroupContract o.pointgroup rots) (rtol : ℝ) {atol : ℝ} (ha : 0 ≤ atol) (ha2 : atol ≤ 1 / 2) (maxGen : ℕ) :
    IsGroupTable T ∧ ∃ L w, rawIrreps o rots (fun _ _ => 1) .neto rtol atol maxGen = .ok (L, w) ∧
      (RichDraws n o.random atol maxGen → w = false) ∧ (w = false → IsCompleteIrreps T (fun _ _ => 1) L ∧
        (∀ E ∈ L, (∀ g i j, Listed (E.2 g i j)) ∧ ArrShape E.2) ∧
        L.map (fun D => (⟨D.1, purifyIrrepValue D.2 atol⟩ : AnyRep n)) = L ∧
        ∀ D ∈ L, ∃ s : ℤ, (s = 1 ∨ s = -1 ∨ s = 0) ∧ frobeniusSchur D.2 = .ok s) := by
  obtain ⟨T', hT', -, hTg⟩ := c01_cayley_table_ordinary h
  rw [hT] at hT'
  obtain rfl := Except.ok.inj hT'
  obtain ⟨e, he⟩ : ∃ e, rots e = 1 := by
    obtain ⟨_, H, hH⟩ := h
    have : (1 : M3) ∈ Set.range rots := by rw [hH]; exact ⟨1, H.one_mem, rfl⟩
    exact this
  obtain ⟨L, w, hraw, hw, hr⟩ := neto_raw (μ := fun _ _ => 1) h hT hTg (fun _ _ _ => by simp) (fun _ _ => by simp) he rfl o
    ho rtol ha maxGen
  refine ⟨hTg, L, w, hraw, hr, ?_⟩
  rintro rfl
  have hL := hw rfl
  have hnice := neto_nice h hT hTg he o ho rtol ha maxGen hraw
  refine ⟨hL, hnice, ?_, fun D hD => ?_⟩
  · conv_rhs => rw [← List.map_id L]
    refine List.map_congr_left fun E hE => ?_
    rw [purify_of_listed ha ha2 (hnice E hE).1]
    rfl
  · obtain ⟨s, h1, h2, -⟩ := c17_frobenius_schur hTg (μ := fun _ _ => 1) (fun _ _ => .inl rfl) (hL.rep D hD)
      (hL.unitary D hD) (hL.irred D hD)
    exact ⟨s, h2, h1⟩

/-! ### C70 -/

/-- **C70.** For every list of rotations that is a group, every answer of `get_pointgroup` within its contract and all
random draws: unless an intertwiner search gave up, the indicators of the ordinary irreps returned by
`enumerate_unitary_irreps` are one, or zero for an irrep of dimension one; none is minus one. -/
theorem c70_indicators {rots : Fin n → M3} (h : EnumeratesGroup rots) (hT : getCayleyTable rots = .ok T) (o : Oracles)
    (ho : PointgroupContract o.pointgroup rots) (rtol : ℝ) {atol : ℝ} (ha : 0 ≤ atol) (ha2 : atol ≤ 1 / 2) (maxGen : ℕ) :
    ∃ L w, rawIrreps o rots (fun _ _ => 1) .neto rtol atol maxGen = .ok (L, w) ∧
      (RichDraws n o.random atol maxGen → w = false) ∧
      (w = false → ∃ l, enumerateUnitaryIrreps o rots none false .neto rtol atol maxGen = .ok (.complex l, false) ∧
        IsCompleteIrreps T (fun _ _ => 1) (l.map Prod.fst) ∧
        ∀ x ∈ l, x.2 = 1 ∨ (x.2 = 0 ∧ x.1.1 = 1)) := by
  obtain ⟨hTg, L, w, hraw, hr, hw⟩ := point_run h hT o ho rtol ha ha2 maxGen
  refine ⟨L, w, hraw, hr, ?_⟩
  rintro rfl
  obtain ⟨hL, hnice, hmap, hfs⟩ := hw rfl
  obtain ⟨l, hl, hfst, hind⟩ := withIndicators_ok hfs
  refine ⟨l, ?_, by rw [hfst]; exact hL, fun x hx => ?_⟩
  · unfold enumerateUnitaryIrreps
    simp only [Option.getD_none, hraw, bind, Except.bind, pure, Except.pure, hmap, hl, Bool.false_eq_true, if_false]
  · have hx' : x.1 ∈ L := by rw [← hfst]; exact List.mem_map_of_mem hx
    have h1 := shape_indicator hTg (hL.rep _ hx') (hL.unitary _ hx') (hL.irred _ hx') (hnice _ hx').2
    rw [(hind x hx).2] at h1
    rcases h1 with h | ⟨h, hd⟩
    · exact Or.inl (Except.ok.inj h)
    · exact Or.inr ⟨Except.ok.inj h, hd⟩

/-! ### C69 -/

/-- A nonzero square intertwiner to an irreducible family is an equivalence. -/
theorem equiv_of_square {A D : RepArr n d} (hDi : Spec.IsIrreducible D) {X : Matrix (Fin d) (Fin d) ℂ} (hX0 : X ≠ 0)
    (hX : ∀ g, A g * X = X * D g) : AreEquivalent A D := by
  have hk := hDi.2 (LinearMap.ker X.mulVecLin) fun g v hv => by
    rw [LinearMap.mem_ker, Matrix.mulVecLin_apply] at hv ⊢
    rw [Matrix.mulVec_mulVec, ← hX, ← Matrix.mulVec_mulVec, hv, Matrix.mulVec_zero]
  rcases hk with hk | hk
  · have hu : IsUnit X := Matrix.mulVec_injective_iff_isUnit.1 (LinearMap.ker_eq_bot.1 hk)
    obtain ⟨Y, hY⟩ := hu
    refine ⟨X, ↑Y⁻¹, ?_, ?_, hX⟩
    · rw [← hY]; exact Y.mul_inv
    · rw [← hY]; exact Y.inv_mul
  · exfalso
    apply hX0
    ext i j
    have h1 : (Pi.single j 1 : Fin d → ℂ) ∈ LinearMap.ker X.mulVecLin := by rw [hk]; trivial
    rw [LinearMap.mem_ker, Matrix.mulVecLin_apply] at h1
    simpa using congrFun h1 i

/-- The run with `real=True`: the real irreps and the complex irreps they come from. -/
theorem real_run {rots : Fin n → M3} (h : EnumeratesGroup rots) (hT : getCayleyTable rots = .ok T) (o : Oracles)
    (ho : PointgroupContract o.pointgroup rots) (heig : EigContract o.eig) (rtol : ℝ) {atol : ℝ} (ha : 0 ≤ atol)
    (ha2 : atol ≤ 1 / 10) (maxGen : ℕ) :
    IsGroupTable T ∧ ∃ L w, rawIrreps o rots (fun _ _ => 1) .neto rtol atol maxGen = .ok (L, w) ∧
      (RichDraws n o.random atol maxGen → w = false ∧ ∀ D ∈ L, frobeniusSchur D.2 = .ok 1 →
        (getIntertwiner (o.random D.1) D.2 (fun g => (D.2 g).map star) atol maxGen).2 = false) ∧
      (w = false → (∀ D ∈ L, frobeniusSchur D.2 = .ok 1 →
          (getIntertwiner (o.random D.1) D.2 (fun g => (D.2 g).map star) atol maxGen).2 = false) →
        IsCompleteIrreps T (fun _ _ => 1) L ∧
        ∃ l, enumerateUnitaryIrreps o rots none true .neto rtol atol maxGen = .ok (.real l, false) ∧
          List.Forall₂ (fun p (x : AnyReal n × ℤ) => Covers T (fun _ _ => 1) (L.get p.1).2 x.1.2 ∧
            (∀ g i j, SpecialReal (x.1.2 g i j)) ∧ frobeniusSchur (L.get p.1).2 = .ok x.2 ∧
            (x.2 = 1 ∨ (x.2 = 0 ∧ x.1.1 = 2 ∧ (L.get p.1).1 = 1)) ∧
            (x.2 = 1 → AreEquivalent (fun g => (x.1.2 g).map Complex.ofReal) (L.get p.1).2)) (pairsOf L) l) := by
  obtain ⟨hTg, L, w, hraw, hr, hw⟩ := point_run h hT o ho rtol ha (ha2.trans (by norm_num)) maxGen
  have hn := table_pos hTg
  refine ⟨hTg, L, w, hraw, fun hrich => ⟨hr hrich, fun D hD hs => ?_⟩, ?_⟩
  · obtain ⟨hL, -⟩ := hw (hr hrich)
    have hDu := hL.unitary D hD
    obtain ⟨s, h1, -, -, h2, -⟩ := c17_frobenius_schur hTg (μ := fun _ _ => 1) (fun _ _ => .inl rfl) (hL.rep D hD) hDu
      (hL.irred D hD)
    rw [hs] at h1
    obtain ⟨S, hSu, -, hS⟩ := h2.1 (Except.ok.inj h1).symm
    have hd2 := IsCompleteIrreps.dim_le hTg (fun _ _ => one_ne_zero) (fun _ _ _ => by simp) hL hD
    refine getIntertwiner_rich hn hd2 (conj_unitary hDu) (X := S) ?_ hS o.random ha maxGen hrich
    rintro rfl
    obtain ⟨i⟩ := (hL.irred D hD).1
    have : Nonempty (Fin D.1) := ⟨i⟩
    exact not_isUnit_zero hSu
  · rintro rfl hin
    obtain ⟨hL, hnice, hmap, hfs⟩ := hw rfl
    obtain ⟨l, hl, hF⟩ := realIrreps_ok o false atol maxGen hfs
    refine ⟨hL, l, ?_, ?_⟩
    · unfold enumerateUnitaryIrreps
      simp only [Option.getD_none, hraw, bind, Except.bind, pure, Except.pure, hmap, hl, if_true]
    · refine hF.imp ?_
      rintro p ⟨x, xs⟩ ⟨c, hc, hx2, hx3, r, hrr, hx⟩
      set D := L.get p.1 with hDdef
      have hD : D ∈ L := List.get_mem _ _
      have hrep := hL.rep D hD
      have hDu := hL.unitary D hD
      have hDi := hL.irred D hD
      obtain ⟨hlist, hshape⟩ := hnice D hD
      have hcc := shape_indicator hTg hrep hDu hDi hshape
      rw [hc] at hcc
      simp only [Bool.false_eq_true, if_false] at hx2
      dsimp only at hx hx2 hx3 hrr ⊢
      subst hx2
      subst hx
      rcases hcc with h1 | ⟨h1, hd1⟩
      · obtain rfl := Except.ok.inj h1
        have hU := (c13_intertwiner hTg (μ := fun _ _ => 1) (fun _ _ => by simp) hrep
          (conj_projRep (fun _ _ => by simp) hrep) hDu (conj_unitary hDu) hDi (conj_irreducible hDi) (o.random D.1) ha
          maxGen).1 (hin D hD hc)
        unfold getPhysicallyIrrep at hrr
        rw [if_pos rfl] at hrr
        obtain rfl := Except.ok.inj hrr
        obtain ⟨hcov, hsp⟩ := real_form hrep hDu hDi hlist hshape heig ha (by linarith) hU.1 hU.2.2
        dsimp only
        rw [purifyReal_of_special ha2 hsp]
        obtain ⟨X, hX0, hX⟩ := hcov.contains
        exact ⟨hcov, hsp, hc, Or.inl rfl, fun _ => equiv_of_square hDi hX0 hX⟩
      · obtain rfl := Except.ok.inj h1
        unfold getPhysicallyIrrep at hrr
        rw [if_neg (by norm_num), if_pos (Or.inr rfl)] at hrr
        obtain rfl := Except.ok.inj hrr
        have hsp := double_special hlist
        dsimp only
        rw [purifyReal_of_special ha2 hsp]
        refine ⟨covers_double hTg (fun _ _ => Or.inl rfl) (by simpa using hrep) hDu hDi ?_, hsp, hc, Or.inr ⟨rfl, by omega, hd1⟩,
          fun h => absurd h (by norm_num)⟩
        rw [hc]
        intro h
        have := Except.ok.inj h
        norm_num at this

/-- **C69.** For every list of rotations that is a group, every answer of `get_pointgroup` and of `np.linalg.eig`
within their contracts, every tolerance up to one tenth and all random draws: unless an intertwiner search gave up,
`enumerate_unitary_irreps` with `real=True` returns a complete list of the irreps over the reals, exactly; its entries
are among zero, one, one half and half the square root of three, up to sign; its indicators are one and zero, and an
irrep with indicator zero has dimension two, one with indicator one is irreducible over the complex numbers too. -/
theorem c69_real_irreps {rots : Fin n → M3} (h : EnumeratesGroup rots) (hT : getCayleyTable rots = .ok T) (o : Oracles)
    (ho : PointgroupContract o.pointgroup rots) (heig : EigContract o.eig) (rtol : ℝ) {atol : ℝ} (ha : 0 ≤ atol)
    (ha2 : atol ≤ 1 / 10) (maxGen : ℕ) :
    ∃ L w, rawIrreps o rots (fun _ _ => 1) .neto rtol atol maxGen = .ok (L, w) ∧
      (RichDraws n o.random atol maxGen → w = false ∧ ∀ D ∈ L, frobeniusSchur D.2 = .ok 1 →
        (getIntertwiner (o.random D.1) D.2 (fun g => (D.2 g).map star) atol maxGen).2 = false) ∧
      (w = false → (∀ D ∈ L, frobeniusSchur D.2 = .ok 1 →
          (getIntertwiner (o.random D.1) D.2 (fun g => (D.2 g).map star) atol maxGen).2 = false) →
        ∃ l, enumerateUnitaryIrreps o rots none true .neto rtol atol maxGen = .ok (.real l, false) ∧
          IsCompleteRealIrreps T (fun _ _ => 1) (l.map Prod.fst) ∧
          ∀ x ∈ l, (∀ g i j, SpecialReal (x.1.2 g i j)) ∧ (x.2 = 1 ∨ (x.2 = 0 ∧ x.1.1 = 2)) ∧
            (x.2 = 1 → Spec.IsIrreducible fun g => (x.1.2 g).map Complex.ofReal)) := by
  obtain ⟨hTg, L, w, hraw, hr, hok⟩ := real_run h hT o ho heig rtol ha ha2 maxGen
  refine ⟨L, w, hraw, hr, fun hw hin => ?_⟩
  obtain ⟨hL, l, hl, hF⟩ := hok hw hin
  refine ⟨l, hl, ?_, fun x hx => ?_⟩
  · refine complete_real hTg (fun _ _ => Or.inl rfl) (L := L) (by simpa using hL) ?_
    rw [List.forall₂_map_right_iff]
    exact hF.imp fun p x hx => hx.1
  · obtain ⟨p, -, h1⟩ := forall₂_right hF hx
    exact ⟨h1.2.1, h1.2.2.2.1.imp_right fun h => ⟨h.1, h.2.1⟩, fun h => AreEquivalent.irreducible (h1.2.2.2.2 h) (hL.irred _ (List.get_mem _ _))⟩

/-- If every element is conjugate to its inverse, every irrep is equivalent to its conjugate. -/
theorem conj_equiv_of_ambivalent (hTg : IsGroupTable T) {e : Fin n} (he : ∀ g, T e g = g)
    (hamb : ∀ g, ∃ g' h, T g' g = e ∧ T h g = T g' h) {D : RepArr n d} (hD : IsProjRep T (fun _ _ => 1) D)
    (hDu : IsUnitaryRep D) (hDi : Spec.IsIrreducible D) : AreEquivalent D fun g => (D g).map star := by
  by_contra hne
  have h1 := table_schur_orthogonality_ne hTg (fun _ _ => one_ne_zero) hD (conj_projRep (fun _ _ => by simp) hD) hDi
    (conj_irreducible hDi) (conj_unitary hDu) hne
  have he1 : D e = 1 := rep_one hD hDu he
  have hreal : ∀ g, (D g).trace = star (D g).trace := by
    intro g
    obtain ⟨g', h, hg, hh⟩ := hamb g
    have h2 : D g' * D g = 1 := by rw [hD, one_smul, hg, he1]
    have h3 : D g' = (D g).conjTranspose := by
      calc D g' = D g' * (D g * (D g).conjTranspose) := by rw [hDu g, Matrix.mul_one]
        _ = _ := by rw [← Matrix.mul_assoc, h2, Matrix.one_mul]
    have h4 : D h * D g = D g' * D h := by rw [hD, hD, hh]
    have h5 : D g' = D h * D g * (D h).conjTranspose := by rw [h4, Matrix.mul_assoc, hDu h, Matrix.mul_one]
    rw [← Matrix.trace_conjTranspose, ← h3, h5, Matrix.trace_mul_comm, ← Matrix.mul_assoc, mul_eq_one_comm.1 (hDu h),
      Matrix.one_mul]
  have h6 : ∑ g, (D g).trace * star (D g).trace = 0 := by
    have : ∀ g, (D g).trace * star (D g).trace = ∑ i, ∑ k, D g i i * star ((D g).map star k k) := by
      intro g
      rw [← hreal g, Matrix.trace, Finset.sum_mul_sum]
      simp
    simp only [this]
    rw [Finset.sum_comm]
    refine Finset.sum_eq_zero fun i _ => ?_
    rw [Finset.sum_comm]
    exact Finset.sum_eq_zero fun k _ => h1 i i k k
  have h7 : ∑ g, ‖(D g).trace‖ ^ 2 = 0 := by
    have : ((∑ g, ‖(D g).trace‖ ^ 2 : ℝ) : ℂ) = 0 := by
      rw [← h6]
      push_cast
      exact Finset.sum_congr rfl fun g _ => (Complex.mul_conj' _).symm
    exact_mod_cast this
  have h8 := (Finset.sum_eq_zero_iff_of_nonneg fun g _ => sq_nonneg _).1 h7 e (Finset.mem_univ _)
  rw [he1, Matrix.trace_one, Fintype.card_fin] at h8
  have hdpos : 0 < d := Fin.pos_iff_nonempty.2 hDi.1
  have : (d : ℂ) = 0 := by simpa using h8
  exact hdpos.ne' (by exact_mod_cast this)

/-- If all indicators are one, the real irreps are a complete list of complex irreps. -/
theorem complexified_complete {L : List (AnyRep n)} (hTg : IsGroupTable T) (hL : IsCompleteIrreps T (fun _ _ => 1) L)
    (hone : ∀ D ∈ L, frobeniusSchur D.2 = .ok 1) {l : List (AnyReal n × ℤ)}
    (hF : List.Forall₂ (fun p (x : AnyReal n × ℤ) => Covers T (fun _ _ => 1) (L.get p.1).2 x.1.2 ∧
      AreEquivalent (fun g => (x.1.2 g).map Complex.ofReal) (L.get p.1).2) (pairsOf L) l) :
    IsCompleteIrreps T (fun _ _ => 1) (IrrepsOut.real l).irreps := by
  obtain ⟨hpair, huniq⟩ := c21_pairing.2 n T _ L hTg (fun _ _ => Or.inl rfl) hL
  have hmem : ∀ j : Fin L.length, L.get j ∈ L := fun j => List.get_mem L j
  have hnd : (pairsOf L).Nodup := (c21_pairing.1 _ _).2.1
  have hconj : ∀ D ∈ L, AreEquivalent D.2 fun g => (D.2 g).map star := by
    intro D hD
    obtain ⟨s, h1, -, h2, -⟩ := c17_frobenius_schur hTg (μ := fun _ _ => 1) (fun _ _ => .inl rfl) (hL.rep D hD)
      (hL.unitary D hD) (hL.irred D hD)
    rw [hone D hD] at h1
    obtain rfl := Except.ok.inj h1
    by_contra hc
    exact one_ne_zero (h2.2 hc)
  have hback : ∀ E ∈ (IrrepsOut.real l).irreps, ∃ p ∈ pairsOf L, AreEquivalent E.2 (L.get p.1).2 ∧
      IsProjRep T (fun _ _ => 1) E.2 ∧ IsUnitaryRep E.2 := by
    intro E hE
    obtain ⟨x, hx, rfl⟩ := List.mem_map.1 hE
    obtain ⟨p, hp, h1, h2⟩ := forall₂_right hF hx
    refine ⟨p, hp, h2, by simpa using complex_projRep h1.rep, fun g => ?_⟩
    have h3 := congrArg (fun M : Matrix _ _ ℝ => M.map Complex.ofRealHom) (h1.orth g)
    rw [Matrix.map_mul, Matrix.map_one _ (map_zero _) (map_one _)] at h3
    rw [← h3]
    congr 1
    ext i j
    simp
  refine ⟨fun E hE => (hback E hE).choose_spec.2.2.1, fun E hE => (hback E hE).choose_spec.2.2.2, fun E hE => ?_, ?_, ?_⟩
  · obtain ⟨p, -, h1, -⟩ := hback E hE
    exact AreEquivalent.irreducible h1 (hL.irred _ (hmem _))
  · unfold IrrepsOut.irreps
    rw [List.pairwise_map, List.pairwise_iff_getElem]
    intro i j hi hj hij heq
    have hlen := hF.length_eq
    have hi' : i < (pairsOf L).length := by omega
    have hj' : j < (pairsOf L).length := by omega
    have hci := (List.forall₂_iff_get.1 hF).2 i hi' hi
    have hcj := (List.forall₂_iff_get.1 hF).2 j hj' hj
    set p := (pairsOf L).get ⟨i, hi'⟩ with hp
    set q := (pairsOf L).get ⟨j, hj'⟩ with hq
    have hpm : p ∈ pairsOf L := List.get_mem _ _
    have hqm : q ∈ pairsOf L := List.get_mem _ _
    have h1 : AreEquivalent (L.get p.1).2 (L.get q.1).2 := 
      AreEquivalent.trans (AreEquivalent.symm hci.2) (AreEquivalent.trans heq hcj.2)
    obtain ⟨r, -, hr⟩ := huniq _ (L.get p.1).2 (hL.rep _ (hmem _)) (IsUnitaryRep.isUnit (hL.unitary _ (hmem _)))
      (hL.irred _ (hmem _))
    have e : p = q := (hr p ⟨hpm, .inl (AreEquivalent.refl _)⟩).trans (hr q ⟨hqm, .inl h1⟩).symm
    have := (List.Nodup.get_inj_iff hnd).1 e
    rw [Fin.mk.injEq] at this
    omega
  · intro e E hE hu hi
    obtain ⟨p, ⟨hp, h1⟩, -⟩ := huniq e E hE hu hi
    have h2 : AreEquivalent E (L.get p.1).2 := by
      rcases h1 with h1 | h1
      · exact h1
      · exact AreEquivalent.trans h1 (AreEquivalent.trans (AreEquivalent.symm (hpair p hp).2)
          (AreEquivalent.symm (hconj _ (hmem _))))
    obtain ⟨x, hx, h3⟩ := forall₂_left hF hp
    exact ⟨_, List.mem_map_of_mem hx, AreEquivalent.trans h2 (AreEquivalent.symm h3.2)⟩

/-- Non-vacuity of C69 and C70: the noncommutative group 23, the default tolerance, suitable draws and an eigen-solver
within its contract; the list has a member equivalent to the trivial irrep. -/
example : ∃ (o : Oracles) (T : Fin 12 → Fin 12 → Fin 12) (l : List (AnyReal 12 × ℤ)) (lc : List (AnyRep 12 × ℤ)),
    PointgroupContract o.pointgroup rots23 ∧ EigContract o.eig ∧ EnumeratesGroup rots23 ∧
    getCayleyTable rots23 = .ok T ∧
    enumerateUnitaryIrreps o rots23 none true .neto 1e-5 1e-8 9 = .ok (.real l, false) ∧
    IsCompleteRealIrreps T (fun _ _ => 1) (l.map Prod.fst) ∧
    (∃ R ∈ l.map Prod.fst, AreRealEquivalent (fun _ : Fin 12 => (1 : Matrix (Fin 1) (Fin 1) ℝ)) R.2) ∧
    enumerateUnitaryIrreps o rots23 none false .neto 1e-5 1e-8 9 = .ok (.complex lc, false) ∧
    ∀ x ∈ lc, x.2 = 1 ∨ (x.2 = 0 ∧ x.1.1 = 1) := by
  obtain ⟨T, hT, hs, hTg⟩ := c01_cayley_table_ordinary rots23_group
  obtain ⟨random, hr⟩ := exists_richDraws 1e-8 12 9 fun d hd => by
    have : d ≤ 3 := by by_contra h; push Not at h; nlinarith
    nlinarith
  obtain ⟨eig, heig⟩ := exists_eigContract
  let o : Oracles := { random := random, eig := eig, eigh := fun d _ => (fun _ => 0, 0),
                       qr := fun _ _ _ => 0,
                       pointgroup := (PgSymbol.pg_23, (1 : M3).map fun x : ℤ => (x : ℝ)) }
  obtain ⟨L, w, h0, h1, h2⟩ := c69_real_irreps rots23_group hT o pointgroup_23 heig 1e-5 (atol := 1e-8) (by norm_num)
    (by norm_num) 9
  obtain ⟨h3, h4⟩ := h1 hr
  obtain ⟨l, h5, h6, -⟩ := h2 h3 h4
  obtain ⟨L', w', h0', h1', h2'⟩ := c70_indicators rots23_group hT o pointgroup_23 1e-5 (atol := 1e-8) (by norm_num)
    (by norm_num) 9
  obtain ⟨lc, h7, -, h8⟩ := h2' (h1' hr)
  refine ⟨o, T, l, lc, pointgroup_23, heig, rots23_group, hT, h5, h6, ?_, h7, h8⟩
  refine h6.complete 1 _ (fun _ _ => by simp) (fun _ => isUnit_one) ⟨⟨0⟩, fun W hW => ?_⟩
  by_cases hb : W = ⊥
  · exact Or.inl hb
  · right
    obtain ⟨v, hv, hv0⟩ := (Submodule.ne_bot_iff W).1 hb
    have hv1 : v 0 ≠ 0 := fun h => hv0 (by funext i; rw [Subsingleton.elim i 0, h]; rfl)
    rw [Submodule.eq_top_iff']
    intro u
    have : u = (u 0 / v 0) • v := by
      funext i
      rw [Subsingleton.elim i 0, Pi.smul_apply, smul_eq_mul, div_mul_cancel₀ _ hv1]
    rw [this]
    exact W.smul_mem _ hv

end Spgrep
