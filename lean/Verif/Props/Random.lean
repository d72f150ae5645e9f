/-
C35, C36, C60: enumeration and decomposition with a random Hermitian matrix (irreps.py:243-405).
-/
import Verif.Proofs.RandomDraw
import Verif.Props.SmallReps
import Verif.Props.Examples
import Mathlib.Analysis.Matrix.Spectrum

namespace Spgrep

open Spec

variable {n : ℕ} {T : Fin n → Fin n → Fin n} {μ : Fin n → Fin n → ℂ}

/-- The contract of `np.linalg.eigh` and `np.linalg.qr`. -/
def EigenContract (eigh : EighOracle) (qr : QROracle) : Prop :=
  (∀ d (M : Matrix (Fin d) (Fin d) ℂ), M.IsHermitian → IsEigh M (eigh d M).1 (eigh d M).2) ∧
  ∀ n k A, IsQR A (qr n k A)

/-- The contract can be met. -/
theorem eigenContract_exists : ∃ eigh qr, EigenContract eigh qr := by
  classical
  have h1 : ∀ d (M : Matrix (Fin d) (Fin d) ℂ), ∃ x : (Fin d → ℝ) × Matrix (Fin d) (Fin d) ℂ,
      M.IsHermitian → IsEigh M x.1 x.2 := by
    intro d M
    by_cases hM : M.IsHermitian
    · refine ⟨(hM.eigenvalues, (hM.eigenvectorUnitary : Matrix (Fin d) (Fin d) ℂ)), fun _ => ⟨?_, ?_⟩⟩
      · exact Matrix.UnitaryGroup.star_mul_self _
      · have h := hM.spectral_theorem
        rw [Unitary.conjStarAlgAut_apply] at h
        have h2 : (star (hM.eigenvectorUnitary : Matrix (Fin d) (Fin d) ℂ)) *
            (hM.eigenvectorUnitary : Matrix (Fin d) (Fin d) ℂ) = 1 := Matrix.UnitaryGroup.star_mul_self _
        have h3 := congrArg (· * (hM.eigenvectorUnitary : Matrix (Fin d) (Fin d) ℂ)) h
        rw [Matrix.mul_assoc, h2, Matrix.mul_one] at h3
        exact h3
    · exact ⟨(0, 0), fun h => absurd h hM⟩
  choose eigh he using h1
  choose qr hq using fun n k A => exists_qr (n := n) (k := k) A
  exact ⟨eigh, qr, he, hq⟩

/-! ### The matrix -/

theorem reg_entry {rots : Fin n → M3} (h : EnumeratesGroup rots) (hT : getCayleyTable rots = .ok T) {reg : RepArr n n}
    (hreg : ∀ k i j, reg k i j = if rots k * rots j = rots i then μ k j else 0) (k i j : Fin n) :
    reg k i j = if i = T k j then μ k j else 0 := by
  obtain ⟨T', hT', hs, -⟩ := c01_cayley_table_ordinary h
  obtain rfl : T' = T := by rw [hT] at hT'; exact (Except.ok.inj hT').symm
  rw [hreg]
  by_cases hij : T' k j = i
  · rw [if_pos ((hs k j i).1 hij), if_pos hij.symm]
  · rw [if_neg fun e => hij ((hs k j i).2 e), if_neg fun e => hij e.symm]

theorem lookup_spec (hT : IsGroupTable T) (hn : ∀ g h, ‖μ g h‖ = 1) {reg : RepArr n n}
    (hreg : ∀ k i j, reg k i j = if i = T k j then μ k j else 0) (m i : Fin n) :
    ∃ j, lookupNonzero reg m i = some j ∧ ∀ j', j' ≠ j → reg m i j' = 0 := by
  classical
  obtain ⟨j, hj, hu⟩ : ∃ j, i = T m j ∧ ∀ j', i = T m j' → j' = j := by
    obtain ⟨j, hj⟩ := (Finite.injective_iff_surjective.1 (fun a b hab => table_left_cancel hT (k := m) hab)) i
    exact ⟨j, hj.symm, fun j' h' => table_left_cancel hT (h'.symm.trans hj.symm)⟩
  refine ⟨j, ?_, fun j' hj' => ?_⟩
  · unfold lookupNonzero
    have : (List.finRange n).filter (fun j' => decide (reg m i j' ≠ 0)) = [j] := by
      have h1 : ∀ j', decide (reg m i j' ≠ 0) = decide (j' = j) := by
        intro j'
        rw [decide_eq_decide, hreg]
        constructor
        · intro h
          by_contra hne
          exact h (if_neg fun e => hne (hu j' e))
        · rintro rfl
          rw [if_pos hj]
          exact ne_zero_of_norm_one hn _ _
      simp only [h1]
      have h2 := List.Nodup.filter (fun x => decide (x = j)) (List.nodup_finRange n)
      refine List.perm_singleton.1 ((List.perm_ext_iff_of_nodup h2 (List.nodup_singleton j)).2 fun x => ?_)
      simp
    rw [this]
  · rw [hreg, if_neg fun e => hj' (hu j' e)]

/-- The core of C35: the search on the regular representation. -/
theorem enumerateFromRegular_spec (hT : IsGroupTable T) (hn : ∀ g h, ‖μ g h‖ = 1) {reg : RepArr n n}
    (hreg : ∀ k i j, reg k i j = if i = T k j then μ k j else 0) (hregp : IsProjRep T μ reg) (hregu : IsUnitaryRep reg)
    {eigh : EighOracle} {qr : QROracle} (hc : EigenContract eigh qr) (random : ℕ → Matrix (Fin n) (Fin n) ℂ) {rtol : ℝ}
    (hr : 0 ≤ rtol) (hr' : rtol ≤ 1 / 2) (maxGen : ℕ) :
    ∃ lookup, (∀ m i, lookupNonzero reg m i = some (lookup m i)) ∧
      (∀ X, (commutingMatrix reg lookup (hermitize X)).IsHermitian ∧
        ∀ g, reg g * commutingMatrix reg lookup (hermitize X) = commutingMatrix reg lookup (hermitize X) * reg g) ∧
      ∃ L w, enumerateFromRegular eigh qr random reg rtol maxGen = .ok (L, w) ∧
        (w = false → IsCompleteIrreps T μ L ∧ (L.map fun D => D.1 ^ 2).sum = n) ∧
        (w = true → L = [] ∧ ∀ t < maxGen, ((getIrrepsFromMatrix eigh qr reg
          (∑ m, reg m * (hermitize (random t)).transpose * (reg m).conjTranspose) rtol).map fun D => D.1 ^ 2).sum ≠ n) := by
  classical
  have hμ := ne_zero_of_norm_one hn
  choose lookup hl1 hl2 using lookup_spec hT hn hreg
  have heq := commutingMatrix_eq (reg := reg) (lookup := lookup) fun m i j h => hl2 m i j h
  have hH : ∀ X, (commutingMatrix reg lookup (hermitize X)).IsHermitian := by
    intro X
    rw [heq]
    exact sum_herm reg (hermitize_herm X).transpose
  have hcomm : ∀ X g, reg g * commutingMatrix reg lookup (hermitize X) =
      commutingMatrix reg lookup (hermitize X) * reg g := by
    intro X g
    rw [heq]
    exact table_avg_intertwines hT hμ hregp hregp hregu _ g
  refine ⟨lookup, hl1, fun X => ⟨hH X, hcomm X⟩, ?_⟩
  have hsome : ∀ m i, (lookupNonzero reg m i).isSome := fun m i => by rw [hl1]; rfl
  have hlk : (fun m i => (lookupNonzero reg m i).get (hsome m i)) = lookup := by
    funext m i
    simp only [hl1, Option.get_some]
  unfold enumerateFromRegular
  rw [dif_pos hsome, hlk]
  refine ⟨_, _, rfl, ?_, ?_⟩
  · intro hw
    rcases retryRandom_cases (attempt := fun t => getIrrepsFromMatrix eigh qr reg
        (commutingMatrix reg lookup (hermitize (random t))) rtol)
        (accept := fun irreps => (irreps.map fun r => r.1 ^ 2).sum = n) (List.range maxGen) with ⟨h1, h2⟩ | ⟨t, ht, h1, h2⟩
    · rw [h1] at hw; cases hw
    · rw [h2]
      obtain ⟨g1, -, -, -⟩ := irrepsFromMatrix_spec hT hμ hregp hregu hc.1 hc.2 hr hr' (hH (random t)) (hcomm (random t))
      exact ⟨isCompleteIrreps_of_card hT hμ g1.rep g1.unitary g1.irred g1.inequiv h1, h1⟩
  · intro hw
    rcases retryRandom_cases (attempt := fun t => getIrrepsFromMatrix eigh qr reg
        (commutingMatrix reg lookup (hermitize (random t))) rtol)
        (accept := fun irreps => (irreps.map fun r => r.1 ^ 2).sum = n) (List.range maxGen) with ⟨h1, h2⟩ | ⟨t, ht, h1, h2⟩
    · refine ⟨by rw [h1], fun t ht => ?_⟩
      have := h2 t (List.mem_range.2 ht)
      rwa [heq] at this
    · rw [h2] at hw; cases hw

/-- C35: for every matrix group, cocycle of modulus one and sequence of draws, the projective regular
representation has one nonzero entry per row, the matrix built from a draw is Hermitian and commutes with it, and
the enumeration either returns without a warning a complete list of pairwise inequivalent unitary irreps whose squared
dimensions add up to the group order, or the empty list with a warning. -/
theorem c35_random_enumeration {rots : Fin n → M3} (h : EnumeratesGroup rots) (hT : getCayleyTable rots = .ok T)
    (hn : ∀ g h, ‖μ g h‖ = 1) (hc : IsCocycle T μ) {eigh : EighOracle} {qr : QROracle} (ho : EigenContract eigh qr)
    (random : ℕ → Matrix (Fin n) (Fin n) ℂ) {rtol : ℝ} (hr : 0 ≤ rtol) (hr' : rtol ≤ 1 / 2) (maxGen : ℕ) :
    ∃ reg lookup, getProjectiveRegularRepresentation rots μ = .ok reg ∧
      (∀ m i, lookupNonzero reg m i = some (lookup m i)) ∧
      (∀ X, (commutingMatrix reg lookup (hermitize X)).IsHermitian ∧
        ∀ g, reg g * commutingMatrix reg lookup (hermitize X) = commutingMatrix reg lookup (hermitize X) * reg g) ∧
      ∃ L w, enumerateFromRegular eigh qr random reg rtol maxGen = .ok (L, w) ∧
        (w = false → IsCompleteIrreps T μ L ∧ (L.map fun D => D.1 ^ 2).sum = n) ∧ (w = true → L = []) := by
  obtain ⟨T', hT', -, hTg⟩ := c01_cayley_table_ordinary h
  obtain rfl : T' = T := by rw [hT] at hT'; exact (Except.ok.inj hT').symm
  obtain ⟨reg, h1, h2, h3, h4, -⟩ := c12_projective_regular h hT hn hc
  obtain ⟨lookup, q1, q2, L, w, q3, q4, q5⟩ := enumerateFromRegular_spec hTg hn (reg_entry h hT h2) h3 h4 ho random hr hr'
    maxGen
  exact ⟨reg, lookup, h1, q1, q2, L, w, q3, q4, fun hw => (q5 hw).1⟩

/-- C35, the search can succeed: whenever at least one attempt is allowed there are draws for which no warning is
given, whatever eigenvectors `eigh` and `qr` choose. -/
theorem c35_draws_exist {rots : Fin n → M3} (h : EnumeratesGroup rots) (hT : getCayleyTable rots = .ok T)
    (hn : ∀ g h, ‖μ g h‖ = 1) (hc : IsCocycle T μ) {rtol : ℝ} (hr : 0 ≤ rtol) (hrn : rtol * n ≤ 1 / 2)
    {L₀ : List (AnyRep n)} (hL₀ : IsCompleteIrreps T μ L₀) {maxGen : ℕ} (hg : 0 < maxGen) :
    ∃ random : ℕ → Matrix (Fin n) (Fin n) ℂ, ∀ (eigh : EighOracle) (qr : QROracle), EigenContract eigh qr →
      ∃ reg L, getProjectiveRegularRepresentation rots μ = .ok reg ∧
        enumerateFromRegular eigh qr random reg rtol maxGen = .ok (L, false) := by
  obtain ⟨T', hT', -, hTg⟩ := c01_cayley_table_ordinary h
  obtain rfl : T' = T := by rw [hT] at hT'; exact (Except.ok.inj hT').symm
  have hμ := ne_zero_of_norm_one hn
  obtain ⟨reg, h1, h2, h3, h4, -⟩ := c12_projective_regular h hT hn hc
  have hn0 : (n : ℂ) ≠ 0 := by exact_mod_cast (table_pos hTg).ne'
  have hn1 : (1 : ℝ) ≤ n := by exact_mod_cast table_pos hTg
  have hG : GoodIrreps T' μ L₀ := ⟨hL₀.rep, hL₀.unitary, hL₀.irred, hL₀.inequiv⟩
  have hs := IsCompleteIrreps.sum_sq hTg hμ hc hL₀
  refine ⟨fun _ => ((2 * n : ℂ)⁻¹ • sepMatrix L₀).transpose, fun eigh qr ho => ?_⟩
  obtain ⟨lookup, q1, q2, L, w, q3, q4, q5⟩ := enumerateFromRegular_spec hTg hn (reg_entry h hT h2) h3 h4 ho
    (fun _ => ((2 * n : ℂ)⁻¹ • sepMatrix L₀).transpose) hr (by nlinarith) maxGen
  refine ⟨reg, L, h1, ?_⟩
  cases w
  · exact q3
  exfalso
  apply (q5 rfl).2 0 hg
  have e1 : (hermitize ((2 * n : ℂ)⁻¹ • sepMatrix L₀).transpose).transpose = (n : ℂ)⁻¹ • sepMatrix L₀ := by
    have e2 := (sepMatrix_herm (L := L₀)).eq
    unfold hermitize
    have e3 : (((2 * n : ℂ)⁻¹ • sepMatrix L₀).transpose.conjTranspose).transpose =
        ((2 * n : ℂ)⁻¹ • sepMatrix L₀).conjTranspose := rfl
    rw [Matrix.transpose_add, Matrix.transpose_transpose, e3, Matrix.conjTranspose_smul, e2, ← add_smul]
    congr 1
    rw [star_inv₀, star_mul', star_natCast]
    simp
    field_simp
    norm_num
  have e2 : ∑ m, reg m * (hermitize ((2 * n : ℂ)⁻¹ • sepMatrix L₀).transpose).transpose * (reg m).conjTranspose =
      sepMatrix L₀ := by
    rw [e1]
    have : ∀ m, reg m * ((n : ℂ)⁻¹ • sepMatrix L₀) * (reg m).conjTranspose = (n : ℂ)⁻¹ • sepMatrix L₀ := by
      intro m
      rw [Matrix.mul_smul, Matrix.smul_mul, sepMatrix_comm hTg hn hG hs (reg_entry h hT h2), Matrix.mul_assoc, h4 m,
        Matrix.mul_one]
    simp only [this, Finset.sum_const, Finset.card_univ, Fintype.card_fin]
    rw [← Nat.cast_smul_eq_nsmul ℂ, smul_smul, mul_inv_cancel₀ hn0, one_smul]
  rw [e2]
  exact IsCompleteIrreps.sum_sq hTg hμ hc
    (sepMatrix_complete hTg hn hc hL₀ (reg_entry h hT h2) h3 h4 ho.1 ho.2 hr hrn)

/-- Non-vacuity: the Klein four-group with its nontrivial cocycle, at the tolerances of the source. -/
example : ∃ (eigh : EighOracle) (qr : QROracle) (random : ℕ → Matrix (Fin 4) (Fin 4) ℂ) (reg : RepArr 4 4)
    (L : List (AnyRep 4)), EigenContract eigh qr ∧ getProjectiveRegularRepresentation rotsI24 μV4 = .ok reg ∧
      enumerateFromRegular eigh qr random reg 1e-5 4 = .ok (L, false) ∧ IsCompleteIrreps tblV4 μV4 L := by
  obtain ⟨eigh, qr, ho⟩ := eigenContract_exists
  obtain ⟨random, h⟩ := c35_draws_exist rotsI24_group cayley_I24 μV4_norm μV4_cocycle (rtol := 1e-5) (by norm_num)
    (by norm_num) repV4_complete (maxGen := 4) (by norm_num)
  obtain ⟨reg, L, h1, h2⟩ := h eigh qr ho
  obtain ⟨reg', lookup, q1, -, -, L', w, q3, q4, -⟩ := c35_random_enumeration rotsI24_group cayley_I24 μV4_norm
    μV4_cocycle ho random (rtol := 1e-5) (by norm_num) (by norm_num) 4
  rw [h1] at q1
  obtain rfl := Except.ok.inj q1
  rw [h2] at q3
  obtain ⟨rfl, rfl⟩ := Prod.mk.inj (Except.ok.inj q3)
  exact ⟨eigh, qr, random, reg, L, ho, h1, h2, (q4 rfl).1⟩

/-! ### Small representations with the random method -/

/-- C60: as C56 for the method "random". -/
theorem c60_small_reps_random {rots : Fin n → M3} {trans : Fin n → V3} {k : V3} (h : IsSpaceGroup rots trans)
    (hk : ∀ i, FixesK (rots i) k) (o : Oracles) (ho : EigenContract o.eigh o.qr) {rtol : ℝ} (hr : 0 ≤ rtol)
    (hr' : rtol ≤ 1 / 2) {atol : ℝ} (ha : 0 < atol) (ha5 : atol ≤ 1 / 5) (maxGen : ℕ) {out : IrrepsOut n}
    (hrun : enumerateSmallReps o rots trans k false .random rtol atol maxGen = .ok (out, false)) :
    ∃ (l : List (AnyRep n × ℤ)) (S : List (AnyRep n)), out = .complex l ∧
      List.Forall₂ (fun Γ x => ∃ A : RepArr n Γ.1, x.1 = ⟨Γ.1, A⟩ ∧ ∀ g i j, ‖Γ.2 g i j - A g i j‖ ≤ atol) S l ∧
      (∀ Γ ∈ S, SpaceGroupLaw rots trans k (fun _ _ => 1) Γ.2 ∧ IsUnitaryRep Γ.2 ∧ IsIrreducible Γ.2) ∧
      S.Pairwise (fun Γ Γ' => ¬ AreEquivalent Γ.2 Γ'.2) ∧
      (∀ (e : ℕ) (E : RepArr n e), SpaceGroupLaw rots trans k (fun _ _ => 1) E → (∀ g, IsUnit (E g)) →
        IsIrreducible E → ∃ Γ ∈ S, AreEquivalent E Γ.2) ∧
      (S.map fun Γ => Γ.1 ^ 2).sum = n := by
  obtain ⟨T, e, hT, hTg, he, hc, hn, h1⟩ := small_setup h hk
  refine small_reps_complete_of_raw h hk hT o .random rtol ha ha5 maxGen (fun L hraw => ?_) hrun
  obtain ⟨reg, lookup, q1, -, -, L', w, q3, q4, -⟩ := c35_random_enumeration h.1 hT hn hc ho (o.random n) hr hr' maxGen
  unfold rawIrreps at hraw
  dsimp only at hraw
  simp only [q1, bind, Except.bind, q3] at hraw
  obtain ⟨rfl, rfl⟩ := Prod.mk.inj (Except.ok.inj hraw)
  exact (q4 rfl).1

/-- Non-vacuity of C60: I222 at W, enumerated by the random method without a warning. -/
theorem random_I222 : ∃ (o : Oracles) (out : IrrepsOut 4), EigenContract o.eigh o.qr ∧
    enumerateSmallReps o rotsI24 (fun _ _ => 0) kW false .random 1e-5 1e-8 4 = .ok (out, false) := by
  have h : IsSpaceGroup rotsI24 (fun _ _ => 0) := ⟨rotsI24_group, fun _ _ _ _ _ => ⟨0, by simp⟩⟩
  obtain ⟨T, e, hT, hTg, he, hc, hn, h1⟩ := small_setup h fixesK_I24
  obtain ⟨eigh, qr, ho⟩ := eigenContract_exists
  -- some complete list, from the other method
  obtain ⟨random, hr⟩ := exists_richDraws 1e-8 4 4 fun d hd => hd
  let o₀ : Oracles := { random := random, eig := fun d _ => (fun _ => 0, 0), eigh := eigh, qr := qr,
                        pointgroup := (PgSymbol.pg_222, trafoI24.map fun x : ℤ => (x : ℝ)) }
  obtain ⟨L₀, w₀, -, hw₀, hr₀⟩ := neto_raw h.1 hT hTg hc hn he h1 o₀ pointgroup_I24 1e-5 (atol := 1e-8) (by norm_num) 4
  have hL₀ := hw₀ (hr₀ hr)
  obtain ⟨draws, hd⟩ := c35_draws_exist h.1 hT hn hc (rtol := 1e-5) (by norm_num) (by norm_num) hL₀ (maxGen := 4)
    (by norm_num)
  obtain ⟨reg, L, q1, q2⟩ := hd eigh qr ho
  let o : Oracles := { o₀ with random := fun d => if hd : d = 4 then hd ▸ draws else random d }
  have hraw : rawIrreps o rotsI24 (getFactorSystem rotsI24 (fun _ _ => 0) kW) .random 1e-5 1e-8 4 = .ok (L, false) := by
    unfold rawIrreps
    simp only [q1, bind, Except.bind]
    exact q2
  obtain ⟨reg', lookup, p1, -, -, L', w, p3, p4, -⟩ := c35_random_enumeration h.1 hT hn hc ho draws
    (rtol := 1e-5) (by norm_num) (by norm_num) 4
  rw [q1] at p1
  obtain rfl := Except.ok.inj p1
  rw [q2] at p3
  obtain ⟨rfl, rfl⟩ := Prod.mk.inj (Except.ok.inj p3)
  obtain ⟨hf1, hf2⟩ := small_indicators h fixesK_I24 hT hTg hc hn (.of_symmorphic fun _ _ => rfl) (atol := 1e-8) (by norm_num)
    (by norm_num) (p4 rfl).1
  obtain ⟨l, hl, -⟩ := withIndicators_ok hf2
  exact ⟨o, .complex l, ho, by rw [smallReps_run hraw hf1 false]; simp only [hl]; rfl⟩

/-! ### Decomposition of a representation -/

/-- C36, the part that holds: for every unitary representation (projective with any nonvanishing factor system) and
all draws, a result without a warning consists of pairwise inequivalent unitary irreps, with dimensions and
characters adding up to those of the representation; and then no irrep occurs in it more than once.  A warning comes
with the empty list. -/
theorem c36_decompose_partial (hT : IsGroupTable T) (hμ : ∀ g h, μ g h ≠ 0) {D : ℕ} {rep : RepArr n D}
    (hrep : IsProjRep T μ rep) (hu : IsUnitaryRep rep) {eigh : EighOracle} {qr : QROracle} (ho : EigenContract eigh qr)
    (random : ℕ → Matrix (Fin D) (Fin D) ℂ) {rtol : ℝ} (hr : 0 ≤ rtol) (hr' : rtol ≤ 1 / 2) (maxGen : ℕ) :
    (∀ L, decomposeRepresentation eigh qr random rep rtol maxGen = (L, false) →
      (∀ E ∈ L, IsProjRep T μ E.2 ∧ IsUnitaryRep E.2 ∧ IsIrreducible E.2) ∧
      L.Pairwise (fun E F => ¬ AreEquivalent E.2 F.2) ∧
      (L.map fun E => E.1).sum = D ∧ (∀ g, (L.map fun E => (E.2 g).trace).sum = (rep g).trace) ∧
      ∀ (d : ℕ) (F : RepArr n d), IsProjRep T μ F → IsUnitaryRep F → IsIrreducible F →
        (∑ g, (rep g).trace * star (F g).trace = 0 ∨ ∑ g, (rep g).trace * star (F g).trace = n)) ∧
    ∀ L, decomposeRepresentation eigh qr random rep rtol maxGen = (L, true) → L = [] := by
  classical
  have hH : ∀ X, (decomposeMatrix rep (hermitize X)).IsHermitian := fun X => by
    rw [decomposeMatrix_eq]; exact sum_herm rep (hermitize_herm X)
  have hcomm : ∀ X g, rep g * decomposeMatrix rep (hermitize X) = decomposeMatrix rep (hermitize X) * rep g := fun X g => by
    rw [decomposeMatrix_eq]; exact table_avg_intertwines hT hμ hrep hrep hu _ g
  have hcases := retryRandom_cases (attempt := fun t => getIrrepsFromMatrix eigh qr rep
        (decomposeMatrix rep (hermitize (random t))) rtol)
        (accept := fun irreps => (irreps.map fun r => r.1).sum = D) (List.range maxGen)
  unfold decomposeRepresentation
  constructor
  · intro L hL
    rcases hcases with ⟨h1, h2⟩ | ⟨t, ht, h1, h2⟩
    · rw [h1] at hL; cases hL
    · rw [h2] at hL
      obtain ⟨rfl, -⟩ := Prod.mk.inj hL
      obtain ⟨g1, -, g2, -⟩ := irrepsFromMatrix_spec hT hμ hrep hu ho.1 ho.2 hr hr' (hH (random t)) (hcomm (random t))
      generalize hLL : getIrrepsFromMatrix eigh qr rep (decomposeMatrix rep (hermitize (random t))) rtol = L at *
      have htr := g2 h1
      refine ⟨fun E hE => ⟨g1.rep E hE, g1.unitary E hE, g1.irred E hE⟩, g1.inequiv, h1, htr, ?_⟩
      intro d F hF hFu hFi
      have e1 : ∑ g, (rep g).trace * star (F g).trace =
          (L.map fun E => ∑ g, (E.2 g).trace * star (F g).trace).sum := by
        simp only [← htr]
        clear htr g2 h1 hLL g1 h2 hL
        induction L with
        | nil => simp
        | cons E L ih =>
          simp only [List.map_cons, List.sum_cons, add_mul, Finset.sum_add_distrib]
          rw [ih]
      rw [e1]
      have hterm : ∀ E ∈ L, (AreEquivalent E.2 F → ∑ g, (E.2 g).trace * star (F g).trace = n) ∧
          (¬ AreEquivalent E.2 F → ∑ g, (E.2 g).trace * star (F g).trace = 0) := fun E hE =>
        table_char_orthogonality hT hμ (g1.rep E hE) hF (g1.unitary E hE) (g1.irred E hE) hFi hFu
      have hpw := g1.inequiv
      clear e1 htr g2 h1 hLL g1 h2 hL
      induction L with
      | nil => left; simp
      | cons E L ih =>
        rw [List.map_cons, List.sum_cons]
        obtain ⟨p1, p2⟩ := List.pairwise_cons.1 hpw
        by_cases hEF : AreEquivalent E.2 F
        · right
          rw [(hterm E (List.mem_cons_self ..)).1 hEF]
          have : (L.map fun E => ∑ g, (E.2 g).trace * star (F g).trace).sum = 0 := by
            refine List.sum_eq_zero fun x hx => ?_
            obtain ⟨E', hE', rfl⟩ := List.mem_map.1 hx
            refine (hterm E' (List.mem_cons_of_mem _ hE')).2 fun hE'F => ?_
            exact p1 E' hE' (AreEquivalent.trans hEF (AreEquivalent.symm hE'F))
          rw [this, add_zero]
        · rw [(hterm E (List.mem_cons_self ..)).2 hEF, zero_add]
          exact ih (fun E' hE' => hterm E' (List.mem_cons_of_mem _ hE')) p2
  · intro L hL
    rcases hcases with ⟨h1, h2⟩ | ⟨t, ht, h1, h2⟩
    · rw [h1] at hL
      exact (Prod.mk.inj hL).1.symm
    · rw [h2] at hL; cases hL

/-- C36, the search can succeed exactly where the multiplicities allow it: a unitary representation that a unitary
change of basis `U` splits into pairwise inequivalent irreps is decomposed without a warning for some draws, whatever
eigenvectors `eigh` and `qr` choose. -/
theorem c36_draws_exist (hT : IsGroupTable T) (hμ : ∀ g h, μ g h ≠ 0) {D : ℕ} {rep : RepArr n D}
    (hrep : IsProjRep T μ rep) (hu : IsUnitaryRep rep) {L₀ : List (AnyRep n)}
    (hirr : ∀ E ∈ L₀, IsProjRep T μ E.2 ∧ IsUnitaryRep E.2 ∧ IsIrreducible E.2)
    (hne : L₀.Pairwise fun E F => ¬ AreEquivalent E.2 F.2) {U : Matrix (Fin D) (Σ a : Fin L₀.length, Fin (L₀.get a).1) ℂ}
    (hU1 : U.conjTranspose * U = 1) (hU2 : U * U.conjTranspose = 1)
    (hsplit : ∀ g y x, (rep g * U) y x = ∑ j, U y ⟨x.1, j⟩ * (L₀.get x.1).2 g j x.2) {rtol : ℝ} (hr : 0 ≤ rtol)
    (hr' : rtol ≤ 1 / 2) (hrn : rtol * D ≤ 1 / 2) {maxGen : ℕ} (hg : 0 < maxGen) :
    ∃ random : ℕ → Matrix (Fin D) (Fin D) ℂ, ∀ (eigh : EighOracle) (qr : QROracle), EigenContract eigh qr →
      ∃ L, decomposeRepresentation eigh qr random rep rtol maxGen = (L, false) := by
  classical
  have hn0 : (n : ℂ) ≠ 0 := by exact_mod_cast (table_pos hT).ne'
  refine ⟨fun _ => (2 * n : ℂ)⁻¹ • withEigen U (irrepVal L₀), fun eigh qr ho => ?_⟩
  rcases retryRandom_cases (attempt := fun t => getIrrepsFromMatrix eigh qr rep
        (decomposeMatrix rep (hermitize ((fun _ => (2 * n : ℂ)⁻¹ • withEigen U (irrepVal L₀)) t))) rtol)
        (accept := fun irreps => (irreps.map fun r => r.1).sum = D) (List.range maxGen) with ⟨h1, h2⟩ | ⟨t, ht, h1, h2⟩
  · exfalso
    apply h2 0 (List.mem_range.2 hg)
    have e1 : hermitize ((2 * n : ℂ)⁻¹ • withEigen U (irrepVal L₀)) = (n : ℂ)⁻¹ • withEigen U (irrepVal L₀) := by
      unfold hermitize
      rw [Matrix.conjTranspose_smul, (withEigen_herm (U := U) (val := irrepVal L₀)).eq, ← add_smul]
      congr 1
      rw [star_inv₀, star_mul', star_natCast]
      simp
      field_simp
      norm_num
    have e2 : decomposeMatrix rep (hermitize ((2 * n : ℂ)⁻¹ • withEigen U (irrepVal L₀))) =
        withEigen U (irrepVal L₀) := by
      rw [decomposeMatrix_eq, e1]
      have : ∀ m, rep m * ((n : ℂ)⁻¹ • withEigen U (irrepVal L₀)) * (rep m).conjTranspose =
          (n : ℂ)⁻¹ • withEigen U (irrepVal L₀) := by
        intro m
        rw [Matrix.mul_smul, Matrix.smul_mul, free_comm hU1 hU2 hsplit, Matrix.mul_assoc, hu m, Matrix.mul_one]
      simp only [this, Finset.sum_const, Finset.card_univ, Fintype.card_fin]
      rw [← Nat.cast_smul_eq_nsmul ℂ, smul_smul, mul_inv_cancel₀ hn0, one_smul]
    rw [e2]
    exact free_dims hT hμ ⟨fun E hE => (hirr E hE).1, fun E hE => (hirr E hE).2.1, fun E hE => (hirr E hE).2.2, hne⟩
      hrep hu hU1 hU2 hsplit ho.1 ho.2 hr hr' hrn
  · exact ⟨_, h2⟩

/-- Non-vacuity of C36: the reflection `diag(1, -1)` is decomposed into the two characters of the group of order two. -/
example : ∃ (eigh : EighOracle) (qr : QROracle) (random : ℕ → Matrix (Fin 2) (Fin 2) ℂ) (L : List (AnyRep 2)),
    EigenContract eigh qr ∧ decomposeRepresentation eigh qr random
      (fun g : Fin 2 => Matrix.diagonal ![(1 : ℂ), (-1) ^ (g : ℕ)]) 1e-5 4 = (L, false) := by
  obtain ⟨eigh, qr, ho⟩ := eigenContract_exists
  let ch : ℕ → RepArr 2 1 := fun m g => Matrix.of fun _ _ => ((-1) ^ (g : ℕ)) ^ m
  have hch : ∀ m, IsProjRep (fun a b : Fin 2 => a + b) (fun _ _ => (1 : ℂ)) (ch m) := by
    intro m g h
    ext i j
    fin_cases g <;> fin_cases h <;> simp [ch, ← mul_pow, Matrix.mul_apply]
  have hchu : ∀ m, IsUnitaryRep (ch m) := by
    intro m g
    ext i j
    fin_cases g <;> fin_cases i <;> fin_cases j <;> simp [ch, ← mul_pow, Matrix.mul_apply]
  have hT : IsGroupTable (fun a b : Fin 2 => a + b) :=
    ⟨by decide, 0, by decide, by decide, by decide⟩
  have hchi : ∀ m, IsIrreducible (ch m) := by
    intro m
    rw [table_irreducible_iff hT (fun _ _ => one_ne_zero) (hch m) (hchu m)]
    simp [ch, Matrix.trace, ← mul_pow]
  obtain ⟨random, h⟩ := c36_draws_exist hT (μ := fun _ _ => (1 : ℂ)) (fun _ _ => one_ne_zero) (D := 2)
    (rep := fun g : Fin 2 => Matrix.diagonal ![(1 : ℂ), (-1) ^ (g : ℕ)]) (by
      intro g h
      ext i j
      fin_cases g <;> fin_cases h <;> fin_cases i <;> fin_cases j <;> simp)
    (by
      intro g
      ext i j
      fin_cases g <;> fin_cases i <;> fin_cases j <;> simp [Matrix.diagonal_conjTranspose])
    (L₀ := [⟨1, ch 0⟩, ⟨1, ch 1⟩]) (by
      intro E hE
      simp only [List.mem_cons, List.not_mem_nil, or_false] at hE
      rcases hE with rfl | rfl
      · exact ⟨hch 0, hchu 0, hchi 0⟩
      · exact ⟨hch 1, hchu 1, hchi 1⟩)
    (by
      simp only [List.pairwise_cons, List.mem_cons, List.not_mem_nil, or_false, forall_eq, List.Pairwise.nil, and_true,
        IsEmpty.forall_iff, implies_true]
      rintro ⟨S, S', h1, h2, h3⟩
      have h4 := congrFun (congrFun (h3 1) 0) 0
      have h5 := congrFun (congrFun h1 0) 0
      simp [ch, Matrix.mul_apply] at h4 h5
      have h6 : S 0 0 = 0 := by linear_combination h4 / 2
      rw [h6] at h5
      simp at h5)
    (U := Matrix.of fun y x => if (y : ℕ) = x.1 then 1 else 0)
    (by
      ext ⟨a, i⟩ ⟨b, j⟩
      fin_cases a <;> fin_cases b <;> fin_cases i <;> fin_cases j <;> simp [Matrix.mul_apply, Fin.sum_univ_two])
    (by
      ext i j
      rw [Matrix.mul_apply, Fintype.sum_sigma]
      fin_cases i <;> fin_cases j <;> simp)
    (by
      rintro g y ⟨a, i⟩
      fin_cases g <;> fin_cases y <;> fin_cases a <;> fin_cases i <;> simp [Matrix.mul_apply, ch])
    (rtol := 1e-5) (by norm_num) (by norm_num) (by norm_num) (maxGen := 4) (by norm_num)
  obtain ⟨L, hL⟩ := h eigh qr ho
  exact ⟨eigh, qr, random, L, ho, hL⟩

/-- C36 is false: a representation in which an irrep occurs more than once (here the identity of the trivial group on a
plane) is never decomposed, whatever the draws and the number of attempts. -/
theorem c36_decompose_refuted : ∀ (eigh : EighOracle) (qr : QROracle), EigenContract eigh qr →
    ∀ (random : ℕ → Matrix (Fin 2) (Fin 2) ℂ) (maxGen : ℕ),
      decomposeRepresentation eigh qr random (fun _ : Fin 1 => (1 : Matrix (Fin 2) (Fin 2) ℂ)) 1e-5 maxGen = ([], true) := by
  intro eigh qr ho random maxGen
  have hT : IsGroupTable (fun _ _ : Fin 1 => (0 : Fin 1)) := by
    exact ⟨fun _ _ _ => rfl, 0, fun _ => Subsingleton.elim _ _, fun _ => Subsingleton.elim _ _,
      fun _ => ⟨0, rfl, rfl⟩⟩
  have hrep : IsProjRep (fun _ _ : Fin 1 => (0 : Fin 1)) (fun _ _ => (1 : ℂ)) (fun _ : Fin 1 => (1 : Matrix (Fin 2) (Fin 2) ℂ)) := by
    intro g h; simp
  obtain ⟨h1, h2⟩ := c36_decompose_partial hT (fun _ _ => one_ne_zero) hrep (fun _ => by simp) ho random (rtol := 1e-5)
    (by norm_num) (by norm_num) maxGen
  rcases hres : decomposeRepresentation eigh qr random (fun _ : Fin 1 => (1 : Matrix (Fin 2) (Fin 2) ℂ)) 1e-5 maxGen with ⟨L, w⟩
  cases w
  · exfalso
    obtain ⟨-, -, -, -, h3⟩ := h1 L hres
    have hF : IsProjRep (fun _ _ : Fin 1 => (0 : Fin 1)) (fun _ _ => (1 : ℂ)) (fun _ : Fin 1 => (1 : Matrix (Fin 1) (Fin 1) ℂ)) := by
      intro g h; simp
    have hFi : IsIrreducible (fun _ : Fin 1 => (1 : Matrix (Fin 1) (Fin 1) ℂ)) := by
      rw [table_irreducible_iff hT (fun _ _ => one_ne_zero) hF (fun _ => by simp)]
      simp
    rcases h3 1 _ hF (fun _ => by simp) hFi with h4 | h4 <;> simp at h4
  · rw [h2 L hres]

/-! ### C94 -/

theorem lookupNonzero_isSome (reg : RepArr n n) (m i : Fin n) : (lookupNonzero reg m i).isSome ↔ ∃! j, reg m i j ≠ 0 := by
  classical
  have hnd : ((List.finRange n).filter fun j => decide (reg m i j ≠ 0)).Nodup := (List.nodup_finRange n).filter _
  have hmem : ∀ j, j ∈ (List.finRange n).filter (fun j => decide (reg m i j ≠ 0)) ↔ reg m i j ≠ 0 := fun j => by simp
  unfold lookupNonzero
  generalize hl : (List.finRange n).filter (fun j => decide (reg m i j ≠ 0)) = l at hnd hmem
  match l, hnd, hmem with
  | [], _, hmem => simp only [Option.isSome_none]; refine ⟨fun h => absurd h (by decide), fun ⟨j, hj, _⟩ => ?_⟩; simpa using (hmem j).2 hj
  | [a], _, hmem =>
    refine ⟨fun _ => ⟨a, (hmem a).1 List.mem_cons_self, fun b hb => ?_⟩, fun _ => rfl⟩
    simpa using (hmem b).2 hb
  | a :: b :: t, hnd, hmem =>
    refine ⟨fun h => absurd h (by simp), fun ⟨j, _, hj⟩ => ?_⟩
    have h1 := hj a ((hmem a).1 List.mem_cons_self)
    have h2 := hj b ((hmem b).1 (List.mem_cons_of_mem _ List.mem_cons_self))
    exact absurd (h1.trans h2.symm) (by rintro rfl; simp at hnd)

/-- **C94.** Every array is accepted by `enumerate_unitary_irreps_from_regular_representation` (it returns a list, which is empty
if it warns) if each row of each matrix has exactly one non-zero entry; every other array is rejected with a `ValueError`. -/
theorem c94_monomial_input (eigh : EighOracle) (qr : QROracle) (random : ℕ → Matrix (Fin n) (Fin n) ℂ) (reg : RepArr n n)
    (rtol : ℝ) (maxGen : ℕ) :
    ((∀ m i, ∃! j, reg m i j ≠ 0) → ∃ L w, enumerateFromRegular eigh qr random reg rtol maxGen = .ok (L, w) ∧
      (w = true → L = []) ∧ (w = false → (L.map fun D => D.1 ^ 2).sum = n)) ∧
    (¬ (∀ m i, ∃! j, reg m i j ≠ 0) → enumerateFromRegular eigh qr random reg rtol maxGen = .error .valueError) := by
  classical
  constructor
  · intro h
    have h' : ∀ m i, (lookupNonzero reg m i).isSome := fun m i => (lookupNonzero_isSome reg m i).2 (h m i)
    unfold enumerateFromRegular
    rw [dif_pos h']
    refine ⟨_, _, rfl, ?_⟩
    generalize List.range maxGen = ts
    induction ts with
    | nil => exact ⟨fun _ => rfl, fun h => absurd h (by simp [retryRandom])⟩
    | cons t ts ih =>
      rw [retryRandom]
      split_ifs with hacc
      · exact ⟨fun h => absurd h (by simp), fun _ => hacc⟩
      · exact ih
  · intro h
    have h' : ¬ ∀ m i, (lookupNonzero reg m i).isSome := fun h1 => h fun m i => (lookupNonzero_isSome reg m i).1 (h1 m i)
    unfold enumerateFromRegular
    rw [dif_neg h']

/-- Non-vacuity of C94: permutation matrices are accepted, the matrices with all entries one are rejected. -/
example : (∀ m i : Fin 2, ∃! j, (if j = m + i then 1 else 0 : ℂ) ≠ 0) ∧ ¬ ∀ m i : Fin 2, ∃! j : Fin 2, (1 : ℂ) ≠ 0 :=
  ⟨fun m i => ⟨m + i, by simp, fun j hj => by simpa using hj⟩,
    fun h => absurd (((h 0 0).unique one_ne_zero one_ne_zero : (0 : Fin 2) = 1)) (by decide)⟩

end Spgrep
