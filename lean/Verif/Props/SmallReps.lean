/-
C18, C22, C56: `enumerate_small_representations` as a whole (irreps.py:28-140).
-/
import Verif.Proofs.SmallReps

namespace Spgrep

open Spec Matrix

variable {n : ℕ} {d : ℕ} {T : Fin n → Fin n → Fin n} {μ : Fin n → Fin n → ℂ}

theorem expPhase_sign {x : ℝ} (h : ∃ m : ℤ, 2 * x = m) : expPhase x = 1 ∨ expPhase x = -1 := by
  obtain ⟨m, hm⟩ := h
  have h1 : expPhase x * expPhase x = 1 := by
    rw [← expPhase_add, ← two_mul, hm, expPhase_int]
  exact mul_self_eq_one_iff.1 h1

/-- The cases in which the enumeration is proved not to raise: all phases that occur in the factor systems of the
cogroup irreps and of the small representations are `±1` (for example without fractional translations, at `k = 0`, or
when `2k` and twice the fractional translations are integral, see below); or all small representations are
one-dimensional. -/
def SafeCase (rots : Fin n → M3) (trans : Fin n → V3) (k : V3) : Prop :=
  (∀ i j, (∃ m : ℤ, 2 * ∑ a, ((∑ b, (rots i b a : ℝ) * k b) - k a) * trans j a = m) ∧
    ∀ l, rots i * rots j = rots l →
      ∃ m : ℤ, 2 * ∑ a, k a * ((∑ b, (rots i a b : ℝ) * trans j b) + trans i a - trans l a) = m) ∨
  (∀ (d : ℕ) (Γ : RepArr n d), SpaceGroupLaw rots trans k (fun _ _ => 1) Γ → IsUnitaryRep Γ → IsIrreducible Γ → d = 1)

/-- No fractional translations. -/
theorem SafeCase.of_symmorphic {rots : Fin n → M3} {trans : Fin n → V3} {k : V3} (h0 : ∀ i a, trans i a = 0) :
    SafeCase rots trans k :=
  .inl fun i j => ⟨⟨0, by simp [h0]⟩, fun l _ => ⟨0, by simp [h0]⟩⟩

/-- `2k` is integral and so are twice the products of the reciprocal lattice vectors `kR - k` with the fractional
translations: for example `k = 0`, or `2k` and twice all fractional translations integral. -/
theorem SafeCase.of_half {rots : Fin n → M3} {trans : Fin n → V3} {k : V3} (h : IsSpaceGroup rots trans)
    (h2k : ∀ a, ∃ m : ℤ, 2 * k a = m)
    (h2 : ∀ i j, ∃ m : ℤ, 2 * ∑ a, ((∑ b, (rots i b a : ℝ) * k b) - k a) * trans j a = m) : SafeCase rots trans k := by
  refine .inl fun i j => ⟨h2 i j, fun l hl => ?_⟩
  obtain ⟨m, hm⟩ := dot3_int (x := fun a => 2 * k a)
    (y := fun x => rotVec (rots i) (trans j) x + trans i x - trans l x) h2k (h.2 i j l hl)
  refine ⟨m, ?_⟩
  rw [← hm]
  unfold dot3 rotVec
  simp only [Fin.sum_univ_three]; ring

/-- The Γ point, with arbitrary translations. -/
theorem SafeCase.of_gamma {rots : Fin n → M3} {trans : Fin n → V3} (h : IsSpaceGroup rots trans) :
    SafeCase rots trans 0 :=
  .of_half h (fun _ => ⟨0, by simp⟩) fun _ _ => ⟨0, by simp⟩

theorem SafeCase.of_integral {rots : Fin n → M3} {trans : Fin n → V3} {k : V3} (h : IsSpaceGroup rots trans)
    (hk : ∀ i, FixesK (rots i) k) (h2k : ∀ a, ∃ m : ℤ, 2 * k a = m) (h2w : ∀ i a, ∃ m : ℤ, 2 * trans i a = m) :
    SafeCase rots trans k := by
  refine .of_half h h2k fun i j => ?_
  obtain ⟨m, hm⟩ := dot3_int (x := residual (rots i) k) (y := fun a => 2 * trans j a) (hk i) (h2w j)
  refine ⟨m, ?_⟩
  rw [← hm]
  unfold dot3 residual
  simp only [Fin.sum_univ_three]; ring

theorem safe_spec {rots : Fin n → M3} {trans : Fin n → V3} {k : V3}
    (hT : getCayleyTable rots = .ok T) (hs : SafeCase rots trans k) :
    (∀ (d : ℕ) (Γ : RepArr n d), SpaceGroupLaw rots trans k (fun _ _ => 1) Γ → IsUnitaryRep Γ →
      IsIrreducible Γ → d = 1) ∨
    ((∀ i j, getFactorSystem rots trans k i j = 1 ∨ getFactorSystem rots trans k i j = -1) ∧
      ∀ i j, latticePhase rots T trans k i j = 1 ∨ latticePhase rots T trans k i j = -1) := by
  rcases hs with h0 | h1
  · exact .inr ⟨fun i j => expPhase_sign (h0 i j).1,
      fun i j => expPhase_sign ((h0 i j).2 _ (cayley_none_spec hT i j).1.symm)⟩
  · exact .inl h1

/-- Setting up the common part of C18, C22 and C56. -/
theorem small_setup {rots : Fin n → M3} {trans : Fin n → V3} {k : V3} (h : IsSpaceGroup rots trans)
    (hk : ∀ i, FixesK (rots i) k) :
    ∃ T e, getCayleyTable rots = .ok T ∧ IsGroupTable T ∧ rots e = 1 ∧
      IsCocycle T (getFactorSystem rots trans k) ∧ (∀ g h, ‖getFactorSystem rots trans k g h‖ = 1) ∧
      getFactorSystem rots trans k e e = 1 := by
  obtain ⟨T, hT, -, hTg⟩ := c01_cayley_table_ordinary h.1
  obtain ⟨H, hH⟩ := h.1.2
  have h1 : (1 : M3) ∈ Set.range rots := by rw [hH]; exact ⟨1, H.one_mem, by simp⟩
  obtain ⟨e, he⟩ := h1
  obtain ⟨hn, hc, hone⟩ := c08_factor_system_cocycle h hk hT
  exact ⟨T, e, hT, hTg, he, hc, hn, (hone e he e).1⟩

/-- The indicator of every cogroup irrep and of every small representation is computed without an error in
the safe cases. -/
theorem small_indicators {rots : Fin n → M3} {trans : Fin n → V3} {k : V3} (h : IsSpaceGroup rots trans)
    (hk : ∀ i, FixesK (rots i) k) (hT : getCayleyTable rots = .ok T) (hTg : IsGroupTable T)
    (hc : IsCocycle T (getFactorSystem rots trans k)) (hn : ∀ g h, ‖getFactorSystem rots trans k g h‖ = 1)
    (hs : SafeCase rots trans k) {atol : ℝ} (ha : 0 < atol) (hna : n * atol ≤ 1 / 5) {L : List (AnyRep n)}
    (hL : IsCompleteIrreps T (getFactorSystem rots trans k) L) :
    (∀ D ∈ L, ∃ c : ℤ, (c = 1 ∨ c = -1 ∨ c = 0) ∧ frobeniusSchur (purifyIrrepValue D.2 atol) = .ok c) ∧
    ∀ D ∈ smallList trans k atol L, ∃ c : ℤ, (c = 1 ∨ c = -1 ∨ c = 0) ∧ frobeniusSchur D.2 = .ok c := by
  have hn1 : (1 : ℝ) ≤ n := by exact_mod_cast table_pos hTg
  have ha5 : atol ≤ 1 / 5 := by nlinarith
  have hS := complete_small h.1 hT trans k hL
  have hcase := safe_spec hT hs
  have key : ∀ D ∈ L, (∃ c : ℤ, (c = 1 ∨ c = -1 ∨ c = 0) ∧ frobeniusSchur (purifyIrrepValue D.2 atol) = .ok c) ∧
      ∃ c : ℤ, (c = 1 ∨ c = -1 ∨ c = 0) ∧ frobeniusSchur (phaseMul trans k (purifyIrrepValue D.2 atol)) = .ok c := by
    intro D hD
    have hD' := List.mem_map_of_mem (f := fun D : AnyRep n => (⟨D.1, phaseMul trans k D.2⟩ : AnyRep n)) hD
    have hr : IsProjRep T (latticePhase rots T trans k) (phaseMul trans k D.2) := hS.rep _ hD'
    have hu : IsUnitaryRep (phaseMul trans k D.2) := hS.unitary _ hD'
    have hi : IsIrreducible (phaseMul trans k D.2) := hS.irred _ hD'
    have hd := IsCompleteIrreps.dim_le hTg (ne_zero_of_norm_one hn) hc hL hD
    have hcase' : D.1 = 1 ∨ ((∀ i j, getFactorSystem rots trans k i j = 1 ∨ getFactorSystem rots trans k i j = -1) ∧
        ∀ i j, latticePhase rots T trans k i j = 1 ∨ latticePhase rots T trans k i j = -1) :=
      hcase.imp_left fun h1 => h1 D.1 (phaseMul trans k D.2)
        ((spaceGroupLaw_iff h.1 hT trans k _).2 hr) hu hi
    exact ⟨fs_ok hTg (hL.rep D hD) (hL.unitary D hD) (hL.irred D hD) (hcase'.imp_right And.left) hd ha.le hna
        (near_purify D.2 ha ha5),
      fs_ok hTg hr hu hi (hcase'.imp_right And.right) hd ha.le hna
        ((near_purify D.2 ha ha5).phaseMul trans k)⟩
  refine ⟨fun D hD => (key D hD).1, fun D' hD' => ?_⟩
  obtain ⟨D, hD, rfl⟩ := List.mem_map.1 hD'
  exact (key D hD).2

/-- C18 (partial): when all phases of the factor systems are `±1` (for example without fractional translations, or
at Γ with arbitrary translations) or all small representations are one-dimensional, then for the Neto method, for every answer
of the external routines, the enumeration of small representations does not raise unless an intertwiner
search gave up on all its draws (with or without `real`).  Missing from the full claim: the other cases,
where it is false, see `c18_small_reps_refuted`. -/
theorem c18_small_reps_partial {rots : Fin n → M3} {trans : Fin n → V3} {k : V3} (h : IsSpaceGroup rots trans)
    (hk : ∀ i, FixesK (rots i) k) (hs : SafeCase rots trans k) (o : Oracles)
    (ho : PointgroupContract o.pointgroup rots) (rtol : ℝ) {atol : ℝ} (ha : 0 < atol) (hna : n * atol ≤ 1 / 5)
    (maxGen : ℕ) (real : Bool) :
    ∃ L w, rawIrreps o rots (getFactorSystem rots trans k) .neto rtol atol maxGen = .ok (L, w) ∧
      (w = false → ∃ out, enumerateSmallReps o rots trans k real .neto rtol atol maxGen = .ok (out, false)) ∧
      (RichDraws n o.random atol maxGen → w = false) := by
  obtain ⟨T, e, hT, hTg, he, hc, hn, h1⟩ := small_setup h hk
  obtain ⟨L, w, hraw, hw, hr⟩ := neto_raw h.1 hT hTg hc hn he h1 o ho rtol ha.le maxGen
  refine ⟨L, w, hraw, ?_, hr⟩
  rintro rfl
  obtain ⟨hf1, hf2⟩ := small_indicators h hk hT hTg hc hn hs ha hna (hw rfl)
  rw [smallReps_run hraw hf1 real]
  cases real
  · obtain ⟨l, hl, -⟩ := withIndicators_ok hf2
    exact ⟨.complex l, by simp only [hl]; rfl⟩
  · obtain ⟨l, hl, -⟩ := realIrreps_ok o (forceZero k) atol maxGen hf2
    exact ⟨.real l, by simp only [hl]; rfl⟩

/-! ### The counterexample: I2₁2₁2₁ at the point W -/

/-- Rotations of I2₁2₁2₁ in a primitive basis. -/
def rotsI24 : Fin 4 → M3 :=
  ![!![1, 0, 0; 0, 1, 0; 0, 0, 1], !![0, 1, -1; 1, 0, -1; 0, 0, -1], !![0, -1, 1; 0, -1, 0; 1, -1, 0],
    !![-1, 0, 0; -1, 0, 1; -1, 1, 0]]

/-- Twice the translations of I2₁2₁2₁ in a primitive basis. -/
def trans2I24 : Fin 4 → Fin 3 → ℤ := ![![0, 0, 0], ![1, 0, 1], ![0, 1, 1], ![1, 1, 0]]

/-- Translations of I2₁2₁2₁ in a primitive basis. -/
noncomputable def transI24 (i : Fin 4) (a : Fin 3) : ℝ := trans2I24 i a / 2

/-- The point W in the primitive basis. -/
noncomputable def kW : V3 := fun _ => 1 / 4

theorem rotsI24_group : EnumeratesGroup rotsI24 := by
  apply enumerates_of_isMatrixGroup (by norm_num)
  · decide +kernel
  · decide +kernel

theorem isSpaceGroup_I24 : IsSpaceGroup rotsI24 transI24 := by
  refine ⟨rotsI24_group, fun i j l hl a => ?_⟩
  have key : ∀ i j l : Fin 4, rotsI24 i * rotsI24 j = rotsI24 l → ∀ a, ∃ m : Fin 9,
      (∑ b, rotsI24 i a b * trans2I24 j b) + trans2I24 i a - trans2I24 l a = 2 * ((m : ℕ) - 4 : ℤ) := by
    decide +kernel
  obtain ⟨m, hm⟩ := key i j l hl a
  refine ⟨(m : ℕ) - 4, ?_⟩
  have h2 := congrArg (fun x : ℤ => (x : ℝ)) hm
  simp only [Fin.sum_univ_three] at h2
  push_cast at h2
  simp only [transI24, Fin.sum_univ_three]
  push_cast
  linarith

/-- Four times `k` is `(1,1,1)`; residuals are integral. -/
theorem residual_I24 (i : Fin 4) (a : Fin 3) : residual (rotsI24 i) kW a =
    ((![![0, 0, 0], ![0, 0, -1], ![0, -1, 0], ![-1, 0, 0]] : Fin 4 → Fin 3 → ℤ) i a : ℤ) := by
  fin_cases i <;> fin_cases a <;> simp [residual, rotsI24, kW, Fin.sum_univ_three] <;> norm_num

theorem fixesK_I24 (i : Fin 4) : FixesK (rotsI24 i) kW := fun a => ⟨_, residual_I24 i a⟩

theorem expPhase_half_mul (m : ℤ) : expPhase ((m : ℝ) / 2) = (-1) ^ m := by
  have h1 : expPhase (1 / 2) = -1 := by
    rw [expPhase_spec]
    have : (-2 * Real.pi * Complex.I * ((1 / 2 : ℝ) : ℂ) : ℂ) = -(Real.pi * Complex.I) := by push_cast; ring
    rw [this, Complex.exp_neg, Complex.exp_pi_mul_I]
    norm_num
  have h2 : ∀ m : ℕ, expPhase ((m : ℝ) / 2) = (-1) ^ m := by
    intro m
    induction m with
    | zero => simp
    | succ m ih =>
      rw [pow_succ, ← ih, ← h1, ← expPhase_add]
      congr 1; push_cast; ring
  obtain ⟨m, rfl | rfl⟩ := m.eq_nat_or_neg
  · rw [zpow_natCast, ← h2]; simp
  · rw [_root_.zpow_neg, zpow_natCast, ← h2, ← expPhase_neg]
    congr 1; push_cast; ring

/-- Factor system of I2₁2₁2₁ at W. -/
theorem factor_I24 (i j : Fin 4) : getFactorSystem rotsI24 transI24 kW i j =
    (![![1, 1, 1, 1], ![1, -1, -1, 1], ![1, 1, -1, -1], ![1, -1, 1, -1]] : Fin 4 → Fin 4 → ℂ) i j := by
  unfold getFactorSystem
  have h1 : dot3 (residual (rotsI24 i) kW) (transI24 j) =
      ((∑ a, (![![0, 0, 0], ![0, 0, -1], ![0, -1, 0], ![-1, 0, 0]] : Fin 4 → Fin 3 → ℤ) i a * trans2I24 j a : ℤ) : ℝ)
        / 2 := by
    unfold dot3
    simp only [residual_I24, transI24, Fin.sum_univ_three]
    push_cast
    ring
  rw [h1, expPhase_half_mul]
  fin_cases i <;> fin_cases j <;> simp [Fin.sum_univ_three, trans2I24]

theorem cayley_I24 : getCayleyTable rotsI24 = .ok tblV4 := by
  obtain ⟨T, hT, hs, -⟩ := c01_cayley_table_ordinary rotsI24_group
  have : T = tblV4 := by
    funext i j
    rw [hs]
    revert i j
    decide +kernel
  rw [hT, this]

theorem latticePhase_I24 (i : Fin 4) : latticePhase rotsI24 tblV4 transI24 kW i i = 1 := by
  unfold latticePhase
  have : (dot3 kW fun x => rotVec (rotsI24 i) (transI24 i) x + transI24 i x - transI24 (tblV4 i i) x) = 0 := by
    fin_cases i <;>
      simp [dot3, rotVec, rotsI24, transI24, trans2I24, kW, tblV4, Fin.sum_univ_three]
  rw [this, expPhase_zero]

/-- Transformation between the primitive and the conventional basis. -/
def trafoI24 : M3 := !![0, 1, 1; 1, 0, 1; 1, 1, 0]

theorem pointgroup_I24 : PointgroupContract (PgSymbol.pg_222, trafoI24.map fun x : ℤ => (x : ℝ)) rotsI24 :=
  contract_of_int (std := pgData_222.head!) (by decide +kernel) (List.mem_singleton.2 rfl) (Equiv.refl (Fin 4))
    (by decide +kernel)

theorem small_fs_I24 {d : ℕ} {D : RepArr 4 d} (hD : IsProjRep tblV4 (getFactorSystem rotsI24 transI24 kW) D)
    (hDu : IsUnitaryRep D) (hDi : IsIrreducible D) (hd : d ^ 2 ≤ 4) :
    d = 2 ∧ ∑ k, ∑ i, ∑ j, D k i j * D k j i = ((4 : ℕ) : ℂ) * ((-1 : ℤ) : ℂ) ∧
      ∑ k, ∑ i, ∑ j, phaseMul transI24 kW D k i j * phaseMul transI24 kW D k j i =
        ((4 : ℕ) : ℂ) * ((2 : ℤ) : ℂ) := by
  have h1 : 0 < d := Fin.pos_iff_nonempty.2 hDi.1
  have h2 : d ≠ 1 := by
    rintro rfl
    have e1 := congrFun (congrFun (hD 1 2) 0) 0
    have e2 := congrFun (congrFun (hD 2 1) 0) 0
    have e3 := congrFun (congrFun (hDu 3) 0) 0
    rw [factor_I24] at e1 e2
    simp [Matrix.mul_apply, tblV4] at e1 e2 e3
    rw [mul_comm, e2] at e1
    have e4 : D 3 0 0 = 0 := by linear_combination (1 / 2) * e1
    rw [e4] at e3
    simp at e3
  have hd3 : d < 3 := by nlinarith
  have hd2 : d = 2 := by omega
  subst hd2
  have hone : ∀ {E : RepArr 4 2}, IsUnitaryRep E → E 0 * E 0 = E 0 → E 0 = 1 := by
    intro E hEu hE
    have h3 := hEu 0
    calc E 0 = E 0 * (E 0 * (E 0).conjTranspose) := by rw [h3, Matrix.mul_one]
      _ = E 0 * E 0 * (E 0).conjTranspose := by rw [Matrix.mul_assoc]
      _ = 1 := by rw [hE, h3]
  have hD0 : D 0 = 1 := hone hDu (by rw [hD 0 0, factor_I24]; simp [tblV4])
  refine ⟨rfl, ?_, ?_⟩
  · rw [trace_sq_sum]
    simp only [hD _ _, factor_I24, Fin.sum_univ_four]
    simp [tblV4, hD0]
    norm_num
  · have hP := (phaseMul_proj rotsI24_group cayley_I24 transI24 kW D).1 hD
    have hPu := (c10_small_representation rotsI24_group cayley_I24 transI24 kW (fun _ _ => 1) D).2.1.1 hDu
    have hP0 : phaseMul transI24 kW D 0 = 1 := hone hPu (by rw [hP 0 0, latticePhase_I24]; simp [tblV4])
    rw [trace_sq_sum]
    simp only [hP _ _, latticePhase_I24, Fin.sum_univ_four]
    simp [tblV4, hP0]
    norm_num

/-- C18 refuted: for I2₁2₁2₁ (a valid space group) at the point W, with the code's default tolerance, whatever
the external routines answer (as long as the point group is reported correctly), `ValueError` is raised with
and without `real`, unless an intertwiner search gave up before; and there are draws for which none does. -/
theorem c18_small_reps_refuted :
    IsSpaceGroup rotsI24 transI24 ∧ (∀ i, FixesK (rotsI24 i) kW) ∧
    (∀ (o : Oracles), PointgroupContract o.pointgroup rotsI24 → ∀ real rtol maxGen,
      ∃ L w, rawIrreps o rotsI24 (getFactorSystem rotsI24 transI24 kW) .neto rtol 1e-8 maxGen = .ok (L, w) ∧
        (w = false → enumerateSmallReps o rotsI24 transI24 kW real .neto rtol 1e-8 maxGen = .error .valueError)) ∧
    ∃ o : Oracles, PointgroupContract o.pointgroup rotsI24 ∧
      ∀ real, enumerateSmallReps o rotsI24 transI24 kW real = .error .valueError := by
  have main : ∀ (o : Oracles), PointgroupContract o.pointgroup rotsI24 → ∀ real rtol maxGen,
      ∃ L w, rawIrreps o rotsI24 (getFactorSystem rotsI24 transI24 kW) .neto rtol 1e-8 maxGen = .ok (L, w) ∧
        (w = false → enumerateSmallReps o rotsI24 transI24 kW real .neto rtol 1e-8 maxGen = .error .valueError) ∧
        (RichDraws 4 o.random 1e-8 maxGen → w = false) := by
    intro o ho real rtol maxGen
    obtain ⟨hn, hc, hone⟩ := c08_factor_system_cocycle isSpaceGroup_I24 fixesK_I24 cayley_I24
    obtain ⟨L, w, hraw, hw, hr⟩ := neto_raw rotsI24_group cayley_I24 tblV4_group hc hn (e := 0) (by decide)
      (hone 0 (by decide) 0).1 o ho rtol (atol := 1e-8) (by norm_num) maxGen
    refine ⟨L, w, hraw, ?_, hr⟩
    rintro rfl
    have hL := hw rfl
    have hfs : ∀ D ∈ L, frobeniusSchur (purifyIrrepValue D.2 1e-8) = .ok (-1) ∧
        frobeniusSchur (phaseMul transI24 kW (purifyIrrepValue D.2 1e-8)) = .error .valueError := by
      rintro ⟨d, D⟩ hD
      have hdim := IsCompleteIrreps.dim_le tblV4_group (ne_zero_of_norm_one hn) hc hL hD
      have hDu : IsUnitaryRep D := hL.unitary _ hD
      obtain ⟨h2, h3, h4⟩ := small_fs_I24 (hL.rep _ hD) hDu (hL.irred _ hD) hdim
      dsimp only at h2
      subst h2
      have hnear : Near 1e-8 D (purifyIrrepValue D 1e-8) := near_purify D (by norm_num) (by norm_num)
      have hPu := (c10_small_representation rotsI24_group cayley_I24 transI24 kW (fun _ _ => 1) D).2.1.1 hDu
      have f1 := fs_of_near (by norm_num) (unitary_entry_le hDu) hnear h3 (by norm_num)
      have f2 := fs_of_near (by norm_num) (unitary_entry_le hPu) (hnear.phaseMul transI24 kW) h4 (by norm_num)
      exact ⟨by simpa using f1, by simpa using f2⟩
    have hne : L ≠ [] := by
      rintro rfl
      have := IsCompleteIrreps.sum_sq tblV4_group (ne_zero_of_norm_one hn) hc hL
      simp at this
    rw [smallReps_run hraw (fun D hD => ⟨-1, .inr (.inl rfl), (hfs D hD).1⟩) real]
    have hsmall : ∀ D ∈ smallList transI24 kW 1e-8 L, frobeniusSchur D.2 = .error .valueError := by
      intro D' hD'
      obtain ⟨D, hD, rfl⟩ := List.mem_map.1 hD'
      exact (hfs D hD).2
    have hne' : smallList transI24 kW 1e-8 L ≠ [] := by
      unfold smallList
      simpa using hne
    cases real
    · have : withIndicators (smallList transI24 kW 1e-8 L) = .error .valueError :=
        mapM_error hne' fun D hD => by simp only [hsmall D hD]; rfl
      simp only [this]; rfl
    · have hpne : pairsOf (smallList transI24 kW 1e-8 L) ≠ [] := by
        intro h0
        obtain ⟨p, ⟨hp, -⟩, -⟩ := (c21_pairing.1 _ (fun i j : Fin (smallList transI24 kW 1e-8 L).length =>
          IsEquivalentIrrep ((charList ((smallList transI24 kW 1e-8 L).get i).2).map star)
            (charList ((smallList transI24 kW 1e-8 L).get j).2))).1 ⟨0, List.length_pos_iff.2 hne'⟩
        unfold pairsOf at h0
        rw [h0] at hp
        simp at hp
      have : realIrreps o (smallList transI24 kW 1e-8 L) (forceZero kW) 1e-8 maxGen = .error .valueError :=
        mapM_error hpne fun p _ => by
          simp only [hsmall _ (List.get_mem _ _)]; rfl
      simp only [this]; rfl
  refine ⟨isSpaceGroup_I24, fixesK_I24, fun o ho real rtol maxGen => ?_, ?_⟩
  · obtain ⟨L, w, h1, h2, -⟩ := main o ho real rtol maxGen
    exact ⟨L, w, h1, h2⟩
  · obtain ⟨random, hr⟩ := exists_richDraws 1e-8 4 4 fun d hd => hd
    let o : Oracles := { random := random, eig := fun d _ => (fun _ => 0, 0), eigh := fun d _ => (fun _ => 0, 0),
                         qr := fun _ _ _ => 0, pointgroup := (PgSymbol.pg_222, trafoI24.map fun x : ℤ => (x : ℝ)) }
    refine ⟨o, pointgroup_I24, fun real => ?_⟩
    obtain ⟨L, w, h1, h2, h3⟩ := main o pointgroup_I24 real 1e-5 4
    exact h2 (h3 hr)

/-- Non-vacuity of the C18 partial theorem: I222 (the same rotations, no fractional translations) at W. -/
example : IsSpaceGroup rotsI24 (fun _ _ => 0) ∧ (∀ i, FixesK (rotsI24 i) kW) ∧
    SafeCase rotsI24 (fun _ _ => 0) kW ∧
    PointgroupContract (PgSymbol.pg_222, trafoI24.map fun x : ℤ => (x : ℝ)) rotsI24 ∧
    ((4 : ℕ) : ℝ) * 1e-8 ≤ 1 / 5 :=
  ⟨⟨rotsI24_group, fun _ _ _ _ _ => ⟨0, by simp⟩⟩, fixesK_I24, .of_symmorphic fun _ _ => rfl, pointgroup_I24, by norm_num⟩

/-! ### C56: the enumerated small representations are all small representations -/

theorem withIndicators_fst {L : List (AnyRep n)} {l : List (AnyRep n × ℤ)} (h : withIndicators L = .ok l) :
    l.map Prod.fst = L := by
  induction L generalizing l with
  | nil =>
    have : l = [] := by
      have h2 : (Except.ok [] : Except PyErr (List (AnyRep n × ℤ))) = .ok l := h
      exact (Except.ok.inj h2).symm
    rw [this]; rfl
  | cons D L ih =>
    unfold withIndicators at h
    rw [List.mapM_cons] at h
    cases hD : frobeniusSchur D.2 with
    | error e => rw [hD] at h; cases h
    | ok i =>
      rw [hD] at h
      cases hl : withIndicators L with
      | error e =>
        have hl' := hl
        unfold withIndicators at hl'
        simp only [bind, Except.bind, pure, Except.pure] at h hl'
        rw [hl'] at h
        cases h
      | ok l' =>
        have hl' := hl
        unfold withIndicators at hl'
        simp only [bind, Except.bind, pure, Except.pure] at h hl'
        rw [hl'] at h
        obtain rfl := Except.ok.inj h
        rw [List.map_cons, ih hl]

/-- What a successful run of the enumeration went through. -/
theorem smallReps_ok {o : Oracles} {rots : Fin n → M3} {trans : Fin n → V3} {k : V3} {method : IrrepMethod}
    {rtol atol : ℝ} {maxGen : ℕ} {real : Bool} {out : IrrepsOut n} {w : Bool}
    (h : enumerateSmallReps o rots trans k real method rtol atol maxGen = .ok (out, w)) :
    ∃ L, rawIrreps o rots (getFactorSystem rots trans k) method rtol atol maxGen = .ok (L, w) ∧
      (real = false → ∃ l, out = .complex l ∧ withIndicators (smallList trans k atol L) = .ok l) ∧
      (real = true → ∃ l, out = .real l ∧
        realIrreps o (smallList trans k atol L) (forceZero k) atol maxGen = .ok l) := by
  unfold enumerateSmallReps enumerateUnitaryIrreps at h
  simp only [Option.getD_some, bind, Except.bind, pure, Except.pure] at h
  cases hraw : rawIrreps o rots (getFactorSystem rots trans k) method rtol atol maxGen with
  | error e => rw [hraw] at h; cases h
  | ok Lw =>
    obtain ⟨L, w'⟩ := Lw
    rw [hraw] at h
    simp only [Bool.false_eq_true, if_false] at h
    cases hl : withIndicators (L.map fun D => (⟨D.1, purifyIrrepValue D.2 atol⟩ : AnyRep n)) with
    | error e => rw [hl] at h; cases h
    | ok l =>
      rw [hl] at h
      have h2 : (l.map fun D => (⟨D.1.1, phaseMul trans k D.1.2⟩ : AnyRep n)) = smallList trans k atol L := by
        unfold smallList
        rw [show (fun D : AnyRep n × ℤ => (⟨D.1.1, phaseMul trans k D.1.2⟩ : AnyRep n)) =
          (fun D : AnyRep n => (⟨D.1, phaseMul trans k D.2⟩ : AnyRep n)) ∘ Prod.fst from rfl, ← List.map_map,
          withIndicators_fst hl, List.map_map]
        rfl
      simp only [h2] at h
      cases real
      · simp only [Bool.false_eq_true, if_false] at h
        cases hl2 : withIndicators (smallList trans k atol L) with
        | error e => rw [hl2] at h; cases h
        | ok l2 =>
          rw [hl2] at h
          obtain ⟨h3, h4⟩ := Prod.mk.inj (Except.ok.inj h)
          subst h4
          exact ⟨L, rfl, fun _ => ⟨l2, h3.symm, hl2⟩, fun h => by cases h⟩
      · simp only [if_true] at h
        cases hl2 : realIrreps o (smallList trans k atol L) (forceZero k) atol maxGen with
        | error e => unfold forceZero at hl2; rw [hl2] at h; cases h
        | ok l2 =>
          have hl3 := hl2
          unfold forceZero at hl2; rw [hl2] at h
          obtain ⟨h3, h4⟩ := Prod.mk.inj (Except.ok.inj h)
          subst h4
          exact ⟨L, rfl, (fun h => by cases h), fun _ => ⟨l2, h3.symm, hl3⟩⟩

/-- Common part of C56 and C60: the method enters only through the completeness of its irreps. -/
theorem small_reps_complete_of_raw {rots : Fin n → M3} {trans : Fin n → V3} {k : V3} (h : IsSpaceGroup rots trans)
    (hk : ∀ i, FixesK (rots i) k) (hT : getCayleyTable rots = .ok T) (o : Oracles) (method : IrrepMethod) (rtol : ℝ) {atol : ℝ}
    (ha : 0 < atol) (ha5 : atol ≤ 1 / 5) (maxGen : ℕ) {out : IrrepsOut n}
    (hraws : ∀ L, rawIrreps o rots (getFactorSystem rots trans k) method rtol atol maxGen = .ok (L, false) →
      IsCompleteIrreps T (getFactorSystem rots trans k) L)
    (hrun : enumerateSmallReps o rots trans k false method rtol atol maxGen = .ok (out, false)) :
    ∃ (l : List (AnyRep n × ℤ)) (S : List (AnyRep n)), out = .complex l ∧
      List.Forall₂ (fun Γ x => ∃ A : RepArr n Γ.1, x.1 = ⟨Γ.1, A⟩ ∧ ∀ g i j, ‖Γ.2 g i j - A g i j‖ ≤ atol) S l ∧
      (∀ Γ ∈ S, SpaceGroupLaw rots trans k (fun _ _ => 1) Γ.2 ∧ IsUnitaryRep Γ.2 ∧ IsIrreducible Γ.2) ∧
      S.Pairwise (fun Γ Γ' => ¬ AreEquivalent Γ.2 Γ'.2) ∧
      (∀ (e : ℕ) (E : RepArr n e), SpaceGroupLaw rots trans k (fun _ _ => 1) E → (∀ g, IsUnit (E g)) →
        IsIrreducible E → ∃ Γ ∈ S, AreEquivalent E Γ.2) ∧
      (S.map fun Γ => Γ.1 ^ 2).sum = n := by
  obtain ⟨T', e, hT', hTg, he, hc, hn, h1⟩ := small_setup h hk
  obtain rfl : T' = T := by rw [hT] at hT'; exact (Except.ok.inj hT').symm
  obtain ⟨L, hraw, hl0, -⟩ := smallReps_ok hrun
  obtain ⟨l, hout, hl⟩ := hl0 rfl
  have hL := hraws L hraw
  have hS := complete_small h.1 hT trans k hL
  refine ⟨l, _, hout, ?_, fun Γ hΓ => ⟨(spaceGroupLaw_iff h.1 hT trans k _).2 (hS.rep Γ hΓ), hS.unitary Γ hΓ,
    hS.irred Γ hΓ⟩, hS.inequiv, fun e E hE hEu hEi =>
      hS.complete e E ((spaceGroupLaw_iff h.1 hT trans k _).1 hE) hEu hEi, ?_⟩
  · rw [List.forall₂_map_left_iff]
    have h2 := withIndicators_fst hl
    have h3 : List.Forall₂ (fun (D : AnyRep n) (x : AnyRep n) =>
        x = ⟨D.1, phaseMul trans k (purifyIrrepValue D.2 atol)⟩) L (l.map Prod.fst) := by
      rw [h2]
      unfold smallList
      rw [List.forall₂_map_right_iff, List.forall₂_same]
      exact fun _ _ => rfl
    rw [List.forall₂_map_right_iff] at h3
    refine h3.imp fun D x hx => ⟨_, hx, ?_⟩
    exact (near_purify D.2 ha ha5).phaseMul trans k
  · rw [List.map_map]
    exact IsCompleteIrreps.sum_sq hTg (ne_zero_of_norm_one hn) hc hL

/-- C56: if the enumeration of small representations (Neto method) returns without a warning, its arrays are
entrywise within `atol` of unitary irreducible families that obey the multiplication law of the space
group at `k`, no two of which are equivalent, and to one of which every irreducible family obeying that law is
equivalent; the squares of the dimensions add up to the order of the little co-group. -/
theorem c56_small_reps_complete {rots : Fin n → M3} {trans : Fin n → V3} {k : V3} (h : IsSpaceGroup rots trans)
    (hk : ∀ i, FixesK (rots i) k) (o : Oracles) (ho : PointgroupContract o.pointgroup rots) (rtol : ℝ) {atol : ℝ}
    (ha : 0 < atol) (ha5 : atol ≤ 1 / 5) (maxGen : ℕ) {out : IrrepsOut n}
    (hrun : enumerateSmallReps o rots trans k false .neto rtol atol maxGen = .ok (out, false)) :
    ∃ (l : List (AnyRep n × ℤ)) (S : List (AnyRep n)), out = .complex l ∧
      List.Forall₂ (fun Γ x => ∃ A : RepArr n Γ.1, x.1 = ⟨Γ.1, A⟩ ∧ ∀ g i j, ‖Γ.2 g i j - A g i j‖ ≤ atol) S l ∧
      (∀ Γ ∈ S, SpaceGroupLaw rots trans k (fun _ _ => 1) Γ.2 ∧ IsUnitaryRep Γ.2 ∧ IsIrreducible Γ.2) ∧
      S.Pairwise (fun Γ Γ' => ¬ AreEquivalent Γ.2 Γ'.2) ∧
      (∀ (e : ℕ) (E : RepArr n e), SpaceGroupLaw rots trans k (fun _ _ => 1) E → (∀ g, IsUnit (E g)) →
        IsIrreducible E → ∃ Γ ∈ S, AreEquivalent E Γ.2) ∧
      (S.map fun Γ => Γ.1 ^ 2).sum = n := by
  obtain ⟨T, e, hT, hTg, he, hc, hn, h1⟩ := small_setup h hk
  refine small_reps_complete_of_raw h hk hT o .neto rtol ha ha5 maxGen (fun L hraw => ?_) hrun
  obtain ⟨L', w, hraw', hw, -⟩ := neto_raw h.1 hT hTg hc hn he h1 o ho rtol ha.le maxGen
  rw [hraw] at hraw'
  obtain ⟨rfl, rfl⟩ := Prod.mk.inj (Except.ok.inj hraw')
  exact hw rfl

end Spgrep
