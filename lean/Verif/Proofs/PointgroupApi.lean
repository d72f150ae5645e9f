/-
Which draws suffice for the point-group irreps, over the complex and over the real numbers.
-/
import Verif.Props.Draws
import Verif.Props.RealIrreps

namespace Spgrep

open Spec

variable {n : ℕ} {T : Fin n → Fin n → Fin n} {μ : Fin n → Fin n → ℂ}

/-- One linear form decides whether a draw is good for two families with a nonzero intertwiner. -/
theorem getIntertwiner_form {d : ℕ} (hn : 0 < n) {D E : RepArr n d} (hE : IsUnitaryRep E)
    {X : Matrix (Fin d) (Fin d) ℂ} (hX0 : X ≠ 0) (hX : ∀ g, D g * X = X * E g) :
    ∃ v : Matrix (Fin d) (Fin d) ℂ, v ≠ 0 ∧ ∀ (random : ℕ → Matrix (Fin d) (Fin d) ℂ) (atol : ℝ), 0 ≤ atol →
      ∀ maxGen, (∃ t < maxGen, atol < ‖formVal v (random t)‖) → (getIntertwiner random D E atol maxGen).2 = false := by
  classical
  obtain ⟨a, b, hab⟩ : ∃ a b, X a b ≠ 0 := by
    by_contra hno
    push Not at hno
    exact hX0 (by ext a b; exact hno a b)
  let F : Matrix (Fin d) (Fin d) ℂ → Matrix (Fin d) (Fin d) ℂ := fun B => ∑ g, D g * B * (E g).conjTranspose
  have hFX : F X = (n : ℂ) • X := by
    have : ∀ g, D g * X * (E g).conjTranspose = X := fun g => by rw [hX g, Matrix.mul_assoc, hE g, Matrix.mul_one]
    change ∑ g, D g * X * (E g).conjTranspose = _
    rw [Finset.sum_congr rfl fun g _ => this g, Finset.sum_const, Finset.card_univ, Fintype.card_fin,
      ← Nat.cast_smul_eq_nsmul ℂ]
  let v : Matrix (Fin d) (Fin d) ℂ := Matrix.of fun i j => F (Matrix.single i j (1 : ℂ)) a b
  have hv : ∀ B, F B a b = formVal v B := by
    intro B
    have hlin : F B = ∑ i, ∑ j, B i j • F (Matrix.single i j (1 : ℂ)) := by
      conv_lhs => rw [Matrix.matrix_eq_sum_single B]
      have : ∀ i j, Matrix.single i j (B i j) = B i j • Matrix.single i j (1 : ℂ) := fun i j => by
        rw [Matrix.smul_single, smul_eq_mul, mul_one]
      simp only [this, F, Finset.mul_sum, Finset.sum_mul, Finset.smul_sum]
      rw [Finset.sum_comm]
      refine Finset.sum_congr rfl fun i _ => ?_
      rw [Finset.sum_comm]
      refine Finset.sum_congr rfl fun j _ => Finset.sum_congr rfl fun g _ => ?_
      simp only [Matrix.mul_smul, Matrix.smul_mul]
    rw [hlin]
    simp only [Matrix.sum_apply, Matrix.smul_apply, smul_eq_mul, formVal, v, Matrix.of_apply, mul_comm]
  refine ⟨v, ?_, ?_⟩
  · intro h0
    have h4 := hv X
    rw [h0, hFX] at h4
    simp only [Matrix.smul_apply, smul_eq_mul, formVal, Matrix.zero_apply, zero_mul, Finset.sum_const_zero] at h4
    rcases mul_eq_zero.1 h4 with h5 | h5
    · exact hn.ne' (by exact_mod_cast h5)
    · exact hab h5
  · rintro random atol ha maxGen ⟨t, ht, hlt⟩
    by_contra hw
    rw [Bool.not_eq_false] at hw
    have h5 := ((intertwinerLoop_cases D E ha _).2 hw).2 _ (List.mem_map.2 ⟨t, List.mem_range.2 ht, rfl⟩) a b
    rw [intertwinerSum_eq] at h5
    have h6 : F (random t) a b = formVal v (random t) := hv _
    rw [← h6] at hlt
    exact absurd hlt (not_lt.2 h5)

/-- C79 for the enumeration with the looked-up generators, with all the linear forms. -/
theorem raw_forms {rots : Fin n → M3} (h : EnumeratesGroup rots) (hT : getCayleyTable rots = .ok T)
    (hc : IsCocycle T μ) (hn : ∀ g h, ‖μ g h‖ = 1) {e : Fin n} (he : rots e = 1) (h1 : μ e e = 1)
    {pg : PgSymbol × Matrix (Fin 3) (Fin 3) ℝ} (ho : PointgroupContract pg rots) :
    ∃ (V : Set (Σ d, Matrix (Fin d) (Fin d) ℂ)) (P : Set (List (AnyRep n))), V.Finite ∧ P.Finite ∧
      (∀ v ∈ V, v.2 ≠ 0) ∧ (∀ L ∈ P, IsCompleteIrreps T μ L) ∧
      ∀ (o : Oracles) (rtol atol : ℝ) (maxGen : ℕ), o.pointgroup = pg → 0 ≤ atol →
        ∃ L w, rawIrreps o rots μ .neto rtol atol maxGen = .ok (L, w) ∧ (w = false → L ∈ P) ∧
          (DrawsAvoid V o.random atol maxGen → w = false) := by
  obtain ⟨hP, std, hstd, σ, hσ⟩ := ho
  obtain ⟨gens, h2, -, h3⟩ := (c32_chain_generators pg.1 pg.2 hP rots).1 std hstd σ hσ
  obtain ⟨T', hT', -, hTg⟩ := c01_cayley_table_ordinary h
  rw [hT] at hT'
  obtain rfl := Except.ok.inj hT'
  have hrot : ∀ i j, rots (T i j) = rots i * rots j := fun i j => (cayley_none_spec hT i j).1
  have hT1 : ∀ g, T e g = g := fun g => h.1 (by rw [hrot, he, Matrix.one_mul])
  obtain ⟨V, P, hVf, hPf, hV0, hPc, hrun⟩ := c79_draws hTg hc hn hT1 h1 (h3 T hrot e he)
  refine ⟨V, P, hVf, hPf, fun v hv => (hV0 v hv).1, hPc, fun o rtol atol maxGen hpg h0 => ?_⟩
  obtain ⟨L, w, hL, hw, hav⟩ := hrun o.random atol maxGen h0
  refine ⟨L, w, ?_, hw, hav⟩
  unfold rawIrreps
  have h2' : getPointgroupChainGenerators o.pointgroup rots = .ok (gens.map fun j : Fin n => ((j : ℕ) : ℤ)) := by
    rw [hpg]; exact h2
  simp only [hT, h2', bind, Except.bind, mapM_toIndex, hL]
  simp [pure, Except.pure]

/-- From finitely many forms to first draws in the unit interval and a tolerance. -/
theorem first_draws {V : Set (Σ d, Matrix (Fin d) (Fin d) ℂ)} (hVf : V.Finite) (hV0 : ∀ v ∈ V, v.2 ≠ 0) :
    ∃ X : ∀ d, Matrix (Fin d) (Fin d) ℂ, (∀ d i j, ∃ x : ℝ, 0 < x ∧ x < 1 ∧ X d i j = x) ∧ ∃ atol0 : ℝ, 0 < atol0 ∧
      ∀ (random : ∀ d, ℕ → Matrix (Fin d) (Fin d) ℂ) (atol : ℝ) (maxGen : ℕ), (∀ d, random d 0 = X d) →
        atol ≤ atol0 → 0 < maxGen → DrawsAvoid V random atol maxGen := by
  classical
  obtain ⟨X, hX, hav⟩ := exists_avoid hVf hV0
  obtain ⟨a, ha0, ha⟩ : ∃ a : ℝ, 0 < a ∧ ∀ v ∈ V, a < ‖formVal v.2 (X v.1)‖ := by
    rcases V.eq_empty_or_nonempty with rfl | hne
    · exact ⟨1, one_pos, by simp⟩
    · obtain ⟨v, hv, hmin⟩ := Set.exists_min_image V (fun v => ‖formVal v.2 (X v.1)‖) hVf hne
      have hpos := norm_pos_iff.2 (hav v hv)
      exact ⟨‖formVal v.2 (X v.1)‖ / 2, by positivity, fun w hw => lt_of_lt_of_le (by linarith) (hmin w hw)⟩
  refine ⟨X, hX, a, ha0, fun random atol maxGen hr hle hm v hv => ⟨0, hm, ?_⟩⟩
  rw [hr]
  exact lt_of_le_of_lt hle (ha v hv)

/-- The forms for the intertwiners between the irreps of finitely many complete lists and their conjugates. -/
theorem conj_forms (hTg : IsGroupTable T) {P : Set (List (AnyRep n))} (hPf : P.Finite)
    (hPc : ∀ L ∈ P, IsCompleteIrreps T (fun _ _ => 1) L) :
    ∃ V : Set (Σ d, Matrix (Fin d) (Fin d) ℂ), V.Finite ∧ (∀ v ∈ V, v.2 ≠ 0) ∧
      ∀ L ∈ P, ∀ D ∈ L, frobeniusSchur D.2 = .ok 1 → ∀ (random : ∀ d, ℕ → Matrix (Fin d) (Fin d) ℂ) (atol : ℝ)
        (maxGen : ℕ), 0 ≤ atol → DrawsAvoid V random atol maxGen →
        (getIntertwiner (random D.1) D.2 (fun g => (D.2 g).map star) atol maxGen).2 = false := by
  classical
  have hn := table_pos hTg
  have hform : ∀ L ∈ P, ∀ D ∈ L, frobeniusSchur D.2 = .ok 1 → ∃ v : Matrix (Fin D.1) (Fin D.1) ℂ, v ≠ 0 ∧
      ∀ (random : ℕ → Matrix (Fin D.1) (Fin D.1) ℂ) (atol : ℝ), 0 ≤ atol → ∀ maxGen,
        (∃ t < maxGen, atol < ‖formVal v (random t)‖) →
        (getIntertwiner random D.2 (fun g => (D.2 g).map star) atol maxGen).2 = false := by
    intro L hL D hD hs
    have hc := hPc L hL
    have hDu := hc.unitary D hD
    obtain ⟨s, h1, -, -, h2, -⟩ := c17_frobenius_schur hTg (μ := fun _ _ => 1) (fun _ _ => .inl rfl) (hc.rep D hD) hDu
      (hc.irred D hD)
    rw [hs] at h1
    obtain ⟨S, hSu, -, hS⟩ := h2.1 (Except.ok.inj h1).symm
    refine getIntertwiner_form hn (conj_unitary hDu) (X := S) ?_ hS
    rintro rfl
    have : Nonempty (Fin D.1) := (hc.irred D hD).1
    exact not_isUnit_zero hSu
  let Form : AnyRep n → Set (Σ d, Matrix (Fin d) (Fin d) ℂ) := fun D =>
    if h : ∃ v : Matrix (Fin D.1) (Fin D.1) ℂ, v ≠ 0 ∧
      ∀ (random : ℕ → Matrix (Fin D.1) (Fin D.1) ℂ) (atol : ℝ), 0 ≤ atol → ∀ maxGen,
        (∃ t < maxGen, atol < ‖formVal v (random t)‖) →
        (getIntertwiner random D.2 (fun g => (D.2 g).map star) atol maxGen).2 = false
    then {⟨D.1, h.choose⟩} else ∅
  have hFf : ∀ D, (Form D).Finite := by
    intro D
    simp only [Form]
    split_ifs
    · exact Set.finite_singleton _
    · exact Set.finite_empty
  refine ⟨⋃ L ∈ P, ⋃ D ∈ {D | D ∈ L}, Form D, hPf.biUnion fun L _ => Set.Finite.biUnion (List.finite_toSet L) fun D _ => hFf D,
    fun v hv => ?_, fun L hL D hD hs random atol maxGen ha hav => ?_⟩
  · simp only [Set.mem_iUnion] at hv
    obtain ⟨L, hL, D, hD, hv⟩ := hv
    simp only [Form] at hv
    split_ifs at hv with h
    · rw [Set.mem_singleton_iff.1 hv]
      exact h.choose_spec.1
    · exact absurd hv (Set.notMem_empty _)
  · have h := hform L hL D hD hs
    refine h.choose_spec.2 (random D.1) atol ha maxGen (hav ⟨D.1, h.choose⟩ ?_)
    simp only [Set.mem_iUnion]
    exact ⟨L, hL, D, hD, by simp only [Form, dif_pos h, Set.mem_singleton_iff]⟩

end Spgrep
