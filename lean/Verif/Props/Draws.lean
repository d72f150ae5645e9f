/-
C79: for which random draws the enumeration of irreps gives no warning.
-/
import Verif.Proofs.Draws
import Verif.Props.SmallReps

namespace Spgrep

open Spec

variable {n : ℕ} {T : Fin n → Fin n → Fin n} {μ : Fin n → Fin n → ℂ}

/-- **C79.** For every group table with a solvable chain of generators and every normalised unimodular cocycle there are
finitely many nonzero linear forms on square matrices (of sizes `d` with `d² ≤ n`) and finitely many lists of irreps, both
independent of the draws and of the tolerance, such that: if each form exceeds the tolerance on one of the allowed draws of
its size, then the chain enumeration gives no warning, and what it returns without a warning is always one of these lists.
Each of them is complete. -/
theorem c79_draws (hT : IsGroupTable T) (hc : IsCocycle T μ) (hn : ∀ g h, ‖μ g h‖ = 1) {e : Fin n}
    (he : ∀ g, T e g = g) (h1 : μ e e = 1) {gens : List (Fin n)} (hgens : IsSolvableChain T e gens Set.univ) :
    ∃ (V : Set (Σ d, Matrix (Fin d) (Fin d) ℂ)) (P : Set (List (AnyRep n))), V.Finite ∧ P.Finite ∧
      (∀ v ∈ V, v.2 ≠ 0 ∧ v.1 ^ 2 ≤ n) ∧ (∀ L ∈ P, IsCompleteIrreps T μ L) ∧
      ∀ (random : ∀ d, ℕ → Matrix (Fin d) (Fin d) ℂ) (atol : ℝ) (maxGen : ℕ), 0 ≤ atol →
        ∃ L w, enumerateFromChain random T μ gens atol maxGen = .ok (L, w, false) ∧ (w = false → L ∈ P) ∧
          ((∀ v ∈ V, ∃ t < maxGen, atol < ‖∑ i, ∑ j, v.2 i j * random v.1 t i j‖) → w = false) := by
  classical
  let _ := TG.group hT
  let f : Fin n ≃ TG T := Equiv.refl _
  have hf : ∀ i j, f (T i j) = f i * f j := fun _ _ => rfl
  have hef : f.symm 1 = e := by
    apply f.injective
    have h2 : f (T e e) = f e * f e := hf e e
    rw [he] at h2
    rw [f.apply_symm_apply]
    exact (mul_eq_left.1 h2.symm).symm
  have hμ := cocy_of_table f hf hc hn (by rw [hef]; exact h1)
  have hgens' := hgens
  rw [← hef] at hgens'
  obtain ⟨H, V, P, grp, -, hVf, hV0, hPf, -, -, -, hrun⟩ := chainLoop_forms f hf hμ hgens'
  have key : ∀ (random : ∀ d, ℕ → Matrix (Fin d) (Fin d) ℂ) (atol : ℝ) (maxGen : ℕ), 0 ≤ atol →
      ∃ L w, enumerateFromChain random T μ gens atol maxGen = .ok (L, w, false) ∧
        (w = false → L ∈ P ∧ IsCompleteIrreps T μ L) ∧ (DrawsAvoid V random atol maxGen → w = false) := by
    intro random atol maxGen ha
    obtain ⟨L, w, hrun1, hw, -⟩ := enumerateFromChain_spec hT hc hn he h1 hgens random ha maxGen
    obtain ⟨st, hst, hgrp, hin, hav⟩ := hrun random atol maxGen ha
    have hh : L = st.irreps ∧ w = st.warned := by
      unfold enumerateFromChain at hrun1
      rw [getIdentityIndex_eq f hf] at hrun1
      simp only [bind, Except.bind] at hrun1
      have h2 : List.foldlM (chainStep random T μ (f.symm 1) atol maxGen)
          { grp := [f.symm 1], irreps := [⟨1, fun g => if g = f.symm 1 then 1 else 0⟩], warned := false }
          gens.reverse = .ok st := hst
      rw [h2] at hrun1
      dsimp only at hrun1
      split_ifs at hrun1
      · obtain ⟨h3, h4⟩ := Prod.mk.inj (Except.ok.inj hrun1)
        exact ⟨h3.symm, (Prod.mk.inj h4).1.symm⟩
      · obtain ⟨h3, h4⟩ := Prod.mk.inj (Except.ok.inj hrun1)
        exact absurd (Prod.mk.inj h4).2 (by decide)
    obtain ⟨rfl, rfl⟩ := hh
    exact ⟨_, _, hrun1, fun h => ⟨hin h, (hw h).1⟩, hav⟩
  refine ⟨V, {L ∈ P | IsCompleteIrreps T μ L}, hVf, hPf.subset fun L hL => hL.1, hV0, fun L hL => hL.2,
    fun random atol maxGen ha => ?_⟩
  obtain ⟨L, w, h2, h3, h4⟩ := key random atol maxGen ha
  exact ⟨L, w, h2, h3, h4⟩

/-- **C79, consequence.** For every such group, cocycle and chain there are matrices with entries in `(0, 1)`, the kind that the
source draws, and a positive tolerance, such that every run whose first draws are these and whose tolerance is not larger
gives no warning, whatever the number of allowed draws. -/
theorem c79_first_draw (hT : IsGroupTable T) (hc : IsCocycle T μ) (hn : ∀ g h, ‖μ g h‖ = 1) {e : Fin n}
    (he : ∀ g, T e g = g) (h1 : μ e e = 1) {gens : List (Fin n)} (hgens : IsSolvableChain T e gens Set.univ) :
    ∃ X : ∀ d, Matrix (Fin d) (Fin d) ℂ, (∀ d i j, ∃ x : ℝ, 0 < x ∧ x < 1 ∧ X d i j = x) ∧ ∃ atol0 : ℝ, 0 < atol0 ∧
      ∀ (random : ∀ d, ℕ → Matrix (Fin d) (Fin d) ℂ) (atol : ℝ) (maxGen : ℕ), (∀ d, random d 0 = X d) → 0 ≤ atol →
        atol ≤ atol0 → 0 < maxGen → ∃ L, enumerateFromChain random T μ gens atol maxGen = .ok (L, false, false) ∧
          IsCompleteIrreps T μ L := by
  classical
  obtain ⟨V, P, hVf, -, hV0, hP, hrun⟩ := c79_draws hT hc hn he h1 hgens
  obtain ⟨X, hX, hav⟩ := exists_avoid hVf fun v hv => (hV0 v hv).1
  obtain ⟨a, ha0, ha⟩ : ∃ a : ℝ, 0 < a ∧ ∀ v ∈ V, a < ‖formVal v.2 (X v.1)‖ := by
    rcases V.eq_empty_or_nonempty with rfl | hne
    · exact ⟨1, one_pos, by simp⟩
    · obtain ⟨v, hv, hmin⟩ := Set.exists_min_image V (fun v => ‖formVal v.2 (X v.1)‖) hVf hne
      have hpos := norm_pos_iff.2 (hav v hv)
      exact ⟨‖formVal v.2 (X v.1)‖ / 2, by positivity, fun w hw => lt_of_lt_of_le (by linarith) (hmin w hw)⟩
  refine ⟨X, hX, a, ha0, fun random atol maxGen hr h0 hle hm => ?_⟩
  obtain ⟨L, w, h2, h3, h4⟩ := hrun random atol maxGen h0
  obtain rfl := h4 fun v hv => ⟨0, hm, by
    rw [hr]
    exact lt_of_le_of_lt hle (ha v hv)⟩
  exact ⟨L, h2, hP L (h3 rfl)⟩

/-- **C79 for the enumeration of irreps of a rotation group.** With the generators looked up for the point group, for every
list of rotations that is a group and every normalised unimodular cocycle: there are matrices with entries in `(0, 1)` and a
positive tolerance such that the enumeration by the default method gives no warning if the first draws are these and the
tolerance is not larger. -/
theorem c79_enumeration {rots : Fin n → M3} (h : EnumeratesGroup rots) (hT : getCayleyTable rots = .ok T)
    (hc : IsCocycle T μ) (hn : ∀ g h, ‖μ g h‖ = 1) {e : Fin n} (he : rots e = 1) (h1 : μ e e = 1)
    {pg : PgSymbol × Matrix (Fin 3) (Fin 3) ℝ} (ho : PointgroupContract pg rots) :
    ∃ X : ∀ d, Matrix (Fin d) (Fin d) ℂ, (∀ d i j, ∃ x : ℝ, 0 < x ∧ x < 1 ∧ X d i j = x) ∧ ∃ atol0 : ℝ, 0 < atol0 ∧
      ∀ (o : Oracles) (rtol atol : ℝ) (maxGen : ℕ), o.pointgroup = pg → (∀ d, o.random d 0 = X d) → 0 ≤ atol →
        atol ≤ atol0 → 0 < maxGen → ∃ L, rawIrreps o rots μ .neto rtol atol maxGen = .ok (L, false) ∧
          IsCompleteIrreps T μ L := by
  obtain ⟨hP, std, hstd, σ, hσ⟩ := ho
  obtain ⟨gens, h2, -, h3⟩ := (c32_chain_generators pg.1 pg.2 hP rots).1 std hstd σ hσ
  obtain ⟨T', hT', -, hTg⟩ := c01_cayley_table_ordinary h
  rw [hT] at hT'
  obtain rfl := Except.ok.inj hT'
  have hrot : ∀ i j, rots (T i j) = rots i * rots j := fun i j => (cayley_none_spec hT i j).1
  have hT1 : ∀ g, T e g = g := fun g => h.1 (by rw [hrot, he, Matrix.one_mul])
  obtain ⟨X, hX, a, ha0, hall⟩ := c79_first_draw hTg hc hn hT1 h1 (h3 T hrot e he)
  refine ⟨X, hX, a, ha0, fun o rtol atol maxGen hpg hr h0 hle hm => ?_⟩
  obtain ⟨L, hL, hLc⟩ := hall o.random atol maxGen hr h0 hle hm
  refine ⟨L, ?_, hLc⟩
  unfold rawIrreps
  have h2' : getPointgroupChainGenerators o.pointgroup rots = .ok (gens.map fun j : Fin n => ((j : ℕ) : ℤ)) := by
    rw [hpg]; exact h2
  simp only [hT, h2', bind, Except.bind, mapM_toIndex, hL]
  simp [pure, Except.pure]

/-- The 24 rotations of the point group 432, as tabulated. -/
def rots432 : Fin 24 → M3 := fun i => (pgData_432.head!.get i).toM3

theorem rots432_group : EnumeratesGroup rots432 := by
  apply enumerates_of_isMatrixGroup (by norm_num)
  · decide +kernel
  · decide +kernel

/-- The group 432 has three-dimensional irreps; the enumeration needs one draw only. -/
example : ∃ o : Oracles, ∃ L w, rawIrreps o rots432 (fun _ _ => 1) .neto 1e-5 0 1 = .ok (L, w) ∧ w = false ∧
    (L.map fun D => D.1 ^ 2).sum = 24 := by
  obtain ⟨T, hT, -, hTg⟩ := c01_cayley_table_ordinary rots432_group
  obtain ⟨X, -, a, ha, hall⟩ := c79_enumeration (μ := fun _ _ => 1) rots432_group hT (by intro i j k; simp) (by simp)
    (e := 0) (by decide +kernel) rfl (pg := (PgSymbol.pg_432, (1 : M3).map fun x : ℤ => (x : ℝ)))
    (contract_of_int (std := pgData_432.head!) (by decide +kernel) (List.mem_singleton.2 rfl) (Equiv.refl (Fin 24))
      (by decide +kernel))
  obtain ⟨L, hL, hLc⟩ := hall ⟨fun d _ => X d, fun _ _ => (0, 0), fun _ _ => (0, 0), fun _ _ _ => 0, _⟩ 1e-5 0 1 rfl (fun _ => rfl) le_rfl ha.le one_pos
  exact ⟨_, L, false, hL, rfl, IsCompleteIrreps.sum_sq hTg (fun _ _ => one_ne_zero) (by intro i j k; simp) hLc⟩

end Spgrep
