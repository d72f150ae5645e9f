/-
Helper lemmas for C18 and C22: the indicator is stable under purification.
-/
import Verif.Model.Enumerate
import Verif.Proofs.RepModel
import Verif.Proofs.Purify
import Verif.Props.Utils
import Verif.Props.Representation
import Mathlib.Analysis.CStarAlgebra.Matrix

namespace Spgrep

open Spec Matrix

variable {n : ℕ} {d : ℕ} {T : Fin n → Fin n → Fin n} {μ : Fin n → Fin n → ℂ}

/-- Entrywise closeness of arrays. -/
def Near (ε : ℝ) (D D' : RepArr n d) : Prop := ∀ g i j, ‖D g i j - D' g i j‖ ≤ ε

theorem unitary_entry_le {D : RepArr n d} (h : IsUnitaryRep D) (g : Fin n) (i j : Fin d) : ‖D g i j‖ ≤ 1 := by
  have : D g ∈ Matrix.unitaryGroup (Fin d) ℂ := Matrix.mem_unitaryGroup_iff.2 (h g)
  exact entry_norm_bound_of_unitary this i j

theorem near_purify (D : RepArr n d) {atol : ℝ} (h0 : 0 < atol) (h1 : atol ≤ 1 / 5) :
    Near atol D (purifyIrrepValue D atol) := by
  intro g i j
  have h3 : atol ^ 2 ≤ 2 - Real.sqrt 3 := by
    have := sqrt3_bounds.2.2
    nlinarith
  exact ((c29_purify.1 n d D atol h0 h3).1 g i j).1.le

theorem norm_expPhase' (x : ℝ) : ‖expPhase x‖ = 1 := norm_expPhase x

theorem Near.phaseMul {ε : ℝ} {D D' : RepArr n d} (h : Near ε D D') (trans : Fin n → V3) (k : V3) :
    Near ε (phaseMul trans k D) (phaseMul trans k D') := by
  intro g i j
  show ‖expPhase _ • D g i j - expPhase _ • D' g i j‖ ≤ ε
  rw [← smul_sub, norm_smul, norm_expPhase', one_mul]
  exact h g i j

theorem mul_near {a b a' b' : ℂ} {ε : ℝ} (ha : ‖a‖ ≤ 1) (hb : ‖b‖ ≤ 1) (h1 : ‖a - a'‖ ≤ ε) (h2 : ‖b - b'‖ ≤ ε) :
    ‖a * b - a' * b'‖ ≤ 2 * ε + ε ^ 2 := by
  have h3 : a * b - a' * b' = a * (b - b') + (a - a') * b - (a - a') * (b - b') := by ring
  have hε : 0 ≤ ε := (norm_nonneg _).trans h1
  rw [h3]
  calc _ ≤ ‖a * (b - b')‖ + ‖(a - a') * b‖ + ‖(a - a') * (b - b')‖ :=
        (norm_sub_le _ _).trans (add_le_add_left (norm_add_le _ _) _)
    _ ≤ 1 * ε + ε * 1 + ε * ε := by
        simp only [norm_mul]
        gcongr
    _ = _ := by ring

theorem sum_near {ι : Type*} [Fintype ι] (f f' : ι → ℂ) {ε : ℝ} (h : ∀ i, ‖f i - f' i‖ ≤ ε) :
    ‖∑ i, f i - ∑ i, f' i‖ ≤ Fintype.card ι * ε := by
  rw [← Finset.sum_sub_distrib]
  calc _ ≤ ∑ i, ‖f i - f' i‖ := norm_sum_le _ _
    _ ≤ ∑ _i : ι, ε := Finset.sum_le_sum fun i _ => h i
    _ = _ := by simp

theorem fs_sum_near {ε : ℝ} {D D' : RepArr n d} (hD : ∀ g i j, ‖D g i j‖ ≤ 1) (h : Near ε D D') :
    ‖∑ k, ∑ i, ∑ j, D k i j * D k j i - ∑ k, ∑ i, ∑ j, D' k i j * D' k j i‖ ≤
      n * (d * (d * (2 * ε + ε ^ 2))) := by
  have := sum_near (ε := d * (d * (2 * ε + ε ^ 2))) (fun k => ∑ i, ∑ j, D k i j * D k j i)
    (fun k => ∑ i, ∑ j, D' k i j * D' k j i) fun k => by
      have := sum_near (ε := d * (2 * ε + ε ^ 2)) (fun i => ∑ j, D k i j * D k j i)
        (fun i => ∑ j, D' k i j * D' k j i) fun i => by
          have := sum_near (ε := 2 * ε + ε ^ 2) (fun j => D k i j * D k j i)
            (fun j => D' k i j * D' k j i) fun j => mul_near (hD _ _ _) (hD _ _ _) (h _ _ _) (h _ _ _)
          simpa using this
      simpa using this
  simpa using this

theorem fs_of_near {ε : ℝ} {D D' : RepArr n d} (hn : 0 < n) (hD : ∀ g i j, ‖D g i j‖ ≤ 1) (h : Near ε D D')
    {c : ℤ} (hc : ∑ k, ∑ i, ∑ j, D k i j * D k j i = (n : ℂ) * c) (hε : (d : ℝ) * (d * (2 * ε + ε ^ 2)) < 1 / 2) :
    frobeniusSchur D' = if c > 1 then .error .valueError else .ok c := by
  have h1 := fs_sum_near hD h
  rw [hc] at h1
  have hn0 : (0 : ℝ) < n := by exact_mod_cast hn
  have hnC : (n : ℂ) ≠ 0 := by exact_mod_cast hn.ne'
  have h2 : rint ((∑ k, ∑ i, ∑ j, D' k i j * D' k j i) / (n : ℂ)).re = c := by
    apply rint_eq_of_abs_lt
    set S := ∑ k, ∑ i, ∑ j, D' k i j * D' k j i
    have h3 : (S / (n : ℂ)).re - c = ((S - n * c) / (n : ℂ)).re := by
      rw [sub_div, mul_div_cancel_left₀ _ hnC, Complex.sub_re]
      simp
    rw [h3]
    refine lt_of_le_of_lt (Complex.abs_re_le_norm _) ?_
    rw [norm_div, Complex.norm_natCast, norm_sub_rev, div_lt_iff₀ hn0]
    calc _ ≤ _ := h1
      _ < n * (1 / 2) := mul_lt_mul_of_pos_left hε hn0
      _ = _ := by ring
  unfold frobeniusSchur
  simp only [h2]

/-- The sum in the Frobenius-Schur indicator for a factor system of signs. -/
theorem fs_exact (hT : IsGroupTable T) (hμ : ∀ g h, μ g h = 1 ∨ μ g h = -1) {D : RepArr n d}
    (hD : IsProjRep T μ D) (hDu : IsUnitaryRep D) (hDi : IsIrreducible D) :
    ∃ c : ℤ, (c = 1 ∨ c = -1 ∨ c = 0) ∧ ∑ k, ∑ i, ∑ j, D k i j * D k j i = (n : ℂ) * c ∧
      (c = 0 ↔ ¬ AreEquivalent D fun g => (D g).map star) := by
  have hμ0 : ∀ g h, μ g h ≠ 0 := by
    intro g h; rcases hμ g h with h | h <;> rw [h] <;> norm_num
  have hμr : ∀ g h, star (μ g h) = μ g h := by
    intro g h; rcases hμ g h with h | h <;> rw [h] <;> simp
  by_cases he : AreEquivalent D fun g => (D g).map star
  · obtain ⟨S, S', h1, h2, hS⟩ := he
    rcases conj_intertwiner_sym hDu hDi h1 hS with hsym | hanti
    · refine ⟨1, .inl rfl, fs_sum_of_intertwiner hT hμ0 hD hDu hDi h1 hS (by rw [hsym]; simp), ?_⟩
      simp only [one_ne_zero, false_iff, not_not]; exact ⟨S, S', h1, h2, hS⟩
    · refine ⟨-1, .inr (.inl rfl), fs_sum_of_intertwiner hT hμ0 hD hDu hDi h1 hS (by rw [hanti]; simp), ?_⟩
      simp only [neg_eq_zero, one_ne_zero, false_iff, not_not]; exact ⟨S, S', h1, h2, hS⟩
  · refine ⟨0, .inr (.inr rfl), ?_, ⟨fun _ => he, fun _ => rfl⟩⟩
    rw [fs_sum_of_not_equiv hT hμ0 hμr hD hDu hDi he]; simp

/-- A one-dimensional array with entries of norm about one never makes the indicator raise. -/
theorem fs_of_dim_one (hn : 0 < n) {D : RepArr n 1} {ε : ℝ} (hε0 : 0 ≤ ε) (hε : ε ≤ 1 / 5)
    (hD : ∀ g i j, ‖D g i j‖ ≤ 1 + ε) : ∃ c : ℤ, (c = 1 ∨ c = -1 ∨ c = 0) ∧ frobeniusSchur D = .ok c := by
  have hn0 : (0 : ℝ) < n := by exact_mod_cast hn
  have h1 : |((∑ k, ∑ i, ∑ j, D k i j * D k j i) / (n : ℂ)).re| < 3 / 2 := by
    refine lt_of_le_of_lt (Complex.abs_re_le_norm _) ?_
    rw [norm_div, Complex.norm_natCast, div_lt_iff₀ hn0]
    calc _ ≤ ∑ k : Fin n, ‖∑ i, ∑ j, D k i j * D k j i‖ := norm_sum_le _ _
      _ ≤ ∑ _k : Fin n, ((1 + ε) * (1 + ε)) := Finset.sum_le_sum fun k _ => by
          simp only [Fin.sum_univ_one, norm_mul]
          exact mul_le_mul (hD _ _ _) (hD _ _ _) (norm_nonneg _) (by linarith)
      _ = n * ((1 + ε) * (1 + ε)) := by simp
      _ < n * (3 / 2) := mul_lt_mul_of_pos_left (by nlinarith) hn0
      _ = _ := by ring
  have h2 := abs_sub_rint_le ((∑ k, ∑ i, ∑ j, D k i j * D k j i) / (n : ℂ)).re
  set x := ((∑ k, ∑ i, ∑ j, D k i j * D k j i) / (n : ℂ)).re with hx
  have h3 : rint x < 2 := by
    have : (rint x : ℝ) < 2 := by
      have := (abs_le.1 h2).1; have := (abs_lt.1 h1).2; linarith
    exact_mod_cast this
  have h4 : -2 < rint x := by
    have : (-2 : ℝ) < rint x := by
      have := (abs_le.1 h2).2; have := (abs_lt.1 h1).1; linarith
    exact_mod_cast this
  refine ⟨rint x, by omega, ?_⟩
  unfold frobeniusSchur
  simp only [← hx]
  rw [if_neg (by omega)]

/-- `mapM` in `Except` when every call succeeds. -/
theorem mapM_ok {α β : Type} {f : α → Except PyErr β} {Q : α → β → Prop} : ∀ {L : List α},
    (∀ x ∈ L, ∃ y, f x = .ok y ∧ Q x y) → ∃ ys, L.mapM f = .ok ys ∧ List.Forall₂ Q L ys
  | [], _ => ⟨[], rfl, .nil⟩
  | x :: L, h => by
    obtain ⟨y, hy, hQ⟩ := h x (by simp)
    obtain ⟨ys, hys, hF⟩ := mapM_ok (L := L) fun z hz => h z (by simp [hz])
    refine ⟨y :: ys, ?_, .cons hQ hF⟩
    rw [List.mapM_cons, hy, hys]
    rfl

/-- `mapM` in `Except` when every call fails with the same exception. -/
theorem mapM_error {α β : Type} {f : α → Except PyErr β} {e : PyErr} {L : List α} (hL : L ≠ [])
    (h : ∀ x ∈ L, f x = .error e) : L.mapM f = .error e := by
  cases L with
  | nil => exact absurd rfl hL
  | cons x L =>
    rw [List.mapM_cons, h x (by simp)]
    rfl

/-- The indicator of an array close to an irrep that is one-dimensional or has signs as factors. -/
theorem fs_ok (hT : IsGroupTable T) {D D' : RepArr n d} (hD : IsProjRep T μ D) (hDu : IsUnitaryRep D)
    (hDi : IsIrreducible D) (hcase : d = 1 ∨ ∀ g h, μ g h = 1 ∨ μ g h = -1) (hd : d ^ 2 ≤ n) {ε : ℝ}
    (hε0 : 0 ≤ ε) (hε : n * ε ≤ 1 / 5) (h : Near ε D D') :
    ∃ c : ℤ, (c = 1 ∨ c = -1 ∨ c = 0) ∧ frobeniusSchur D' = .ok c := by
  have hn := table_pos hT
  have hn1 : (1 : ℝ) ≤ n := by exact_mod_cast hn
  have hε5 : ε ≤ 1 / 5 := by nlinarith
  rcases hcase with rfl | hs
  · refine fs_of_dim_one hn hε0 hε5 fun g i j => ?_
    have h1 := unitary_entry_le hDu g i j
    have h2 := h g i j
    calc ‖D' g i j‖ = ‖D g i j - (D g i j - D' g i j)‖ := by rw [sub_sub_cancel]
      _ ≤ 1 + ε := (norm_sub_le _ _).trans (add_le_add h1 h2)
  · obtain ⟨c, hc, hsum, -⟩ := fs_exact hT hs hD hDu hDi
    refine ⟨c, hc, ?_⟩
    rw [fs_of_near hn (unitary_entry_le hDu) h hsum, if_neg (by omega)]
    have hdn : (d : ℝ) * d ≤ n := by
      have : ((d ^ 2 : ℕ) : ℝ) ≤ n := by exact_mod_cast hd
      push_cast at this
      nlinarith
    have : (d : ℝ) * (d * (2 * ε + ε ^ 2)) ≤ n * (2 * ε + ε ^ 2) := by
      rw [← mul_assoc]
      exact mul_le_mul_of_nonneg_right hdn (by positivity)
    nlinarith

theorem withIndicators_ok {L : List (AnyRep n)}
    (h : ∀ D ∈ L, ∃ c : ℤ, (c = 1 ∨ c = -1 ∨ c = 0) ∧ frobeniusSchur D.2 = .ok c) :
    ∃ l, withIndicators L = .ok l ∧ l.map Prod.fst = L ∧
      ∀ x ∈ l, (x.2 = 1 ∨ x.2 = -1 ∨ x.2 = 0) ∧ frobeniusSchur x.1.2 = .ok x.2 := by
  obtain ⟨l, hl, hF⟩ := mapM_ok (L := L) (f := fun D => do
      let i ← frobeniusSchur D.2
      return (D, i)) (Q := fun D x => x.1 = D ∧ (x.2 = 1 ∨ x.2 = -1 ∨ x.2 = 0) ∧
        frobeniusSchur x.1.2 = .ok x.2) fun D hD => by
    obtain ⟨c, hc, hf⟩ := h D hD
    exact ⟨(D, c), by simp only [hf]; rfl, rfl, hc, hf⟩
  refine ⟨l, hl, ?_, ?_⟩
  · clear hl h
    induction hF with
    | nil => rfl
    | cons h1 _ ih => rw [List.map_cons, h1.1, ih]
  · clear hl h
    induction hF with
    | nil => simp
    | cons h1 _ ih =>
      intro x hx
      rcases List.mem_cons.1 hx with rfl | hx
      · exact h1.2
      · exact ih x hx

theorem realIrreps_ok (o : Oracles) {L : List (AnyRep n)} (force : Bool) (atol : ℝ) (maxGen : ℕ)
    (h : ∀ D ∈ L, ∃ c : ℤ, (c = 1 ∨ c = -1 ∨ c = 0) ∧ frobeniusSchur D.2 = .ok c) :
    ∃ l, realIrreps o L force atol maxGen = .ok l ∧
      List.Forall₂ (fun p x => ∃ c : ℤ, frobeniusSchur (L.get p.1).2 = .ok c ∧ x.2 = (if force then 0 else c) ∧
        (x.2 = 1 ∨ x.2 = -1 ∨ x.2 = 0) ∧ ∃ r, getPhysicallyIrrep o.eig (o.random (L.get p.1).1) (L.get p.1).2 x.2
          atol maxGen = .ok r ∧ x.1 = ⟨r.1, purifyRealIrrepValue r.2 atol⟩) (pairsOf L) l := by
  refine mapM_ok fun p _ => ?_
  obtain ⟨c, hc, hf⟩ := h (L.get p.1) (List.get_mem _ _)
  have hc' : (if force then 0 else c) = 1 ∨ (if force then 0 else c) = -1 ∨ (if force then 0 else c) = 0 := by
    split
    · exact .inr (.inr rfl)
    · exact hc
  obtain ⟨r, hr⟩ : ∃ r, getPhysicallyIrrep o.eig (o.random (L.get p.1).1) (L.get p.1).2 (if force then 0 else c)
      atol maxGen = .ok r := by
    unfold getPhysicallyIrrep
    rcases hc' with h | h | h <;> simp [h]
  refine ⟨(⟨r.1, purifyRealIrrepValue r.2 atol⟩, if force then 0 else c), ?_, c, hf, rfl, hc', r, hr, rfl⟩
  simp only [hf]
  change (getPhysicallyIrrep o.eig (o.random (L.get p.1).1) (L.get p.1).2 (if force then 0 else c)
      atol maxGen >>= _) = _
  rw [hr]
  rfl

theorem IsCompleteIrreps.dim_le (hT : IsGroupTable T) (hμ : ∀ g h, μ g h ≠ 0) (hc : IsCocycle T μ)
    {L : List (AnyRep n)} (hL : IsCompleteIrreps T μ L) {D : AnyRep n} (hD : D ∈ L) : D.1 ^ 2 ≤ n := by
  have h1 := IsCompleteIrreps.sum_sq hT hμ hc hL
  have h2 := List.le_sum_of_mem (List.mem_map.2 ⟨D, hD, rfl⟩ : D.1 ^ 2 ∈ L.map fun D => D.1 ^ 2)
  exact h2.trans h1.le

theorem phaseMul_irreducible {D : RepArr n d} (h : IsIrreducible D) (trans : Fin n → V3) (k : V3) :
    IsIrreducible (phaseMul trans k D) := by
  refine ⟨h.1, fun W hW => h.2 W fun g v hv => ?_⟩
  have h1 := hW g v hv
  unfold phaseMul at h1
  rw [Matrix.smul_mulVec] at h1
  exact (W.smul_mem_iff (expPhase_ne_zero _)).1 h1

end Spgrep
