/-
Helper lemmas: `nroot`, `is_prime` and the purification of matrix entries.
-/
import Verif.Proofs.Utils
import Verif.Model.Irreps
import Mathlib.Data.Nat.Prime.Basic
import Mathlib.Analysis.SpecialFunctions.Trigonometric.Bounds
import Mathlib.Analysis.SpecialFunctions.Complex.Arg

namespace Spgrep

section snap
variable {X : Type*} [MetricSpace X] {atol : ℝ}

open Classical in
/-- Overwrite by every listed value closer than `atol`, in order. -/
noncomputable def snap (atol : ℝ) (vs : List X) (z : X) : X :=
  vs.foldl (fun z v => if dist z v < atol then v else z) z

theorem snap_of_sep {vs : List X} {v : X} (h : ∀ w ∈ vs, v = w ∨ atol ≤ dist v w) :
    snap atol vs v = v := by
  induction vs with
  | nil => rfl
  | cons w vs ih =>
    have h1 : (if dist v w < atol then w else v) = v := by
      rcases h w (by simp) with rfl | h1
      · simp
      · rw [if_neg (not_lt.2 h1)]
    unfold snap at ih ⊢
    rw [List.foldl_cons, h1]
    exact ih fun w hw => h w (by simp [hw])

/-- Result of `snap` for well separated values: unchanged if nothing is near, else a near listed value. -/
theorem snap_cases : ∀ (vs : List X) (z : X), (∀ v ∈ vs, ∀ w ∈ vs, v = w ∨ atol ≤ dist v w) →
    (snap atol vs z = z ∧ ∀ v ∈ vs, v = z ∨ atol ≤ dist z v) ∨
    (snap atol vs z ∈ vs ∧ dist z (snap atol vs z) < atol)
  | [], z, _ => Or.inl ⟨rfl, by simp⟩
  | v :: vs, z, h => by
    have hsub : ∀ v ∈ vs, ∀ w ∈ vs, v = w ∨ atol ≤ dist v w :=
      fun a ha b hb => h a (by simp [ha]) b (by simp [hb])
    by_cases hz : dist z v < atol
    · right
      have h1 : snap atol (v :: vs) z = v := by
        have : snap atol (v :: vs) z = snap atol vs v := by
          unfold snap; rw [List.foldl_cons, if_pos hz]
        rw [this]
        exact snap_of_sep fun w hw => h v (by simp) w (by simp [hw])
      rw [h1]
      exact ⟨by simp, hz⟩
    · have h1 : snap atol (v :: vs) z = snap atol vs z := by
        unfold snap; rw [List.foldl_cons, if_neg hz]
      rw [h1]
      rcases snap_cases vs z hsub with ⟨h2, h3⟩ | ⟨h2, h3⟩
      · left
        refine ⟨h2, fun w hw => ?_⟩
        rcases List.mem_cons.1 hw with rfl | hw
        · exact Or.inr (not_lt.1 hz)
        · exact h3 w hw
      · exact Or.inr ⟨by simp [h2], h3⟩

/-- All claims about `snap` for well separated values. -/
theorem snap_spec {vs : List X} (hsep : ∀ v ∈ vs, ∀ w ∈ vs, v = w ∨ atol ≤ dist v w) (ha : 0 < atol)
    (z : X) :
    dist z (snap atol vs z) < atol ∧ (z ∈ vs → snap atol vs z = z) ∧
    ((∃ v ∈ vs, dist z v < atol) → snap atol vs z ∈ vs) ∧
    ((∀ v ∈ vs, atol ≤ dist z v) → snap atol vs z = z) ∧
    snap atol vs (snap atol vs z) = snap atol vs z := by
  have hfix : ∀ v ∈ vs, snap atol vs v = v := fun v hv => snap_of_sep fun w hw => hsep v hv w hw
  refine ⟨?_, hfix z, ?_, ?_, ?_⟩
  · rcases snap_cases vs z hsep with ⟨h, _⟩ | ⟨_, h⟩
    · rw [h, dist_self]; exact ha
    · exact h
  · rintro ⟨v, hv, hd⟩
    rcases snap_cases vs z hsep with ⟨h, h2⟩ | ⟨h, _⟩
    · rcases h2 v hv with rfl | h3
      · rw [h]; exact hv
      · exact absurd hd (not_lt.2 h3)
    · exact h
  · intro h
    exact snap_of_sep fun w hw => Or.inr (h w hw)
  · rcases snap_cases vs z hsep with ⟨h, _⟩ | ⟨h, _⟩
    · rw [h, h]
    · exact hfix _ h

end snap

theorem purifyEntry_eq (atol : ℝ) (z : ℂ) : purifyEntry atol z = snap atol purifyValues z := by
  unfold purifyEntry snap
  simp only [Complex.dist_eq]

theorem purifyRealEntry_eq (atol : ℝ) (x : ℝ) :
    purifyRealEntry atol x = snap atol purifyRealValues x := by
  unfold purifyRealEntry snap
  simp only [Real.dist_eq]

theorem sqrt3_bounds : Real.sqrt 3 * Real.sqrt 3 = 3 ∧ 1.7 < Real.sqrt 3 ∧ Real.sqrt 3 < 1.8 := by
  refine ⟨Real.mul_self_sqrt (by norm_num), ?_, ?_⟩
  · rw [Real.lt_sqrt (by norm_num)]; norm_num
  · rw [Real.sqrt_lt' (by norm_num)]; norm_num

theorem purifyReal_sep {atol : ℝ} (h : atol ≤ 1 - Real.sqrt 3 / 2) :
    ∀ v ∈ purifyRealValues, ∀ w ∈ purifyRealValues, v = w ∨ atol ≤ dist v w := by
  obtain ⟨_, h1, h2⟩ := sqrt3_bounds
  have key : ∀ v w : ℝ, (1 - Real.sqrt 3 / 2 ≤ v - w ∨ 1 - Real.sqrt 3 / 2 ≤ w - v) →
      v = w ∨ atol ≤ dist v w := by
    intro v w hvw
    right
    rw [Real.dist_eq]
    rcases hvw with h | h
    · have := le_abs_self (v - w); linarith
    · have := neg_le_abs (v - w); linarith
  simp only [purifyRealValues, List.forall_mem_cons, List.not_mem_nil, false_implies, implies_true,
    and_true]
  refine ⟨⟨?_, ?_, ?_, ?_, ?_, ?_, ?_⟩, ⟨?_, ?_, ?_, ?_, ?_, ?_, ?_⟩, ⟨?_, ?_, ?_, ?_, ?_, ?_, ?_⟩,
    ⟨?_, ?_, ?_, ?_, ?_, ?_, ?_⟩, ⟨?_, ?_, ?_, ?_, ?_, ?_, ?_⟩, ⟨?_, ?_, ?_, ?_, ?_, ?_, ?_⟩,
    ⟨?_, ?_, ?_, ?_, ?_, ?_, ?_⟩⟩ <;>
  first
  | exact Or.inl trivial
  | (apply key; left; linarith)
  | (apply key; right; linarith)

theorem exp_coords (x c s : ℝ) (hc : Real.cos x = c) (hs : Real.sin x = s) :
    Complex.exp (Complex.I * x) = ⟨c, s⟩ := by
  rw [mul_comm, Complex.exp_mul_I, ← Complex.ofReal_cos, ← Complex.ofReal_sin, hc, hs]
  apply Complex.ext <;> simp

theorem purifyValues_coords : purifyValues = [⟨0, 0⟩, ⟨1, 0⟩, ⟨1 / 2, Real.sqrt 3 / 2⟩, ⟨0, 1⟩,
    ⟨-(1 / 2), Real.sqrt 3 / 2⟩, ⟨-1, 0⟩, ⟨-(1 / 2), -(Real.sqrt 3 / 2)⟩, ⟨0, -1⟩,
    ⟨1 / 2, -(Real.sqrt 3 / 2)⟩] := by
  have e1 : Complex.exp (Complex.I * Real.pi / 3) = ⟨1 / 2, Real.sqrt 3 / 2⟩ := by
    have := exp_coords (Real.pi / 3) _ _ Real.cos_pi_div_three Real.sin_pi_div_three
    rw [← this]; congr 1; push_cast; ring
  have e2 : Complex.exp (Complex.I * Real.pi * 2 / 3) = ⟨-(1 / 2), Real.sqrt 3 / 2⟩ := by
    have := exp_coords (Real.pi - Real.pi / 3) _ _
      ((Real.cos_pi_sub _).trans (by rw [Real.cos_pi_div_three]))
      ((Real.sin_pi_sub _).trans (by rw [Real.sin_pi_div_three]))
    rw [← this]; congr 1; push_cast; ring
  have e4 : Complex.exp (Complex.I * Real.pi * 4 / 3) = ⟨-(1 / 2), -(Real.sqrt 3 / 2)⟩ := by
    have := exp_coords (Real.pi / 3 + Real.pi) _ _
      ((Real.cos_add_pi _).trans (by rw [Real.cos_pi_div_three]))
      ((Real.sin_add_pi _).trans (by rw [Real.sin_pi_div_three]))
    rw [← this]; congr 1; push_cast; ring
  have e5 : Complex.exp (Complex.I * Real.pi * 5 / 3) = ⟨1 / 2, -(Real.sqrt 3 / 2)⟩ := by
    have := exp_coords (2 * Real.pi - Real.pi / 3) _ _
      ((Real.cos_two_pi_sub _).trans (by rw [Real.cos_pi_div_three]))
      ((Real.sin_two_pi_sub _).trans (by rw [Real.sin_pi_div_three]))
    rw [← this]; congr 1; push_cast; ring
  unfold purifyValues
  rw [e1, e2, e4, e5]
  simp only [List.cons.injEq, and_true, true_and]
  refine ⟨?_, ?_, ?_, ?_, ?_⟩ <;> apply Complex.ext <;> simp

theorem le_of_sq_le_sq_nn {a b : ℝ} (_ : 0 ≤ a) (hb : 0 ≤ b) (h : a ^ 2 ≤ b ^ 2) : a ≤ b :=
  abs_le_of_sq_le_sq' h hb |>.2

theorem purify_sep {atol : ℝ} (h0 : 0 ≤ atol) (h : atol ^ 2 ≤ 2 - Real.sqrt 3) :
    ∀ v ∈ purifyValues, ∀ w ∈ purifyValues, v = w ∨ atol ≤ dist v w := by
  obtain ⟨h3, h1, h2⟩ := sqrt3_bounds
  have key : ∀ a b c d : ℝ, 2 - Real.sqrt 3 ≤ (a - c) ^ 2 + (b - d) ^ 2 →
      (⟨a, b⟩ : ℂ) = ⟨c, d⟩ ∨ atol ≤ dist (⟨a, b⟩ : ℂ) ⟨c, d⟩ := by
    intro a b c d habcd
    right
    rw [Complex.dist_eq]
    apply le_of_sq_le_sq_nn h0 (norm_nonneg _)
    rw [← Complex.normSq_eq_norm_sq, Complex.normSq_apply]
    simp only [Complex.sub_re, Complex.sub_im]
    nlinarith
  rw [purifyValues_coords]
  simp only [List.forall_mem_cons, List.not_mem_nil, false_implies, implies_true, and_true]
  refine ⟨⟨?_, ?_, ?_, ?_, ?_, ?_, ?_, ?_, ?_⟩, ⟨?_, ?_, ?_, ?_, ?_, ?_, ?_, ?_, ?_⟩,
    ⟨?_, ?_, ?_, ?_, ?_, ?_, ?_, ?_, ?_⟩, ⟨?_, ?_, ?_, ?_, ?_, ?_, ?_, ?_, ?_⟩,
    ⟨?_, ?_, ?_, ?_, ?_, ?_, ?_, ?_, ?_⟩, ⟨?_, ?_, ?_, ?_, ?_, ?_, ?_, ?_, ?_⟩,
    ⟨?_, ?_, ?_, ?_, ?_, ?_, ?_, ?_, ?_⟩, ⟨?_, ?_, ?_, ?_, ?_, ?_, ?_, ?_, ?_⟩,
    ⟨?_, ?_, ?_, ?_, ?_, ?_, ?_, ?_, ?_⟩⟩ <;>
  first
  | exact Or.inl trivial
  | (apply key; nlinarith)

/-- The reduction of the angle in `nroot` never does anything: it is the principal root. -/
theorem nroot_eq (z : ℂ) {n : ℕ} (hn : 1 ≤ n) : nroot z n = z ^ ((1 : ℂ) / n) ∧
    Complex.arg (z ^ ((1 : ℂ) / n)) = Complex.arg z / n := by
  have hn0 : (0 : ℝ) < n := by exact_mod_cast hn
  have harg : Complex.arg (z ^ ((1 : ℂ) / n)) = Complex.arg z / n := by
    by_cases hz : z = 0
    · subst hz
      rw [Complex.zero_cpow (by simp; omega)]; simp
    · rw [Complex.cpow_def_of_ne_zero hz]
      have h1 : Complex.log z * (1 / n) = ((Complex.log z).re / n : ℝ) +
          ((Complex.arg z / n : ℝ)) * Complex.I := by
        apply Complex.ext
        · simp [← Complex.ofReal_natCast, div_eq_mul_inv, ← Complex.ofReal_inv]
        · simp [← Complex.ofReal_natCast, div_eq_mul_inv, ← Complex.ofReal_inv, Complex.log_im]
      rw [h1, Complex.exp_add, ← Complex.ofReal_exp,
        Complex.arg_real_mul _ (Real.exp_pos _), Complex.arg_exp_mul_I]
      rw [toIocMod_eq_self]
      have h2 := Complex.neg_pi_lt_arg z
      have h3 := Complex.arg_le_pi z
      have h4 : (1 : ℝ) ≤ n := by exact_mod_cast hn
      have hpi := Real.pi_pos
      constructor
      · rw [lt_div_iff₀ hn0]; nlinarith
      · rw [div_le_iff₀ hn0]; nlinarith
  refine ⟨?_, harg⟩
  unfold nroot
  simp only [harg]
  have hr : rint (Complex.arg z / n * n / (2 * Real.pi)) = 0 := by
    have h2 := Complex.neg_pi_lt_arg z
    have h3 := Complex.arg_le_pi z
    have hpi := Real.pi_pos
    rw [div_mul_cancel₀ _ hn0.ne']
    rcases lt_or_eq_of_le h3 with h3 | h3
    · apply rint_eq_of_abs_lt
      rw [Int.cast_zero, sub_zero, abs_lt]
      constructor
      · rw [lt_div_iff₀ (by linarith)]; linarith
      · rw [div_lt_iff₀ (by linarith)]; linarith
    · rw [h3]
      have : Real.pi / (2 * Real.pi) = 1 / 2 := by field_simp
      rw [this]
      unfold rint
      have hf : ⌊(1 / 2 : ℝ)⌋ = 0 := by rw [Int.floor_eq_iff]; norm_num
      rw [hf]
      norm_num
  rw [hr]
  simp only [Int.cast_zero, zero_mul, zero_div, sub_zero]
  conv_rhs => rw [← Complex.norm_mul_exp_arg_mul_I (z ^ ((1 : ℂ) / n)), harg]
  rw [mul_comm Complex.I]

theorem isPrime_iff (n : ℤ) (hn : 2 ≤ n) : isPrime n = true ↔ Nat.Prime n.toNat := by
  obtain ⟨m, rfl⟩ : ∃ m : ℕ, n = m := ⟨n.toNat, by omega⟩
  have hm : 2 ≤ m := by omega
  unfold isPrime
  rw [Option.isNone_iff_eq_none, List.find?_eq_none, Int.toNat_natCast, Nat.prime_def_lt']
  constructor
  · intro h
    refine ⟨hm, fun k hk1 hk2 hdvd => ?_⟩
    have := h k (by rw [List.mem_range'_1]; omega)
    apply this
    rw [decide_eq_true_iff]
    exact Int.emod_eq_zero_of_dvd (by exact_mod_cast hdvd)
  · rintro ⟨_, h⟩ k hk
    rw [List.mem_range'_1] at hk
    rw [decide_eq_true_iff]
    intro h0
    have hd : (k : ℤ) ∣ (m : ℤ) := Int.dvd_of_emod_eq_zero h0
    exact h k (by omega) (by omega) (by exact_mod_cast hd)

end Spgrep
