/-
Almost representations of finite groups are near representations.

A map `f` from a finite group to a complete normed algebra that satisfies `f g f h = μ g h f (g h)` up to `δ` can be
improved by one step of averaging to a map that satisfies the law up to `2 K² δ²`.  The iteration converges.
-/
import Mathlib.Analysis.Normed.Ring.Units
import Mathlib.Analysis.Normed.Algebra.Basic
import Mathlib.Analysis.SpecificLimits.Basic
import Mathlib.Algebra.BigOperators.Group.Finset.Basic
import Mathlib.Tactic.NoncommRing
import Mathlib.Analysis.Complex.Basic

namespace Spgrep

variable {G A : Type*} [Group G] [Fintype G] [NormedRing A] [NormedAlgebra ℂ A]

/-- One step of the averaging. -/
noncomputable def average (μ : G → G → ℂ) (f : G → A) (g : G) : A :=
  (Fintype.card G : ℂ)⁻¹ • ∑ x, (μ g x • f (g * x)) * Ring.inverse (f x)

variable {μ : G → G → ℂ} {f : G → A} {K δ : ℝ}

theorem norm_mean_le {F : G → A} {B : ℝ} (h : ∀ x, ‖F x‖ ≤ B) : ‖(Fintype.card G : ℂ)⁻¹ • ∑ x, F x‖ ≤ B := by
  have hc : (0 : ℝ) < Fintype.card G := by exact_mod_cast Fintype.card_pos
  rw [norm_smul, norm_inv, Complex.norm_natCast, inv_mul_le_iff₀ hc]
  calc _ ≤ ∑ x, ‖F x‖ := norm_sum_le _ _
    _ ≤ ∑ _x : G, B := Finset.sum_le_sum fun x _ => h x
    _ = _ := by simp

theorem mean_const (a : A) : (Fintype.card G : ℂ)⁻¹ • ∑ _x : G, a = a := by
  have hc : (Fintype.card G : ℂ) ≠ 0 := by exact_mod_cast Fintype.card_ne_zero
  rw [Finset.sum_const, Finset.card_univ, ← Nat.cast_smul_eq_nsmul ℂ, smul_smul, inv_mul_cancel₀ hc, one_smul]

/-- The change of one step is the mean of the errors. -/
theorem sub_average (hu : ∀ x, IsUnit (f x)) (g : G) :
    f g - average μ f g =
      (Fintype.card G : ℂ)⁻¹ • ∑ x, (f g * f x - μ g x • f (g * x)) * Ring.inverse (f x) := by
  have h1 : ∀ x, (f g * f x - μ g x • f (g * x)) * Ring.inverse (f x) =
      f g - (μ g x • f (g * x)) * Ring.inverse (f x) := by
    intro x
    rw [sub_mul, mul_assoc, Ring.mul_inverse_cancel _ (hu x), mul_one]
  simp only [h1, Finset.sum_sub_distrib, smul_sub, mean_const]
  rfl

theorem average_close (hu : ∀ x, IsUnit (f x)) (hK : ∀ x, ‖Ring.inverse (f x)‖ ≤ K)
    (hδ : ∀ g h, ‖f g * f h - μ g h • f (g * h)‖ ≤ δ) (g : G) : ‖f g - average μ f g‖ ≤ K * δ := by
  rw [sub_average hu]
  apply norm_mean_le
  intro x
  have hδ0 : 0 ≤ δ := (norm_nonneg _).trans (hδ g x)
  calc _ ≤ _ := norm_mul_le _ _
    _ ≤ δ * K := mul_le_mul (hδ g x) (hK x) (norm_nonneg _) hδ0
    _ = _ := mul_comm _ _

/-- The error after one step, exactly. -/
theorem average_error (hμ : ∀ g h x, μ g h * μ (g * h) x = μ h x * μ g (h * x)) (hu : ∀ x, IsUnit (f x)) (g h : G) :
    average μ f g * average μ f h - μ g h • average μ f (g * h) =
      (Fintype.card G : ℂ)⁻¹ • ∑ x, (-((f g * f (h * x) - μ g (h * x) • f (g * (h * x))) * Ring.inverse (f (h * x)) *
        ((f h * f x - μ h x • f (h * x)) * Ring.inverse (f x)))) +
      (f g - average μ f g) * (f h - average μ f h) := by
  set e : G → G → A := fun g h => f g * f h - μ g h • f (g * h) with he
  set a : G → A := fun g => f g - average μ f g with ha
  have hcoc : ∀ x, e g h = f g * (e h x * Ring.inverse (f x)) - μ g h • (e (g * h) x * Ring.inverse (f x)) +
      μ h x • (e g (h * x) * Ring.inverse (f x)) := by
    intro x
    have h1 : e g h * f x = f g * e h x - μ g h • e (g * h) x + μ h x • e g (h * x) := by
      simp only [he, mul_sub, sub_mul, smul_sub, smul_mul_assoc, mul_smul_comm, smul_smul, mul_assoc, hμ g h x]
      abel
    have h2 := congrArg (· * Ring.inverse (f x)) h1
    simp only [mul_assoc, Ring.mul_inverse_cancel _ (hu x), mul_one, add_mul, sub_mul, smul_mul_assoc] at h2
    exact h2
  have hmean : e g h = f g * a h - μ g h • a (g * h) +
      (Fintype.card G : ℂ)⁻¹ • ∑ x, μ h x • (e g (h * x) * Ring.inverse (f x)) := by
    have h1 : e g h = (Fintype.card G : ℂ)⁻¹ • ∑ x, (f g * (e h x * Ring.inverse (f x)) -
        μ g h • (e (g * h) x * Ring.inverse (f x)) + μ h x • (e g (h * x) * Ring.inverse (f x))) := by
      rw [← mean_const (G := G) (e g h)]
      congr 1
      exact Finset.sum_congr rfl fun x _ => hcoc x
    rw [h1, Finset.sum_add_distrib, Finset.sum_sub_distrib, smul_add, smul_sub, ← Finset.mul_sum, ← Finset.smul_sum,
      ha]
    simp only [sub_average hu, mul_smul_comm]
    rw [smul_comm (μ g h)]
  have hag : a g * f h = (Fintype.card G : ℂ)⁻¹ • ∑ x, e g (h * x) * Ring.inverse (f (h * x)) * f h := by
    rw [ha]
    simp only [sub_average hu]
    rw [smul_mul_assoc, Finset.sum_mul]
    congr 1
    exact (Equiv.sum_comp (Equiv.mulLeft h) fun x => e g x * Ring.inverse (f x) * f h).symm
  have hdiff : ∀ x, μ h x • (e g (h * x) * Ring.inverse (f x)) - e g (h * x) * Ring.inverse (f (h * x)) * f h =
      -(e g (h * x) * Ring.inverse (f (h * x)) * (e h x * Ring.inverse (f x))) := by
    intro x
    have h1 : e h x * Ring.inverse (f x) = f h - μ h x • (f (h * x) * Ring.inverse (f x)) := by
      simp only [he, sub_mul, mul_assoc, Ring.mul_inverse_cancel _ (hu x), mul_one, smul_mul_assoc]
    rw [h1, mul_sub, neg_sub, mul_smul_comm, ← mul_assoc, mul_assoc (e g (h * x)) _ (f (h * x)),
      Ring.inverse_mul_cancel _ (hu _), mul_one]
  have hfg : ∀ g, average μ f g = f g - a g := fun g => by simp [ha]
  have hfin : average μ f g * average μ f h - μ g h • average μ f (g * h) =
      e g h - f g * a h - a g * f h + μ g h • a (g * h) + a g * a h := by
    simp only [hfg, mul_sub, sub_mul, smul_sub, he]
    abel
  have hsum : ∑ x, (-(e g (h * x) * Ring.inverse (f (h * x)) * (e h x * Ring.inverse (f x)))) =
      ∑ x, μ h x • (e g (h * x) * Ring.inverse (f x)) - ∑ x, e g (h * x) * Ring.inverse (f (h * x)) * f h := by
    rw [← Finset.sum_sub_distrib]
    exact Finset.sum_congr rfl fun x _ => (hdiff x).symm
  change _ = (Fintype.card G : ℂ)⁻¹ • ∑ x, (-(e g (h * x) * Ring.inverse (f (h * x)) * (e h x * Ring.inverse (f x)))) +
    a g * a h
  rw [hsum, smul_sub (Fintype.card G : ℂ)⁻¹, hfin, hmean, hag]
  abel

theorem average_improves (hμ : ∀ g h x, μ g h * μ (g * h) x = μ h x * μ g (h * x)) (hu : ∀ x, IsUnit (f x))
    (hK : ∀ x, ‖Ring.inverse (f x)‖ ≤ K) (hδ : ∀ g h, ‖f g * f h - μ g h • f (g * h)‖ ≤ δ) (g h : G) :
    ‖average μ f g * average μ f h - μ g h • average μ f (g * h)‖ ≤ 2 * (K * δ) ^ 2 := by
  have hδ0 : 0 ≤ δ := (norm_nonneg _).trans (hδ g h)
  have hK0 : 0 ≤ K := (norm_nonneg _).trans (hK g)
  have h1 : ∀ x y, ‖(f x * f y - μ x y • f (x * y)) * Ring.inverse (f y)‖ ≤ K * δ := by
    intro x y
    calc _ ≤ _ := norm_mul_le _ _
      _ ≤ δ * K := mul_le_mul (hδ x y) (hK y) (norm_nonneg _) hδ0
      _ = _ := mul_comm _ _
  have hKδ : 0 ≤ K * δ := mul_nonneg hK0 hδ0
  rw [average_error hμ hu]
  calc _ ≤ K * δ * (K * δ) + K * δ * (K * δ) := by
        refine (norm_add_le _ _).trans (add_le_add (norm_mean_le fun x => ?_) ?_)
        · rw [norm_neg]
          exact (norm_mul_le _ _).trans (mul_le_mul (h1 _ _) (h1 _ _) (norm_nonneg _) hKδ)
        · exact (norm_mul_le _ _).trans
            (mul_le_mul (average_close hu hK hδ g) (average_close hu hK hδ h) (norm_nonneg _) hKδ)
    _ = _ := by ring

omit [NormedAlgebra ℂ A] in
/-- Units near a unit, with a bound for the inverse. -/
theorem unit_near [CompleteSpace A] {u v : A} (hu : IsUnit u) (hK : ‖Ring.inverse u‖ ≤ K) {r : ℝ} (h : ‖u - v‖ ≤ r)
    (hr : K * r ≤ 1 / 10) : IsUnit v ∧ ‖Ring.inverse v‖ ≤ 10 / 9 * K := by
  have hK0 : 0 ≤ K := (norm_nonneg _).trans hK
  have hb : ‖Ring.inverse u * (u - v)‖ ≤ 1 / 10 :=
    (norm_mul_le _ _).trans ((mul_le_mul hK h (norm_nonneg _) hK0).trans hr)
  have hv : v = u * (1 - Ring.inverse u * (u - v)) := by
    rw [mul_sub, mul_one, ← mul_assoc, Ring.mul_inverse_cancel _ hu, one_mul, sub_sub_cancel]
  have hvu : IsUnit v := by
    rw [hv]
    exact hu.mul (isUnit_one_sub_of_norm_lt_one (by linarith))
  refine ⟨hvu, ?_⟩
  have h1 : Ring.inverse v = Ring.inverse u + Ring.inverse u * (u - v) * Ring.inverse v := by
    rw [mul_sub, sub_mul, Ring.inverse_mul_cancel _ hu, one_mul, mul_assoc, Ring.mul_inverse_cancel _ hvu, mul_one]
    abel
  have h2 : ‖Ring.inverse v‖ ≤ K + 1 / 10 * ‖Ring.inverse v‖ := by
    calc ‖Ring.inverse v‖ = ‖Ring.inverse u + Ring.inverse u * (u - v) * Ring.inverse v‖ := by rw [← h1]
      _ ≤ _ := (norm_add_le _ _).trans (add_le_add hK ((norm_mul_le _ _).trans
          (mul_le_mul_of_nonneg_right hb (norm_nonneg _))))
  linarith

/-- The iterated averages. -/
theorem iterate_average [CompleteSpace A] (hμ : ∀ g h x, μ g h * μ (g * h) x = μ h x * μ g (h * x))
    (hu : ∀ x, IsUnit (f x)) (hK : ∀ x, ‖Ring.inverse (f x)‖ ≤ K)
    (hδ : ∀ g h, ‖f g * f h - μ g h • f (g * h)‖ ≤ δ) (hs : 32 * K ^ 2 * δ ≤ 1) (t : ℕ) :
    (∀ g, ‖f g - ((average μ)^[t] f) g‖ ≤ 4 / 3 * (K * δ) * (1 - (1 / 8) ^ t)) ∧
    (∀ g h, ‖((average μ)^[t] f) g * ((average μ)^[t] f) h - μ g h • ((average μ)^[t] f) (g * h)‖ ≤ δ * (1 / 8) ^ t) ∧
    (∀ g, IsUnit (((average μ)^[t] f) g) ∧ ‖Ring.inverse (((average μ)^[t] f) g)‖ ≤ 10 / 9 * K) := by
  have hδ0 : 0 ≤ δ := (norm_nonneg _).trans (hδ 1 1)
  have hK0 : 0 ≤ K := (norm_nonneg _).trans (hK 1)
  have hinv : ∀ {F : G → A} {s : ℝ}, 0 ≤ s → (∀ g, ‖f g - F g‖ ≤ 4 / 3 * (K * δ) * (1 - s)) →
      ∀ g, IsUnit (F g) ∧ ‖Ring.inverse (F g)‖ ≤ 10 / 9 * K := by
    intro F s hs0 hF g
    have h1 : 4 / 3 * (K * δ) * (1 - s) ≤ 4 / 3 * (K * δ) := by
      have : 0 ≤ 4 / 3 * (K * δ) := by positivity
      nlinarith
    refine unit_near (hu g) (hK g) ((hF g).trans h1) ?_
    nlinarith
  induction t with
  | zero =>
    refine ⟨fun g => by simp, fun g h => by simpa using hδ g h, fun g => ?_⟩
    exact hinv (F := f) (s := 1) (by norm_num) (fun g => by simp) g
  | succ t ih =>
    obtain ⟨h1, h2, h3⟩ := ih
    rw [Function.iterate_succ_apply']
    set F := (average μ)^[t] f with hF
    have hp : (0 : ℝ) < (1 / 8) ^ t := by positivity
    have hp1 : ((1 : ℝ) / 8) ^ t ≤ 1 := pow_le_one₀ (by norm_num) (by norm_num)
    have hclose : ∀ g, ‖f g - average μ F g‖ ≤ 4 / 3 * (K * δ) * (1 - (1 / 8) ^ (t + 1)) := by
      intro g
      have h4 := average_close (fun x => (h3 x).1) (fun x => (h3 x).2) h2 g
      have h5 : f g - average μ F g = (f g - F g) + (F g - average μ F g) := by abel
      rw [h5]
      refine (norm_add_le _ _).trans ((add_le_add (h1 g) h4).trans ?_)
      have h6 : 0 ≤ K * δ * (1 / 8) ^ t := by positivity
      rw [pow_succ]
      nlinarith
    refine ⟨hclose, fun g h => ?_, hinv (by positivity) hclose⟩
    refine (average_improves hμ (fun x => (h3 x).1) (fun x => (h3 x).2) h2 g h).trans ?_
    have h6 : 2 * (10 / 9 * K * (δ * (1 / 8) ^ t)) ^ 2 =
        50 / 81 * ((32 * K ^ 2 * δ) * (1 / 8) ^ t) * (δ * (1 / 8) ^ (t + 1)) := by
      rw [pow_succ]; ring
    rw [h6]
    have h7 : (32 * K ^ 2 * δ) * (1 / 8) ^ t ≤ 1 := by
      calc _ ≤ 1 * (1 : ℝ) := mul_le_mul hs hp1 hp.le zero_le_one
        _ = 1 := one_mul 1
    have h8 : 0 ≤ δ * (1 / 8) ^ (t + 1) := by positivity
    have h9 : 50 / 81 * ((32 * K ^ 2 * δ) * (1 / 8) ^ t) ≤ 1 := by linarith
    nlinarith

/-- Almost representations are near representations. -/
theorem almost_rep [CompleteSpace A] (hμ : ∀ g h x, μ g h * μ (g * h) x = μ h x * μ g (h * x))
    (hu : ∀ x, IsUnit (f x)) (hK : ∀ x, ‖Ring.inverse (f x)‖ ≤ K)
    (hδ : ∀ g h, ‖f g * f h - μ g h • f (g * h)‖ ≤ δ) (hs : 32 * K ^ 2 * δ ≤ 1) :
    ∃ E : G → A, (∀ g h, E g * E h = μ g h • E (g * h)) ∧ (∀ g, ‖f g - E g‖ ≤ 4 / 3 * (K * δ)) ∧
      ∀ g, IsUnit (E g) := by
  have hδ0 : 0 ≤ δ := (norm_nonneg _).trans (hδ 1 1)
  have hK0 : 0 ≤ K := (norm_nonneg _).trans (hK 1)
  have hit := iterate_average hμ hu hK hδ hs
  have hc : ∀ g, ∃ l, Filter.Tendsto (fun t => ((average μ)^[t] f) g) Filter.atTop (nhds l) := by
    intro g
    apply cauchySeq_tendsto_of_complete
    apply cauchySeq_of_le_geometric (1 / 8) (10 / 9 * K * δ) (by norm_num)
    intro t
    obtain ⟨-, h2, h3⟩ := hit t
    rw [dist_eq_norm, Function.iterate_succ_apply']
    refine (average_close (fun x => (h3 x).1) (fun x => (h3 x).2) h2 g).trans (le_of_eq ?_)
    ring
  choose E hE using hc
  have hclose : ∀ g, ‖f g - E g‖ ≤ 4 / 3 * (K * δ) := by
    intro g
    refine le_of_tendsto ((tendsto_const_nhds.sub (hE g)).norm) (Filter.Eventually.of_forall fun t => ?_)
    refine ((hit t).1 g).trans ?_
    have h1 : 0 ≤ 4 / 3 * (K * δ) := by positivity
    have h2 : (0 : ℝ) ≤ (1 / 8) ^ t := by positivity
    nlinarith
  refine ⟨E, fun g h => ?_, hclose, fun g => (unit_near (hu g) (hK g) (hclose g) (by nlinarith)).1⟩
  have h1 : Filter.Tendsto (fun t => ((average μ)^[t] f) g * ((average μ)^[t] f) h - μ g h • ((average μ)^[t] f) (g * h))
      Filter.atTop (nhds (E g * E h - μ g h • E (g * h))) :=
    ((hE g).mul (hE h)).sub ((hE (g * h)).const_smul _)
  have h2 : Filter.Tendsto (fun t => ((average μ)^[t] f) g * ((average μ)^[t] f) h - μ g h • ((average μ)^[t] f) (g * h))
      Filter.atTop (nhds 0) := by
    refine squeeze_zero_norm (fun t => (hit t).2.1 g h) ?_
    have := (tendsto_pow_atTop_nhds_zero_of_lt_one (r := (1 : ℝ) / 8) (by norm_num) (by norm_num)).const_mul δ
    simpa using this
  exact sub_eq_zero.1 (tendsto_nhds_unique h1 h2)

end Spgrep
