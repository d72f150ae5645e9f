/-
Characters of the irreps over the reals: sums over conjugate pairs.
-/
import Verif.Props.RealIrreps
import Verif.Proofs.Plancherel

set_option linter.unusedSectionVars false

namespace Spgrep

open Spec

variable {n : ℕ} {T : Fin n → Fin n → Fin n}

/-- A sum over all irreps is a sum over the conjugate pairs. -/
theorem sum_pairs {M : Type*} [AddCommMonoid M] {k m : ℕ} {P : Fin m → Fin k × Fin k}
    (hP : ∀ i, ∃! a, i = (P a).1 ∨ i = (P a).2) (f : Fin k → M) :
    ∑ i, f i = ∑ a, if (P a).1 = (P a).2 then f (P a).1 else f (P a).1 + f (P a).2 := by
  have h1 : ∀ i, f i = ∑ a, if i = (P a).1 ∨ i = (P a).2 then f i else 0 := by
    intro i
    obtain ⟨a, ha, hu⟩ := hP i
    rw [Finset.sum_eq_single a]
    · rw [if_pos ha]
    · intro b _ hb
      rw [if_neg fun h => hb (hu b h)]
    · simp
  rw [Finset.sum_congr rfl fun i _ => h1 i, Finset.sum_comm]
  refine Finset.sum_congr rfl fun a _ => ?_
  split_ifs with h
  · rw [← Finset.sum_filter]
    have : (Finset.univ.filter fun i => i = (P a).1 ∨ i = (P a).2) = {(P a).1} := by
      ext i; simp [← h]
    rw [this, Finset.sum_singleton]
  · rw [← Finset.sum_filter]
    have : (Finset.univ.filter fun i => i = (P a).1 ∨ i = (P a).2) = {(P a).1, (P a).2} := by
      ext i; simp
    rw [this, Finset.sum_pair h]

/-- A real 2 × 2 family that contains a one-dimensional family not equal to its conjugate has the sum of both as
trace. -/
theorem double_trace {R : Fin n → Matrix (Fin 2) (Fin 2) ℝ} {D : RepArr n 1} {X : Matrix (Fin 2) (Fin 1) ℂ} (hX0 : X ≠ 0)
    (hX : ∀ g, (R g).map Complex.ofReal * X = X * D g) (hD : ¬ AreEquivalent D fun g => (D g).map star) (g : Fin n) :
    ((R g).trace : ℂ) = (D g).trace + star (D g).trace := by
  have hv : ∀ g i, (R g i 0 : ℂ) * X 0 0 + (R g i 1 : ℂ) * X 1 0 = X i 0 * D g 0 0 := by
    intro g i
    have := congrFun (congrFun (hX g) i) 0
    simpa [Matrix.mul_apply, Fin.sum_univ_two] using this
  have hv' : ∀ g i, (R g i 0 : ℂ) * star (X 0 0) + (R g i 1 : ℂ) * star (X 1 0) = star (X i 0) * star (D g 0 0) := by
    intro g i
    have := congrArg star (hv g i)
    simpa using this
  set Z : Matrix (Fin 2) (Fin 2) ℂ := !![X 0 0, star (X 0 0); X 1 0, star (X 1 0)] with hZ
  have hRZ : ∀ g, (R g).map Complex.ofReal * Z = Z * !![D g 0 0, 0; 0, star (D g 0 0)] := by
    intro g
    ext i j
    fin_cases j
    · have := hv g i
      fin_cases i <;> simpa [hZ, Matrix.mul_apply, Fin.sum_univ_two] using this
    · have := hv' g i
      fin_cases i <;> simpa [hZ, Matrix.mul_apply, Fin.sum_univ_two] using this
  have hdet : Z.det ≠ 0 := by
    intro h0
    rw [hZ, Matrix.det_fin_two_of] at h0
    refine hD ?_
    have hreal : ∀ g, D g 0 0 = star (D g 0 0) := by
      intro g
      obtain ⟨i, hi⟩ : ∃ i, X i 0 ≠ 0 := by
        by_contra hc
        push Not at hc
        refine hX0 ?_
        ext i j
        rw [Subsingleton.elim j 0]
        exact hc i
      have hprop : ∀ a, X a 0 * star (X i 0) = star (X a 0) * X i 0 := by
        intro a
        fin_cases a <;> fin_cases i <;> simp only [Fin.zero_eta, Fin.mk_one, Fin.isValue] <;> first | ring1 | linear_combination h0 | linear_combination -h0
      have e1 := hv g i
      have e2 := hv' g i
      have h2 : X i 0 * star (X i 0) * D g 0 0 = X i 0 * star (X i 0) * star (D g 0 0) := by
        linear_combination (-star (X i 0)) * e1 + X i 0 * e2 + (R g i 0 : ℂ) * hprop 0 + (R g i 1 : ℂ) * hprop 1
      exact mul_left_cancel₀ (mul_ne_zero hi (star_ne_zero.2 hi)) h2
    refine ⟨1, 1, by simp, by simp, fun g => ?_⟩
    rw [Matrix.mul_one, Matrix.one_mul]
    ext a b
    rw [Subsingleton.elim a 0, Subsingleton.elim b 0]
    exact hreal g
  have hu : IsUnit Z.det := isUnit_iff_ne_zero.2 hdet
  have h3 : (R g).map Complex.ofReal = Z * !![D g 0 0, 0; 0, star (D g 0 0)] * Z⁻¹ := by
    rw [← hRZ g, Matrix.mul_assoc, Matrix.mul_nonsing_inv _ hu, Matrix.mul_one]
  have h4 : ((R g).trace : ℂ) = ((R g).map Complex.ofReal).trace := by
    simp [Matrix.trace]
  rw [h4, h3, Matrix.trace_mul_comm, ← Matrix.mul_assoc, Matrix.nonsing_inv_mul _ hu, Matrix.one_mul]
  simp [Matrix.trace, Fin.sum_univ_two]

theorem double_trace' {d d' : ℕ} {R : Fin n → Matrix (Fin d') (Fin d') ℝ} {D : RepArr n d} (hd' : d' = 2) (hd : d = 1)
    {X : Matrix (Fin d') (Fin d) ℂ} (hX0 : X ≠ 0) (hX : ∀ g, (R g).map Complex.ofReal * X = X * D g)
    (hD : ¬ AreEquivalent D fun g => (D g).map star) (g : Fin n) :
    ((R g).trace : ℂ) = (D g).trace + star (D g).trace := by
  subst hd' hd
  exact double_trace hX0 hX hD g

/-- Real characters made from the pairs of a complete list of complex irreps. -/
theorem pair_characters (hT : IsGroupTable T) {L : List (AnyRep n)} (hL : IsCompleteIrreps T (fun _ _ => 1) L) {m : ℕ}
    {P : Fin m → Fin L.length × Fin L.length} (hP : ∀ i, ∃! a, i = (P a).1 ∨ i = (P a).2)
    (hconj : ∀ a, AreEquivalent (fun g => ((L.get (P a).1).2 g).map star) (L.get (P a).2).2) {t : Fin m → Fin n → ℝ}
    {c : Fin m → ℝ} (ht : ∀ a g, (t a g : ℂ) = if (P a).1 = (P a).2 then ((L.get (P a).1).2 g).trace else
      ((L.get (P a).1).2 g).trace + star ((L.get (P a).1).2 g).trace)
    (hc : ∀ a, c a = if (P a).1 = (P a).2 then 1 else 2) :
    (∀ a b, ∑ g, t a g * t b g = if a = b then n * c a else 0) ∧
    ∀ g h, ∑ a, t a g * t a h / c a = ((Finset.univ.filter fun x => T x g = T h x).card +
      (Finset.univ.filter fun x => T (T h x) g = x).card : ℝ) / 2 := by
  obtain ⟨e, he, he', hinv⟩ := hT.one_inv
  choose iv hiv hiv' using hinv
  obtain ⟨-, k2, k3, -⟩ := table_classes hT (fun _ _ => one_ne_zero) (fun _ _ _ => rfl) hL
  have hm : ∀ a : Fin L.length, L.get a ∈ L := fun a => List.get_mem L a
  have hstar : ∀ (a : Fin L.length) (g : Fin n), star ((L.get a).2 (iv g)).trace = ((L.get a).2 g).trace := by
    intro a g
    have h2 := hL.rep _ (hm a) g (iv g)
    rw [hiv, one_smul, proj_one (hL.rep _ (hm a)) (hL.unitary _ (hm a)) he rfl] at h2
    have h3 : (L.get a).2 g = ((L.get a).2 (iv g)).conjTranspose := by
      calc (L.get a).2 g = (L.get a).2 g * ((L.get a).2 (iv g) * ((L.get a).2 (iv g)).conjTranspose) := by
            rw [hL.unitary _ (hm a), Matrix.mul_one]
        _ = _ := by rw [← Matrix.mul_assoc, h2, Matrix.one_mul]
    rw [h3, Matrix.trace_conjTranspose]
  generalize hχ : (fun (i : Fin L.length) (g : Fin n) => ((L.get i).2 g).trace) = χ at *
  have e1 : ∀ i g, ((L.get i).2 g).trace = χ i g := fun i g => congrFun (congrFun hχ i) g
  have hcj : ∀ a g, χ (P a).2 g = star (χ (P a).1 g) := by
    intro a g
    rw [← e1, ← e1, ← AreEquivalent.trace (hconj a) g, trace_map_star]
  simp only [e1] at k2 k3 hstar ht
  have ht' : ∀ a g, (t a g : ℂ) = if (P a).1 = (P a).2 then χ (P a).1 g else χ (P a).1 g + χ (P a).2 g := by
    intro a g
    rw [ht, hcj]
  have hts : ∀ a g, (t a g : ℂ) = star (t a g : ℂ) := fun a g => by simp
  constructor
  · intro a b
    have hdis : a ≠ b → ∀ i j, (i = (P a).1 ∨ i = (P a).2) → (j = (P b).1 ∨ j = (P b).2) → i ≠ j := by
      rintro hab i j hi hj rfl
      exact hab ((hP i).unique hi hj)
    have h1 : ((∑ g, t a g * t b g : ℝ) : ℂ) = ∑ g, (t a g : ℂ) * star (t b g : ℂ) := by
      push_cast
      exact Finset.sum_congr rfl fun g _ => by rw [← hts]
    have h2 : ((∑ g, t a g * t b g : ℝ) : ℂ) = ((if a = b then n * c a else 0 : ℝ) : ℂ) := by
      rw [h1]
      by_cases hab : a = b
      · subst hab
        rw [if_pos rfl, hc]
        by_cases hp : (P a).1 = (P a).2
        · simp only [ht', if_pos hp, k2]
          simp
        · simp only [ht', if_neg hp, star_add, add_mul, mul_add, Finset.sum_add_distrib, k2, if_neg (Ne.symm hp)]
          simp
          ring
      · rw [if_neg hab]
        have h11 := hdis hab _ _ (.inl rfl) (.inl rfl)
        have h12 := hdis hab _ _ (.inl rfl) (.inr rfl)
        have h21 := hdis hab _ _ (.inr rfl) (.inl rfl)
        have h22 := hdis hab _ _ (.inr rfl) (.inr rfl)
        simp only [ht']
        split_ifs <;> simp only [star_add, add_mul, mul_add, Finset.sum_add_distrib, k2, h11, h12, h21, h22, if_false,
          add_zero, Complex.ofReal_zero]
    exact_mod_cast h2
  · intro g h
    have hA : ∑ i, χ i g * star (χ i h) = ((Finset.univ.filter fun x => T x g = T h x).card : ℂ) := by
      rw [k3 g h]
      simp
    have hB : ∑ i, χ i g * χ i h = ((Finset.univ.filter fun x => T (T h x) g = x).card : ℂ) := by
      have h5 := k3 g (iv h)
      simp only [hstar, div_one] at h5
      rw [h5, ← Finset.sum_filter, Finset.sum_const, nsmul_eq_mul, mul_one]
      congr 2
      refine Finset.filter_congr fun x _ => ?_
      constructor
      · intro h6
        rw [hT.assoc, h6, ← hT.assoc, hiv, he]
      · intro h6
        apply table_left_cancel hT (k := h)
        rw [← hT.assoc, h6, ← hT.assoc, hiv, he]
    have h1 : ((∑ a, t a g * t a h / c a : ℝ) : ℂ) = (∑ i, χ i g * star (χ i h) + ∑ i, χ i g * χ i h) / 2 := by
      rw [sum_pairs hP, sum_pairs hP, ← Finset.sum_add_distrib, Finset.sum_div]
      push_cast
      refine Finset.sum_congr rfl fun a _ => ?_
      rw [hc]
      by_cases hp : (P a).1 = (P a).2
      · have hr : star (χ (P a).1 h) = χ (P a).1 h := by
          rw [← hcj, ← hp]
        simp only [ht', if_pos hp, hr]
        push_cast
        ring
      · simp only [ht', if_neg hp, hcj, star_star]
        push_cast
        ring
    rw [hA, hB] at h1
    refine Complex.ofReal_injective ?_
    rw [h1]
    push_cast
    rfl

end Spgrep
