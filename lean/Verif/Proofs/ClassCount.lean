/-
Second orthogonality relation of projective characters; the number of projective irreps is the number of regular
conjugacy classes.
-/
import Verif.Proofs.RepCount
import Mathlib.GroupTheory.GroupAction.ConjAct
import Mathlib.GroupTheory.GroupAction.Quotient
import Mathlib.GroupTheory.GroupAction.SubMulAction

set_option linter.unusedSectionVars false

namespace Spgrep

open Spec Matrix

variable {G : Type*} [Group G] [Fintype G] [DecidableEq G]
variable {μ : G → G → ℂ} {A : Type*} [Fintype A] [DecidableEq A] {d : A → ℕ}
  {D : ∀ a : A, G → Matrix (Fin (d a)) (Fin (d a)) ℂ}

section
variable (hμ : ∀ g h, μ g h ≠ 0) (hF : IrrepFamily μ D) (hu : ∀ a, IsUnitaryRep (D a))
include hμ hF hu

theorem family_schur (a b : A) (i j : Fin (d a)) (k l : Fin (d b)) :
    ∑ g, D a g i j * star (D b g k l) =
      if (⟨a, i, j⟩ : Σ a, Fin (d a) × Fin (d a)) = ⟨b, k, l⟩ then (Fintype.card G : ℂ) / (d a : ℂ) else 0 := by
  have e : ∀ g, star (D b g k l) = (D b g)⁻¹ l k := fun g => by rw [IsUnitaryRep.inv (hu b)]; rfl
  simp only [e]
  by_cases hab : a = b
  · subst hab
    rw [schur_orthogonality_self hμ (hF.proj a) (hF.irr a) (hF.unit a) i j l k, Fintype.card_fin]
    refine if_congr ?_ rfl rfl
    constructor
    · rintro ⟨rfl, rfl⟩; rfl
    · intro h
      simpa using h
  · rw [schur_orthogonality_ne hμ (hF.proj a) (hF.proj b) (hF.irr a) (hF.irr b) (hF.unit b)
      (fun h => hab (hF.ineq _ _ h)) i j l k, if_neg]
    intro h
    exact hab (congrArg Sigma.fst h)

/-- Completeness of the matrix elements. -/
theorem family_dual (hs : ∑ a, d a ^ 2 = Fintype.card G) (g h : G) :
    ∑ a, (d a : ℂ) / Fintype.card G * (D a g * (D a h).conjTranspose).trace = if g = h then 1 else 0 := by
  let P : Matrix (Σ a, Fin (d a) × Fin (d a)) G ℂ := fun x g => D x.1 g x.2.1 x.2.2
  let Q : Matrix G (Σ a, Fin (d a) × Fin (d a)) ℂ := fun g x => (d x.1 : ℂ) / Fintype.card G * star (D x.1 g x.2.1 x.2.2)
  have hG : (Fintype.card G : ℂ) ≠ 0 := card_ne_zero'
  have hPQ : P * Q = 1 := by
    ext ⟨a, i, j⟩ ⟨b, k, l⟩
    rw [Matrix.mul_apply, Matrix.one_apply]
    have h1 := family_schur hμ hF hu a b i j k l
    have hd : (d b : ℂ) ≠ 0 := by
      have := (hF.irr b).1
      have := Fin.pos_iff_nonempty.2 this
      exact_mod_cast this.ne'
    calc ∑ g, P ⟨a, i, j⟩ g * Q g ⟨b, k, l⟩ = (d b : ℂ) / Fintype.card G * ∑ g, D a g i j * star (D b g k l) := by
          rw [Finset.mul_sum]
          refine Finset.sum_congr rfl fun g _ => ?_
          simp only [P, Q]
          ring
      _ = _ := by
          rw [h1]
          split_ifs with h2
          · have : d a = d b := congrArg d (congrArg Sigma.fst h2)
            rw [this]
            field_simp
          · simp
  have hcard : Fintype.card (Σ a, Fin (d a) × Fin (d a)) = Fintype.card G := by
    rw [← hs]
    simp [Fintype.card_sigma, sq]
  have hQP : Q * P = 1 := (Matrix.mul_eq_one_comm_of_equiv (Fintype.equivOfCardEq hcard)).1 hPQ
  have h2 := congrFun (congrFun hQP h) g
  rw [Matrix.mul_apply, Matrix.one_apply, Fintype.sum_sigma] at h2
  rw [show (if g = h then (1 : ℂ) else 0) = if h = g then 1 else 0 by simp only [eq_comm], ← h2]
  refine Finset.sum_congr rfl fun a _ => ?_
  rw [Fintype.sum_prod_type, Matrix.trace, Finset.mul_sum]
  refine Finset.sum_congr rfl fun i _ => ?_
  rw [Matrix.diag_apply, Matrix.mul_apply, Finset.mul_sum]
  refine Finset.sum_congr rfl fun j _ => ?_
  simp only [P, Q, Matrix.conjTranspose_apply]
  ring

omit [DecidableEq G] in
/-- The average of the conjugates of a matrix. -/
theorem family_average (a : A) (M : Matrix (Fin (d a)) (Fin (d a)) ℂ) :
    ∑ x, D a x * M * (D a x).conjTranspose = ((Fintype.card G : ℂ) / (d a : ℂ) * M.trace) • (1 : Matrix _ _ ℂ) := by
  ext p q
  rw [Matrix.sum_apply, Matrix.smul_apply, Matrix.one_apply, smul_eq_mul]
  have h1 : ∀ x, (D a x * M * (D a x).conjTranspose) p q = ∑ i, ∑ j, M j i * (D a x p j * star (D a x q i)) := by
    intro x
    rw [Matrix.mul_apply]
    refine Finset.sum_congr rfl fun i _ => ?_
    rw [Matrix.mul_apply, Finset.sum_mul]
    refine Finset.sum_congr rfl fun j _ => ?_
    rw [Matrix.conjTranspose_apply]
    ring
  simp only [h1]
  rw [Finset.sum_comm]
  have h2 : ∀ i, (∑ x, ∑ j, M j i * (D a x p j * star (D a x q i))) =
      if p = q then M i i * ((Fintype.card G : ℂ) / (d a : ℂ)) else 0 := by
    intro i
    rw [Finset.sum_comm]
    simp only [← Finset.mul_sum]
    classical
    rw [Finset.sum_eq_single i]
    · have := family_schur hμ hF hu a a p i q i
      rw [this]
      by_cases hpq : p = q
      · subst hpq; simp
      · rw [if_neg hpq, if_neg, mul_zero]
        intro h
        simp at h
        exact hpq h
    · intro j _ hj
      have := family_schur hμ hF hu a a p j q i
      rw [this, if_neg, mul_zero]
      intro h
      simp at h
      exact hj h.2
    · intro h; exact absurd (Finset.mem_univ _) h
  simp only [h2]
  by_cases hpq : p = q
  · simp only [hpq, if_true, mul_one, Matrix.trace, Matrix.diag_apply]
    rw [Finset.mul_sum]
    exact Finset.sum_congr rfl fun i _ => mul_comm _ _
  · simp [hpq]

omit [Fintype A] [DecidableEq A] [Fintype G] [DecidableEq G] in
/-- Conjugates in a projective representation. -/
theorem family_conj (a : A) (x g : G) :
    D a x * D a g * (D a x).conjTranspose = (μ x g / μ (x * g * x⁻¹) x) • D a (x * g * x⁻¹) := by
  have h1 := hF.proj a x g
  have h2 := hF.proj a (x * g * x⁻¹) x
  have h3 : x * g * x⁻¹ * x = x * g := by group
  dsimp only at h1 h2
  rw [h3] at h2
  rw [h1]
  have h4 : D a (x * g) = (μ (x * g * x⁻¹) x)⁻¹ • (D a (x * g * x⁻¹) * D a x) := by
    rw [h2, smul_smul, inv_mul_cancel₀ (hμ _ _), one_smul]
  rw [h4, smul_smul, Matrix.smul_mul, Matrix.mul_assoc, hu a x, Matrix.mul_one, div_eq_mul_inv]

/-- The second orthogonality relation. -/
theorem family_columns (hs : ∑ a, d a ^ 2 = Fintype.card G) (g h : G) :
    ∑ a, (D a g).trace * star (D a h).trace = ∑ x, if x * g = h * x then μ x g / μ h x else 0 := by
  have hG : (Fintype.card G : ℂ) ≠ 0 := card_ne_zero'
  have h1 : ∀ a, (D a g).trace * star (D a h).trace = ∑ x, μ x g / μ (x * g * x⁻¹) x *
      ((d a : ℂ) / Fintype.card G * (D a (x * g * x⁻¹) * (D a h).conjTranspose).trace) := by
    intro a
    have hd : (d a : ℂ) ≠ 0 := by
      have := Fin.pos_iff_nonempty.2 (hF.irr a).1
      exact_mod_cast this.ne'
    have h2 := congrArg (fun X => (d a : ℂ) / Fintype.card G * (X * (D a h).conjTranspose).trace)
      (family_average hμ hF hu a (D a g))
    rw [Matrix.smul_mul, Matrix.one_mul, Matrix.trace_smul, Matrix.trace_conjTranspose, smul_eq_mul] at h2
    have h3 : (d a : ℂ) / Fintype.card G * ((Fintype.card G : ℂ) / (d a : ℂ) * (D a g).trace * star (D a h).trace) =
        (D a g).trace * star (D a h).trace := by
      field_simp
    rw [h3] at h2
    rw [← h2, Finset.sum_mul, Matrix.trace_sum, Finset.mul_sum]
    refine Finset.sum_congr rfl fun x _ => ?_
    rw [family_conj hμ hF hu, Matrix.smul_mul, Matrix.trace_smul, smul_eq_mul]
    ring
  simp only [h1]
  rw [Finset.sum_comm]
  refine Finset.sum_congr rfl fun x _ => ?_
  rw [← Finset.mul_sum, family_dual hμ hF hu hs]
  by_cases h4 : x * g = h * x
  · have h5 : x * g * x⁻¹ = h := by rw [h4]; group
    rw [if_pos h4, if_pos h5, mul_one, h5]
  · have h5 : ¬ x * g * x⁻¹ = h := fun h6 => h4 (by rw [← h6]; group)
    rw [if_neg h4, if_neg h5, mul_zero]

/-- The element `g` commutes, in the twisted group algebra, with its centralizer. -/
def RegularElt (μ : G → G → ℂ) (g : G) : Prop := ∀ x, x * g = g * x → μ x g = μ g x

omit [Fintype A] [DecidableEq A] [Fintype G] [DecidableEq G] in
theorem phi_mul (a : A) {g x y : G} (hx : x * g = g * x) (hy : y * g = g * y) :
    μ (x * y) g / μ g (x * y) = (μ x g / μ g x) * (μ y g / μ g y) := by
  have e : ∀ {x}, x * g = g * x → x * g * x⁻¹ = g := fun h => by rw [h]; group
  have hxy : (x * y) * g = g * (x * y) := by rw [mul_assoc, hy, ← mul_assoc, hx, mul_assoc]
  have h1 := family_conj hμ hF hu a x g
  have h2 := family_conj hμ hF hu a y g
  have h3 := family_conj hμ hF hu a (x * y) g
  rw [e hx] at h1
  rw [e hy] at h2
  rw [e hxy] at h3
  have hDxy : D a (x * y) = (μ x y)⁻¹ • (D a x * D a y) := by
    rw [show D a x * D a y = μ x y • D a (x * y) from hF.proj a x y, smul_smul, inv_mul_cancel₀ (hμ _ _), one_smul]
  have hg0 : D a g ≠ 0 := by
    intro h0
    have := (hF.irr a).1
    have h4 := hF.unit a g
    rw [h0] at h4
    exact not_isUnit_zero h4
  -- `star μ * μ = 1` for unitary representations
  have hn : (μ x y)⁻¹ * star (μ x y)⁻¹ = 1 := by
    have h4 := hu a (x * y)
    rw [hDxy, Matrix.conjTranspose_smul, Matrix.conjTranspose_mul, Matrix.smul_mul, Matrix.mul_smul, smul_smul,
      Matrix.mul_assoc, ← Matrix.mul_assoc (D a y), hu a y, Matrix.one_mul, hu a x] at h4
    have := (hF.irr a).1
    obtain ⟨i⟩ := this
    have h5 := congrFun (congrFun h4 i) i
    simpa using h5
  rw [hDxy, Matrix.conjTranspose_smul, Matrix.conjTranspose_mul, Matrix.smul_mul, Matrix.smul_mul, Matrix.mul_smul,
    smul_smul, hn, one_smul] at h3
  have h4 : D a x * D a y * D a g * ((D a y).conjTranspose * (D a x).conjTranspose) =
      D a x * (D a y * D a g * (D a y).conjTranspose) * (D a x).conjTranspose := by simp only [Matrix.mul_assoc]
  rw [h4, h2, Matrix.mul_smul, Matrix.smul_mul, h1, smul_smul] at h3
  have h5 := smul_left_injective ℂ hg0 h3
  rw [← h5, mul_comm]

open Classical in
/-- The diagonal of the second orthogonality relation. -/
theorem family_diag [Nonempty A] (g : G) :
    (∑ x, if x * g = g * x then μ x g / μ g x else 0) =
      if RegularElt μ g then ((Finset.univ.filter fun x => x * g = g * x).card : ℂ) else 0 := by
  obtain ⟨a⟩ := ‹Nonempty A›
  split_ifs with hr
  · rw [Finset.card_filter, Nat.cast_sum]
    refine Finset.sum_congr rfl fun x _ => ?_
    split_ifs with hx
    · rw [hr x hx, div_self (hμ _ _), Nat.cast_one]
    · rw [Nat.cast_zero]
  · unfold RegularElt at hr
    push Not at hr
    obtain ⟨y, hy, hne⟩ := hr
    have hφ : μ y g / μ g y ≠ 1 := fun h => hne (by rwa [div_eq_one_iff_eq (hμ _ _)] at h)
    have key : (μ y g / μ g y) * (∑ x, if x * g = g * x then μ x g / μ g x else 0) =
        ∑ x, if x * g = g * x then μ x g / μ g x else 0 := by
      rw [Finset.mul_sum]
      refine Fintype.sum_equiv (Equiv.mulLeft y) _ _ fun x => ?_
      have hiff : (y * x) * g = g * (y * x) ↔ x * g = g * x := by
        constructor
        · intro h
          have : y * (x * g) = y * (g * x) := by rw [← mul_assoc, h, ← mul_assoc, ← hy, mul_assoc]
          exact mul_left_cancel this
        · intro h
          rw [mul_assoc, h, ← mul_assoc, hy, mul_assoc]
      change _ = if (y * x) * g = g * (y * x) then μ (y * x) g / μ g (y * x) else 0
      by_cases hx : x * g = g * x
      · rw [if_pos hx, if_pos (hiff.2 hx), phi_mul hμ hF hu a hy hx]
      · rw [if_neg hx, if_neg (fun h => hx (hiff.1 h)), mul_zero]
    have h2 : (μ y g / μ g y - 1) * (∑ x, if x * g = g * x then μ x g / μ g x else 0) = 0 := by
      rw [sub_mul, key, one_mul, sub_self]
    exact (mul_eq_zero.1 h2).resolve_left (sub_ne_zero.2 hφ)

/-- An element is regular iff some character does not vanish on it. -/
theorem regular_iff [Nonempty A] (hs : ∑ a, d a ^ 2 = Fintype.card G) (g : G) :
    RegularElt μ g ↔ ∃ a, (D a g).trace ≠ 0 := by
  classical
  have h1 := family_columns hμ hF hu hs g g
  rw [family_diag hμ hF hu] at h1
  constructor
  · intro hr
    by_contra hno
    push Not at hno
    rw [if_pos hr] at h1
    simp only [hno, zero_mul, Finset.sum_const_zero] at h1
    have h2 : (Finset.univ.filter fun x => x * g = g * x).card ≠ 0 :=
      Finset.card_ne_zero.2 ⟨1, by simp⟩
    exact h2 (by exact_mod_cast h1.symm)
  · rintro ⟨a, ha⟩
    by_contra hr
    rw [if_neg hr] at h1
    have h2 : ∑ a, (‖(D a g).trace‖ ^ 2 : ℝ) = 0 := by
      have h3 : ((∑ a, (‖(D a g).trace‖ ^ 2 : ℝ) : ℝ) : ℂ) = 0 := by
        rw [← h1]
        push_cast
        refine Finset.sum_congr rfl fun a _ => ?_
        rw [← Complex.conj_mul', mul_comm]
        rfl
      exact_mod_cast h3
    have h3 := (Finset.sum_eq_zero_iff_of_nonneg fun a _ => sq_nonneg _).1 h2 a (Finset.mem_univ _)
    exact ha (norm_eq_zero.1 (pow_eq_zero_iff two_ne_zero |>.1 h3))

theorem regular_conj [Nonempty A] (hs : ∑ a, d a ^ 2 = Fintype.card G) {g : G} (x : G) (hg : RegularElt μ g) :
    RegularElt μ (x * g * x⁻¹) := by
  rw [regular_iff hμ hF hu hs] at hg ⊢
  obtain ⟨a, ha⟩ := hg
  refine ⟨a, fun h0 => ha ?_⟩
  have h1 := congrArg Matrix.trace (family_conj hμ hF hu a x g)
  rw [Matrix.trace_smul, h0, smul_zero, Matrix.mul_assoc, Matrix.trace_mul_comm, Matrix.mul_assoc,
    IsUnitaryRep.mul_left (hu a), Matrix.mul_one] at h1
  exact h1

/-- The number of irreps is the number of classes of regular elements. -/
theorem family_classes [Nonempty A] (hs : ∑ a, d a ^ 2 = Fintype.card G) :
    ∃ r : A → G, (∀ a, RegularElt μ (r a)) ∧ ∀ g, RegularElt μ g → ∃! a, ∃ x, x * r a = g * x := by
  classical
  let R : SubMulAction (ConjAct G) G :=
    { carrier := {g | RegularElt μ g}
      smul_mem' := fun c g hg => by
        rw [ConjAct.smul_def]
        exact regular_conj hμ hF hu hs _ hg }
  have hburn := MulAction.sum_card_fixedBy_eq_card_orbits_mul_card_group (ConjAct G) R
  have hGc : Fintype.card (ConjAct G) = Fintype.card G := rfl
  have hcount : (∑ c : ConjAct G, Fintype.card (MulAction.fixedBy R c)) =
      ∑ g : G, if RegularElt μ g then (Finset.univ.filter fun x : G => x * g = g * x).card else 0 := by
    have h1 : ∀ c : ConjAct G, Fintype.card (MulAction.fixedBy R c) =
        ∑ g : G, if RegularElt μ g ∧ ConjAct.ofConjAct c * g = g * ConjAct.ofConjAct c then 1 else 0 := by
      intro c
      rw [← Finset.card_filter, ← Fintype.card_subtype]
      refine Fintype.card_congr ⟨fun g => ⟨g.1.1, g.1.2, ?_⟩, fun g => ⟨⟨g.1, g.2.1⟩, ?_⟩, fun g => rfl, fun g => rfl⟩
      · have h2 := congrArg Subtype.val g.2
        rw [SubMulAction.val_smul, ConjAct.smul_def] at h2
        exact mul_inv_eq_iff_eq_mul.1 h2
      · refine Subtype.ext ?_
        rw [SubMulAction.val_smul, ConjAct.smul_def]
        exact mul_inv_eq_iff_eq_mul.2 g.2.2
    simp only [h1]
    rw [Finset.sum_comm]
    refine Finset.sum_congr rfl fun g _ => ?_
    split_ifs with hr
    · rw [Finset.card_filter]
      simp only [hr, true_and]
      rfl
    · simp [hr]
  have hchar : ((∑ g : G, if RegularElt μ g then (Finset.univ.filter fun x : G => x * g = g * x).card else 0 : ℕ) : ℂ) =
      Fintype.card A * Fintype.card G := by
    push_cast
    have h1 : ∀ g : G, (if RegularElt μ g then (((Finset.univ.filter fun x : G => x * g = g * x).card : ℕ) : ℂ) else 0) =
        ∑ a, (D a g).trace * star (D a g).trace := by
      intro g
      rw [family_columns hμ hF hu hs, family_diag hμ hF hu]
    simp only [h1]
    rw [Finset.sum_comm]
    have h2 : ∀ a, ∑ g, (D a g).trace * star (D a g).trace = (Fintype.card G : ℂ) := fun a =>
      (char_orthogonality hμ (hF.proj a) (hF.proj a) (hu a) (hF.irr a) (hF.irr a) (hu a)).1 (AreEquivalent.refl _)
    simp only [h2, Finset.sum_const, Finset.card_univ, nsmul_eq_mul]
  have hG : 0 < Fintype.card G := Fintype.card_pos
  have hcard : Fintype.card A = Fintype.card (MulAction.orbitRel.Quotient (ConjAct G) R) := by
    have h1 : Fintype.card A * Fintype.card G = Fintype.card (MulAction.orbitRel.Quotient (ConjAct G) R) * Fintype.card G := by
      rw [← hcount] at hchar
      rw [hburn] at hchar
      rw [hGc] at hchar
      exact_mod_cast hchar.symm
    exact Nat.eq_of_mul_eq_mul_right hG h1
  let e := Fintype.equivOfCardEq hcard
  refine ⟨fun a => ((e a).out : R).1, fun a => (e a).out.2, fun g hg => ?_⟩
  have key : ∀ a, (∃ x, x * ((e a).out : R).1 = g * x) ↔ e a = Quotient.mk'' (⟨g, hg⟩ : R) := by
    intro a
    have h1 : e a = Quotient.mk'' (⟨g, hg⟩ : R) ↔ MulAction.orbitRel (ConjAct G) R (⟨g, hg⟩ : R) (e a).out := by
      conv_lhs => rw [← Quotient.out_eq' (e a)]
      rw [Quotient.eq'']
      exact ⟨fun h => (MulAction.orbitRel (ConjAct G) R).symm h, fun h => (MulAction.orbitRel (ConjAct G) R).symm h⟩
    rw [h1, MulAction.orbitRel_apply]
    constructor
    · rintro ⟨x, hx⟩
      refine ⟨ConjAct.toConjAct x, Subtype.ext ?_⟩
      dsimp only
      rw [SubMulAction.val_smul, ConjAct.smul_def, ConjAct.ofConjAct_toConjAct]
      exact mul_inv_eq_iff_eq_mul.2 hx
    · rintro ⟨c, hc⟩
      have h2 := congrArg Subtype.val hc
      dsimp only at h2
      rw [SubMulAction.val_smul, ConjAct.smul_def] at h2
      exact ⟨ConjAct.ofConjAct c, mul_inv_eq_iff_eq_mul.1 h2⟩
  refine ⟨e.symm (Quotient.mk'' ⟨g, hg⟩), ?_, fun a ha => ?_⟩
  · exact (key _).2 (e.apply_symm_apply _)
  · rw [← (key a).1 ha, e.symm_apply_apply]

end

end Spgrep
