/-
Decomposition of arbitrary (projective) representations into the members of a complete list of irreps.
-/
import Verif.Props.Classes
import Verif.Spec.BlockSum

namespace Spgrep

open Spec Matrix Module

variable {n : ℕ} {T : Fin n → Fin n → Fin n} {μ : Fin n → Fin n → ℂ}

theorem group_conj {G : Type*} [Group G] (x g : G) : ∃ h0, x * g = h0 * x ∧ ∀ h, x * g = h * x → h = h0 :=
  ⟨x * g * x⁻¹, (inv_mul_cancel_right _ _).symm, fun _ hh => eq_mul_inv_of_mul_eq hh.symm⟩

section
variable {ι : Type*} [Fintype ι] [DecidableEq ι]

/-- The multiplication law of invertible matrices makes the factors a cocycle. -/
theorem cocycle_of_units (hT : IsGroupTable T) [Nonempty ι] {D : Fin n → Matrix ι ι ℂ} (hD : IsProjRep T μ D)
    (hu : ∀ g, IsUnit (D g)) : IsCocycle T μ := by
  intro i j k
  have h1 : D i * (D j * D k) = (μ i (T j k) * μ j k) • D (T i (T j k)) := by
    rw [hD j k, Matrix.mul_smul, hD, smul_smul, mul_comm]
  have h2 : D i * D j * D k = (μ (T i j) k * μ i j) • D (T (T i j) k) := by
    rw [hD i j, Matrix.smul_mul, hD, smul_smul, mul_comm]
  rw [Matrix.mul_assoc, h1, hT.assoc] at h2
  obtain ⟨v, hv⟩ := hu (T i (T j k))
  have h3 := congrArg (fun M => M * (v⁻¹ : (Matrix ι ι ℂ)ˣ).1) h2
  simp only [Matrix.smul_mul, ← hv, Units.mul_inv] at h3
  obtain ⟨x⟩ := ‹Nonempty ι›
  have := congrFun (congrFun h3 x) x
  simpa using this

/-- The character of a representation is the sum of the characters of the irreps with multiplicities. -/
theorem char_expand (hT : IsGroupTable T) (hμ : ∀ g h, μ g h ≠ 0) (hc : IsCocycle T μ) {L : List (AnyRep n)}
    (hL : IsCompleteIrreps T μ L) {D : Fin n → Matrix ι ι ℂ} (hD : IsProjRep T μ D) (hu : ∀ g, IsUnit (D g)) (g : Fin n) :
    (D g).trace = ∑ a : Fin L.length, (finrank ℂ (homSub D (L.get a).2) : ℂ) * ((L.get a).2 g).trace := by
  obtain ⟨-, -, h2, -⟩ := table_classes hT hμ hc hL
  have hn : (n : ℂ) ≠ 0 := by
    have : 0 < n := Nat.lt_of_le_of_lt (Nat.zero_le _) g.2
    exact_mod_cast this.ne'
  apply mul_left_cancel₀ hn
  have hconj : ∀ h x, T x g = T h x → (D h).trace * (μ x g / μ h x) = (D g).trace := by
    intro h x hx
    obtain ⟨v, hv⟩ := hu x
    have h1 : D x * D g = (μ x g / μ h x) • (D h * D x) := by
      rw [hD x g, hD h x, hx, smul_smul, div_mul_cancel₀ _ (hμ h x)]
    have h3 : D x * D g * (v⁻¹ : (Matrix ι ι ℂ)ˣ).1 = (μ x g / μ h x) • D h := by
      rw [h1, Matrix.smul_mul, Matrix.mul_assoc, ← hv, Units.mul_inv, Matrix.mul_one]
    have h4 := congrArg Matrix.trace h3
    rw [Matrix.trace_mul_comm, ← Matrix.mul_assoc, ← hv, Units.inv_mul, Matrix.one_mul, Matrix.trace_smul, smul_eq_mul] at h4
    rw [h4, mul_comm]
  have hm : ∀ a : Fin L.length, (n : ℂ) * (finrank ℂ (homSub D (L.get a).2) : ℂ) =
      ∑ h, (D h).trace * star ((L.get a).2 h).trace := fun a =>
    (table_sum_char_conj hT hμ hD (hL.rep _ (List.get_mem L a)) (hL.unitary _ (List.get_mem L a))).symm
  calc (n : ℂ) * (D g).trace = ∑ x : Fin n, (D g).trace := by simp
    _ = ∑ h, (D h).trace * ∑ x, if T x g = T h x then μ x g / μ h x else 0 := by
        simp_rw [Finset.mul_sum]
        rw [Finset.sum_comm]
        refine Finset.sum_congr rfl fun x _ => ?_
        obtain ⟨h0, hh0, huniq⟩ : ∃ h0, T x g = T h0 x ∧ ∀ h, T x g = T h x → h = h0 := by
          let _ := TG.group hT
          exact group_conj (G := TG T) x g
        rw [Finset.sum_eq_single h0]
        · rw [if_pos hh0, hconj h0 x hh0]
        · intro h _ hne
          rw [if_neg fun hh => hne (huniq h hh), mul_zero]
        · exact fun h => absurd (Finset.mem_univ _) h
    _ = ∑ h, (D h).trace * ∑ a : Fin L.length, ((L.get a).2 g).trace * star ((L.get a).2 h).trace := by
        refine Finset.sum_congr rfl fun h _ => ?_
        rw [h2 g h]
    _ = _ := by
        rw [Finset.mul_sum]
        simp_rw [Finset.mul_sum]
        rw [Finset.sum_comm]
        refine Finset.sum_congr rfl fun a _ => ?_
        rw [← mul_assoc, hm a, Finset.sum_mul]
        exact Finset.sum_congr rfl fun h _ => by ring

theorem units_at_one {D : Fin n → Matrix ι ι ℂ} (hD : IsProjRep T μ D) (hu : ∀ g, IsUnit (D g)) {e : Fin n} (he : T e e = e) :
    D e = μ e e • 1 := by
  obtain ⟨v, hv⟩ := hu e
  have h1 := hD e e
  rw [he] at h1
  have h2 := congrArg (fun M => M * (v⁻¹ : (Matrix ι ι ℂ)ˣ).1) h1
  simpa only [Matrix.smul_mul, ← hv, Matrix.mul_assoc, Units.mul_inv, Matrix.mul_one] using h2

/-- The dimensions of the irreps with multiplicities add up. -/
theorem dim_expand (hT : IsGroupTable T) (hμ : ∀ g h, μ g h ≠ 0) (hc : IsCocycle T μ) {L : List (AnyRep n)}
    (hL : IsCompleteIrreps T μ L) {D : Fin n → Matrix ι ι ℂ} (hD : IsProjRep T μ D) (hu : ∀ g, IsUnit (D g)) :
    ∑ a : Fin L.length, finrank ℂ (homSub D (L.get a).2) * (L.get a).1 = Fintype.card ι := by
  obtain ⟨e, he, -⟩ := hT.one_inv
  have h1 := char_expand hT hμ hc hL hD hu e
  rw [units_at_one hD hu (he e), Matrix.trace_smul, Matrix.trace_one, smul_eq_mul] at h1
  have h2 : ∀ a : Fin L.length, ((L.get a).2 e).trace = μ e e * (L.get a).1 := fun a => by
    have := congrArg Matrix.trace (units_at_one (hL.rep _ (List.get_mem L a))
      (IsUnitaryRep.isUnit (hL.unitary _ (List.get_mem L a))) (he e))
    rw [Matrix.trace_smul, Matrix.trace_one, Fintype.card_fin, smul_eq_mul] at this
    exact this
  simp_rw [h2] at h1
  have h3 : μ e e * (Fintype.card ι : ℂ) = μ e e * ((∑ a : Fin L.length, finrank ℂ (homSub D (L.get a).2) * (L.get a).1 : ℕ) : ℂ) := by
    rw [h1]
    push_cast
    rw [Finset.mul_sum]
    exact Finset.sum_congr rfl fun a _ => by ring
  exact_mod_cast (mul_left_cancel₀ (hμ e e) h3).symm

/-- A representation is equivalent to the direct sum of the irreps with multiplicities. -/
theorem equiv_blockSum (hT : IsGroupTable T) (hμ : ∀ g h, μ g h ≠ 0) (hc : IsCocycle T μ) {L : List (AnyRep n)}
    (hL : IsCompleteIrreps T μ L) {D : Fin n → Matrix ι ι ℂ} (hD : IsProjRep T μ D) (hu : ∀ g, IsUnit (D g)) :
    AreEquivalent D (blockSum (fun a : Fin L.length => finrank ℂ (homSub D (L.get a).2)) fun a => (L.get a).2) := by
  set m : Fin L.length → ℕ := fun a => finrank ℂ (homSub D (L.get a).2) with hm
  have hmem : ∀ a : Fin L.length, L.get a ∈ L := fun a => List.get_mem L a
  have hn : (n : ℂ) ≠ 0 := by
    obtain ⟨e, -⟩ := hT.one_inv
    have : 0 < n := Nat.lt_of_le_of_lt (Nat.zero_le _) e.2
    exact_mod_cast this.ne'
  let B : ∀ a : Fin L.length, Basis (Fin (m a)) ℂ (homSub D (L.get a).2) := fun a => finBasis ℂ _
  let M : Matrix ι (Σ a : Fin L.length, Fin (m a) × Fin (L.get a).1) ℂ := fun x y => (B y.1 y.2.1).1 x y.2.2
  have hB : ∀ a i g, D g * (B a i).1 = (B a i).1 * (L.get a).2 g := fun a i g => (B a i).2 g
  have hmul : ∀ g, D g * M = M * blockSum m (fun a => (L.get a).2) g := by
    intro g
    ext x ⟨a, i, j⟩
    have h1 := congrFun (congrFun (hB a i g) x) j
    have h2 : (D g * M) x ⟨a, i, j⟩ = (D g * (B a i).1) x j := rfl
    rw [h2, h1, Matrix.mul_apply, Matrix.mul_apply, Fintype.sum_sigma, Finset.sum_eq_single a]
    · rw [Fintype.sum_prod_type, Finset.sum_eq_single i]
      · refine Finset.sum_congr rfl fun l _ => ?_
        rw [blockSum, Matrix.blockDiagonal'_apply_eq]
        simp [M]
      · intro i' _ hne
        refine Finset.sum_eq_zero fun l _ => ?_
        rw [blockSum, Matrix.blockDiagonal'_apply_eq]
        simp [hne]
      · exact fun h => absurd (Finset.mem_univ _) h
    · intro b _ hne
      refine Finset.sum_eq_zero fun y _ => ?_
      rw [blockSum, Matrix.blockDiagonal'_apply_ne _ _ _ hne, mul_zero]
    · exact fun h => absurd (Finset.mem_univ _) h
  have hneq : ∀ a b : Fin L.length, a ≠ b → ¬ AreEquivalent (L.get a).2 (L.get b).2 := by
    intro a b hab h
    have hd := List.pairwise_iff_get.1 hL.inequiv
    rcases lt_or_gt_of_ne hab with h1 | h1
    · exact hd a b h1 h
    · exact hd b a h1 (AreEquivalent.symm h)
  -- the matrix units of the group algebra
  have hunit : ∀ (a : Fin L.length) (j l : Fin (L.get a).1) (x : ι) (y : Σ a : Fin L.length, Fin (m a) × Fin (L.get a).1),
      ∑ g, star ((L.get a).2 g j l) * (D g * M) x y =
        if h : y.1 = a then (if (h ▸ y.2.2 : Fin (L.get a).1) = l then (n : ℂ) / (L.get a).1 * M x ⟨y.1, y.2.1, h ▸ j⟩ else 0)
          else 0 := by
    rintro a j l x ⟨b, i, l'⟩
    have h2 : ∀ g, (D g * M) x ⟨b, i, l'⟩ = ∑ j', (B b i).1 x j' * (L.get b).2 g j' l' := fun g => by
      have h1 := congrFun (congrFun (hB b i g) x) l'
      rw [Matrix.mul_apply (M := (B b i).1)] at h1
      exact h1
    simp_rw [h2, Finset.mul_sum]
    rw [Finset.sum_comm]
    have h3 : ∀ j', ∑ g, star ((L.get a).2 g j l) * ((B b i).1 x j' * (L.get b).2 g j' l') =
        (B b i).1 x j' * ∑ g, (L.get b).2 g j' l' * star ((L.get a).2 g j l) := fun j' => by
      rw [Finset.mul_sum]
      exact Finset.sum_congr rfl fun g _ => by ring
    simp_rw [h3]
    by_cases hab : b = a
    · subst hab
      simp only [dif_pos]
      simp_rw [table_schur_orthogonality_self hT hμ (hL.rep _ (hmem b)) (hL.irred _ (hmem b)) (hL.unitary _ (hmem b)),
        Fintype.card_fin]
      by_cases hl : l' = l
      · rw [if_pos hl, Finset.sum_eq_single j]
        · rw [if_pos ⟨rfl, hl⟩]
          exact mul_comm _ _
        · intro j' _ hne
          rw [if_neg fun h => hne h.1, mul_zero]
        · exact fun h => absurd (Finset.mem_univ _) h
      · rw [if_neg hl]
        exact Finset.sum_eq_zero fun j' _ => by rw [if_neg fun h => hl h.2, mul_zero]
    · rw [dif_neg hab]
      refine Finset.sum_eq_zero fun j' _ => ?_
      rw [table_schur_orthogonality_ne hT hμ (hL.rep _ (hmem b)) (hL.rep _ (hmem a)) (hL.irred _ (hmem b))
        (hL.irred _ (hmem a)) (hL.unitary _ (hmem a)) (hneq b a hab), mul_zero]
  have hinj : ∀ v, M *ᵥ v = 0 → v = 0 := by
    intro v hv
    funext ⟨a, i, l⟩
    have h1 : ∀ (j : Fin (L.get a).1) (x : ι), ∑ i', v ⟨a, i', l⟩ * (B a i').1 x j = 0 := by
      intro j x
      have h2 : ∑ y, (∑ g, star ((L.get a).2 g j l) * (D g * M) x y) * v y = 0 := by
        simp_rw [Finset.sum_mul]
        rw [Finset.sum_comm]
        refine Finset.sum_eq_zero fun g _ => ?_
        have h3 : (D g * M) *ᵥ v = 0 := by rw [← Matrix.mulVec_mulVec, hv, Matrix.mulVec_zero]
        have h4 := congrFun h3 x
        simp_rw [mul_assoc]
        rw [← Finset.mul_sum]
        exact (congrArg _ h4).trans (mul_zero _)
      simp_rw [hunit] at h2
      rw [Fintype.sum_sigma, Finset.sum_eq_single a] at h2
      · simp only [dif_pos] at h2
        rw [Fintype.sum_prod_type] at h2
        have hd : ((n : ℂ) / (L.get a).1) ≠ 0 := by
          refine div_ne_zero hn ?_
          have : 0 < (L.get a).1 := Nat.lt_of_le_of_lt (Nat.zero_le _) l.2
          exact_mod_cast this.ne'
        apply mul_left_cancel₀ hd
        rw [mul_zero, ← h2, Finset.mul_sum]
        refine Finset.sum_congr rfl fun i' _ => ?_
        simp only [ite_mul, zero_mul, Finset.sum_ite_eq', Finset.mem_univ, if_true]
        ring
      · intro b _ hne
        refine Finset.sum_eq_zero fun y _ => ?_
        rw [dif_neg hne, zero_mul]
      · exact fun h => absurd (Finset.mem_univ _) h
    have h2 : ∑ i', v ⟨a, i', l⟩ • B a i' = 0 := by
      apply Subtype.ext
      ext x j
      have := h1 j x
      simpa [Matrix.sum_apply] using this
    exact Fintype.linearIndependent_iff.1 (B a).linearIndependent _ h2 i
  have hcard : Fintype.card (Σ a : Fin L.length, Fin (m a) × Fin (L.get a).1) = Fintype.card ι := by
    rw [← dim_expand hT hμ hc hL hD hu]
    simp [hm]
  let f := Fintype.equivOfCardEq hcard
  have hsq : IsUnit (M.submatrix id f.symm) := by
    rw [← Matrix.mulVec_injective_iff_isUnit]
    intro v w hvw
    have h1 : M *ᵥ (fun y => (v - w) (f y)) = 0 := by
      have h2 : M.submatrix id f.symm *ᵥ (v - w) = 0 := by rw [Matrix.mulVec_sub, hvw, sub_self]
      funext x
      have h3 := congrFun h2 x
      simp only [Matrix.mulVec, dotProduct, Matrix.submatrix_apply, id_eq, Pi.zero_apply] at h3 ⊢
      rw [← h3, ← f.sum_comp]
      simp
    have h4 := hinj _ h1
    funext x
    have h5 := congrFun h4 (f.symm x)
    simp only [Equiv.apply_symm_apply, Pi.sub_apply, Pi.zero_apply] at h5
    exact sub_eq_zero.1 h5
  obtain ⟨u, hu'⟩ := hsq
  refine ⟨M, (u⁻¹ : (Matrix ι ι ℂ)ˣ).1.submatrix f id, ?_, ?_, hmul⟩
  · have h1 : M = u.1.submatrix id f := by rw [hu']; ext; simp
    rw [h1, Matrix.submatrix_mul_equiv (e₂ := f), Units.mul_inv]
    simp
  · have h1 : M = u.1.submatrix id f := by rw [hu']; ext; simp
    rw [h1, ← Matrix.submatrix_mul _ _ f id f Function.bijective_id, Units.inv_mul]
    exact Matrix.submatrix_one_equiv f

end

end Spgrep
