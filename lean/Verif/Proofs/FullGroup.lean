/-
The whole space group: rotations, translations, and the subgroup of a k-point.
-/
import Verif.Spec.FullGroup
import Verif.Props.Star
import Verif.Proofs.Induced

namespace Spgrep

open Spec

variable {n : ℕ}

/-! ### k-points and lattice vectors -/

theorem fixesK_dot {R : M3} {k : V3} :
    FixesK R k ↔ ∀ t : Fin 3 → ℤ, ∃ m : ℤ, (∑ a, k a * (R.mulVec t a : ℝ)) - ∑ a, k a * (t a : ℝ) = m := by
  constructor
  · intro h t
    choose m hm using h
    refine ⟨∑ a, m a * t a, ?_⟩
    push_cast
    simp only [← hm, Matrix.mulVec, dotProduct, Fin.sum_univ_three]
    push_cast
    ring
  · intro h a
    obtain ⟨m, hm⟩ := h (Pi.single a 1)
    refine ⟨m, ?_⟩
    rw [← hm, Matrix.mulVec_single_one]
    congr 1
    · exact Finset.sum_congr rfl fun b _ => by rw [Matrix.col_apply, mul_comm]
    · rw [Finset.sum_eq_single a]
      · simp
      · intro b _ hb
        simp [hb]
      · simp

theorem fixesK_mul {A B : M3} {k : V3} (hA : FixesK A k) (hB : FixesK B k) : FixesK (A * B) k := by
  rw [fixesK_dot] at hA hB ⊢
  intro t
  obtain ⟨m, hm⟩ := hA (B.mulVec t)
  obtain ⟨m', hm'⟩ := hB t
  refine ⟨m + m', ?_⟩
  push_cast
  rw [← hm, ← hm', ← Matrix.mulVec_mulVec]
  ring

theorem fixesK_one (k : V3) : FixesK 1 k := by
  rw [fixesK_dot]
  exact fun t => ⟨0, by simp⟩

theorem fixesK_inv {A B : M3} {k : V3} (h : A * B = 1) (hA : FixesK A k) : FixesK B k := by
  rw [fixesK_dot] at hA ⊢
  intro t
  obtain ⟨m, hm⟩ := hA (B.mulVec t)
  refine ⟨-m, ?_⟩
  push_cast
  rw [← hm, Matrix.mulVec_mulVec, h, Matrix.one_mulVec]
  ring

theorem transPhase_add (k s t : V3) : transPhase k (s + t) = transPhase k s * transPhase k t := by
  unfold transPhase
  rw [← Complex.exp_add]
  congr 1
  simp only [Pi.add_apply, mul_add, Finset.sum_add_distrib]
  push_cast
  ring

theorem transPhase_ne (k t : V3) : transPhase k t ≠ 0 := Complex.exp_ne_zero _

theorem transPhase_zero (k : V3) : transPhase k 0 = 1 := by simp [transPhase]

theorem transPhase_eq {k s t : V3} : transPhase k s = transPhase k t ↔ ∃ m : ℤ, (∑ a, k a * s a) - ∑ a, k a * t a = m := by
  unfold transPhase
  rw [Complex.exp_eq_exp_iff_exists_int]
  have hpi : (2 * Real.pi * Complex.I : ℂ) ≠ 0 := by simp [Real.pi_ne_zero, Complex.I_ne_zero]
  constructor
  · rintro ⟨m, hm⟩
    refine ⟨-m, ?_⟩
    have : ((∑ a, k a * s a : ℝ) : ℂ) - ((∑ a, k a * t a : ℝ) : ℂ) = ((-m : ℤ) : ℂ) := by
      apply mul_left_cancel₀ hpi
      push_cast at hm ⊢
      linear_combination -hm
    exact_mod_cast this
  · rintro ⟨m, hm⟩
    refine ⟨-m, ?_⟩
    have : ((∑ a, k a * s a : ℝ) : ℂ) = ((∑ a, k a * t a : ℝ) : ℂ) + m := by
      rw [← sub_eq_iff_eq_add']
      exact_mod_cast hm
    rw [this]
    push_cast
    ring

/-! ### The elements of the group -/

/-- The rotation acting on real vectors. -/
def actR (R : M3) (x : V3) : V3 := fun a => ∑ b, (R a b : ℝ) * x b

theorem actR_eq (R : M3) (x : V3) : actR R x = (R.map fun z : ℤ => (z : ℝ)).mulVec x := rfl

theorem actR_mul (A B : M3) (x : V3) : actR (A * B) x = actR A (actR B x) := by
  simp only [actR_eq]
  rw [Matrix.mulVec_mulVec]
  congr 1
  exact Matrix.map_mul (f := Int.castRingHom ℝ)

theorem actR_one (x : V3) : actR 1 x = x := by
  rw [actR_eq]
  have : ((1 : M3).map fun z : ℤ => (z : ℝ)) = 1 := Matrix.map_one _ Int.cast_zero Int.cast_one
  rw [this, Matrix.one_mulVec]

theorem actR_add (A : M3) (x y : V3) : actR A (x + y) = actR A x + actR A y := by
  simp only [actR_eq, Matrix.mulVec_add]

theorem actR_int (A : M3) (t : Fin 3 → ℤ) : actR A (fun a => (t a : ℝ)) = fun a => (A.mulVec t a : ℝ) := by
  funext a
  simp only [actR, Matrix.mulVec, dotProduct]
  push_cast
  rfl

theorem actR_injective {A B : M3} (h : ∀ x, actR A x = actR B x) : A = B := by
  ext a b
  have := congrFun (h (Pi.single b 1)) a
  simp only [actR_eq, Matrix.mulVec_single_one, Matrix.col_apply, Matrix.map_apply] at this
  exact_mod_cast this

theorem isOperation_iff {R : M3} {w : V3} {t : Fin 3 → ℤ} {f : Equiv.Perm V3} :
    IsOperation R w t f ↔ ∀ x, f x = actR R x + (w + fun a => (t a : ℝ)) := by
  constructor
  · intro h x
    funext a
    rw [h x a]
    simp [actR, add_assoc]
  · intro h x a
    rw [h x]
    simp [actR, add_assoc]

variable {rots : Fin n → M3} {trans : Fin n → V3}

theorem operation_exists (h : IsSpaceGroup rots trans) (i : Fin n) (t : Fin 3 → ℤ) :
    ∃ f, IsOperation (rots i) (trans i) t f := by
  obtain ⟨j, hj⟩ := enum_inv h.1 i
  have hj' : rots j * rots i = 1 := mul_eq_one_comm.1 hj
  let w : V3 := trans i + fun a => (t a : ℝ)
  refine ⟨⟨fun x => actR (rots i) x + w, fun y => actR (rots j) (y - w), fun x => ?_, fun y => ?_⟩, isOperation_iff.2 fun x => rfl⟩
  · show actR _ (actR _ x + w - w) = x
    rw [add_sub_cancel_right, ← actR_mul, hj', actR_one]
  · show actR _ (actR _ (y - w)) + w = y
    rw [← actR_mul, hj, actR_one, sub_add_cancel]

theorem trans_product (h : IsSpaceGroup rots trans) {i j l : Fin n} (hl : rots i * rots j = rots l) :
    ∃ u : Fin 3 → ℤ, actR (rots i) (trans j) + trans i = trans l + fun a => (u a : ℝ) := by
  choose u hu using h.2 i j l hl
  refine ⟨u, funext fun a => ?_⟩
  have := hu a
  simp only [Pi.add_apply, actR]
  linarith

theorem exists_one (h : IsSpaceGroup rots trans) : ∃ e, rots e = 1 ∧ ∃ u : Fin 3 → ℤ, trans e = fun a => (u a : ℝ) := by
  obtain ⟨e, he⟩ : ∃ e, rots e = 1 := by
    obtain ⟨-, H, hH⟩ := h.1
    have : (1 : M3) ∈ Set.range rots := by rw [hH]; exact ⟨1, H.one_mem, rfl⟩
    exact this
  refine ⟨e, he, ?_⟩
  obtain ⟨u, hu⟩ := trans_product h (i := e) (j := e) (l := e) (by rw [he, one_mul])
  refine ⟨u, ?_⟩
  rw [he, actR_one] at hu
  exact add_left_cancel hu

/-- Every element of the group is one of the operations followed by a lattice translation. -/
theorem mem_spaceGroup (h : IsSpaceGroup rots trans) {f : Equiv.Perm V3} (hf : f ∈ spaceGroup rots trans) :
    ∃ i t, IsOperation (rots i) (trans i) t f := by
  simp only [isOperation_iff]
  induction hf using Subgroup.closure_induction with
  | mem f hf =>
    obtain ⟨i, t, hit⟩ := hf
    exact ⟨i, t, isOperation_iff.1 hit⟩
  | one =>
    obtain ⟨e, he, u, hu⟩ := exists_one h
    refine ⟨e, -u, fun x => ?_⟩
    rw [he, actR_one, hu]
    funext a
    simp
  | mul f g _ _ hf hg =>
    obtain ⟨i, s, hf⟩ := hf
    obtain ⟨j, t, hg⟩ := hg
    obtain ⟨l, hl⟩ := enum_mul h.1 i j
    obtain ⟨u, hu⟩ := trans_product h hl.symm
    refine ⟨l, u + (rots i).mulVec t + s, fun x => ?_⟩
    rw [Equiv.Perm.mul_apply, hf, hg, hl, actR_mul, actR_add, actR_add, actR_int]
    have := fun a => congrFun hu a
    simp only [Pi.add_apply] at this
    funext a
    simp only [Pi.add_apply]
    push_cast
    linarith [this a]
  | inv f _ hf =>
    obtain ⟨i, s, hf⟩ := hf
    obtain ⟨j, hj⟩ := enum_inv h.1 i
    have hj' : rots j * rots i = 1 := mul_eq_one_comm.1 hj
    obtain ⟨e, he, v, hv⟩ := exists_one h
    obtain ⟨u, hu⟩ := trans_product h (i := j) (j := i) (l := e) (by rw [hj', he])
    refine ⟨j, -u - v - (rots j).mulVec s, fun x => ?_⟩
    rw [Equiv.Perm.inv_def, Equiv.symm_apply_eq, hf]
    have e1 : trans j + (fun a => (((-u - v - (rots j).mulVec s) a : ℤ) : ℝ)) =
        actR (rots j) (-(trans i + fun a => (s a : ℝ))) := by
      have h2 : actR (rots j) (-(trans i + fun a => (s a : ℝ))) = -(actR (rots j) (trans i) + actR (rots j) fun a => (s a : ℝ)) := by
        rw [← actR_add]
        simp only [actR_eq, Matrix.mulVec_neg]
      rw [h2, actR_int]
      have := fun a => congrFun hu a
      simp only [Pi.add_apply, hv] at this
      funext a
      simp only [Pi.add_apply, Pi.neg_apply, Pi.sub_apply]
      push_cast
      linarith [this a]
    rw [e1, ← actR_add, ← actR_mul, hj, actR_one]
    abel

/-- The index of the rotation of an element. -/
noncomputable def opIndex (h : IsSpaceGroup rots trans) (g : spaceGroup rots trans) : Fin n := (mem_spaceGroup h g.2).choose

theorem opIndex_spec (h : IsSpaceGroup rots trans) (g : spaceGroup rots trans) :
    ∃ t : Fin 3 → ℤ, IsOperation (rots (opIndex h g)) (trans (opIndex h g)) t g.1 := (mem_spaceGroup h g.2).choose_spec

/-- The rotation of an element. -/
noncomputable def rotOf (h : IsSpaceGroup rots trans) (g : spaceGroup rots trans) : M3 := rots (opIndex h g)

theorem apply_eq (h : IsSpaceGroup rots trans) (g : spaceGroup rots trans) (x : V3) : g.1 x = actR (rotOf h g) x + g.1 0 := by
  obtain ⟨t, ht⟩ := opIndex_spec h g
  rw [isOperation_iff] at ht
  rw [ht, ht 0]
  have : actR (rots (opIndex h g)) 0 = 0 := by rw [actR_eq, Matrix.mulVec_zero]
  rw [this, zero_add]
  rfl

theorem zero_eq (h : IsSpaceGroup rots trans) (g : spaceGroup rots trans) :
    ∃ t : Fin 3 → ℤ, g.1 0 = trans (opIndex h g) + fun a => (t a : ℝ) := by
  obtain ⟨t, ht⟩ := opIndex_spec h g
  rw [isOperation_iff] at ht
  refine ⟨t, ?_⟩
  have : actR (rots (opIndex h g)) 0 = 0 := by rw [actR_eq, Matrix.mulVec_zero]
  rw [ht 0, this, zero_add]

theorem rotOf_unique (h : IsSpaceGroup rots trans) (g : spaceGroup rots trans) {R : M3} {w : V3}
    (hg : ∀ x, g.1 x = actR R x + w) : rotOf h g = R ∧ g.1 0 = w := by
  have h0 : g.1 0 = w := by rw [hg, actR_eq, Matrix.mulVec_zero, zero_add]
  refine ⟨actR_injective fun x => ?_, h0⟩
  have := apply_eq h g x
  rw [hg x, h0] at this
  exact (add_right_cancel this).symm

theorem rotOf_mul (h : IsSpaceGroup rots trans) (g g' : spaceGroup rots trans) :
    rotOf h (g * g') = rotOf h g * rotOf h g' ∧ (g * g').1 0 = actR (rotOf h g) (g'.1 0) + g.1 0 := by
  apply rotOf_unique
  intro x
  have : (g * g').1 x = g.1 (g'.1 x) := rfl
  rw [this, apply_eq h g, apply_eq h g', actR_mul, actR_add, add_assoc]

theorem rotOf_one (h : IsSpaceGroup rots trans) : rotOf h 1 = 1 ∧ (1 : spaceGroup rots trans).1 0 = 0 := by
  apply rotOf_unique
  intro x
  rw [actR_one, add_zero]
  rfl

theorem rotOf_inv (h : IsSpaceGroup rots trans) (g : spaceGroup rots trans) : rotOf h g * rotOf h g⁻¹ = 1 := by
  rw [← (rotOf_mul h g g⁻¹).1, mul_inv_cancel, (rotOf_one h).1]

theorem operation_mem (h : IsSpaceGroup rots trans) (i : Fin n) (t : Fin 3 → ℤ) :
    ∃ g : spaceGroup rots trans, opIndex h g = i ∧ g.1 0 = trans i + fun a => (t a : ℝ) := by
  obtain ⟨f, hf⟩ := operation_exists h i t
  refine ⟨⟨f, Subgroup.subset_closure ⟨i, t, hf⟩⟩, ?_⟩
  obtain ⟨h1, h2⟩ := rotOf_unique h ⟨f, Subgroup.subset_closure ⟨i, t, hf⟩⟩ (isOperation_iff.1 hf)
  exact ⟨h.1.1 h1, h2⟩

/-- The operations that fix `k`. -/
def littleSub (h : IsSpaceGroup rots trans) (k : V3) : Subgroup (spaceGroup rots trans) where
  carrier := {g | FixesK (rotOf h g) k}
  mul_mem' := by
    intro a b ha hb
    show FixesK _ k
    rw [(rotOf_mul h a b).1]
    exact fixesK_mul ha hb
  one_mem' := by
    show FixesK _ k
    rw [(rotOf_one h).1]
    exact fixesK_one k
  inv_mem' := by
    intro a ha
    exact fixesK_inv (rotOf_inv h a) ha

theorem mem_littleSub {h : IsSpaceGroup rots trans} {k : V3} {g : spaceGroup rots trans} :
    g ∈ littleSub h k ↔ FixesK (rotOf h g) k := Iff.rfl

/-- The cosets of the little group: as many as the index in the point group. -/
theorem littleSub_index (h : IsSpaceGroup rots trans) (k : V3) {M : List (Fin n)} (hM : ListsLittle rots k M) :
    Finite (spaceGroup rots trans ⧸ littleSub h k) ∧ Nat.card (spaceGroup rots trans ⧸ littleSub h k) * M.length = n := by
  choose σ hσ hσ0 using fun i => operation_mem h i 0
  have hrot : ∀ i, rotOf h (σ i) = rots i := fun i => by unfold rotOf; rw [hσ]
  let π : Fin n → spaceGroup rots trans ⧸ littleSub h k := fun i => (σ i : spaceGroup rots trans ⧸ littleSub h k)
  have hπ : ∀ i (g : spaceGroup rots trans), π i = g ↔ FixesK (rotOf h ((σ i)⁻¹ * g)) k := fun i g =>
    QuotientGroup.eq.trans mem_littleSub
  have hinv : ∀ i (g g' : spaceGroup rots trans), rotOf h g = rotOf h g' →
      rotOf h ((σ i)⁻¹ * g) = rotOf h ((σ i)⁻¹ * g') := fun i g g' hg => by
    rw [(rotOf_mul h _ _).1, (rotOf_mul h _ _).1, hg]
  have hsurj : Function.Surjective π := by
    intro q
    induction q using QuotientGroup.induction_on with
    | H g =>
      refine ⟨opIndex h g, (hπ _ _).2 ?_⟩
      have : rotOf h ((σ (opIndex h g))⁻¹ * g) = 1 := by
        rw [hinv _ g (σ (opIndex h g)) (hrot _).symm, inv_mul_cancel, (rotOf_one h).1]
      rw [this]
      exact fixesK_one k
  have hfin : Finite (spaceGroup rots trans ⧸ littleSub h k) := Finite.of_surjective π hsurj
  refine ⟨hfin, ?_⟩
  classical
  have := Fintype.ofFinite (spaceGroup rots trans ⧸ littleSub h k)
  have h1 := Finset.card_eq_sum_card_fiberwise (f := π) (s := Finset.univ) (t := Finset.univ) (fun _ _ => Finset.mem_univ _)
  have h2 : ∀ q ∈ (Finset.univ : Finset (spaceGroup rots trans ⧸ littleSub h k)),
      (Finset.univ.filter fun i => π i = q).card = M.length := by
    intro q _
    obtain ⟨i, rfl⟩ := hsurj q
    rw [← List.toFinset_card_of_nodup hM.1]
    symm
    refine Finset.card_bij (fun j _ => opIndex h (σ i * σ j)) (fun j hj => ?_) (fun j _ j' _ hjj => ?_) fun l hl => ?_
    · rw [Finset.mem_filter]
      refine ⟨Finset.mem_univ _, ?_⟩
      have hj := (hM.2 j).1 (List.mem_toFinset.1 hj)
      have e1 : π i = π (opIndex h (σ i * σ j)) := by
        refine (hπ _ _).2 ?_
        rw [hinv i _ (σ i * σ j) (by rw [hrot]; rfl), inv_mul_cancel_left, hrot]
        exact hj
      exact e1.symm
    · have e1 : rotOf h (σ i * σ j) = rotOf h (σ i * σ j') := congrArg rots hjj
      have e2 := hinv i _ _ e1
      rw [inv_mul_cancel_left, inv_mul_cancel_left, hrot, hrot] at e2
      exact h.1.1 e2
    · rw [Finset.mem_filter] at hl
      have e1 := (hπ i (σ l)).1 hl.2.symm
      refine ⟨opIndex h ((σ i)⁻¹ * σ l), List.mem_toFinset.2 ((hM.2 _).2 e1), ?_⟩
      apply h.1.1
      show rotOf h _ = _
      rw [(rotOf_mul h _ _).1, hrot (opIndex _ _)]
      show _ * rotOf h _ = _
      rw [← (rotOf_mul h _ _).1, mul_inv_cancel_left, hrot]
  rw [Finset.sum_congr rfl h2, Finset.sum_const, Finset.card_univ, Finset.card_univ, Fintype.card_fin, smul_eq_mul] at h1
  rw [Nat.card_eq_fintype_card, ← h1]

end Spgrep
