/-
C106: cells that are not the standard one.  `get_spacegroup_irreps` chooses the centring from the Hall number but
applies it to operations that refer to the input cell.
-/
import Verif.Props.Conventional

namespace Spgrep

namespace Spec

/-- The operations of a crystal in the given cell, one of each modulo the translations of the cell. -/
structure IsCellGroup {n : ℕ} (rots : Fin n → Matrix (Fin 3) (Fin 3) ℤ) (trans : Fin n → Fin 3 → ℝ) : Prop where
  /-- The identity is in the list. -/
  one : ∃ e, rots e = 1 ∧ ∀ a, ∃ m : ℤ, trans e a = m
  /-- Products are in the list. -/
  mul : ∀ i j, ∃ l, rots l = rots i * rots j ∧
    ∀ a, ∃ m : ℤ, (∑ b, (rots i a b : ℝ) * trans j b) + trans i a - trans l a = m
  /-- Inverses are in the list. -/
  inv : ∀ i, ∃ j, rots i * rots j = 1 ∧ ∀ a, ∃ m : ℤ, (∑ b, (rots i a b : ℝ) * trans j b) + trans i a = m

/-- The translations of the crystal: those of the operations whose rotation is the identity, and of the cell. -/
def crystalLattice {n : ℕ} (rots : Fin n → Matrix (Fin 3) (Fin 3) ℤ) (trans : Fin n → Fin 3 → ℝ) : Set (Fin 3 → ℝ) :=
  {x | ∃ i, rots i = 1 ∧ ∀ a, ∃ m : ℤ, x a - trans i a = m}

end Spec

open Spec Matrix

variable {n : ℕ}

/-! ### The part that holds -/

theorem mulVec_int {R : M3} {v w : V3} (h : ∀ a, ∃ m : ℤ, v a - w a = m) :
    ∀ a, ∃ m : ℤ, (∑ b, (R a b : ℝ) * v b) - ∑ b, (R a b : ℝ) * w b = m := by
  intro a
  choose m hm using h
  refine ⟨∑ b, R a b * m b, ?_⟩
  push_cast
  rw [← Finset.sum_sub_distrib]
  exact Finset.sum_congr rfl fun b _ => by rw [← hm]; ring

theorem cell_conj {rots : Fin n → M3} {trans : Fin n → V3} (h : IsCellGroup rots trans) (j : Fin n) {x : V3}
    (hx : x ∈ crystalLattice rots trans) : (fun a => ∑ b, (rots j a b : ℝ) * x b) ∈ crystalLattice rots trans := by
  obtain ⟨i, hi, hxi⟩ := hx
  obtain ⟨j', hj, hjt⟩ := h.inv j
  obtain ⟨l, hl, hlt⟩ := h.mul i j'
  obtain ⟨p, hp, hpt⟩ := h.mul j l
  refine ⟨p, ?_, fun a => ?_⟩
  · rw [hp, hl, hi, one_mul, hj]
  · -- R_j x ≡ R_j t_i, and t_p ≡ R_j (t_j' + t_i) + t_j
    obtain ⟨m1, h1⟩ := mulVec_int (R := rots j) hxi a
    obtain ⟨m2, h2⟩ := mulVec_int (R := rots j) (v := fun a => (∑ b, (rots i a b : ℝ) * trans j' b) + trans i a)
      (w := trans l) hlt a
    obtain ⟨m3, h3⟩ := hpt a
    obtain ⟨m4, h4⟩ := hjt a
    have h5 : ∀ b, (∑ c, (rots i b c : ℝ) * trans j' c) = trans j' b := by
      intro b
      rw [hi]
      simp [Matrix.one_apply]
    simp only [h5, mul_add, Finset.sum_add_distrib] at h2
    refine ⟨m1 + m2 + m3 - m4, ?_⟩
    push_cast
    linarith

theorem cell_diff {rots : Fin n → M3} {trans : Fin n → V3} (h : IsCellGroup rots trans) {i j : Fin n}
    (hij : rots i = rots j) : (fun a => trans i a - trans j a) ∈ crystalLattice rots trans := by
  obtain ⟨j', hj, hjt⟩ := h.inv j
  obtain ⟨p, hp, hpt⟩ := h.mul i j'
  refine ⟨p, by rw [hp, hij, hj], fun a => ?_⟩
  obtain ⟨m1, h1⟩ := hpt a
  obtain ⟨m2, h2⟩ := hjt a
  rw [hij] at h1
  exact ⟨m1 - m2, by push_cast; linarith⟩

/-- If the crystal lattice is the one that the Hall number stands for, then the operations satisfy the hypothesis
of C61. -/
theorem conventional_of_cell {P : R3} {rots : Fin n → M3} {trans : Fin n → V3} (h : IsCellGroup rots trans)
    (hP : crystalLattice rots trans = columnLattice P) : IsConventionalGroup P rots trans := by
  refine ⟨?_, fun i => ?_, fun i j l hl => ?_⟩
  · obtain ⟨e, he, -⟩ := h.one
    have hu : ∀ i, ∃ g : GL (Fin 3) ℤ, (g : M3) = rots i ∧ ∃ j, ((g⁻¹ : GL (Fin 3) ℤ) : M3) = rots j := by
      intro i
      obtain ⟨j, hj, -⟩ := h.inv i
      exact ⟨⟨rots i, rots j, hj, mul_eq_one_comm.1 hj⟩, rfl, j, rfl⟩
    refine ⟨⟨⟨⟨{g : GL (Fin 3) ℤ | ∃ i, (g : M3) = rots i}, ?_⟩, ⟨e, by simp [he]⟩⟩, ?_⟩, ?_⟩
    · rintro a b ⟨i, hi⟩ ⟨j, hj⟩
      obtain ⟨l, hl, -⟩ := h.mul i j
      exact ⟨l, by rw [hl, Units.val_mul, hi, hj]⟩
    · rintro a ⟨i, hi⟩
      obtain ⟨g, hg, j, hj⟩ := hu i
      obtain rfl : g = a := Units.ext (hg.trans hi.symm)
      exact ⟨j, hj⟩
    · ext M
      constructor
      · rintro ⟨i, rfl⟩
        obtain ⟨g, hg, -⟩ := hu i
        exact ⟨g, ⟨i, hg⟩, hg⟩
      · rintro ⟨g, ⟨i, hi⟩, rfl⟩
        exact ⟨i, hi.symm⟩
  · have hcol : ∀ c, ∃ m : Fin 3 → ℤ, ∀ a, (∑ b, (rots i a b : ℝ) * P b c) = ∑ b, P a b * m b := by
      intro c
      have h1 : (fun b => P b c) ∈ columnLattice P := ⟨Pi.single c 1, fun a => by simp [Pi.single_apply]⟩
      rw [← hP] at h1
      have h2 := cell_conj h i h1
      rw [hP] at h2
      exact h2
    choose m hm using hcol
    refine ⟨Matrix.of fun b c => m c b, ?_⟩
    ext a c
    rw [Matrix.mul_apply, Matrix.mul_apply]
    exact hm c a
  · obtain ⟨p, hp, hpt⟩ := h.mul i j
    rw [← hP]
    obtain ⟨q, hq, hqt⟩ := cell_diff h (i := p) (j := l) (hp.trans hl)
    refine ⟨q, hq, fun a => ?_⟩
    obtain ⟨m1, h1⟩ := hqt a
    obtain ⟨m2, h2⟩ := hpt a
    exact ⟨m1 + m2, by push_cast; linarith⟩

/-- **C106, the part that holds**: let the dataset hold all operations of a crystal in the given cell.  If the
translations of the crystal are the lattice of the centring that belongs to the Hall number, the result of every run
without warning is the complete list of small representations of the crystal at `k`. -/
theorem c106_input_cell_partial {o : Oracles} {hallType : ℤ → SpacegroupType} {lattice : R3} {dataset : Dataset n}
    {k kc : V3} {method : IrrepMethod} {reciprocal : Option R3} {rtol atol : ℝ} {maxGen : ℕ} {P : R3}
    (hP : getPrimitiveTransformationMatrix hallType dataset.hallNumber = .ok P)
    (hkc : kpointConv lattice reciprocal k = .ok kc)
    (hcell : IsCellGroup dataset.rotations dataset.translations)
    (hlat : crystalLattice dataset.rotations dataset.translations = columnLattice P)
    (horder : ∀ i j, i ≤ j → FirstOcc dataset.rotations j → FirstOcc dataset.rotations i)
    (hnm : NoNearMiss P dataset.rotations kc atol) (ha : 0 < atol) (ha5 : atol ≤ 1 / 5)
    (ho : ∀ (u : ℕ) (R : Fin u → M3), IsLittleOf P dataset.rotations kc R → MethodContract o method rtol R)
    {m : ℕ} {mapping : Fin m → Fin n} {irreps : List (AnyRep m)}
    (hrun : getSpacegroupIrreps o hallType lattice dataset k method reciprocal rtol atol maxGen =
      .ok (⟨m, mapping, irreps⟩, false)) :
    (∀ i, (∃ q, mapping q = i) ↔
      ∀ x ∈ crystalLattice dataset.rotations dataset.translations,
        ∃ z : ℤ, ∑ a, ((∑ b, (dataset.rotations i b a : ℝ) * kc b) - kc a) * x a = z) ∧
    ∃ S : List (AnyRep m),
      List.Forall₂ (fun Γ E => ∃ A : RepArr m Γ.1, E = ⟨Γ.1, A⟩ ∧
        ∀ g i j, ‖Γ.2 g i j - A g i j‖ ≤ atol + 1e-8) S irreps ∧
      (∀ Γ ∈ S, SpaceGroupLaw (fun q => dataset.rotations (mapping q)) (fun q => dataset.translations (mapping q)) kc
        (fun _ _ => 1) Γ.2 ∧ IsUnitaryRep Γ.2 ∧ Spec.IsIrreducible Γ.2) ∧
      S.Pairwise (fun Γ Γ' => ¬ AreEquivalent Γ.2 Γ'.2) ∧
      (∀ (e : ℕ) (E : RepArr m e), SpaceGroupLaw (fun q => dataset.rotations (mapping q))
          (fun q => dataset.translations (mapping q)) kc (fun _ _ => 1) E → (∀ g, IsUnit (E g)) →
        Spec.IsIrreducible E → ∃ Γ ∈ S, AreEquivalent E Γ.2) ∧
      (S.map fun Γ => Γ.1 ^ 2).sum = (Finset.univ.image fun q => dataset.rotations (mapping q)).card := by
  have hconv := conventional_of_cell hcell hlat
  refine ⟨fun i => ?_, c61_near_miss hP hkc hconv horder hnm ha ha5 ho hrun⟩
  rw [(c41_near_miss hP hkc (conventional_of_group (getPrimitive_det hP) hconv) horder hnm ha.le
    hrun).2.1 i, hlat]
  rfl

/-! ### A criterion for wrong results -/

/-- **C106**: whenever the operations listed as the little group contain a pure translation `t` and an operation
with rotation `R` such that `(Rᵀk - k)·t` is not an integer, no invertible matrices obey the multiplication law of
the listed operations: whatever is returned for them is not a representation. -/
theorem c106_no_representation {m d : ℕ} {rots : Fin m → M3} {trans : Fin m → V3} {k : V3} {i j : Fin m}
    (hj : rots j = 1) (hij : ¬ ∃ z : ℤ, ∑ a, ((∑ b, (rots i b a : ℝ) * k b) - k a) * trans j a = z)
    (hd : 0 < d) {Γ : RepArr m d} (hΓ : SpaceGroupLaw rots trans k (fun _ _ => 1) Γ) : ∃ g, ¬ IsUnit (Γ g) := by
  by_contra hne
  push Not at hne
  have h1 := hΓ i j i (by rw [hj, mul_one])
  have h2 := hΓ j i i (by rw [hj, one_mul])
  rw [one_mul, ← expPhase_spec] at h1 h2
  have e1 : ∑ a, k a * ((∑ b, (rots i a b : ℝ) * trans j b) + trans i a - trans i a) =
      ∑ a, (∑ b, (rots i b a : ℝ) * k b) * trans j a := by
    simp only [add_sub_cancel_right, Finset.mul_sum, Finset.sum_mul]
    rw [Finset.sum_comm]
    exact Finset.sum_congr rfl fun a _ => Finset.sum_congr rfl fun b _ => by ring
  have e2 : ∑ a, k a * ((∑ b, (rots j a b : ℝ) * trans i b) + trans j a - trans i a) = ∑ a, k a * trans j a := by
    refine Finset.sum_congr rfl fun a _ => ?_
    rw [hj]
    simp [Matrix.one_apply]
  rw [e1] at h1
  rw [e2] at h2
  obtain ⟨v, hv⟩ := hne i
  rw [← hv] at h1 h2
  -- Γ_j is a multiple of the identity, in two ways
  have h3 : Γ j = expPhase (∑ a, (∑ b, (rots i b a : ℝ) * k b) * trans j a) • 1 := by
    have := congrArg (fun M => (v⁻¹ : (Matrix (Fin d) (Fin d) ℂ)ˣ).1 * M) h1
    simpa using this
  have h4 : Γ j = expPhase (∑ a, k a * trans j a) • 1 := by
    have := congrArg (fun M => M * (v⁻¹ : (Matrix (Fin d) (Fin d) ℂ)ˣ).1) h2
    simpa [mul_assoc] using this
  have h5 : expPhase (∑ a, (∑ b, (rots i b a : ℝ) * k b) * trans j a) = expPhase (∑ a, k a * trans j a) := by
    have := congrFun (congrFun (h3.symm.trans h4) ⟨0, hd⟩) ⟨0, hd⟩
    simpa using this
  apply hij
  have h6 : expPhase (∑ a, ((∑ b, (rots i b a : ℝ) * k b) - k a) * trans j a) = 1 := by
    simp only [sub_mul, Finset.sum_sub_distrib]
    rw [sub_eq_add_neg, expPhase_add, h5, expPhase_mul_neg]
  unfold expPhase at h6
  obtain ⟨z, hz⟩ := Complex.exp_eq_one_iff.1 h6
  refine ⟨-z, ?_⟩
  have hpi : (2 * Real.pi * Complex.I : ℂ) ≠ 0 := by
    simp [Real.pi_ne_zero]
  have h7 : (2 * Real.pi * Complex.I : ℂ) * ((∑ a, ((∑ b, (rots i b a : ℝ) * k b) - k a) * trans j a : ℝ) : ℂ) =
      (2 * Real.pi * Complex.I : ℂ) * ((-z : ℝ) : ℂ) := by
    push_cast at hz ⊢
    linear_combination -hz
  have h8 := Complex.ofReal_injective (mul_left_cancel₀ hpi h7)
  push_cast
  exact h8

/-! ### A supercell -/

theorem unique_supercell {A B : M3} (hAB : A ≠ B) (trans : Fin 4 → V3) :
    uniquePrimitiveSymmetry ![A, B, A, B] trans =
      ([A, B], [fun a => Int.fract (trans 0 a), fun a => Int.fract (trans 1 a)], ![0, 1, 0, 1]) := by
  have hBA : ¬ B = A := fun h => hAB h.symm
  unfold uniquePrimitiveSymmetry
  rw [show List.finRange 4 = [0, 1, 2, 3] from rfl]
  have e1 : ∀ s : UniqueState 4, s.ints = [] → uniqueStep ![A, B, A, B] trans s 0 =
      ⟨[A], s.rots ++ [A], s.trans ++ [fun a => Int.fract (trans 0 a)], Function.update s.mapping 0 0⟩ := by
    intro s hs
    simp [uniqueStep, hs]
  have e2 : ∀ s : UniqueState 4, s.ints = [A] → uniqueStep ![A, B, A, B] trans s 1 =
      ⟨[A, B], s.rots ++ [B], s.trans ++ [fun a => Int.fract (trans 1 a)], Function.update s.mapping 1 1⟩ := by
    intro s hs
    simp [uniqueStep, hs, List.idxOf?_cons, hAB]
  have e3 : ∀ s : UniqueState 4, s.ints = [A, B] → uniqueStep ![A, B, A, B] trans s 2 =
      ⟨[A, B], s.rots, s.trans, Function.update s.mapping 2 0⟩ := by
    intro s hs
    obtain ⟨i, r, t, m⟩ := s
    dsimp only at hs
    subst hs
    simp [uniqueStep, List.idxOf?_cons]
  have e4 : ∀ s : UniqueState 4, s.ints = [A, B] → uniqueStep ![A, B, A, B] trans s 3 =
      ⟨[A, B], s.rots, s.trans, Function.update s.mapping 3 1⟩ := by
    intro s hs
    obtain ⟨i, r, t, m⟩ := s
    dsimp only at hs
    subst hs
    simp [uniqueStep, List.idxOf?_cons, hAB]
  simp only [List.foldl_cons, List.foldl_nil]
  rw [e1 _ rfl, e2 _ rfl, e3 _ rfl, e4 _ rfl]
  simp only [List.nil_append, List.cons_append]
  congr 2
  funext i
  fin_cases i <;> simp [Function.update]

/-- Twice the translations of P2 in a cell that is doubled along the first axis. -/
def trans2P2d : Fin 4 → Fin 3 → ℤ := ![![0, 0, 0], ![0, 0, 0], ![1, 0, 0], ![1, 0, 0]]

/-- Translations of P2 in a cell that is doubled along the first axis. -/
noncomputable def transP2d (i : Fin 4) (a : Fin 3) : ℝ := trans2P2d i a / 2

/-- P2 (unique axis b, Hall number 3) in a cell that is doubled along the first axis. -/
noncomputable def datasetP2d : Dataset 4 := ⟨rotsC2, transP2d, 3⟩

/-- The primitive cell of the crystal. -/
noncomputable def cellP2d : R3 := !![1 / 2, 0, 0; 0, 1, 0; 0, 0, 1]

/-- The k-point of the example: the boundary point of the doubled cell. -/
noncomputable def kP2d : V3 := ![1 / 2, 0, 0]

/-- The symbol of P2. -/
def hallP2d : ℤ → SpacegroupType := fun _ => ⟨[], ['P', ' ', '2', 'y']⟩

theorem primP2d : getPrimitiveTransformationMatrix hallP2d 3 = .ok 1 := by
  unfold getPrimitiveTransformationMatrix
  rw [show getCrystalSystem 3 = .ok .monoclinic from by decide]
  rfl

theorem half_int {x : ℝ} {z : ℤ} (hx : x = (z : ℝ) / 2) (hz : 2 ∣ z) : ∃ m : ℤ, x = m := by
  obtain ⟨m, rfl⟩ := hz
  exact ⟨m, by rw [hx]; push_cast; ring⟩

theorem cellGroup_of_half {rots : Fin n → M3} {t2 : Fin n → Fin 3 → ℤ} (hone : ∃ e, rots e = 1 ∧ ∀ a, 2 ∣ t2 e a)
    (hm : ∀ i j, ∃ l, rots l = rots i * rots j ∧ ∀ a, 2 ∣ (∑ b, rots i a b * t2 j b) + t2 i a - t2 l a)
    (hi : ∀ i, ∃ j, rots i * rots j = 1 ∧ ∀ a, 2 ∣ (∑ b, rots i a b * t2 j b) + t2 i a) :
    IsCellGroup rots fun i a => (t2 i a : ℝ) / 2 := by
  have h3 : ∀ i j a, ∑ b, (rots i a b : ℝ) * ((t2 j b : ℝ) / 2) = (∑ b, (rots i a b : ℝ) * (t2 j b : ℝ)) / 2 := by
    intro i j a
    rw [Finset.sum_div]
    exact Finset.sum_congr rfl fun b _ => by ring
  refine ⟨?_, fun i j => ?_, fun i => ?_⟩
  · obtain ⟨e, he, h⟩ := hone
    exact ⟨e, he, fun a => half_int rfl (h a)⟩
  · obtain ⟨l, hl, h⟩ := hm i j
    refine ⟨l, hl, fun a => half_int ?_ (h a)⟩
    rw [h3]
    push_cast
    ring
  · obtain ⟨j, hj, h⟩ := hi i
    refine ⟨j, hj, fun a => half_int ?_ (h a)⟩
    rw [h3]
    push_cast
    ring

theorem cellGroupP2d : IsCellGroup rotsC2 transP2d :=
  cellGroup_of_half (t2 := trans2P2d) (by decide +kernel) (by decide +kernel) (by decide +kernel)

/-- Non-vacuity of `c106_input_cell_partial`: the operations of C2 in its conventional cell; a run with all other
hypotheses is shown beside C61. -/
example : IsCellGroup datasetC2.rotations datasetC2.translations ∧
    crystalLattice datasetC2.rotations datasetC2.translations = columnLattice primC := by
  refine ⟨cellGroup_of_half (t2 := trans2C2) (by decide +kernel) (by decide +kernel) (by decide +kernel), ?_⟩
  have h1 : ∀ i, rotsC2 i = 1 ↔ i = 0 ∨ i = 2 := by decide +kernel
  rw [show primC = !![1 / 2, 1 / 2, 0; -1 / 2, 1 / 2, 0; 0, 0, 1] from rfl, centred_C.2.1]
  ext x
  constructor
  · rintro ⟨i, hi, hx⟩
    refine ⟨transC2 i, ?_, fun a => ?_⟩
    · rcases (h1 i).1 hi with rfl | rfl
      · left; funext a; fin_cases a <;> simp [transC2, trans2C2]
      · right; simp only [Centring.vectors, List.mem_singleton]
        funext a; fin_cases a <;> simp [transC2, trans2C2]
    · obtain ⟨m, hm⟩ := hx a
      have hm : x a - transC2 i a = m := hm
      exact ⟨m, by linarith⟩
  · rintro ⟨v, hv, hx⟩
    obtain ⟨i, hi, hvi⟩ : ∃ i, rotsC2 i = 1 ∧ transC2 i = v := by
      rcases hv with rfl | hv
      · exact ⟨0, (h1 0).2 (.inl rfl), by funext a; fin_cases a <;> simp [transC2, trans2C2]⟩
      · simp only [Centring.vectors, List.mem_singleton] at hv
        subst hv
        exact ⟨2, (h1 2).2 (.inr rfl), by funext a; fin_cases a <;> simp [transC2, trans2C2]⟩
    refine ⟨i, hi, fun a => ?_⟩
    obtain ⟨m, hm⟩ := hx a
    exact ⟨m, by change x a - transC2 i a = m; rw [hvi, hm]; ring⟩

theorem latticeP2d : crystalLattice rotsC2 transP2d = columnLattice cellP2d := by
  have h1 : ∀ i, rotsC2 i = 1 ↔ i = 0 ∨ i = 2 := by decide +kernel
  ext x
  constructor
  · rintro ⟨i, hi, hx⟩
    choose m hm using hx
    rcases (h1 i).1 hi with rfl | rfl
    · refine ⟨![2 * m 0, m 1, m 2], fun a => ?_⟩
      have := hm a
      fin_cases a <;> simp [transP2d, trans2P2d, cellP2d, Fin.sum_univ_three] at this ⊢ <;> linarith
    · refine ⟨![2 * m 0 + 1, m 1, m 2], fun a => ?_⟩
      have := hm a
      fin_cases a <;> simp [transP2d, trans2P2d, cellP2d, Fin.sum_univ_three] at this ⊢ <;> linarith
  · rintro ⟨m, hm⟩
    obtain ⟨q, hq | hq⟩ := Int.even_or_odd' (m 0)
    · refine ⟨0, (h1 0).2 (.inl rfl), fun a => ⟨![q, m 1, m 2] a, ?_⟩⟩
      have := hm a
      have hq' : (m 0 : ℝ) = 2 * q := by exact_mod_cast hq
      fin_cases a <;> simp [transP2d, trans2P2d, cellP2d, Fin.sum_univ_three] at this ⊢ <;> linarith
    · refine ⟨2, (h1 2).2 (.inr rfl), fun a => ⟨![q, m 1, m 2] a, ?_⟩⟩
      have := hm a
      have hq' : (m 0 : ℝ) = 2 * q + 1 := by exact_mod_cast hq
      fin_cases a <;> simp [transP2d, trans2P2d, cellP2d, Fin.sum_univ_three] at this ⊢ <;> linarith

/-- The dataset with all translations set to zero: it gives the same unique operations. -/
noncomputable def datasetP2dz : Dataset 4 := ⟨rotsC2, fun _ => 0, 3⟩

theorem rotsC2_eq : rotsC2 = ![rotsC2 0, rotsC2 1, rotsC2 0, rotsC2 1] := by decide +kernel

theorem uniqueP2d : uniquePrimitiveSymmetry rotsC2 transP2d = uniquePrimitiveSymmetry rotsC2 fun _ => 0 := by
  rw [rotsC2_eq, unique_supercell (by decide +kernel), unique_supercell (by decide +kernel)]
  have h0 : transP2d 0 = 0 := by funext a; fin_cases a <;> simp [transP2d, trans2P2d]
  have h1 : transP2d 1 = 0 := by funext a; fin_cases a <;> simp [transP2d, trans2P2d]
  rw [h0, h1]

theorem transformP2d (t : Fin 4 → V3) (k : V3) : transformSymmetryAndKpoint 1 rotsC2 t k = .ok (rotsC2, t, k) := by
  rw [transform_ok (by rw [Matrix.det_one]; exact one_ne_zero)]
  congr 2
  · funext i
    rw [inv_one, one_mul, mul_one, map_rint_realMat]
  · congr 1
    · funext i
      rw [inv_one, Matrix.one_mulVec]
    · rw [Matrix.transpose_one, Matrix.one_mulVec]

theorem runP2d {o : Oracles} {lattice : R3} {k kc : V3} {method : IrrepMethod} {reciprocal : Option R3}
    {rtol atol : ℝ} {maxGen : ℕ} (hkc : kpointConv lattice reciprocal k = .ok kc) {d d' : Dataset 4}
    (hd : (d = datasetP2d ∧ d' = datasetP2dz) ∨ (d = datasetP2dz ∧ d' = datasetP2d)) {m : ℕ} {mapping : Fin m → Fin 4}
    {irreps : List (AnyRep m)} {w : Bool}
    (hrun : getSpacegroupIrreps o hallP2d lattice d k method reciprocal rtol atol maxGen =
      .ok (⟨m, mapping, irreps⟩, w)) :
    ∃ irreps', getSpacegroupIrreps o hallP2d lattice d' k method reciprocal rtol atol maxGen =
      .ok (⟨m, mapping, irreps'⟩, w) ∧ irreps'.length = irreps.length := by
  have h : ∀ t, (t = transP2d ∨ t = fun _ => 0) →
      getSpacegroupIrreps o hallP2d lattice ⟨rotsC2, t, 3⟩ k method reciprocal rtol atol maxGen =
      (match irrepsFromPrimitive o (uniquePrimitiveSymmetry rotsC2 transP2d).1.get
        (fun i => (uniquePrimitiveSymmetry rotsC2 transP2d).2.1.getD i 0) kc false method rtol atol maxGen with
      | .error e => .error e
      | .ok ⟨_, .real _, _⟩ => .error .typeError
      | .ok ⟨mapping, .complex l, warned⟩ => .ok (adjustPhase t kc
          (fun i => (uniquePrimitiveSymmetry rotsC2 transP2d).2.1.getD i 0) (uniquePrimitiveSymmetry rotsC2 transP2d).2.2
          mapping (l.map Prod.fst), warned)) := by
    intro t ht
    have hu : uniquePrimitiveSymmetry rotsC2 t = uniquePrimitiveSymmetry rotsC2 transP2d := by
      rcases ht with rfl | rfl
      · rfl
      · exact uniqueP2d.symm
    unfold getSpacegroupIrreps
    simp only [hkc, primP2d, transformP2d, bind, Except.bind, pure, Except.pure]
    rw [hu]
    generalize irrepsFromPrimitive o (uniquePrimitiveSymmetry rotsC2 transP2d).1.get
        (fun i => (uniquePrimitiveSymmetry rotsC2 transP2d).2.1.getD i 0) kc false method rtol atol maxGen = X
    rcases X with e | ⟨mp, l | l, w⟩ <;> rfl
  obtain ⟨t, t', rfl, rfl, ht, ht'⟩ : ∃ t t', d = ⟨rotsC2, t, 3⟩ ∧ d' = ⟨rotsC2, t', 3⟩ ∧
      (t = transP2d ∨ t = fun _ => 0) ∧ (t' = transP2d ∨ t' = fun _ => 0) := by
    rcases hd with ⟨rfl, rfl⟩ | ⟨rfl, rfl⟩
    · exact ⟨_, _, rfl, rfl, .inl rfl, .inr rfl⟩
    · exact ⟨_, _, rfl, rfl, .inr rfl, .inl rfl⟩
  rw [h t ht] at hrun
  rw [h t' ht']
  generalize irrepsFromPrimitive o (uniquePrimitiveSymmetry rotsC2 transP2d).1.get
        (fun i => (uniquePrimitiveSymmetry rotsC2 transP2d).2.1.getD i 0) kc false method rtol atol maxGen = X at *
  rcases X with e | ⟨mp, l | l, w'⟩
  · cases hrun
  · dsimp only at hrun ⊢
    obtain ⟨h1, rfl⟩ := Prod.mk.inj (Except.ok.inj hrun)
    unfold adjustPhase at h1 ⊢
    obtain ⟨rfl, h2⟩ := Sigma.mk.inj_iff.1 h1
    obtain ⟨rfl, rfl⟩ := Prod.mk.inj (eq_of_heq h2)
    exact ⟨_, rfl, by simp⟩
  · cases hrun

theorem cellP2dz : IsConventionalGroup 1 datasetP2dz.rotations datasetP2dz.translations := by
  obtain ⟨h, -, -⟩ := convC2
  refine ⟨h, fun i => ⟨rotsC2 i, by rw [mul_one, one_mul]; rfl⟩, fun i j l _ => ⟨0, fun a => ?_⟩⟩
  simp [datasetP2dz]

theorem kP2d_int (a : Fin 3) : ∃ c : ℤ, ((2 : ℕ) : ℝ) * ∑ b, (1 : R3) b a * kP2d b = c := by
  have h : ∑ b, (1 : R3) b a * kP2d b = kP2d a := by simp [Matrix.one_apply]
  rw [h]
  fin_cases a
  · exact ⟨1, by simp [kP2d]⟩
  · exact ⟨0, by simp [kP2d]⟩
  · exact ⟨0, by simp [kP2d]⟩

theorem fixesP2d (i : Fin 4) : FixesKLattice 1 (rotsC2 i) kP2d := by
  rintro x ⟨m, hm⟩
  have h0 : x 0 = m 0 := by simpa [Fin.sum_univ_three] using hm 0
  fin_cases i
  · exact ⟨0, by simp [rotsC2, kP2d, Fin.sum_univ_three]⟩
  · exact ⟨-m 0, by simp [rotsC2, kP2d, Fin.sum_univ_three, h0]; ring⟩
  · exact ⟨0, by simp [rotsC2, kP2d, Fin.sum_univ_three]⟩
  · exact ⟨-m 0, by simp [rotsC2, kP2d, Fin.sum_univ_three, h0]; ring⟩

theorem contractP2d {u : ℕ} {R : Fin u → M3} (h : IsLittleOf 1 rotsC2 kP2d R) :
    PointgroupContract (PgSymbol.pg_2, (1 : M3).map fun x : ℤ => (x : ℝ)) R := by
  obtain ⟨hinj, hR⟩ := h
  have hcancel : ∀ A B : M3, A.map (fun x => (x : ℝ)) * (1 : R3) = 1 * B.map (fun x => (x : ℝ)) → A = B := by
    intro A B hAB
    rw [mul_one, one_mul] at hAB
    exact realMat_injective hAB
  let b : Fin 2 → M3 := fun i => rotsC2 (i.castLE (by norm_num))
  have h1 : ∀ i, ∃ j, R i = b j := by
    intro i
    obtain ⟨l, -, hl⟩ := (hR (R i)).1 ⟨i, rfl⟩
    have : ∀ l : Fin 4, ∃ j : Fin 2, rotsC2 l = rotsC2 (j.castLE (by norm_num)) := by decide +kernel
    obtain ⟨j, hj⟩ := this l
    exact ⟨j, (hcancel _ _ hl).symm.trans hj⟩
  choose f hf using h1
  have hbinj : Function.Injective b := by
    change Function.Injective fun i : Fin 2 => rotsC2 (i.castLE (by norm_num))
    decide +kernel
  have hbij : Function.Bijective f := by
    constructor
    · intro i j hij
      exact hinj (by rw [hf, hf, hij])
    · intro j
      obtain ⟨i, hi⟩ := (hR (b j)).2 ⟨j.castLE (by norm_num), fixesP2d _, by rw [mul_one, one_mul]⟩
      exact ⟨i, hbinj (by rw [← hf, hi])⟩
  have hstd : ∀ j : Fin 2, b j * (1 : M3) = 1 * ((pgData_2[1]).get (j.cast (by decide))).toM3 := by
    change ∀ j : Fin 2, rotsC2 (j.castLE (by norm_num)) * (1 : M3) = _
    decide +kernel
  refine contract_of_int (s := .pg_2) (by rw [Matrix.det_one]; exact one_ne_zero)
    (show pgData_2[1] ∈ pgData_2 from List.getElem_mem _) (Equiv.ofBijective f hbij) fun i => ?_
  rw [hf]
  exact hstd (f i)

/-- **C106 refuted for supercells**: the crystal P2 is given in a cell that is doubled along the first axis.  At the
zone boundary of the doubled cell the twofold axis does not fix `k` modulo the reciprocal lattice of the crystal.
Nevertheless every run without warning lists all four operations as the little group and returns irreps, although
no invertible matrices at all multiply like these operations. -/
theorem c106_supercell_refuted :
    IsCellGroup datasetP2d.rotations datasetP2d.translations ∧
    crystalLattice datasetP2d.rotations datasetP2d.translations = columnLattice cellP2d ∧
    ¬ FixesKLattice cellP2d (datasetP2d.rotations 1) kP2d ∧
    (∀ (o : Oracles) (method : IrrepMethod) (rtol atol : ℝ) (maxGen : ℕ), 0 < atol → atol ≤ 1 / 5 →
      (∀ (u : ℕ) (R : Fin u → M3), IsLittleOf 1 datasetP2d.rotations kP2d R → MethodContract o method rtol R) →
      ∀ (m : ℕ) (mapping : Fin m → Fin 4) (irreps : List (AnyRep m)),
      getSpacegroupIrreps o hallP2d 1 datasetP2d kP2d method none rtol atol maxGen = .ok (⟨m, mapping, irreps⟩, false) →
      (∀ i, ∃ q, mapping q = i) ∧ irreps ≠ [] ∧
      ∀ (d : ℕ) (Γ : RepArr m d), 0 < d → SpaceGroupLaw (fun q => datasetP2d.rotations (mapping q))
        (fun q => datasetP2d.translations (mapping q)) kP2d (fun _ _ => 1) Γ → ∃ g, ¬ IsUnit (Γ g)) ∧
    ∃ o m mapping irreps, MethodContract o .neto 1e-5 (fun i : Fin 2 => rotsC2 (i.castLE (by norm_num))) ∧
      getSpacegroupIrreps o hallP2d 1 datasetP2d kP2d = .ok (⟨m, mapping, irreps⟩, false) := by
  have hkc := (c52_kpoint_basis 1 (by rw [Matrix.det_one]; exact one_ne_zero) kP2d).1
  refine ⟨cellGroupP2d, latticeP2d, ?_, ?_, ?_⟩
  · intro h
    obtain ⟨m, hm⟩ := h ![1 / 2, 0, 0] ⟨![1, 0, 0], fun a => by fin_cases a <;> simp [cellP2d, Fin.sum_univ_three]⟩
    simp [datasetP2d, rotsC2, kP2d, Fin.sum_univ_three] at hm
    have h2 : ((2 * m : ℤ) : ℝ) = ((-1 : ℤ) : ℝ) := by push_cast; linarith
    have h3 : 2 * m = -1 := by exact_mod_cast h2
    omega
  · intro o method rtol atol maxGen ha ha5 ho m mapping irreps hrun
    obtain ⟨irreps', hrun', hlen⟩ := runP2d hkc (.inl ⟨rfl, rfl⟩) hrun
    have hat : atol < 1 / ((2 : ℕ) : ℝ) := by push_cast; linarith
    obtain ⟨S, hS, -, -, -, hsum⟩ := c61_end_to_end (dataset := datasetP2dz) primP2d hkc cellP2dz orderC2 (N := 2)
      (by norm_num) kP2d_int ha ha5 hat ho hrun'
    have hmap : ∀ i, ∃ q, mapping q = i := fun i =>
      ((c41_conventional_partial (dataset := datasetP2dz) primP2d hkc
        (conventional_of_group (by rw [Matrix.det_one]; exact one_ne_zero) cellP2dz) orderC2 (N := 2) (by norm_num)
        kP2d_int ha.le hat hrun').2.1 i).2 (fixesP2d i)
    refine ⟨hmap, ?_, fun d Γ hd hΓ => ?_⟩
    · rintro rfl
      rw [List.length_nil, List.length_eq_zero_iff] at hlen
      subst hlen
      cases hS
      simp only [List.map_nil, List.sum_nil] at hsum
      have h0 := Finset.card_eq_zero.1 hsum.symm
      obtain ⟨q, -⟩ := hmap 0
      exact Finset.notMem_empty _ (h0 ▸ Finset.mem_image_of_mem _ (Finset.mem_univ q))
    · obtain ⟨i, hi⟩ := hmap 1
      obtain ⟨j, hj⟩ := hmap 2
      refine c106_no_representation (i := i) (j := j) ?_ ?_ hd hΓ
      · rw [hj]
        exact (by decide +kernel : rotsC2 2 = 1)
      · rintro ⟨z, hz⟩
        rw [hi, hj] at hz
        simp [datasetP2d, rotsC2, transP2d, trans2P2d, kP2d, Fin.sum_univ_three] at hz
        have h2 : ((2 * z : ℤ) : ℝ) = ((-1 : ℤ) : ℝ) := by push_cast; linarith
        have h3 : 2 * z = -1 := by exact_mod_cast h2
        omega
  · obtain ⟨random, hr⟩ := exists_richDraws 1e-8 4 4 fun d hd => hd
    let o : Oracles := { random := random, eig := fun d _ => (fun _ => 0, 0), eigh := fun d _ => (fun _ => 0, 0),
                         qr := fun _ _ _ => 0, pointgroup := (PgSymbol.pg_2, (1 : M3).map fun x : ℤ => (x : ℝ)) }
    obtain ⟨m, mapping, irreps, hrun⟩ := c61_runs (o := o) (lattice := 1) (dataset := datasetP2dz) (k := kP2d) (kc := kP2d)
      (reciprocal := none) (rtol := 1e-5) (atol := 1e-8) (maxGen := 4) primP2d hkc cellP2dz
      (fun i => ⟨0, fun a => by simp [datasetP2dz]⟩) orderC2 (N := 2) (by norm_num) kP2d_int (by norm_num) (by norm_num)
      (by norm_num) (by norm_num) (by norm_num) (fun u R h => contractP2d h) hr
    obtain ⟨irreps', hrun', -⟩ := runP2d hkc (.inr ⟨rfl, rfl⟩) hrun
    refine ⟨o, m, mapping, irreps', contractP2d ⟨by decide +kernel, fun S => ⟨?_, ?_⟩⟩, hrun'⟩
    · rintro ⟨j, rfl⟩
      exact ⟨j.castLE (by norm_num), fixesP2d _, by rw [mul_one, one_mul]⟩
    · rintro ⟨i, -, h⟩
      rw [mul_one, one_mul] at h
      have h2 : rotsC2 i = S := realMat_injective h
      have : ∀ i : Fin 4, ∃ j : Fin 2, rotsC2 (j.castLE (by norm_num)) = rotsC2 i := by decide +kernel
      obtain ⟨j, hj⟩ := this i
      exact ⟨j, hj.trans h2⟩

/-- Non-vacuity of `c106_no_representation`: its hypotheses hold for the four operations of the doubled cell (with
matrices that are all zero; there are no others). -/
example : rotsC2 2 = 1 ∧ (¬ ∃ z : ℤ, ∑ a, ((∑ b, (rotsC2 1 b a : ℝ) * kP2d b) - kP2d a) * transP2d 2 a = z) ∧
    SpaceGroupLaw rotsC2 transP2d kP2d (fun _ _ => 1) (0 : RepArr 4 1) := by
  refine ⟨by decide +kernel, ?_, fun i j l _ => by simp⟩
  rintro ⟨z, hz⟩
  simp [rotsC2, transP2d, trans2P2d, kP2d, Fin.sum_univ_three] at hz
  have h2 : ((2 * z : ℤ) : ℝ) = ((-1 : ℤ) : ℝ) := by push_cast; linarith
  have h3 : 2 * z = -1 := by exact_mod_cast h2
  omega

/-! ### A primitive cell -/

/-- Rounding of half integers: to the nearest even integer. -/
def rintHalf (z : ℤ) : ℤ := if z % 2 = 0 then z / 2 else if (z / 2) % 2 = 0 then z / 2 else z / 2 + 1

theorem rint_halves (z : ℤ) : rint ((z : ℝ) / 2) = rintHalf z := by
  unfold rint rintHalf
  obtain ⟨q, rfl | rfl⟩ := Int.even_or_odd' z
  · have h1 : ((2 * q : ℤ) : ℝ) / 2 = q := by push_cast; ring
    rw [h1, Int.floor_intCast, if_pos (by norm_num), if_pos (by omega)]
    omega
  · have h1 : ((2 * q + 1 : ℤ) : ℝ) / 2 = q + 1 / 2 := by push_cast; ring
    have h2 : ⌊(q : ℝ) + 1 / 2⌋ = q := by
      rw [Int.floor_eq_iff]
      constructor <;> linarith
    have h3 : (2 * q + 1) / 2 = q := by omega
    have h4 : ¬ (2 * q + 1) % 2 = 0 := by omega
    rw [h1, h2, if_neg (by linarith), if_neg (by linarith), if_neg h4, h3]
    simp only [Int.even_iff]

theorem rawIrreps_closed {o : Oracles} {rots : Fin n → M3} {μ : Fin n → Fin n → ℂ} {method : IrrepMethod}
    {rtol atol : ℝ} {maxGen : ℕ} {out : List (AnyRep n) × Bool}
    (h : rawIrreps o rots μ method rtol atol maxGen = .ok out) : ∀ i j, ∃ l, rots l = rots i * rots j := by
  obtain ⟨T, hT⟩ : ∃ T, getCayleyTable rots = .ok T := by
    cases hT : getCayleyTable rots with
    | ok T => exact ⟨T, rfl⟩
    | error e =>
      exfalso
      cases method <;> simp [rawIrreps, getProjectiveRegularRepresentation, hT, bind, Except.bind] at h
  intro i j
  exact ⟨T i j, ((c02_cayley_raises (rots := rots) (trs := none)).2.1 T hT i j).1⟩

/-- **C106**: every run at `k = 0` requires that the rotations, transformed with the matrix of the Hall number and
rounded to integers, are closed under multiplication. -/
theorem c106_closed_of_run {o : Oracles} {hallType : ℤ → SpacegroupType} {lattice : R3} {dataset : Dataset n}
    {method : IrrepMethod} {rtol atol : ℝ} {maxGen : ℕ} {P : R3} (hl : lattice.det ≠ 0) (ha : 0 ≤ atol)
    (hP : getPrimitiveTransformationMatrix hallType dataset.hallNumber = .ok P)
    {out : ((m : ℕ) × (Fin m → Fin n) × List (AnyRep m)) × Bool}
    (hrun : getSpacegroupIrreps o hallType lattice dataset 0 method none rtol atol maxGen = .ok out) (i j : Fin n) :
    ∃ l, (P⁻¹ * (dataset.rotations l).map (fun x => (x : ℝ)) * P).map rint =
      (P⁻¹ * (dataset.rotations i).map (fun x => (x : ℝ)) * P).map rint *
        (P⁻¹ * (dataset.rotations j).map (fun x => (x : ℝ)) * P).map rint := by
  have hkc := (c52_kpoint_basis lattice hl 0).1
  have htr := transform_ok (getPrimitive_det hP) dataset.rotations dataset.translations 0
  rw [Matrix.mulVec_zero] at htr
  obtain ⟨l, -, hsmall, -⟩ := spacegroupIrreps_ok hP hkc htr (out := out.1) (w := out.2) hrun
  generalize hU : uniquePrimitiveSymmetry (fun i => (P⁻¹ * realMat (dataset.rotations i) * P).map rint)
    (fun i => P⁻¹ *ᵥ dataset.translations i) = U at *
  have hmem := (c38_unique_partial (fun i => (P⁻¹ * realMat (dataset.rotations i) * P).map rint)
    (fun i => P⁻¹ *ᵥ dataset.translations i)).2.1
  rw [hU] at hmem
  have hin : ∀ q, q ∈ littleMapping U.1.get 0 atol := by
    intro q
    rw [mem_littleMapping, inLittle_iff]
    exact ⟨0, fun a => by simp [residual, ha]⟩
  have hraw : ∃ out, rawIrreps o (fun i => U.1.get ((littleMapping U.1.get 0 atol).get i))
      (getFactorSystem (fun i => U.1.get ((littleMapping U.1.get 0 atol).get i))
        (fun i => U.2.1.getD ((littleMapping U.1.get 0 atol).get i) 0) 0) method rtol atol maxGen = .ok out := by
    revert hsmall
    unfold enumerateSmallReps enumerateUnitaryIrreps
    simp only [Option.getD_some]
    generalize rawIrreps o _ _ method rtol atol maxGen = X
    cases X with
    | ok out => exact fun _ => ⟨out, rfl⟩
    | error e => intro h; cases h
  obtain ⟨out', hraw⟩ := hraw
  have hcl := rawIrreps_closed hraw
  have hget : ∀ i, ∃ q : Fin (littleMapping U.1.get 0 atol).length,
      U.1.get ((littleMapping U.1.get 0 atol).get q) = (P⁻¹ * realMat (dataset.rotations i) * P).map rint := by
    intro i
    obtain ⟨p, hp⟩ := List.get_of_mem ((hmem _).2 ⟨i, rfl⟩)
    obtain ⟨q, hq⟩ := List.get_of_mem (hin p)
    exact ⟨q, by rw [hq, hp]⟩
  obtain ⟨p, hp⟩ := hget i
  obtain ⟨q, hq⟩ := hget j
  obtain ⟨r, hr⟩ := hcl p q
  obtain ⟨l, hl⟩ := (hmem _).1 (List.get_mem U.1 ((littleMapping U.1.get 0 atol).get r))
  refine ⟨l, ?_⟩
  rw [hp, hq] at hr
  exact hl.trans hr

/-- Non-vacuity of `c106_closed_of_run`: a run at `k = 0` for C2. -/
example : ∃ o out, getPrimitiveTransformationMatrix (fun _ => ⟨[], ['C', ' ', '2', 'y']⟩) datasetC2'.hallNumber = .ok primC ∧
    getSpacegroupIrreps o (fun _ => ⟨[], ['C', ' ', '2', 'y']⟩) 1 datasetC2' 0 = .ok out := by
  obtain ⟨o, m, mapping, irreps, h⟩ := c41_conventional_refuted.2.2.2
  exact ⟨o, _, primC2', h⟩

/-- The inverse of the matrix of an F-centred cell. -/
def primFinv : PgMat := ((-1, 1, 1), (1, -1, 1), (1, 1, -1))

/-- Twice the matrix of an F-centred cell. -/
def primF2 : PgMat := ((0, 1, 1), (1, 0, 1), (1, 1, 0))

/-- Applies a function to the entries. -/
def PgMat.entries (f : ℤ → ℤ) (a : PgMat) : PgMat :=
  ((f a.1.1, f a.1.2.1, f a.1.2.2), (f a.2.1.1, f a.2.1.2.1, f a.2.1.2.2), (f a.2.2.1, f a.2.2.2.1, f a.2.2.2.2))

theorem PgMat.toM3_entries (f : ℤ → ℤ) (a : PgMat) : (a.entries f).toM3 = a.toM3.map f := by
  ext i j
  fin_cases i <;> fin_cases j <;> rfl

/-- The 48 rotations of Fm-3m in the primitive cell of the face-centred cubic lattice: those of the cubic cell
(`pg_dataset["m-3m"]`), transformed to the primitive basis. -/
def listFcc : List PgMat := pgData_mb3m[0].map fun a => ((primFinv.mul a).mul primF2).entries fun z => z / 2

theorem listFcc_length : listFcc.length = 48 := by decide +kernel

/-- The rotations as an array. -/
def rotsFcc (i : Fin 48) : M3 := (listFcc.get (i.cast listFcc_length.symm)).toM3

/-- The dataset of a face-centred cubic crystal (Fm-3m, Hall number 523) given in its primitive cell. -/
noncomputable def datasetFcc : Dataset 48 := ⟨rotsFcc, fun _ => 0, 523⟩

/-- The symbol of Fm-3m. -/
def hallFcc : ℤ → SpacegroupType := fun _ => ⟨[], ['-', 'F', ' ', '4', ' ', '2', ' ', '3']⟩

/-- The matrix of an F-centred cell. -/
noncomputable def primF : R3 := !![0, 1 / 2, 1 / 2; 1 / 2, 0, 1 / 2; 1 / 2, 1 / 2, 0]

theorem primFcc : getPrimitiveTransformationMatrix hallFcc 523 = .ok primF := by
  unfold getPrimitiveTransformationMatrix
  rw [show getCrystalSystem 523 = .ok .cubic from by decide]
  rfl

theorem primF_inv : primF⁻¹ = realMat primFinv.toM3 := by
  apply Matrix.inv_eq_left_inv
  ext i j
  fin_cases i <;> fin_cases j <;>
    simp [primF, primFinv, PgMat.toM3, realMat, Matrix.mul_apply, Fin.sum_univ_three] <;> norm_num

theorem primF_conj (a : PgMat) : (primF⁻¹ * realMat a.toM3 * primF).map rint =
    (((primFinv.mul a).mul primF2).entries rintHalf).toM3 := by
  have h : primF = (1 / 2 : ℝ) • realMat primF2.toM3 := by
    ext i j
    fin_cases i <;> fin_cases j <;> simp [primF, primF2, PgMat.toM3, realMat]
  rw [primF_inv, h, Matrix.mul_smul, PgMat.toM3_entries, PgMat.toM3_mul, PgMat.toM3_mul]
  have h2 : realMat primFinv.toM3 * realMat a.toM3 * realMat primF2.toM3 =
      realMat (primFinv.toM3 * a.toM3 * primF2.toM3) := by
    have : (primFinv.toM3 * a.toM3 * primF2.toM3).map (Int.castRingHom ℝ) = primFinv.toM3.map (Int.castRingHom ℝ) *
        a.toM3.map (Int.castRingHom ℝ) * primF2.toM3.map (Int.castRingHom ℝ) := by
      rw [Matrix.map_mul, Matrix.map_mul]
    exact this.symm
  rw [h2]
  ext i j
  rw [Matrix.map_apply, Matrix.map_apply, ← rint_halves, Matrix.smul_apply]
  congr 1
  rw [smul_eq_mul, one_div, mul_comm, ← div_eq_mul_inv]
  rfl

theorem groupFcc : IsGroupList (listFcc.map PgMat.toM3) := checkGroup_sound (by decide +kernel)

theorem memFcc {M : M3} : M ∈ listFcc.map PgMat.toM3 ↔ ∃ i, rotsFcc i = M := by
  rw [List.mem_map]
  constructor
  · rintro ⟨a, ha, rfl⟩
    obtain ⟨i, hi⟩ := List.get_of_mem ha
    exact ⟨i.cast listFcc_length, by rw [rotsFcc, ← hi]; rfl⟩
  · rintro ⟨i, rfl⟩
    exact ⟨_, List.get_mem _ _, rfl⟩

theorem oneFcc : ∃ e, rotsFcc e = 1 :=
  memFcc.1 (List.mem_of_mem_head? (by rw [groupFcc.head]; rfl))

theorem cellFcc : IsCellGroup datasetFcc.rotations datasetFcc.translations := by
  refine ⟨?_, fun i j => ?_, fun i => ?_⟩
  · obtain ⟨e, he⟩ := oneFcc
    exact ⟨e, he, fun a => ⟨0, by simp [datasetFcc]⟩⟩
  · obtain ⟨l, hl⟩ := memFcc.1 (groupFcc.mul _ (memFcc.2 ⟨i, rfl⟩) _ (memFcc.2 ⟨j, rfl⟩))
    exact ⟨l, hl, fun a => ⟨0, by simp [datasetFcc]⟩⟩
  · obtain ⟨b, hb, h1, -⟩ := groupFcc.inv _ (memFcc.2 ⟨i, rfl⟩)
    obtain ⟨j, rfl⟩ := memFcc.1 hb
    exact ⟨j, h1, fun a => ⟨0, by simp [datasetFcc]⟩⟩

theorem latticeFcc : crystalLattice datasetFcc.rotations datasetFcc.translations = columnLattice 1 := by
  obtain ⟨e, he⟩ := oneFcc
  ext x
  constructor
  · rintro ⟨i, -, hx⟩
    choose m hm using hx
    refine ⟨m, fun a => ?_⟩
    have := hm a
    simp only [datasetFcc, Pi.zero_apply, sub_zero] at this
    rw [this]
    simp [Matrix.one_apply]
  · rintro ⟨m, hm⟩
    refine ⟨e, he, fun a => ⟨m a, ?_⟩⟩
    rw [hm a]
    simp [datasetFcc, Matrix.one_apply]

theorem fcc_not_closed : ∃ a ∈ listFcc, ∃ b ∈ listFcc, ∀ c ∈ listFcc,
    ((primFinv.mul c).mul primF2).entries rintHalf ≠
      (((primFinv.mul a).mul primF2).entries rintHalf).mul (((primFinv.mul b).mul primF2).entries rintHalf) := by
  decide +kernel

/-- **C106 refuted for primitive cells**: the primitive cell of a face-centred cubic crystal (Fm-3m) is a cell like
any other; its 48 operations are a group and the crystal has no other translations than those of the cell.  Yet at
the Γ point `get_spacegroup_irreps` raises an exception, whatever the lattice vectors, the method, the tolerances
and the random numbers are. -/
theorem c106_primitive_cell_refuted :
    IsCellGroup datasetFcc.rotations datasetFcc.translations ∧
    crystalLattice datasetFcc.rotations datasetFcc.translations = columnLattice 1 ∧
    ∀ (o : Oracles) (lattice : R3) (method : IrrepMethod) (rtol atol : ℝ) (maxGen : ℕ), lattice.det ≠ 0 → 0 ≤ atol →
      ∃ e, getSpacegroupIrreps o hallFcc lattice datasetFcc 0 method none rtol atol maxGen = .error e := by
  refine ⟨cellFcc, latticeFcc, fun o lattice method rtol atol maxGen hl ha => ?_⟩
  cases hrun : getSpacegroupIrreps o hallFcc lattice datasetFcc 0 method none rtol atol maxGen with
  | error e => exact ⟨e, rfl⟩
  | ok out =>
    exfalso
    obtain ⟨a, ha', b, hb, hc⟩ := fcc_not_closed
    obtain ⟨i, hi⟩ := memFcc.1 (List.mem_map_of_mem (f := PgMat.toM3) ha')
    obtain ⟨j, hj⟩ := memFcc.1 (List.mem_map_of_mem (f := PgMat.toM3) hb)
    obtain ⟨l, hl⟩ := c106_closed_of_run (dataset := datasetFcc) hl ha primFcc hrun i j
    obtain ⟨c, hcm, hcl⟩ := List.mem_map.1 (memFcc.2 ⟨l, rfl⟩)
    change (primF⁻¹ * realMat (rotsFcc l) * primF).map rint = (primF⁻¹ * realMat (rotsFcc i) * primF).map rint *
      (primF⁻¹ * realMat (rotsFcc j) * primF).map rint at hl
    rw [hi, hj, ← hcl, primF_conj, primF_conj, primF_conj, ← PgMat.toM3_mul] at hl
    exact hc c hcm (PgMat.toM3_injective hl)

end Spgrep
