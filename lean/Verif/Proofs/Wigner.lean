/-
Wigner's theorem on co-representations of a group with anti-linear elements, for projective representations with an
anti-linear cocycle: conjugation by an anti-linear element and the three cases of the indicator.
-/
import Verif.Proofs.Corep
import Verif.Proofs.Reality

namespace Spgrep

open Spec Matrix

variable {n m d : ℕ}

/-- A group with table `T`, flags `a` of the anti-linear elements and an anti-linear cocycle `F`; its linear elements
`xsg` with their table `T'`; an anti-linear element `a0`, conjugation `c` by `a0` and the position `s` of its square. -/
structure AntiGroup (T : Fin n → Fin n → Fin n) (a : Fin n → Bool) (F : Fin n → Fin n → ℂ) (xsg : Fin m → Fin n)
    (T' : Fin m → Fin m → Fin m) (a0 : Fin n) (c : Fin m → Fin m) (s : Fin m) : Prop where
  table : IsGroupTable T
  hom : ∀ i j, a (T i j) = (a i ^^ a j)
  cocycle : IsAntiCocycle T a F
  norm : ∀ i j, ‖F i j‖ = 1
  inj : Function.Injective xsg
  mem : ∀ i, (∃ u, xsg u = i) ↔ a i = false
  sub : ∀ u v, xsg (T' u v) = T (xsg u) (xsg v)
  anti : a a0 = true
  conj : ∀ u, T a0 (xsg (c u)) = T (xsg u) a0
  square : xsg s = T a0 a0

/-- The factor of the conjugated representation. -/
noncomputable def conjFactor (F : Fin n → Fin n → ℂ) (xsg : Fin m → Fin n) (a0 : Fin n) (c : Fin m → Fin m) (u : Fin m) : ℂ :=
  F (xsg u) a0 / F a0 (xsg (c u))

/-- The conjugated representation. -/
noncomputable def bar (F : Fin n → Fin n → ℂ) (xsg : Fin m → Fin n) (a0 : Fin n) (c : Fin m → Fin m) (D : RepArr m d) :
    RepArr m d := fun u => conjFactor F xsg a0 c u • (D (c u)).map star

namespace AntiGroup

variable {T : Fin n → Fin n → Fin n} {a : Fin n → Bool} {F : Fin n → Fin n → ℂ} {xsg : Fin m → Fin n}
  {T' : Fin m → Fin m → Fin m} {a0 : Fin n} {c : Fin m → Fin m} {s : Fin m}

theorem ne_zero (A : AntiGroup T a F xsg T' a0 c s) (i j : Fin n) : F i j ≠ 0 := by
  intro h
  have := A.norm i j
  rw [h, norm_zero] at this
  exact zero_ne_one this

theorem mul_star (A : AntiGroup T a F xsg T' a0 c s) (i j : Fin n) : F i j * star (F i j) = 1 := by
  rw [Complex.star_def, Complex.mul_conj, Complex.normSq_eq_norm_sq, A.norm]
  simp

theorem star_ne_zero (A : AntiGroup T a F xsg T' a0 c s) (i j : Fin n) : star (F i j) ≠ 0 := by
  intro h
  have := A.mul_star i j
  rw [h, mul_zero] at this
  exact zero_ne_one this

theorem lin (A : AntiGroup T a F xsg T' a0 c s) {i : Fin n} (hi : a i = false) (j k : Fin n) :
    F i (T j k) * F j k = F (T i j) k * F i j := by
  have := A.cocycle i j k
  rwa [hi, conjIf, if_neg (by decide)] at this

theorem alin (A : AntiGroup T a F xsg T' a0 c s) {i : Fin n} (hi : a i = true) (j k : Fin n) :
    F i (T j k) * star (F j k) = F (T i j) k * F i j := by
  have := A.cocycle i j k
  rwa [hi, conjIf, if_pos rfl] at this

theorem linear (A : AntiGroup T a F xsg T' a0 c s) (u : Fin m) : a (xsg u) = false := (A.mem _).1 ⟨u, rfl⟩

theorem assoc (A : AntiGroup T a F xsg T' a0 c s) (i j k : Fin n) : T (T i j) k = T i (T j k) := A.table.assoc i j k

theorem cancel (A : AntiGroup T a F xsg T' a0 c s) {k i j : Fin n} (h : T k i = T k j) : i = j :=
  table_left_cancel A.table h

theorem cancel_right (A : AntiGroup T a F xsg T' a0 c s) {k i j : Fin n} (h : T i k = T j k) : i = j := by
  obtain ⟨e, -, he, hinv⟩ := A.table.one_inv
  obtain ⟨k', hk', -⟩ := hinv k
  have := congrArg (fun x => T x k') h
  simp only [A.assoc, hk', he] at this
  exact this

theorem sub_table (A : AntiGroup T a F xsg T' a0 c s) : IsGroupTable T' := by
  refine ⟨fun u v w => A.inj ?_, ?_⟩
  · rw [A.sub, A.sub, A.sub, A.sub, A.assoc]
  · obtain ⟨e, he1, he2, hinv⟩ := A.table.one_inv
    have hae : a e = false := by
      have := A.hom e e
      rw [he1] at this
      cases h : a e
      · rfl
      · rw [h] at this
        exact absurd this (by decide)
    obtain ⟨u0, hu0⟩ := (A.mem e).2 hae
    refine ⟨u0, fun u => A.inj (by rw [A.sub, hu0, he1]), fun u => A.inj (by rw [A.sub, hu0, he2]), fun u => ?_⟩
    obtain ⟨j, hj1, hj2⟩ := hinv (xsg u)
    have haj : a j = false := by
      have := A.hom (xsg u) j
      rw [hj1, hae, A.linear] at this
      simpa using this.symm
    obtain ⟨v, hv⟩ := (A.mem j).2 haj
    exact ⟨v, A.inj (by rw [A.sub, hv, hj1, hu0]), A.inj (by rw [A.sub, hv, hj2, hu0])⟩

theorem sub_cocycle (A : AntiGroup T a F xsg T' a0 c s) : IsCocycle T' fun u v => F (xsg u) (xsg v) := by
  intro u v w
  dsimp only
  rw [A.sub, A.sub]
  exact A.lin (A.linear u) _ _

theorem conj_mul (A : AntiGroup T a F xsg T' a0 c s) (u v : Fin m) : c (T' u v) = T' (c u) (c v) := by
  apply A.inj
  apply A.cancel (k := a0)
  rw [A.conj, A.sub, A.sub, ← A.assoc, A.conj, A.assoc, A.assoc, A.conj]

theorem conj_bijective (A : AntiGroup T a F xsg T' a0 c s) : Function.Bijective c := by
  apply Finite.injective_iff_bijective.1
  intro u v h
  apply A.inj
  apply A.cancel_right (k := a0)
  rw [← A.conj, ← A.conj, h]

theorem conj_square (A : AntiGroup T a F xsg T' a0 c s) : c s = s := by
  apply A.inj
  apply A.cancel (k := a0)
  rw [A.conj, A.square, A.assoc]

theorem conjFactor_ne (A : AntiGroup T a F xsg T' a0 c s) (u : Fin m) : conjFactor F xsg a0 c u ≠ 0 :=
  div_ne_zero (A.ne_zero _ _) (A.ne_zero _ _)

theorem conjFactor_norm (A : AntiGroup T a F xsg T' a0 c s) (u : Fin m) : ‖conjFactor F xsg a0 c u‖ = 1 := by
  unfold conjFactor
  rw [norm_div, A.norm, A.norm, div_one]

theorem conjFactor_mul_star (A : AntiGroup T a F xsg T' a0 c s) (u : Fin m) :
    conjFactor F xsg a0 c u * star (conjFactor F xsg a0 c u) = 1 := by
  rw [Complex.star_def, Complex.mul_conj, Complex.normSq_eq_norm_sq, A.conjFactor_norm]
  simp

theorem conjFactor_cocycle (A : AntiGroup T a F xsg T' a0 c s) (u v : Fin m) :
    conjFactor F xsg a0 c u * conjFactor F xsg a0 c v * star (F (xsg (c u)) (xsg (c v))) =
      F (xsg u) (xsg v) * conjFactor F xsg a0 c (T' u v) := by
  have e1 := A.alin A.anti (xsg (c u)) (xsg (c v))
  have e2 := A.lin (A.linear u) a0 (xsg (c v))
  have e3 := A.lin (A.linear u) (xsg v) a0
  rw [A.conj, ← A.sub, ← A.conj_mul] at e1
  rw [A.conj] at e2
  rw [← A.sub] at e3
  unfold conjFactor
  rw [div_mul_div_comm, div_mul_eq_mul_div, mul_div_assoc', div_eq_div_iff (mul_ne_zero (A.ne_zero _ _) (A.ne_zero _ _))
    (A.ne_zero _ _)]
  linear_combination (F (xsg u) a0 * F (xsg v) a0) * e1 - (F (xsg v) a0 * F a0 (xsg (c u))) * e2 +
    (F a0 (xsg (c u)) * F a0 (xsg (c v))) * e3

/-- The conjugated representation has the same factor system. -/
theorem bar_projRep (A : AntiGroup T a F xsg T' a0 c s) {D : RepArr m d}
    (hD : IsProjRep T' (fun u v => F (xsg u) (xsg v)) D) :
    IsProjRep T' (fun u v => F (xsg u) (xsg v)) (bar F xsg a0 c D) := by
  intro u v
  unfold bar
  rw [Matrix.smul_mul, Matrix.mul_smul, smul_smul, ← map_star_mul, hD, map_star_smul, smul_smul, A.conjFactor_cocycle,
    A.conj_mul, smul_smul]

theorem bar_unitary (A : AntiGroup T a F xsg T' a0 c s) {D : RepArr m d} (hD : IsUnitaryRep D) :
    IsUnitaryRep (bar F xsg a0 c D) := by
  intro u
  exact smul_unitary (A.conjFactor_norm u) (conj_unitary hD (c u))

theorem bar_irreducible (A : AntiGroup T a F xsg T' a0 c s) {D : RepArr m d} (hD : Spec.IsIrreducible D) :
    Spec.IsIrreducible (bar F xsg a0 c D) := by
  refine ⟨hD.1, fun W hW => (conj_irreducible hD).2 W fun g v hv => ?_⟩
  obtain ⟨u, rfl⟩ := A.conj_bijective.2 g
  have := W.smul_mem (conjFactor F xsg a0 c u)⁻¹ (hW u v hv)
  unfold bar at this
  rwa [Matrix.smul_mulVec, smul_smul, inv_mul_cancel₀ (A.conjFactor_ne u), one_smul] at this

theorem bar_equiv {D : RepArr m d} {e : ℕ} {E : RepArr m e} (h : AreEquivalent D E) :
    AreEquivalent (bar F xsg a0 c D) (bar F xsg a0 c E) := by
  obtain ⟨S, S', h1, h2, h3⟩ := AreEquivalent.conj h
  refine ⟨S, S', h1, h2, fun u => ?_⟩
  unfold bar
  rw [Matrix.smul_mul, Matrix.mul_smul, h3]

/-- Conjugating twice is conjugation by the square of the anti-linear element. -/
theorem bar_bar (A : AntiGroup T a F xsg T' a0 c s) {D : RepArr m d}
    (hD : IsProjRep T' (fun u v => F (xsg u) (xsg v)) D) (u : Fin m) :
    D s * bar F xsg a0 c (bar F xsg a0 c D) u = D u * D s := by
  have e1 := A.lin (A.linear u) a0 a0
  have e2 := A.alin A.anti (xsg (c u)) a0
  have e3 := A.alin A.anti a0 (xsg (c (c u)))
  rw [A.conj, ← A.conj] at e2
  rw [← A.square] at e1 e3
  have hpos : T' s (c (c u)) = T' u s := by
    apply A.inj
    rw [A.sub, A.sub, A.square, A.assoc, A.conj, ← A.assoc, A.conj, A.assoc]
  have hs : conjFactor F xsg a0 c u * star (conjFactor F xsg a0 c (c u)) * F (xsg s) (xsg (c (c u))) = F (xsg u) (xsg s) := by
    unfold conjFactor
    rw [star_div₀, div_mul_div_comm, div_mul_eq_mul_div, div_eq_iff (mul_ne_zero (A.ne_zero _ _) (A.star_ne_zero _ _))]
    apply mul_left_cancel₀ (A.ne_zero a0 a0)
    linear_combination (-(F (xsg u) a0 * star (F (xsg (c u)) a0))) * e3 -
      (F a0 (xsg (c u)) * star (F a0 (xsg (c (c u))))) * e1 +
      (F (xsg u) a0 * star (F a0 (xsg (c (c u))))) * e2
  unfold bar
  rw [map_star_smul, map_star_map_star, smul_smul, Matrix.mul_smul, hD, smul_smul, hD, hpos, hs]

theorem bar_bar_equiv (A : AntiGroup T a F xsg T' a0 c s) {D : RepArr m d}
    (hD : IsProjRep T' (fun u v => F (xsg u) (xsg v)) D) (hu : IsUnitaryRep D) :
    AreEquivalent D (bar F xsg a0 c (bar F xsg a0 c D)) :=
  ⟨D s, (D s).conjTranspose, hu s, mul_eq_one_comm.1 (hu s), fun u => (A.bar_bar hD u).symm⟩

theorem bar_equiv_iff (A : AntiGroup T a F xsg T' a0 c s) {D : RepArr m d} {e : ℕ} {E : RepArr m e}
    (hD : IsProjRep T' (fun u v => F (xsg u) (xsg v)) D) (hDu : IsUnitaryRep D)
    (hE : IsProjRep T' (fun u v => F (xsg u) (xsg v)) E) (hEu : IsUnitaryRep E) :
    AreEquivalent (bar F xsg a0 c D) (bar F xsg a0 c E) ↔ AreEquivalent D E :=
  ⟨fun h => AreEquivalent.trans (AreEquivalent.trans (A.bar_bar_equiv hD hDu) (bar_equiv h))
    (AreEquivalent.symm (A.bar_bar_equiv hE hEu)), bar_equiv⟩

/-- One term of the indicator sum. -/
theorem indicator_term (A : AntiGroup T a F xsg T' a0 c s) {D : RepArr m d}
    (hD : IsProjRep T' (fun u v => F (xsg u) (xsg v)) D) (u q : Fin m)
    (hq : xsg q = T (T a0 (xsg u)) (T a0 (xsg u))) :
    F (T a0 (xsg u)) (T a0 (xsg u)) • D q = F a0 a0 • (D s * (bar F xsg a0 c D u).map star * D u) := by
  have e1 := A.alin A.anti (xsg u) (T a0 (xsg u))
  have e2 := A.lin (A.linear u) a0 (xsg u)
  have e3 := A.alin A.anti (xsg (c u)) (xsg u)
  have e4 := A.alin A.anti a0 (T (xsg (c u)) (xsg u))
  have e5 := A.lin (A.linear s) (xsg (c u)) (xsg u)
  have hz : T a0 (T (xsg (c u)) (xsg u)) = T (xsg u) (T a0 (xsg u)) := by rw [← A.assoc, A.conj, A.assoc]
  rw [A.conj] at e3
  rw [hz, ← A.square] at e4
  rw [← A.sub s (c u)] at e5
  have uP := A.mul_star a0 (xsg (c u))
  have uA := A.mul_star (xsg u) a0
  have uB := A.mul_star a0 (T (xsg (c u)) (xsg u))
  have uC := A.mul_star (xsg (c u)) (xsg u)
  have uτ := A.mul_star (xsg u) (T a0 (xsg u))
  have hpos : T' (T' s (c u)) u = q := by
    apply A.inj
    rw [A.sub, A.sub, A.square, hq, A.assoc, A.assoc, hz, A.assoc, ← A.assoc (xsg u)]
  have hs : F (T a0 (xsg u)) (T a0 (xsg u)) =
      F a0 a0 * (star (conjFactor F xsg a0 c u) * (F (xsg s) (xsg (c u)) * F (xsg (T' s (c u))) (xsg u))) := by
    have hst : star (conjFactor F xsg a0 c u) * star (F a0 (xsg (c u))) = star (F (xsg u) a0) := by
      unfold conjFactor
      rw [star_div₀, div_mul_cancel₀ _ (A.star_ne_zero _ _)]
    apply mul_right_cancel₀ (A.star_ne_zero a0 (xsg (c u)))
    apply mul_left_cancel₀ (A.ne_zero a0 (xsg u))
    rw [show F a0 (xsg u) * (F a0 a0 * (star (conjFactor F xsg a0 c u) *
      (F (xsg s) (xsg (c u)) * F (xsg (T' s (c u))) (xsg u))) * star (F a0 (xsg (c u)))) =
      F a0 (xsg u) * F a0 a0 * (star (conjFactor F xsg a0 c u) * star (F a0 (xsg (c u)))) *
      (F (xsg s) (xsg (c u)) * F (xsg (T' s (c u))) (xsg u)) by ring, hst]
    generalize F (T a0 (xsg u)) (T a0 (xsg u)) = W at *
    generalize F a0 (xsg u) = V at *
    generalize F (xsg u) (T a0 (xsg u)) = τ at *
    generalize F (xsg u) a0 = A' at *
    generalize F a0 (xsg (c u)) = P at *
    generalize F (T (xsg u) a0) (xsg u) = X at *
    generalize F a0 (T (xsg u) (T a0 (xsg u))) = Y at *
    generalize F a0 (T (xsg (c u)) (xsg u)) = B at *
    generalize F (xsg (c u)) (xsg u) = C at *
    generalize F (xsg s) (xsg (c u)) = G at *
    generalize F (xsg (T' s (c u))) (xsg u) = H at *
    generalize F (xsg s) (T (xsg (c u)) (xsg u)) = J at *
    generalize F a0 a0 = E0 at *
    have h1 : X * star B * C = star P := by
      linear_combination (-(X * star B * C)) * uP - star B * C * star P * e3 + star P * C * star C * uB + star P * uC
    have h2 : X = star A' * τ * V := by linear_combination (-X) * uA - star A' * e2
    have h3 : star τ * star P = star A' * V * star B * C := by
      linear_combination (-star τ) * h1 + (star τ * star B * C) * h2 + (star A' * V * star B * C) * uτ
    linear_combination (-star P) * e1 + Y * h3 + (star A' * V * C) * e4 + (E0 * star A' * V) * e5
  have hbar : (bar F xsg a0 c D u).map star = star (conjFactor F xsg a0 c u) • D (c u) := by
    unfold bar
    rw [map_star_smul, map_star_map_star]
  rw [hbar, Matrix.mul_smul, Matrix.smul_mul, hD, Matrix.smul_mul, hD, hpos, hs]
  simp only [smul_smul]

/-- Schur orthogonality as a matrix identity. -/
theorem sum_conj_mul (A : AntiGroup T a F xsg T' a0 c s) {D : RepArr m d}
    (hD : IsProjRep T' (fun u v => F (xsg u) (xsg v)) D) (hDu : IsUnitaryRep D) (hDi : Spec.IsIrreducible D)
    (M : Matrix (Fin d) (Fin d) ℂ) : ∑ u, (D u).map star * M * D u = ((m : ℂ) / d) • M.transpose := by
  ext i l
  have h1 : (∑ u, (D u).map star * M * D u) i l = ∑ q, ∑ p, M p q * ∑ u, D u q l * star (D u i p) := by
    simp only [Matrix.sum_apply, Matrix.mul_apply, Matrix.map_apply, Finset.mul_sum, Finset.sum_mul]
    rw [Finset.sum_comm]
    refine Finset.sum_congr rfl fun q _ => ?_
    rw [Finset.sum_comm]
    refine Finset.sum_congr rfl fun p _ => Finset.sum_congr rfl fun u _ => ?_
    ring
  have h2 : ∀ q p, ∑ u, D u q l * star (D u i p) = if q = i ∧ l = p then (m : ℂ) / d else 0 := by
    intro q p
    have := table_schur_orthogonality_self A.sub_table (μ := fun u v => F (xsg u) (xsg v)) (fun u v => A.ne_zero _ _) hD hDi hDu
      q l p i
    rwa [Fintype.card_fin] at this
  rw [h1, Finset.sum_eq_single i, Finset.sum_eq_single l]
  · rw [h2, if_pos ⟨rfl, rfl⟩, Matrix.smul_apply, Matrix.transpose_apply, smul_eq_mul, mul_comm]
  · intro p _ hp
    rw [h2, if_neg fun h => hp h.2.symm, mul_zero]
  · intro h
    exact absurd (Finset.mem_univ l) h
  · intro q _ hq
    refine Finset.sum_eq_zero fun p _ => ?_
    rw [h2, if_neg fun h => hq h.1, mul_zero]
  · intro h
    exact absurd (Finset.mem_univ i) h

/-- Equivalent unitary irreps are related by a unitary matrix. -/
theorem exists_unitary {D E : RepArr m d} (hDu : IsUnitaryRep D) (hEu : IsUnitaryRep E) (hE : Spec.IsIrreducible E)
    (h : AreEquivalent D E) : ∃ W : Matrix (Fin d) (Fin d) ℂ, W * W.conjTranspose = 1 ∧ ∀ u, D u * W = W * E u := by
  obtain ⟨S, S', h1, h2, h3⟩ := h
  have hdet : S.det ≠ 0 := by
    have := congrArg Matrix.det h1
    rw [Matrix.det_mul, Matrix.det_one] at this
    intro h0
    rw [h0, zero_mul] at this
    exact zero_ne_one this
  have hd : 0 < d := by
    obtain ⟨i⟩ := hE.1
    exact Nat.lt_of_le_of_lt (Nat.zero_le _) i.2
  have hW : ∀ u, D u * ((S.det ^ ((1 : ℂ) / d))⁻¹ • S) = ((S.det ^ ((1 : ℂ) / d))⁻¹ • S) * E u := by
    intro u
    rw [Matrix.mul_smul, h3, Matrix.smul_mul]
  exact ⟨_, unitary_of_intertwines hDu hEu hE hW (by rw [det_scaled hd S hdet, norm_one]), hW⟩

theorem map_star_unitary {W : Matrix (Fin d) (Fin d) ℂ} (hW : W * W.conjTranspose = 1) :
    W.map star * W.transpose = 1 ∧ W.transpose * W.map star = 1 := by
  have h1 : W.map star * W.transpose = 1 := by
    have := congrArg (fun M : Matrix (Fin d) (Fin d) ℂ => M.map star) hW
    simp only [map_star_mul, map_star_one] at this
    rwa [show W.conjTranspose.map star = W.transpose by ext i j; simp] at this
  exact ⟨h1, mul_eq_one_comm.1 h1⟩

/-- For an irrep equivalent to its conjugate: the matrix of the equivalence, and the sign. -/
theorem wigner_equiv (A : AntiGroup T a F xsg T' a0 c s) {D : RepArr m d}
    (hD : IsProjRep T' (fun u v => F (xsg u) (xsg v)) D) (hDu : IsUnitaryRep D) (hDi : Spec.IsIrreducible D)
    {W : Matrix (Fin d) (Fin d) ℂ} (hW : W * W.conjTranspose = 1) (hWD : ∀ u, bar F xsg a0 c D u * W = W * D u) :
    ∃ σ : ℂ, (σ = 1 ∨ σ = -1) ∧ F a0 a0 • (D s * (W.map star * W)) = σ • 1 ∧
      ∀ (q : Fin m → Fin m), (∀ u, xsg (q u) = T (T a0 (xsg u)) (T a0 (xsg u))) →
        ∑ u, F (T a0 (xsg u)) (T a0 (xsg u)) * (D (q u)).trace = σ * m := by
  obtain ⟨hW1, hW2⟩ := map_star_unitary hW
  have hW' : W.conjTranspose * W = 1 := mul_eq_one_comm.1 hW
  have hne : Nonempty (Fin d) := hDi.1
  have hd : (d : ℂ) ≠ 0 := by
    obtain ⟨i⟩ := hDi.1
    exact_mod_cast (Nat.lt_of_le_of_lt (Nat.zero_le _) i.2).ne'
  have hbar : ∀ u, bar F xsg a0 c D u = W * D u * W.conjTranspose := by
    intro u
    rw [← hWD, Matrix.mul_assoc, hW, Matrix.mul_one]
  have hbarstar : ∀ u, (bar F xsg a0 c D u).map star = W.map star * (D u).map star * W.transpose := by
    intro u
    rw [hbar, map_star_mul, map_star_mul, show W.conjTranspose.map star = W.transpose by ext i j; simp]
  -- conjugating twice
  have hbb : ∀ u, bar F xsg a0 c (bar F xsg a0 c D) u * (W.map star * W) = W.map star * W * D u := by
    intro u
    have h1 : bar F xsg a0 c (bar F xsg a0 c D) u = W.map star * bar F xsg a0 c D u * W.transpose := by
      conv_lhs => unfold bar
      rw [show (conjFactor F xsg a0 c (c u) • (D (c (c u))).map star) = bar F xsg a0 c D (c u) from rfl, hbarstar]
      conv_rhs => unfold bar
      rw [Matrix.mul_smul, Matrix.smul_mul]
    rw [h1, Matrix.mul_assoc, ← Matrix.mul_assoc W.transpose, hW2, Matrix.one_mul, Matrix.mul_assoc, hWD, Matrix.mul_assoc]
  obtain ⟨l, hl⟩ := schur_scalar hDi (M := D s * (W.map star * W)) (by
    intro u
    rw [← Matrix.mul_assoc, ← A.bar_bar hD u, Matrix.mul_assoc, hbb]
    simp only [Matrix.mul_assoc])
  -- the scalar has modulus one
  have hl1 : l * star l = 1 := by
    have h1 : (D s * (W.map star * W)) * (D s * (W.map star * W)).conjTranspose = 1 := by
      rw [Matrix.conjTranspose_mul, Matrix.conjTranspose_mul]
      calc D s * (W.map star * W) * (W.conjTranspose * (W.map star).conjTranspose * (D s).conjTranspose)
          = D s * (W.map star * (W * W.conjTranspose) * (W.map star).conjTranspose) * (D s).conjTranspose := by
            simp only [Matrix.mul_assoc]
        _ = 1 := by
            rw [hW, Matrix.mul_one, show (W.map star).conjTranspose = W.transpose by ext i j; simp, hW1, Matrix.mul_one, hDu s]
    rw [hl, Matrix.conjTranspose_smul, Matrix.conjTranspose_one, Matrix.smul_mul, Matrix.one_mul, smul_smul] at h1
    exact smul_left_injective ℂ (one_ne_zero : (1 : Matrix (Fin d) (Fin d) ℂ) ≠ 0) (h1.trans (one_smul _ _).symm)
  have hDs : D s = l • (W.conjTranspose * W.transpose) := by
    calc D s = D s * (W.map star * (W * W.conjTranspose) * W.transpose) := by
          rw [hW, Matrix.mul_one, hW1, Matrix.mul_one]
      _ = D s * (W.map star * W) * (W.conjTranspose * W.transpose) := by simp only [Matrix.mul_assoc]
      _ = _ := by rw [hl, Matrix.smul_mul, Matrix.one_mul]
  have hWt : W.transpose ≠ 0 := by
    intro h0
    rw [h0, Matrix.mul_zero] at hW1
    exact zero_ne_one hW1
  have hls : conjFactor F xsg a0 c s * star l = l := by
    have h1 := hWD s
    have h2 : bar F xsg a0 c D s * W = (conjFactor F xsg a0 c s * star l) • W.transpose := by
      unfold bar
      rw [A.conj_square, hDs, map_star_smul, map_star_mul, show W.conjTranspose.map star = W.transpose by ext i j; simp,
        show W.transpose.map star = W.conjTranspose by ext i j; simp, smul_smul, Matrix.smul_mul, Matrix.mul_assoc, hW',
        Matrix.mul_one]
    have h3 : W * D s = l • W.transpose := by
      rw [hDs, Matrix.mul_smul, ← Matrix.mul_assoc, hW, Matrix.one_mul]
    rw [h2, h3] at h1
    exact smul_left_injective ℂ hWt h1
  have hfs : conjFactor F xsg a0 c s * F a0 a0 = star (F a0 a0) := by
    have e := A.alin A.anti a0 a0
    unfold conjFactor
    rw [A.conj_square, ← A.square] at *
    rw [div_mul_eq_mul_div, div_eq_iff (A.ne_zero _ _)]
    linear_combination -e
  have hsq : (F a0 a0 * l) * (F a0 a0 * l) = 1 := by
    have hll : l * l = conjFactor F xsg a0 c s := by
      linear_combination (-l) * hls + conjFactor F xsg a0 c s * hl1
    linear_combination (F a0 a0 * F a0 a0) * hll + F a0 a0 * hfs + A.mul_star a0 a0
  have hsig := mul_self_eq_one_iff.1 hsq
  refine ⟨F a0 a0 * l, hsig, ?_, ?_⟩
  · rw [hl, smul_smul]
  · intro q hq
    have h1 : ∀ u, F (T a0 (xsg u)) (T a0 (xsg u)) * (D (q u)).trace =
        F a0 a0 * (D s * ((bar F xsg a0 c D u).map star * D u)).trace := by
      intro u
      have := congrArg Matrix.trace (A.indicator_term hD u (q u) (hq u))
      rwa [Matrix.trace_smul, Matrix.trace_smul, Matrix.mul_assoc] at this
    rw [Finset.sum_congr rfl fun u _ => h1 u, ← Finset.mul_sum, ← Matrix.trace_sum, ← Matrix.mul_sum]
    have h2 : ∑ u, (bar F xsg a0 c D u).map star * D u = ((m : ℂ) / d) • (W.map star * W) := by
      have h3 : ∀ u, (bar F xsg a0 c D u).map star * D u = W.map star * ((D u).map star * W.transpose * D u) := by
        intro u
        rw [hbarstar]
        simp only [Matrix.mul_assoc]
      rw [Finset.sum_congr rfl fun u _ => h3 u, ← Matrix.mul_sum, A.sum_conj_mul hD hDu hDi, Matrix.transpose_transpose,
        Matrix.mul_smul]
    rw [h2, Matrix.mul_smul, hl, Matrix.trace_smul, Matrix.trace_smul, Matrix.trace_one, Fintype.card_fin]
    simp only [smul_eq_mul]
    field_simp

/-- For an irrep inequivalent to its conjugate the sum vanishes. -/
theorem wigner_inequiv (A : AntiGroup T a F xsg T' a0 c s) {D : RepArr m d}
    (hD : IsProjRep T' (fun u v => F (xsg u) (xsg v)) D) (hDu : IsUnitaryRep D) (hDi : Spec.IsIrreducible D)
    (hne : ¬ AreEquivalent D (bar F xsg a0 c D)) (q : Fin m → Fin m)
    (hq : ∀ u, xsg (q u) = T (T a0 (xsg u)) (T a0 (xsg u))) :
    ∑ u, F (T a0 (xsg u)) (T a0 (xsg u)) * (D (q u)).trace = 0 := by
  have h1 : ∀ u, F (T a0 (xsg u)) (T a0 (xsg u)) * (D (q u)).trace =
      F a0 a0 * (D s * ((bar F xsg a0 c D u).map star * D u)).trace := by
    intro u
    have := congrArg Matrix.trace (A.indicator_term hD u (q u) (hq u))
    rwa [Matrix.trace_smul, Matrix.trace_smul, Matrix.mul_assoc] at this
  rw [Finset.sum_congr rfl fun u _ => h1 u, ← Finset.mul_sum, ← Matrix.trace_sum, ← Matrix.mul_sum]
  have h2 : ∑ u, (bar F xsg a0 c D u).map star * D u = 0 := by
    ext i l
    simp only [Matrix.sum_apply, Matrix.mul_apply, Matrix.map_apply, Matrix.zero_apply]
    rw [Finset.sum_comm]
    refine Finset.sum_eq_zero fun j _ => ?_
    have := table_schur_orthogonality_ne A.sub_table (μ := fun u v => F (xsg u) (xsg v)) (fun u v => A.ne_zero _ _) hD
      (A.bar_projRep hD) hDi (A.bar_irreducible hDi) (A.bar_unitary hDu) hne j l j i
    rw [← this]
    exact Finset.sum_congr rfl fun u _ => mul_comm _ _
  rw [h2, Matrix.mul_zero, Matrix.trace_zero, mul_zero]

end AntiGroup

/-- The inverse found by the code. -/
theorem inverse_of_table {T : Fin n → Fin n → Fin n} (hT : IsGroupTable T) (i : Fin n) :
    ∃ j, getInverseIndex T i = .ok j ∧ ∀ x, T i (T j x) = x := by
  let _ := TG.group hT
  refine ⟨_, getInverseIndex_eq (G := TG T) (Equiv.refl _) (fun _ _ => rfl) i, fun x => ?_⟩
  exact mul_inv_cancel_left (G := TG T) i x

end Spgrep
