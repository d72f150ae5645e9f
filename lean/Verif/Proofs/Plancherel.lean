/-
Consequences of the second orthogonality relation: completeness of the matrix entries and the Frobenius-Schur count.
-/
import Verif.Props.Classes
import Verif.Proofs.TensorRun

set_option linter.unusedSectionVars false

namespace Spgrep

open Spec

variable {n : ℕ} {T : Fin n → Fin n → Fin n} {μ : Fin n → Fin n → ℂ}

theorem table_right_cancel (hT : IsGroupTable T) {a b c : Fin n} (h : T b a = T c a) : b = c := by
  obtain ⟨u, -, hu, hinv⟩ := hT.one_inv
  obtain ⟨d, hd, -⟩ := hinv a
  have := congrArg (fun x => T x d) h
  rwa [hT.assoc, hT.assoc, hd, hu, hu] at this

theorem cocycle_units (hμ : ∀ g h, μ g h ≠ 0)
    (hc : ∀ i j k, μ i (T j k) * μ j k = μ (T i j) k * μ i j) {e : Fin n} (he : ∀ g, T e g = g) (he' : ∀ g, T g e = g)
    (h1 : μ e e = 1) (g : Fin n) : μ e g = 1 ∧ μ g e = 1 := by
  constructor
  · have h := hc e e g
    rw [he, he, h1, mul_one] at h
    exact mul_right_cancel₀ (hμ e g) (h.trans (one_mul _).symm)
  · have h := hc g e e
    rw [he', he', h1, mul_one] at h
    exact (mul_right_cancel₀ (hμ g e) ((one_mul _).trans h)).symm

theorem proj_one {d : ℕ} {D : RepArr n d} (hD : IsProjRep T μ D) (hu : IsUnitaryRep D) {e : Fin n}
    (he : ∀ g, T e g = g) (h1 : μ e e = 1) : D e = 1 := by
  have h2 := hD e e
  rw [he, h1, one_smul] at h2
  have h3 := hu e
  calc D e = D e * (D e * (D e).conjTranspose) := by rw [h3, Matrix.mul_one]
    _ = D e * D e * (D e).conjTranspose := by rw [Matrix.mul_assoc]
    _ = 1 := by rw [h2, h3]

/-- Characters of a complete list weighted with the dimensions. -/
theorem dims_characters (hT : IsGroupTable T) (hμ : ∀ g h, μ g h ≠ 0)
    (hc : ∀ i j k, μ i (T j k) * μ j k = μ (T i j) k * μ i j) {L : List (AnyRep n)} (hL : IsCompleteIrreps T μ L)
    {e : Fin n} (he : ∀ g, T e g = g) (he' : ∀ g, T g e = g) (h1 : μ e e = 1) (x : Fin n) :
    ∑ a : Fin L.length, ((L.get a).2 x).trace * ((L.get a).1 : ℂ) = if x = e then (n : ℂ) else 0 := by
  obtain ⟨-, -, k3, -⟩ := table_classes hT hμ hc hL
  have h2 := k3 x e
  have hone : ∀ a : Fin L.length, star ((L.get a).2 e).trace = ((L.get a).1 : ℂ) := by
    intro a
    rw [proj_one (hL.rep _ (List.get_mem L a)) (hL.unitary _ (List.get_mem L a)) he h1, Matrix.trace_one,
      Fintype.card_fin]
    simp
  simp only [hone] at h2
  rw [h2]
  split_ifs with hx
  · subst hx
    rw [Finset.sum_congr rfl fun y _ => by
      rw [if_pos ((he' y).trans (he y).symm), (cocycle_units hμ hc he he' h1 y).1,
        (cocycle_units hμ hc he he' h1 y).2, div_one]]
    simp
  · refine Finset.sum_eq_zero fun y _ => if_neg fun h => hx ?_
    exact table_left_cancel hT (h.trans ((he y).trans (he' y).symm))

/-- Completeness of the matrix entries of a complete list. -/
theorem entries_complete (hT : IsGroupTable T) (hμ : ∀ g h, μ g h ≠ 0)
    (hc : ∀ i j k, μ i (T j k) * μ j k = μ (T i j) k * μ i j) {L : List (AnyRep n)} (hL : IsCompleteIrreps T μ L)
    {e : Fin n} (he : ∀ g, T e g = g) (he' : ∀ g, T g e = g) (h1 : μ e e = 1) (g h : Fin n) :
    ∑ a : Fin L.length, ((L.get a).1 : ℂ) * ∑ i, ∑ j, (L.get a).2 g i j * star ((L.get a).2 h i j) =
      if g = h then (n : ℂ) else 0 := by
  obtain ⟨x, hx⟩ : ∃ x, T x h = g := by
    obtain ⟨u, -, hu', hinv⟩ := hT.one_inv
    obtain ⟨b, -, hb⟩ := hinv h
    exact ⟨T g b, by rw [hT.assoc, hb, hu']⟩
  have key : ∀ a : Fin L.length, ∑ i, ∑ j, (L.get a).2 g i j * star ((L.get a).2 h i j) =
      (μ x h)⁻¹ * ((L.get a).2 x).trace := by
    intro a
    have hm := List.get_mem L a
    have h2 := hL.rep _ hm x h
    rw [hx] at h2
    have h3 : (L.get a).2 g * ((L.get a).2 h).conjTranspose = (μ x h)⁻¹ • (L.get a).2 x := by
      rw [eq_inv_smul_iff₀ (hμ x h), ← Matrix.smul_mul, ← h2, Matrix.mul_assoc, hL.unitary _ hm h, Matrix.mul_one]
    have h4 := congrArg Matrix.trace h3
    rw [Matrix.trace_smul, smul_eq_mul] at h4
    rw [← h4]
    simp only [Matrix.trace, Matrix.diag_apply, Matrix.mul_apply, Matrix.conjTranspose_apply]
  have h5 := dims_characters hT hμ hc hL he he' h1 x
  have h6 : ∑ a : Fin L.length, ((L.get a).1 : ℂ) * ∑ i, ∑ j, (L.get a).2 g i j * star ((L.get a).2 h i j) =
      (μ x h)⁻¹ * ∑ a : Fin L.length, ((L.get a).2 x).trace * ((L.get a).1 : ℂ) := by
    rw [Finset.mul_sum]
    refine Finset.sum_congr rfl fun a _ => ?_
    rw [key a]; ring
  rw [h6, h5]
  by_cases hg : g = h
  · subst hg
    have hxe : x = e := table_right_cancel hT (hx.trans (he g).symm)
    rw [if_pos hxe, if_pos rfl, hxe, (cocycle_units hμ hc he he' h1 g).1, inv_one, one_mul]
  · rw [if_neg hg, if_neg, mul_zero]
    rintro rfl
    exact hg (by rw [← hx, he])

/-- Sum of the Frobenius-Schur sums weighted with the dimensions. -/
theorem fs_weighted (hT : IsGroupTable T) (hμ : ∀ g h, μ g h ≠ 0)
    (hc : ∀ i j k, μ i (T j k) * μ j k = μ (T i j) k * μ i j) {L : List (AnyRep n)} (hL : IsCompleteIrreps T μ L)
    {e : Fin n} (he : ∀ g, T e g = g) (he' : ∀ g, T g e = g) (h1 : μ e e = 1) :
    ∑ a : Fin L.length, (∑ k, ∑ i, ∑ j, (L.get a).2 k i j * (L.get a).2 k j i) * ((L.get a).1 : ℂ) =
      (n : ℂ) * ∑ g, if T g g = e then μ g g else 0 := by
  have key : ∀ (a : Fin L.length) (k : Fin n), ∑ i, ∑ j, (L.get a).2 k i j * (L.get a).2 k j i =
      μ k k * ((L.get a).2 (T k k)).trace := by
    intro a k
    have h2 := congrArg Matrix.trace (hL.rep _ (List.get_mem L a) k k)
    rw [Matrix.trace_smul, smul_eq_mul] at h2
    rw [← h2]
    simp only [Matrix.trace, Matrix.diag_apply, Matrix.mul_apply]
  simp only [key, Finset.sum_mul]
  rw [Finset.sum_comm, Finset.mul_sum]
  refine Finset.sum_congr rfl fun g _ => ?_
  have h2 := dims_characters hT hμ hc hL he he' h1 (T g g)
  simp only [mul_assoc]
  rw [← Finset.mul_sum, h2]
  split_ifs <;> ring

/-- The indicator of an array close to an irrep with signs as factors is the exact one. -/
theorem fs_value (hT : IsGroupTable T) {d : ℕ} {D D' : RepArr n d} (hD : IsProjRep T μ D) (hDu : IsUnitaryRep D)
    (hDi : IsIrreducible D) (hs : ∀ g h, μ g h = 1 ∨ μ g h = -1) (hd : d ^ 2 ≤ n) {ε : ℝ}
    (hε0 : 0 ≤ ε) (hε : n * ε ≤ 1 / 5) (h : Near ε D D') {c : ℤ} (hc : frobeniusSchur D' = .ok c) :
    ∑ k, ∑ i, ∑ j, D k i j * D k j i = (n : ℂ) * c ∧ (c = 1 ∨ c = -1 ∨ c = 0) ∧
      (c = 0 ↔ ¬ AreEquivalent D fun g => (D g).map star) := by
  have hn := table_pos hT
  have hn1 : (1 : ℝ) ≤ n := by exact_mod_cast hn
  have hε5 : ε ≤ 1 / 5 := by nlinarith
  obtain ⟨c', hc', hsum, heq⟩ := fs_exact hT hs hD hDu hDi
  have h1 := fs_of_near hn (unitary_entry_le hDu) h hsum (by
    have hdn : (d : ℝ) * d ≤ n := by
      have : ((d ^ 2 : ℕ) : ℝ) ≤ n := by exact_mod_cast hd
      push_cast at this
      nlinarith
    have : (d : ℝ) * (d * (2 * ε + ε ^ 2)) ≤ n * (2 * ε + ε ^ 2) := by
      rw [← mul_assoc]
      exact mul_le_mul_of_nonneg_right hdn (by positivity)
    nlinarith)
  rw [h1, if_neg (by omega)] at hc
  obtain rfl := Except.ok.inj hc
  exact ⟨hsum, hc', heq⟩

open Classical in
/-- Number of irreps equivalent to their complex conjugates, times the group order (trivial factor system). -/
theorem selfconj_count (hT : IsGroupTable T) {L : List (AnyRep n)} (hL : IsCompleteIrreps T (fun _ _ => 1) L) :
    (n : ℂ) * ∑ a : Fin L.length, (if AreEquivalent (L.get a).2 fun g => ((L.get a).2 g).map star then (1 : ℂ) else 0) =
      ((Finset.univ.filter fun p : Fin n × Fin n => T (T p.1 p.2) p.1 = p.2).card : ℂ) := by
  obtain ⟨e, he, he', hinv⟩ := hT.one_inv
  choose iv hiv hiv' using hinv
  obtain ⟨-, -, k3, -⟩ := table_classes hT (fun _ _ => one_ne_zero) (fun _ _ _ => rfl) hL
  have hm : ∀ a : Fin L.length, L.get a ∈ L := fun a => List.get_mem L a
  have h1 : ∀ a : Fin L.length, ∑ g, ((L.get a).2 g).trace * ((L.get a).2 g).trace =
      n * if AreEquivalent (L.get a).2 fun g => ((L.get a).2 g).map star then (1 : ℂ) else 0 := by
    intro a
    have h2 := table_char_orthogonality hT (fun _ _ => one_ne_zero) (hL.rep _ (hm a))
      (conj_projRep (fun _ _ => star_one ℂ) (hL.rep _ (hm a))) (hL.unitary _ (hm a)) (hL.irred _ (hm a))
      (conj_irreducible (hL.irred _ (hm a))) (conj_unitary (hL.unitary _ (hm a)))
    simp only [trace_map_star, star_star] at h2
    split_ifs with h3
    · rw [h2.1 h3, mul_one]
    · rw [h2.2 h3, mul_zero]
  have hstar : ∀ (a : Fin L.length) (g : Fin n), star ((L.get a).2 (iv g)).trace = ((L.get a).2 g).trace := by
    intro a g
    have h2 := hL.rep _ (hm a) g (iv g)
    rw [hiv, one_smul, proj_one (hL.rep _ (hm a)) (hL.unitary _ (hm a)) he rfl] at h2
    have h3 : (L.get a).2 g = ((L.get a).2 (iv g)).conjTranspose := by
      calc (L.get a).2 g = (L.get a).2 g * ((L.get a).2 (iv g) * ((L.get a).2 (iv g)).conjTranspose) := by
            rw [hL.unitary _ (hm a), Matrix.mul_one]
        _ = _ := by rw [← Matrix.mul_assoc, h2, Matrix.one_mul]
    rw [h3, Matrix.trace_conjTranspose]
  have h4 : ∑ a : Fin L.length, ∑ g, ((L.get a).2 g).trace * ((L.get a).2 g).trace =
      ∑ g, ∑ x, if T x g = T (iv g) x then (1 : ℂ) else 0 := by
    rw [Finset.sum_comm]
    refine Finset.sum_congr rfl fun g _ => ?_
    have h5 := k3 g (iv g)
    simp only [hstar, div_one] at h5
    exact h5
  simp only [h1] at h4
  rw [← Finset.mul_sum] at h4
  rw [h4, ← Finset.sum_product', Finset.univ_product_univ, ← Finset.sum_filter, Finset.sum_const,
    nsmul_eq_mul, mul_one]
  congr 2
  refine Finset.filter_congr fun p _ => ?_
  constructor
  · intro h
    rw [hT.assoc, h, ← hT.assoc, hiv, he]
  · intro h
    apply table_left_cancel hT (k := p.1)
    rw [← hT.assoc, h, ← hT.assoc, hiv, he]

theorem withIndicators_forall₂ {L : List (AnyRep n)} {l : List (AnyRep n × ℤ)} (h : withIndicators L = .ok l) :
    List.Forall₂ (fun D x => x.1 = D ∧ frobeniusSchur D.2 = .ok x.2) L l := by
  unfold withIndicators at h
  induction L generalizing l with
  | nil => cases h; exact .nil
  | cons D L ih =>
    rw [List.mapM_cons] at h
    cases hD : frobeniusSchur D.2 with
    | error e => rw [hD] at h; cases h
    | ok i =>
      rw [hD] at h
      simp only [bind, Except.bind, pure, Except.pure] at h ih
      cases hl : List.mapM (fun D : AnyRep n => (frobeniusSchur D.2).bind fun i => Except.ok (D, i)) L with
      | error e =>
        simp only [Except.bind] at hl
        rw [hl] at h
        cases h
      | ok l' =>
        simp only [Except.bind] at hl
        rw [hl] at h
        obtain rfl := Except.ok.inj h
        exact .cons ⟨rfl, hD⟩ (ih hl)

end Spgrep
