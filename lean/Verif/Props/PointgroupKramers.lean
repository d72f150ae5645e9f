/-
C105: Kramers degeneracy and the sum of dimensions for magnetic point groups.
-/
import Verif.Props.CorepCharacters
import Verif.Props.PointgroupApi

namespace Spgrep

open Spec

variable {n : ℕ}

/-- **C105.** For every magnetic point group with time reversals
`get_crystallographic_pointgroup_spinor_irreps_from_symmetry` returns; the squares of the dimensions of the returned arrays,
divided by 1, 4 or 2 for the indicators 1, -1 and 0, add up to the number of operations without time reversal; and if time
reversal or its product with the inversion is an operation of the group, all dimensions are even. -/
theorem c105_pointgroup_kramers {rots : Fin n → M3} {trs : Fin n → ℤ} (h : EnumeratesMagneticGroup rots trs)
    (htr : ∃ i, trs i = 1) (hb : ∀ i a b, |rots i a b| ≤ 99999)
    {o : Oracles} (he : SymmEigContract o.eig) {L : R3} (hL : L.det ≠ 0) (hm : ∀ i, PreservesMetric L (rots i))
    (ho : ∀ xsg : List (Fin n), xsg.Nodup → (∀ i, i ∈ xsg ↔ trs i = 0) →
      PointgroupContract o.pointgroup fun u => rots (xsg.get u))
    {rtol atol : ℝ} (hat : 0 < atol) (hna : (n : ℝ) ^ 2 * atol ≤ 1 / 5) {maxGen : ℕ}
    {randomI : ∀ d, ℕ → Matrix (Fin d) (Fin d) ℂ}
    (hr : RichDraws n o.random atol maxGen ∨ UnitaryPartRuns o rots trs rtol atol maxGen ∨
      ∃ out, pointgroupSpinorCoreps o randomI L rots trs .neto rtol atol maxGen = .ok (out, false)) :
    ∃ (out : CorepOut n) (w : Bool),
      pointgroupSpinorCoreps o randomI L rots trs .neto rtol atol maxGen = .ok (out, w) ∧
      out.coreps ≠ [] ∧ (∀ e ∈ out.indicators, e = 1 ∨ e = -1 ∨ e = 0) ∧ out.indicators.length = out.coreps.length ∧
      ((List.zipWith (fun x e => (x.1 : ℚ) ^ 2 / corepWeight e) out.coreps out.indicators).sum =
        Fintype.card {g // trs g = 0}) ∧
      ((∃ t, trs t = 1 ∧ (rots t = 1 ∨ rots t = -1)) → ∀ x ∈ out.coreps, Even x.1) := by
  have hμ : ∀ i j, getFactorSystem rots (fun _ _ => 0) 0 i j = 1 := factor_gamma rots
  have hms : IsMagneticSpaceGroup rots (fun _ _ => 0) trs := ⟨h, fun _ _ _ _ _ => ⟨0, by simp⟩⟩
  obtain ⟨out, w, T, K, hrun, -, -, -, hF, -, hix, -⟩ := corep_classification_full (trans := fun _ _ => 0) (k := 0) hms htr
    hb (fun i a => ⟨0, by simp⟩) (fun i j => .inl (hμ i j)) he hL hm ho rtol hat hna randomI hr
  obtain ⟨ε, hind, -, hsum⟩ := hix.characters
  have hdim : out.coreps.map (fun x => x.1) = List.ofFn fun a : Fin K.length => (K.get a).1 := by
    have h1 : out.coreps.map (fun x => x.1) = K.map fun x => x.1 := by
      rw [← List.forall₂_eq_eq_eq, List.forall₂_map_left_iff, List.forall₂_map_right_iff]
      refine hF.imp ?_
      rintro x E ⟨A, rfl, -⟩
      rfl
    rw [h1]
    conv_lhs => rw [← List.ofFn_get K]
    rw [List.map_ofFn]
    rfl
  have hz : (List.zipWith (fun x e => (x.1 : ℚ) ^ 2 / corepWeight e) out.coreps out.indicators).sum =
      Fintype.card {g // trs g = 0} := by
    have h1 : List.zipWith (fun x e => (x.1 : ℚ) ^ 2 / corepWeight e) out.coreps out.indicators =
        List.zipWith (fun (d : ℕ) e => (d : ℚ) ^ 2 / corepWeight e) (out.coreps.map fun x => x.1) out.indicators := by
      rw [List.zipWith_map_left]
    rw [h1, hdim, hind, ← hsum, ← List.sum_ofFn]
    congr 1
    apply List.ext_get
    · simp
    · intro i h1 h2
      simp
  refine ⟨out, w, hrun, ?_, ?_, ?_, hz, ?_⟩
  · intro hnil
    rw [hnil, List.zipWith_nil_left, List.sum_nil] at hz
    obtain ⟨T', -, -, hT', -⟩ := cayley_of_magnetic h
    obtain ⟨⟨e, -, -, he2⟩, -⟩ := c03_identity_inverse_magnetic h hT'
    have : 0 < Fintype.card {g // trs g = 0} := Fintype.card_pos_iff.2 ⟨⟨e, he2⟩⟩
    rw [← Nat.cast_zero, Nat.cast_inj] at hz
    omega
  · obtain ⟨xsg, q, dm, χ, p, ι, K', -, -, -, -, -, -, hι, -, -, hi, -⟩ := hix
    intro e hem
    rw [hi] at hem
    obtain ⟨i, -, rfl⟩ := List.mem_map.1 hem
    exact hι i
  · have h1 := congrArg List.length hdim
    rw [List.length_map, List.length_ofFn] at h1
    rw [hind, List.length_ofFn, h1]
  · rintro ⟨t, ht, hrt⟩
    exact c92_kramers hms hb (fun i a => ⟨0, by simp⟩) (fun i j => .inl (hμ i j)) ht (hrt.imp id fun h => ⟨h, hμ t t⟩) he hL
      hm ho hat hna hr hrun

/-- Non-vacuity: the grey group 21'. -/
example : ∃ (o : Oracles) (out : CorepOut 4) (w : Bool), EnumeratesMagneticGroup rotsGrey2 trsGrey2 ∧
    pointgroupSpinorCoreps o (fun _ _ => 0) 1 rotsGrey2 trsGrey2 .neto 1e-5 1e-8 4 = .ok (out, w) ∧ out.coreps ≠ [] ∧
    (∀ x ∈ out.coreps, Even x.1) := by
  obtain ⟨o, he, ho, hr⟩ := grey2_oracles
  obtain ⟨out, w, hrun, hne, -, -, -, heven⟩ := c105_pointgroup_kramers (randomI := fun _ _ => 0) (rtol := 1e-5)
    grey2_group ⟨2, rfl⟩ (by decide +kernel) he
    (by rw [Matrix.det_one]; exact one_ne_zero) grey2_metric (fun xsg h1 h2 => by rw [ho]; exact grey2_contract xsg h1 h2)
    (atol := 1e-8) (by norm_num) (by norm_num) (.inl hr)
  exact ⟨o, out, w, grey2_group, hrun, hne, heven ⟨2, rfl, .inl (by decide +kernel)⟩⟩

end Spgrep
