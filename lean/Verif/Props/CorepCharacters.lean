/-
C92: Kramers degeneracy.  C93: characters and dimensions of the co-representations.
-/
import Verif.Spec.CorepChar
import Verif.Proofs.RealCharacters
import Verif.Props.CorepClass
import Verif.Props.CoreSpinor

namespace Spgrep

open Spec

variable {n : ℕ}

theorem forall₂_mem_left {α β : Type*} {R : α → β → Prop} {l : List α} {l' : List β} (h : List.Forall₂ R l l') {x : α}
    (hx : x ∈ l) : ∃ y ∈ l', R x y := by
  induction h with
  | nil => simp at hx
  | cons h1 _ ih =>
    rcases List.mem_cons.1 hx with rfl | hx
    · exact ⟨_, List.mem_cons_self, h1⟩
    · obtain ⟨y, hy, hR⟩ := ih hx
      exact ⟨y, List.mem_cons_of_mem _ hy, hR⟩

/-! ### C92 -/

/-- An anti-linear operator on an odd-dimensional space does not square to -1. -/
theorem even_of_conj_square {d : ℕ} {M : Matrix (Fin d) (Fin d) ℂ} (h : M * M.map star = -1) : Even d := by
  by_contra hodd
  rw [Nat.not_even_iff_odd] at hodd
  have h1 := congrArg Matrix.det h
  rw [Matrix.det_mul, Matrix.det_neg, Matrix.det_one, mul_one, Fintype.card_fin, hodd.neg_one_pow] at h1
  have h2 : (M.map star).det = star M.det := by
    have := (RingHom.map_det (starRingEnd ℂ) M).symm
    simpa using this
  rw [h2, Complex.star_def, Complex.mul_conj] at h1
  have h3 : Complex.normSq M.det = -1 := by exact_mod_cast h1
  have := Complex.normSq_nonneg M.det
  linarith

/-- The factor of two operations without rotation is one. -/
theorem factor_of_one {rots : Fin n → M3} {t : Fin n} (h : rots t = 1) (trans : Fin n → V3) (k : V3) (j : Fin n) :
    getFactorSystem rots trans k t j = 1 := by
  unfold getFactorSystem
  have : dot3 (residual (rots t) k) (trans j) = 0 := by
    rw [h]
    unfold dot3 residual
    simp [Matrix.one_apply]
  rw [this, expPhase_zero]

open Classical in
/-- **C92**, Kramers degeneracy.  If the little group contains time reversal (with any translation), or the product of time
reversal and the inversion with trivial nonsymmorphic factor, then all co-representations returned by
`enumerate_spinor_small_corepresentations` have even dimension. -/
theorem c92_kramers {rots : Fin n → M3} {trans : Fin n → V3} {trs : Fin n → ℤ} {k : V3}
    (h : IsMagneticSpaceGroup rots trans trs) (hb : ∀ i a b, |rots i a b| ≤ 99999) (hk : ∀ i, FixesK (rots i) k)
    (hμ : ∀ i j, getFactorSystem rots trans k i j = 1 ∨ getFactorSystem rots trans k i j = -1)
    {t : Fin n} (ht : trs t = 1) (hrt : rots t = 1 ∨ rots t = -1 ∧ getFactorSystem rots trans k t t = 1)
    {o : Oracles} (he : SymmEigContract o.eig) {L : R3} (hL : L.det ≠ 0) (hm : ∀ i, PreservesMetric L (rots i))
    (ho : ∀ xsg : List (Fin n), xsg.Nodup → (∀ i, i ∈ xsg ↔ trs i = 0) →
      PointgroupContract o.pointgroup fun u => rots (xsg.get u))
    {rtol atol : ℝ} (hat : 0 < atol) (hna : (n : ℝ) ^ 2 * atol ≤ 1 / 5) {maxGen : ℕ}
    {randomI : ∀ d, ℕ → Matrix (Fin d) (Fin d) ℂ}
    (hr : RichDraws n o.random atol maxGen ∨ UnitaryPartRuns o rots trs rtol atol maxGen ∨
      ∃ out, enumerateSpinorSmallCoreps o randomI L rots trans trs k .neto rtol atol maxGen = .ok (out, false))
    {out : CorepOut n} {w : Bool}
    (hrun : enumerateSpinorSmallCoreps o randomI L rots trans trs k .neto rtol atol maxGen = .ok (out, w)) :
    ∀ x ∈ out.coreps, Even x.1 := by
  obtain ⟨out', w', T, K, hrun', hT, haf, hK, hF, -, -, U, hω⟩ := corep_classification_full h ⟨t, ht⟩ hb hk hμ he hL hm ho rtol
    hat hna randomI hr
  obtain ⟨rfl, rfl⟩ := Prod.mk.inj (Except.ok.inj (hrun'.symm.trans hrun))
  obtain ⟨ω, U', a, hω', -, -, -, -, -, hone, hmin⟩ := c46_corep_spinor_factor_system he hL h.1 hm
  obtain ⟨rfl, h2⟩ := Prod.mk.inj (Except.ok.inj (hω'.symm.trans hω))
  obtain ⟨rfl, rfl⟩ := Prod.mk.inj h2
  -- the square of `t`
  have hft : getFactorSystem rots trans k t t = 1 := hrt.elim (fun h1 => factor_of_one h1 _ _ _) fun h1 => h1.2
  have hr1 : rots (T t t) = 1 := by
    rw [← (hT t t).1]
    rcases hrt with h1 | ⟨h1, -⟩ <;> rw [h1] <;> simp
  have ht1 : trs (T t t) = 0 := (h.1.2.1 _).resolve_right fun h1 => ((hT t t).2.1 h1) rfl
  have hs : ∀ D ∈ K, Even D.1 := by
    intro D hD
    have hlaw := hK.law D hD
    have hee := hlaw (T t t) (T t t)
    have hTe : T (T t t) (T t t) = T t t := by
      refine h.1.1 (Prod.ext ?_ ?_)
      · dsimp only
        rw [← (hT _ _).1, hr1, one_mul]
      · dsimp only
        rw [ht1]
        exact (h.1.2.1 _).resolve_right fun h1 => ((hT _ _).2.1 h1) rfl
    have hae : out'.antiLinear (T t t) = false := by
      cases hx : out'.antiLinear (T t t) with
      | false => rfl
      | true => rw [(haf _).1 hx] at ht1; exact absurd ht1 (by decide)
    dsimp only at hee
    rw [hTe, hae, conjIfM, if_neg (by decide), ((hone _ hr1 ht1).2 _).1, factor_of_one hr1, mul_one, one_smul] at hee
    have hu := hK.unitary D hD (T t t)
    have hD1 : D.2 (T t t) = 1 := by
      calc D.2 (T t t) = D.2 (T t t) * (D.2 (T t t) * (D.2 (T t t)).conjTranspose) := by rw [hu, mul_one]
        _ = 1 := by rw [← mul_assoc, hee, hu]
    have htt := hlaw t t
    dsimp only at htt
    rw [(haf t).2 ht, conjIfM, if_pos rfl, hft, mul_one, hmin t (hrt.imp id fun h1 => h1.1) ht, hD1, neg_smul, one_smul] at htt
    exact even_of_conj_square htt
  intro x hx
  obtain ⟨D, hD, A, hA, -⟩ := forall₂_mem_left hF hx
  rw [hA]
  exact hs D hD

/-! ### C93 -/

open Classical in
/-- Characters of co-representations from the index. -/
theorem CorepIndexed.characters {trs : Fin n → ℤ} {ind : List ℤ} {K : List (AnyRep n)} (h : CorepIndexed trs ind K) :
    ∃ ε : Fin K.length → ℤ, ind = List.ofFn ε ∧
      (∀ a b : Fin K.length, ∑ g : {g // trs g = 0}, ((K.get a).2 g).trace * star ((K.get b).2 g).trace =
        if a = b then (Fintype.card {g // trs g = 0} * corepWeight (ε a) : ℂ) else 0) ∧
      ∑ a : Fin K.length, ((K.get a).1 : ℚ) ^ 2 / corepWeight (ε a) = Fintype.card {g // trs g = 0} := by
  obtain ⟨xsg, q, dm, χ, p, ι, K', hnd, hmem, horth, hsq, hp2, hpd, hι1, hι2, hK, hind, hK1, hK2⟩ := h
  set l := (List.finRange q).filter fun i => decide (i ≤ p i) with hl
  have hlnd : l.Nodup := (List.nodup_finRange q).filter _
  have hlmem : ∀ i, i ∈ l ↔ i ≤ p i := fun i => by rw [hl, List.mem_filter]; simp
  subst hK hind
  -- sums over linear operations
  let σ : Fin xsg.length → {g // trs g = 0} := fun u => ⟨xsg.get u, (hmem _).1 (List.get_mem xsg u)⟩
  have hσ : Function.Bijective σ := by
    refine ⟨fun u v huv => List.nodup_iff_injective_get.1 hnd (congrArg Subtype.val huv), fun g => ?_⟩
    obtain ⟨u, hu⟩ := List.mem_iff_get.1 ((hmem g.1).2 g.2)
    exact ⟨u, Subtype.ext hu⟩
  have hcard : Fintype.card {g // trs g = 0} = xsg.length := by
    rw [← Fintype.card_of_bijective hσ, Fintype.card_fin]
  have hsum : ∀ f : Fin n → ℂ, ∑ g : {g // trs g = 0}, f g = ∑ u, f (xsg.get u) := fun f =>
    (hσ.sum_comp fun g : {g // trs g = 0} => f g).symm
  have hone : ∀ i, ι i = 1 → p i = i := fun i hi => by
    by_contra hne
    rw [(hι2 i).2 hne] at hi
    exact absurd hi (by decide)
  have hneg : ∀ i, ι i = -1 → p i = i := fun i hi => by
    by_contra hne
    rw [(hι2 i).2 hne] at hi
    exact absurd hi (by decide)
  -- characters
  have hp' : ∀ i j, p i = j ↔ i = p j := fun i j => ⟨fun h => by rw [← h, hp2], fun h => by rw [h, hp2]⟩
  have hchar : ∀ i j, i ≤ p i → j ≤ p j →
      ∑ u, ((K' i).2 (xsg.get u)).trace * star ((K' j).2 (xsg.get u)).trace =
        if i = j then (xsg.length * corepWeight (ι i) : ℂ) else 0 := by
    intro i j hi hj
    have h4 : ∀ i j i' j', ∑ u, (χ i u + χ i' u) * star (χ j u + χ j' u) = (if i = j then (xsg.length : ℂ) else 0) +
        (if i = j' then (xsg.length : ℂ) else 0) + (if i' = j then (xsg.length : ℂ) else 0) +
        if i' = j' then (xsg.length : ℂ) else 0 := by
      intro i j i' j'
      rw [← horth i j, ← horth i j', ← horth i' j, ← horth i' j', ← Finset.sum_add_distrib, ← Finset.sum_add_distrib,
        ← Finset.sum_add_distrib]
      refine Finset.sum_congr rfl fun u _ => ?_
      rw [star_add]
      ring
    have h3 : ∀ i j i', ∑ u, (χ i u + χ i' u) * star (χ j u) = (if i = j then (xsg.length : ℂ) else 0) +
        if i' = j then (xsg.length : ℂ) else 0 := by
      intro i j i'
      rw [← horth i j, ← horth i' j, ← Finset.sum_add_distrib]
      refine Finset.sum_congr rfl fun u _ => ?_
      ring
    have h3' : ∀ i j j', ∑ u, χ i u * star (χ j u + χ j' u) = (if i = j then (xsg.length : ℂ) else 0) +
        if i = j' then (xsg.length : ℂ) else 0 := by
      intro i j j'
      rw [← horth i j, ← horth i j', ← Finset.sum_add_distrib]
      refine Finset.sum_congr rfl fun u _ => ?_
      rw [star_add]
      ring
    have hij : i ≠ j → i ≠ p j ∧ p i ≠ j ∧ p i ≠ p j := by
      intro hne
      have h5 : i ≠ p j := by
        intro h5
        apply hne
        rw [h5, hp2] at hi
        exact le_antisymm (h5 ▸ hi) (h5 ▸ hj)
      exact ⟨h5, fun h6 => h5 ((hp' i j).1 h6), fun h6 => hne (by rw [← hp2 i, h6, hp2])⟩
    by_cases hne : i = j
    · subst hne
      rw [if_pos rfl]
      rcases hι1 i with h1 | h1 | h1
      · simp only [(hK1 i h1).2]
        rw [horth, if_pos rfl, h1]
        simp [corepWeight]
      · have h6 : ι i ≠ 1 := by rw [h1]; decide
        simp only [(hK2 i h6).2]
        rw [h4, hneg i h1, if_pos rfl, h1]
        simp [corepWeight]
        ring
      · have h6 : ι i ≠ 1 := by rw [h1]; decide
        have h7 := (hι2 i).1 h1
        simp only [(hK2 i h6).2]
        rw [h4, if_pos rfl, if_pos rfl, if_neg h7, if_neg (Ne.symm h7), h1]
        simp [corepWeight]
        ring
    · obtain ⟨q1, q2, q3⟩ := hij hne
      rw [if_neg hne]
      by_cases h1 : ι i = 1 <;> by_cases h2 : ι j = 1
      · simp only [(hK1 i h1).2, (hK1 j h2).2]
        rw [horth, if_neg hne]
      · simp only [(hK1 i h1).2, (hK2 j h2).2]
        rw [h3', if_neg hne, if_neg q1, add_zero]
      · simp only [(hK2 i h1).2, (hK1 j h2).2]
        rw [h3, if_neg hne, if_neg q2, add_zero]
      · simp only [(hK2 i h1).2, (hK2 j h2).2]
        rw [h4, if_neg hne, if_neg q1, if_neg q2, if_neg q3]
        simp
  let φ : Fin (l.map K').length ≃ Fin l.length := finCongr (List.length_map _)
  have hget : ∀ a, (l.map K').get a = K' (l.get (φ a)) := fun a => by simp [φ]
  have hle : ∀ b, l.get b ≤ p (l.get b) := fun b => (hlmem _).1 (List.get_mem l b)
  have hinj := List.nodup_iff_injective_get.1 hlnd
  refine ⟨fun a => ι (l.get (φ a)), ?_, fun a b => ?_, ?_⟩
  · apply List.ext_get
    · simp
    · intro m h1 h2
      simp [φ]
  · rw [hsum fun g => (((l.map K').get a).2 g).trace * star (((l.map K').get b).2 g).trace, hget, hget, hchar _ _ (hle _) (hle _),
      hcard]
    simp only [hinj.eq_iff, φ.injective.eq_iff]
  · have hP : ∀ i : Fin q, ∃! a : Fin l.length, i = l.get a ∨ i = p (l.get a) := by
      intro i
      have huniq : ∀ a b, l.get a = l.get b ∨ l.get a = p (l.get b) → a = b := by
        intro a b hab
        apply hinj
        rcases hab with hab | hab
        · exact hab
        · have h1 := hle a
          rw [hab, hp2] at h1
          exact le_antisymm (by rw [hab]; exact h1) (by rw [hab]; exact hle b)
      rcases le_total i (p i) with h1 | h1
      · obtain ⟨a, ha⟩ := List.mem_iff_get.1 ((hlmem i).2 h1)
        refine ⟨a, .inl ha.symm, fun b hb => ?_⟩
        rw [← ha] at hb
        exact (huniq a b hb).symm
      · obtain ⟨a, ha⟩ := List.mem_iff_get.1 ((hlmem (p i)).2 (by rw [hp2]; exact h1))
        refine ⟨a, .inr (by rw [ha, hp2]), fun b hb => ?_⟩
        refine (huniq a b ?_).symm
        rw [ha]
        rcases hb with hb | hb
        · exact .inr (by rw [hb])
        · exact .inl (by rw [hb, hp2])
    have h1 := sum_pairs (P := fun a => (l.get a, p (l.get a))) hP fun i => (dm i : ℚ) ^ 2
    have h2 : ∑ i, (dm i : ℚ) ^ 2 = xsg.length := by exact_mod_cast hsq
    rw [hcard, ← h2, h1, ← φ.sum_comp]
    refine Finset.sum_congr rfl fun a _ => ?_
    rw [hget]
    dsimp only
    generalize l.get (φ a) = i
    rw [hpd]
    rcases hι1 i with h3 | h3 | h3
    · rw [(hK1 i h3).1, if_pos (hone i h3).symm, h3]
      simp [corepWeight]
    · rw [(hK2 i (by rw [h3]; decide)).1, if_pos (hneg i h3).symm, h3]
      simp [corepWeight]
      ring
    · rw [(hK2 i (by rw [h3]; decide)).1, if_neg ((hι2 i).1 h3).symm, h3]
      simp [corepWeight]
      ring

open Classical in
/-- **C93.** The characters of the irreducible co-representations found by `enumerate_spinor_small_corepresentations` (the
complete list `K` of C67, which the returned matrices approximate) are orthogonal over the operations without time reversal, with
square norm the number of these operations times 1, 4 or 2 for the returned indicators 1, -1 and 0; and the squares of the
returned dimensions divided by these numbers add up to the number of operations without time reversal. -/
theorem c93_corep_characters {rots : Fin n → M3} {trans : Fin n → V3} {trs : Fin n → ℤ} {k : V3}
    (h : IsMagneticSpaceGroup rots trans trs) (htr : ∃ i, trs i = 1) (hb : ∀ i a b, |rots i a b| ≤ 99999)
    (hk : ∀ i, FixesK (rots i) k)
    (hμ : ∀ i j, getFactorSystem rots trans k i j = 1 ∨ getFactorSystem rots trans k i j = -1)
    {o : Oracles} (he : SymmEigContract o.eig) {L : R3} (hL : L.det ≠ 0) (hm : ∀ i, PreservesMetric L (rots i))
    (ho : ∀ xsg : List (Fin n), xsg.Nodup → (∀ i, i ∈ xsg ↔ trs i = 0) →
      PointgroupContract o.pointgroup fun u => rots (xsg.get u))
    {rtol atol : ℝ} (hat : 0 < atol) (hna : (n : ℝ) ^ 2 * atol ≤ 1 / 5) {maxGen : ℕ}
    {randomI : ∀ d, ℕ → Matrix (Fin d) (Fin d) ℂ}
    (hr : RichDraws n o.random atol maxGen ∨ UnitaryPartRuns o rots trs rtol atol maxGen ∨
      ∃ out, enumerateSpinorSmallCoreps o randomI L rots trans trs k .neto rtol atol maxGen = .ok (out, false))
    {out : CorepOut n} {w : Bool}
    (hrun : enumerateSpinorSmallCoreps o randomI L rots trans trs k .neto rtol atol maxGen = .ok (out, w)) :
    ∃ (T : Fin n → Fin n → Fin n) (K : List (AnyRep n)) (ε : Fin K.length → ℤ), (∀ i j, IsProduct rots trs i j (T i j)) ∧
      IsCompleteCoreps T out.antiLinear (fun i j => out.spinorFactor i j * getFactorSystem rots trans k i j) K ∧
      List.Forall₂ (fun x E => ∃ A : RepArr n E.1, x = ⟨E.1, A⟩ ∧ ∀ i, trs i = 0 → ∀ r q,
        ‖expPhase (dot3 k (trans i)) * E.2 i r q - A i r q‖ ≤ atol) out.coreps K ∧
      out.indicators = List.ofFn ε ∧
      (∀ a b : Fin K.length, ∑ g : {g // trs g = 0}, ((K.get a).2 g).trace * star ((K.get b).2 g).trace =
        if a = b then (Fintype.card {g // trs g = 0} * corepWeight (ε a) : ℂ) else 0) ∧
      ∑ a : Fin K.length, ((K.get a).1 : ℚ) ^ 2 / corepWeight (ε a) = Fintype.card {g // trs g = 0} := by
  obtain ⟨out', w', T, K, hrun', hT, haf, hK, hF, -, hix, -⟩ := corep_classification_full h htr hb hk hμ he hL hm ho rtol
    hat hna randomI hr
  obtain ⟨rfl, rfl⟩ := Prod.mk.inj (Except.ok.inj (hrun'.symm.trans hrun))
  obtain ⟨ε, h1, h2, h3⟩ := hix.characters
  exact ⟨T, K, ε, hT, hK, hF, h1, h2, h3⟩

/-- Non-vacuity of C92 and C93: the grey group 21' at `k = 0`.  There are two operations without time reversal. -/
example : ∃ (o : Oracles) (out : CorepOut 4) (w : Bool), IsMagneticSpaceGroup rotsGrey2 (fun _ _ => 0) trsGrey2 ∧
    trsGrey2 2 = 1 ∧ rotsGrey2 2 = 1 ∧ Fintype.card {g // trsGrey2 g = 0} = 2 ∧
    enumerateSpinorSmallCoreps o (fun _ _ => 0) 1 rotsGrey2 (fun _ _ => 0) trsGrey2 0 .neto 1e-5 1e-8 4 = .ok (out, w) ∧
    (∀ x ∈ out.coreps, Even x.1) := by
  obtain ⟨o, he, ho, hr⟩ := grey2_oracles
  have hc : ∀ xsg : List (Fin 4), xsg.Nodup → (∀ i, i ∈ xsg ↔ trsGrey2 i = 0) →
      PointgroupContract o.pointgroup fun u => rotsGrey2 (xsg.get u) := fun xsg h1 h2 => by rw [ho]; exact grey2_contract xsg h1 h2
  have hL : (1 : R3).det ≠ 0 := by rw [Matrix.det_one]; exact one_ne_zero
  obtain ⟨out, w, -, -, hrun, -⟩ := c67_corep_classification grey2_magnetic ⟨2, rfl⟩ (by decide +kernel)
    (k := 0) (fun i b => ⟨0, by simp⟩) (fun i j => .inl (factor_gamma _ i j)) he hL grey2_metric hc 1e-5 (atol := 1e-8) (maxGen := 4)
    (by norm_num) (by norm_num) (fun _ _ => 0) (.inl hr)
  exact ⟨o, out, w, grey2_magnetic, rfl, by decide +kernel, by decide +kernel, hrun,
    c92_kramers grey2_magnetic (by decide +kernel) (fun i b => ⟨0, by simp⟩) (fun i j => .inl (factor_gamma _ i j)) (t := 2) rfl
      (.inl (by decide +kernel)) he hL grey2_metric hc (by norm_num) (by norm_num) (.inl hr) hrun⟩

end Spgrep
