/-
C110: the irreps that `get_crystallographic_pointgroup_irreps_from_symmetry` (/repo/src/spgrep/core.py:218-260) returns depend
only on the abstract group.
-/
import Verif.Props.PointgroupApi
import Verif.Props.RealCharacters
import Verif.Props.CorepClass

namespace Spgrep

open Spec

namespace Spec

/-- The positions of two lists of rotations are related by an isomorphism of groups: products go to products. -/
def IsIsomorphism {n m : ℕ} (rots : Fin n → Matrix (Fin 3) (Fin 3) ℤ) (rots' : Fin m → Matrix (Fin 3) (Fin 3) ℤ)
    (φ : Fin n ≃ Fin m) : Prop :=
  ∀ i j l, rots i * rots j = rots l → rots' (φ i) * rots' (φ j) = rots' (φ l)

end Spec

variable {n m : ℕ}

/-- Two lists with a relation that links every member of one to a member of the other, and never two to one, have the same
length. -/
theorem match_lists {α β : Type*} {K : List α} {K' : List β} (R : α → β → Prop) (hex : ∀ x ∈ K, ∃ y ∈ K', R x y)
    (hex' : ∀ y ∈ K', ∃ x ∈ K, R x y) (h : K.Pairwise fun x x' => ¬ ∃ y, R x y ∧ R x' y)
    (h' : K'.Pairwise fun y y' => ¬ ∃ x, R x y ∧ R x y') :
    ∃ σ : Fin K.length ≃ Fin K'.length, ∀ a, R (K.get a) (K'.get (σ a)) := by
  have hf : ∀ a : Fin K.length, ∃ b : Fin K'.length, R (K.get a) (K'.get b) := by
    intro a
    obtain ⟨y, hy, hR⟩ := hex _ (List.get_mem K a)
    obtain ⟨b, rfl⟩ := List.mem_iff_get.1 hy
    exact ⟨b, hR⟩
  have hg : ∀ b : Fin K'.length, ∃ a : Fin K.length, R (K.get a) (K'.get b) := by
    intro b
    obtain ⟨x, hx, hR⟩ := hex' _ (List.get_mem K' b)
    obtain ⟨a, rfl⟩ := List.mem_iff_get.1 hx
    exact ⟨a, hR⟩
  choose f hf using hf
  choose g hg using hg
  have hfi : Function.Injective f := by
    intro a b hab
    have h1 := hf a
    rw [hab] at h1
    by_contra hne
    rcases lt_or_gt_of_ne hne with hlt | hlt
    · exact List.pairwise_iff_get.1 h a b hlt ⟨_, h1, hf b⟩
    · exact List.pairwise_iff_get.1 h b a hlt ⟨_, hf b, h1⟩
  have hgi : Function.Injective g := by
    intro a b hab
    have h1 := hg a
    rw [hab] at h1
    by_contra hne
    rcases lt_or_gt_of_ne hne with hlt | hlt
    · exact List.pairwise_iff_get.1 h' a b hlt ⟨_, h1, hg b⟩
    · exact List.pairwise_iff_get.1 h' b a hlt ⟨_, hg b, h1⟩
  have hcard : Fintype.card (Fin K.length) = Fintype.card (Fin K'.length) :=
    le_antisymm (Fintype.card_le_of_injective f hfi) (Fintype.card_le_of_injective g hgi)
  exact ⟨Equiv.ofBijective f ((Fintype.bijective_iff_injective_and_card f).2 ⟨hfi, hcard⟩), hf⟩

theorem iso_table {rots : Fin n → M3} {rots' : Fin m → M3} {φ : Fin n ≃ Fin m}
    (hφ : IsIsomorphism rots rots' φ) {T : Fin n → Fin n → Fin n} {T' : Fin m → Fin m → Fin m}
    (hT : ∀ i j k, T i j = k ↔ rots i * rots j = rots k) (hT' : ∀ i j k, T' i j = k ↔ rots' i * rots' j = rots' k)
    (i j : Fin n) : φ (T i j) = T' (φ i) (φ j) :=
  ((hT' _ _ _).2 (hφ i j _ ((hT i j _).1 rfl))).symm

/-- Complete lists of irreps of isomorphic groups with the same factors correspond. -/
theorem complete_iso {T : Fin n → Fin n → Fin n} {T' : Fin m → Fin m → Fin m} {φ : Fin n ≃ Fin m}
    (hφ : ∀ i j, φ (T i j) = T' (φ i) (φ j)) {μ : Fin n → Fin n → ℂ} {μ' : Fin m → Fin m → ℂ}
    (hμ : ∀ i j, μ' (φ i) (φ j) = μ i j) {K : List (AnyRep n)} {K' : List (AnyRep m)}
    (hK : IsCompleteIrreps T μ K) (hK' : IsCompleteIrreps T' μ' K') :
    ∃ σ : Fin K.length ≃ Fin K'.length, ∀ a, AreEquivalent (K.get a).2 fun g => (K'.get (σ a)).2 (φ g) := by
  have hφ' : ∀ i j, φ.symm (T' i j) = T (φ.symm i) (φ.symm j) := by
    intro i j
    rw [Equiv.symm_apply_eq, hφ, φ.apply_symm_apply, φ.apply_symm_apply]
  have hμ' : ∀ i j, μ' i j = μ (φ.symm i) (φ.symm j) := by
    intro i j
    rw [← hμ, φ.apply_symm_apply, φ.apply_symm_apply]
  refine match_lists (fun (D : AnyRep n) (E : AnyRep m) => AreEquivalent D.2 fun g => E.2 (φ g)) (fun D hD => ?_) (fun E hE => ?_)
    (hK.inequiv.imp fun {D D'} hne hy => ?_) (hK'.inequiv.imp fun {E E'} hne hx => ?_)
  · obtain ⟨E, hE, heq⟩ := hK'.complete D.1 (fun g => D.2 (φ.symm g)) (fun g h => by
        dsimp only
        rw [hφ', hμ']
        exact hK.rep D hD _ _) (fun g => IsUnit.of_mul_eq_one _ (hK.unitary D hD _))
      (irreducible_comp φ (fun j => by rw [φ.symm_apply_apply]) (hK.irred D hD))
    refine ⟨E, hE, ?_⟩
    obtain ⟨S, S', h1, h2, h3⟩ := heq
    refine ⟨S, S', h1, h2, fun g => ?_⟩
    have := h3 (φ g)
    dsimp only at this
    rwa [φ.symm_apply_apply] at this
  · obtain ⟨D, hD, heq⟩ := hK.complete E.1 (fun g => E.2 (φ g)) (fun g h => by
        dsimp only
        rw [hφ, ← hμ]
        exact hK'.rep E hE _ _) (fun g => IsUnit.of_mul_eq_one _ (hK'.unitary E hE _))
      (irreducible_comp φ.symm (fun j => by rw [φ.apply_symm_apply]) (hK'.irred E hE))
    exact ⟨D, hD, AreEquivalent.symm heq⟩
  · obtain ⟨E, h1, h2⟩ := hy
    exact hne (AreEquivalent.trans h1 (AreEquivalent.symm h2))
  · obtain ⟨D, h1, h2⟩ := hx
    obtain ⟨S, S', k1, k2, k3⟩ := AreEquivalent.trans (AreEquivalent.symm h1) h2
    refine hne ⟨S, S', k1, k2, fun g => ?_⟩
    have := k3 (φ.symm g)
    dsimp only at this
    rwa [φ.apply_symm_apply] at this

theorem realEquiv_symm {d e : ℕ} {R : Fin n → Matrix (Fin d) (Fin d) ℝ} {R' : Fin n → Matrix (Fin e) (Fin e) ℝ}
    (h : AreRealEquivalent R R') : AreRealEquivalent R' R := by
  obtain ⟨S, S', h1, h2, h3⟩ := h
  refine ⟨S', S, h2, h1, fun g => ?_⟩
  calc R' g * S' = S' * S * R' g * S' := by rw [h2, Matrix.one_mul]
    _ = S' * (R g * S) * S' := by rw [h3, Matrix.mul_assoc S' S]
    _ = S' * R g * (S * S') := by simp only [Matrix.mul_assoc]
    _ = S' * R g := by rw [h1, Matrix.mul_one]

theorem realEquiv_trans {d e f : ℕ} {R : Fin n → Matrix (Fin d) (Fin d) ℝ} {R' : Fin n → Matrix (Fin e) (Fin e) ℝ}
    {R'' : Fin n → Matrix (Fin f) (Fin f) ℝ} (h : AreRealEquivalent R R') (h' : AreRealEquivalent R' R'') :
    AreRealEquivalent R R'' := by
  obtain ⟨S, S', h1, h2, h3⟩ := h
  obtain ⟨P, P', k1, k2, k3⟩ := h'
  refine ⟨S * P, P' * S', ?_, ?_, fun i => ?_⟩
  · rw [Matrix.mul_assoc, ← Matrix.mul_assoc P, k1, Matrix.one_mul, h1]
  · rw [Matrix.mul_assoc, ← Matrix.mul_assoc S', h2, Matrix.one_mul, k2]
  · rw [← Matrix.mul_assoc, h3, Matrix.mul_assoc, k3, Matrix.mul_assoc]

theorem realEquiv_complex {d e : ℕ} {R : Fin n → Matrix (Fin d) (Fin d) ℝ} {R' : Fin n → Matrix (Fin e) (Fin e) ℝ}
    (h : AreRealEquivalent R R') : d = e ∧ ∀ g, (R g).trace = (R' g).trace := by
  obtain ⟨S, S', h1, h2, h3⟩ := h
  refine ⟨?_, fun g => ?_⟩
  · have e1 : (S * S').trace = d := by rw [h1, Matrix.trace_one, Fintype.card_fin]
    have e2 : (S' * S).trace = e := by rw [h2, Matrix.trace_one, Fintype.card_fin]
    rw [Matrix.trace_mul_comm, e2] at e1
    exact_mod_cast e1.symm
  · calc (R g).trace = (R g * S * S').trace := by rw [Matrix.mul_assoc, h1, Matrix.mul_one]
      _ = (S' * (S * R' g)).trace := by rw [h3, Matrix.trace_mul_comm]
      _ = (R' g).trace := by rw [← Matrix.mul_assoc, h2, Matrix.one_mul]

theorem realIrreducible_comp {I : ℕ} {d : ℕ} {D : Fin n → Matrix (Fin d) (Fin d) ℝ} {E : Fin I → Matrix (Fin d) (Fin d) ℝ}
    (f : Fin n → Fin I) (h : ∀ j, E (f j) = D j) (hD : IsRealIrreducible D) : IsRealIrreducible E :=
  ⟨hD.1, fun W hW => hD.2 W fun g v hv => by rw [← h]; exact hW _ v hv⟩

/-- The same over the reals. -/
theorem complete_real_iso {T : Fin n → Fin n → Fin n} {T' : Fin m → Fin m → Fin m} {φ : Fin n ≃ Fin m}
    (hφ : ∀ i j, φ (T i j) = T' (φ i) (φ j)) {K : List (AnyReal n)} {K' : List (AnyReal m)}
    (hK : IsCompleteRealIrreps T (fun _ _ => 1) K) (hK' : IsCompleteRealIrreps T' (fun _ _ => 1) K') :
    ∃ σ : Fin K.length ≃ Fin K'.length, ∀ a, AreRealEquivalent (K.get a).2 fun g => (K'.get (σ a)).2 (φ g) := by
  have hφ' : ∀ i j, φ.symm (T' i j) = T (φ.symm i) (φ.symm j) := by
    intro i j
    rw [Equiv.symm_apply_eq, hφ, φ.apply_symm_apply, φ.apply_symm_apply]
  refine match_lists (fun (D : AnyReal n) (E : AnyReal m) => AreRealEquivalent D.2 fun g => E.2 (φ g)) (fun D hD => ?_)
    (fun E hE => ?_) (hK.inequiv.imp fun {D D'} hne hy => ?_) (hK'.inequiv.imp fun {E E'} hne hx => ?_)
  · obtain ⟨E, hE, heq⟩ := hK'.complete D.1 (fun g => D.2 (φ.symm g)) (fun g h => by
        dsimp only
        rw [hφ']
        exact hK.rep D hD _ _) (fun g => IsUnit.of_mul_eq_one _ (hK.orthogonal D hD _))
      (realIrreducible_comp φ (fun j => by rw [φ.symm_apply_apply]) (hK.irred D hD))
    refine ⟨E, hE, ?_⟩
    obtain ⟨S, S', h1, h2, h3⟩ := heq
    refine ⟨S, S', h1, h2, fun g => ?_⟩
    have := h3 (φ g)
    dsimp only at this
    rwa [φ.symm_apply_apply] at this
  · obtain ⟨D, hD, heq⟩ := hK.complete E.1 (fun g => E.2 (φ g)) (fun g h => by
        dsimp only
        rw [hφ]
        exact hK'.rep E hE _ _) (fun g => IsUnit.of_mul_eq_one _ (hK'.orthogonal E hE _))
      (realIrreducible_comp φ.symm (fun j => by rw [φ.apply_symm_apply]) (hK'.irred E hE))
    exact ⟨D, hD, realEquiv_symm heq⟩
  · obtain ⟨E, h1, h2⟩ := hy
    exact hne (realEquiv_trans h1 (realEquiv_symm h2))
  · obtain ⟨D, h1, h2⟩ := hx
    obtain ⟨S, S', k1, k2, k3⟩ := realEquiv_trans (realEquiv_symm h1) h2
    refine hne ⟨S, S', k1, k2, fun g => ?_⟩
    have := k3 (φ.symm g)
    dsimp only at this
    rwa [φ.apply_symm_apply] at this

/-- Equivalent families have the same Frobenius-Schur indicator. -/
theorem frobeniusSchur_iso {φ : Fin n ≃ Fin m} {d e : ℕ} {D : RepArr n d} {E : RepArr m e}
    (h : AreEquivalent D fun g => E (φ g)) : frobeniusSchur D = frobeniusSchur E := by
  have hnm : n = m := by simpa using Fintype.card_congr φ
  have h1 : AreEquivalent (fun g => D g * D g) fun g => E (φ g) * E (φ g) := by
    obtain ⟨S, S', k1, k2, k3⟩ := h
    exact ⟨S, S', k1, k2, fun g => by rw [Matrix.mul_assoc, k3, ← Matrix.mul_assoc, k3, Matrix.mul_assoc]⟩
  have h2 : ∀ {N c : ℕ} (X : RepArr N c), (∑ k, ∑ i, ∑ j, X k i j * X k j i) = ∑ k, (X k * X k).trace := fun X => by
    simp only [Matrix.trace, Matrix.diag, Matrix.mul_apply]
  have h3 : (∑ k, ∑ i, ∑ j, D k i j * D k j i) = ∑ k, ∑ i, ∑ j, E k i j * E k j i := by
    rw [h2, h2, ← φ.sum_comp]
    exact Finset.sum_congr rfl fun g _ => AreEquivalent.trace h1 g
  unfold frobeniusSchur
  rw [h3]
  subst hnm
  rfl

/-- The indicators in the output are the Frobenius-Schur indicators of the arrays. -/
theorem pointgroup_indicators {rots : Fin n → M3} {o : Oracles} {method : IrrepMethod} {rtol atol : ℝ} {maxGen : ℕ}
    {l : List (AnyRep n × ℤ)} {w : Bool} (hrun : pointgroupIrreps o rots false method rtol atol maxGen = .ok (.complex l, w)) :
    ∀ x ∈ l, frobeniusSchur x.1.2 = .ok x.2 := by
  unfold pointgroupIrreps enumerateUnitaryIrreps at hrun
  cases hraw : rawIrreps o rots (Option.getD none fun _ _ => 1) method rtol atol maxGen with
  | error e =>
    simp only [hraw, bind, Except.bind] at hrun
    cases hrun
  | ok y =>
    simp only [hraw, bind, Except.bind, pure, Except.pure, Bool.false_eq_true, if_false] at hrun
    split at hrun
    · cases hrun
    · rename_i l' hl'
      obtain ⟨hl, -⟩ := Prod.mk.inj (Except.ok.inj hrun)
      cases hl
      intro x hx
      have hF := withIndicators_forall₂ hl'
      obtain ⟨a, rfl⟩ := List.mem_iff_get.1 hx
      have h1 := (List.forall₂_iff_get.1 hF).2 a (by rw [hF.length_eq]; exact a.2) a.2
      have h2 := h1.2
      rw [← h1.1] at h2
      exact h2

/-- **C110.** Let two lists of rotations be point groups and let an isomorphism of groups relate them; the groups may be
different (32 and 3m) or the same in another order, basis or orientation.  Two runs of
`get_crystallographic_pointgroup_irreps_from_symmetry` without warnings, with any draws, answers of the outside routines and
tolerances up to one half, return corresponding irreps: same dimensions, same indicators, and exactly the same characters. -/
theorem c110_isomorphic {rots : Fin n → M3} {rots' : Fin m → M3} (h : EnumeratesGroup rots) (h' : EnumeratesGroup rots')
    {φ : Fin n ≃ Fin m} (hφ : IsIsomorphism rots rots' φ) {o o' : Oracles} (ho : PointgroupContract o.pointgroup rots)
    (ho' : PointgroupContract o'.pointgroup rots') {rtol rtol' atol atol' : ℝ} (ha : 0 ≤ atol) (ha' : 0 ≤ atol')
    (hle : atol ≤ 1 / 2) (hle' : atol' ≤ 1 / 2) {maxGen maxGen' : ℕ} {out : IrrepsOut n} {out' : IrrepsOut m}
    (hrun : pointgroupIrreps o rots false .neto rtol atol maxGen = .ok (out, false))
    (hrun' : pointgroupIrreps o' rots' false .neto rtol' atol' maxGen' = .ok (out', false)) :
    ∃ l l', out = .complex l ∧ out' = .complex l' ∧ ∃ σ : Fin l.length ≃ Fin l'.length, ∀ a,
      (l'.get (σ a)).1.1 = (l.get a).1.1 ∧ (l'.get (σ a)).2 = (l.get a).2 ∧
      ∀ g, ((l'.get (σ a)).1.2 (φ g)).trace = ((l.get a).1.2 g).trace := by
  obtain ⟨T, hT, hTs, -⟩ := c01_cayley_table_ordinary h
  obtain ⟨T', hT', hTs', -⟩ := c01_cayley_table_ordinary h'
  obtain ⟨l, rfl, hl, -⟩ := c80_pointgroup_irreps h hT ho ha hle hrun
  obtain ⟨l', rfl, hl', -⟩ := c80_pointgroup_irreps h' hT' ho' ha' hle' hrun'
  obtain ⟨σ, hσ⟩ := complete_iso (iso_table hφ hTs hTs') (fun _ _ => rfl) hl hl'
  have e : (l.map Prod.fst).length = l.length := List.length_map _
  have e' : (l'.map Prod.fst).length = l'.length := List.length_map _
  refine ⟨l, l', rfl, rfl, ((finCongr e.symm).trans σ).trans (finCongr e'), fun a => ?_⟩
  have h1 := hσ (a.cast e.symm)
  have g1 : (l.map Prod.fst).get (a.cast e.symm) = (l.get a).1 := by simp
  have g2 : ∀ b : Fin (l'.map Prod.fst).length, (l'.map Prod.fst).get b = (l'.get (b.cast e')).1 := fun b => by simp
  rw [g1, g2] at h1
  change AreEquivalent (l.get a).1.2 fun g => (l'.get ((((finCongr e.symm).trans σ).trans (finCongr e')) a)).1.2 (φ g) at h1
  generalize (((finCongr e.symm).trans σ).trans (finCongr e')) a = b at h1
  refine ⟨(AreEquivalent.dim_eq h1).symm, ?_, fun g => (AreEquivalent.trace h1 g).symm⟩
  have h2 := frobeniusSchur_iso h1
  rw [pointgroup_indicators hrun _ (List.get_mem l a), pointgroup_indicators hrun' _ (List.get_mem l' b)] at h2
  exact (Except.ok.inj h2).symm

/-- **C110 over the reals.** The same for `real=True`, provided that the searches for the intertwiners with the conjugate
irreps succeed. -/
theorem c110_isomorphic_real {rots : Fin n → M3} {rots' : Fin m → M3} (h : EnumeratesGroup rots) (h' : EnumeratesGroup rots')
    {φ : Fin n ≃ Fin m} (hφ : IsIsomorphism rots rots' φ) {o o' : Oracles} (ho : PointgroupContract o.pointgroup rots)
    (ho' : PointgroupContract o'.pointgroup rots') (heig : EigContract o.eig) (heig' : EigContract o'.eig)
    {rtol rtol' atol atol' : ℝ} (ha : 0 ≤ atol) (ha' : 0 ≤ atol') (hle : atol ≤ 1 / 10) (hle' : atol' ≤ 1 / 10)
    {maxGen maxGen' : ℕ} {out : IrrepsOut n} {out' : IrrepsOut m}
    (hsearch : ∀ L w, rawIrreps o rots (fun _ _ => 1) .neto rtol atol maxGen = .ok (L, w) → ∀ D ∈ L,
      frobeniusSchur D.2 = .ok 1 → (getIntertwiner (o.random D.1) D.2 (fun g => (D.2 g).map star) atol maxGen).2 = false)
    (hsearch' : ∀ L w, rawIrreps o' rots' (fun _ _ => 1) .neto rtol' atol' maxGen' = .ok (L, w) → ∀ D ∈ L,
      frobeniusSchur D.2 = .ok 1 → (getIntertwiner (o'.random D.1) D.2 (fun g => (D.2 g).map star) atol' maxGen').2 = false)
    (hrun : pointgroupIrreps o rots true .neto rtol atol maxGen = .ok (out, false))
    (hrun' : pointgroupIrreps o' rots' true .neto rtol' atol' maxGen' = .ok (out', false)) :
    ∃ l l', out = .real l ∧ out' = .real l' ∧ ∃ σ : Fin l.length ≃ Fin l'.length, ∀ a,
      (l'.get (σ a)).1.1 = (l.get a).1.1 ∧ (l'.get (σ a)).2 = (l.get a).2 ∧
      ∀ g, ((l'.get (σ a)).1.2 (φ g)).trace = ((l.get a).1.2 g).trace := by
  obtain ⟨T, hT, hTs, -⟩ := c01_cayley_table_ordinary h
  obtain ⟨T', hT', hTs', -⟩ := c01_cayley_table_ordinary h'
  obtain ⟨l, rfl, hl, -⟩ := c80_pointgroup_real_irreps h hT ho heig ha hle hsearch hrun
  obtain ⟨l', rfl, hl', -⟩ := c80_pointgroup_real_irreps h' hT' ho' heig' ha' hle' hsearch' hrun'
  obtain ⟨l1, hl1, hv, hn, -⟩ := c90_real_characters h ho heig ha hle hsearch hrun
  cases hl1
  obtain ⟨l1, hl1, hv', hn', -⟩ := c90_real_characters h' ho' heig' ha' hle' hsearch' hrun'
  cases hl1
  obtain ⟨σ, hσ⟩ := complete_real_iso (iso_table hφ hTs hTs') hl hl'
  have e : (l.map Prod.fst).length = l.length := List.length_map _
  have e' : (l'.map Prod.fst).length = l'.length := List.length_map _
  refine ⟨l, l', rfl, rfl, ((finCongr e.symm).trans σ).trans (finCongr e'), fun a => ?_⟩
  have h1 := hσ (a.cast e.symm)
  have g1 : (l.map Prod.fst).get (a.cast e.symm) = (l.get a).1 := by simp
  have g2 : ∀ b : Fin (l'.map Prod.fst).length, (l'.map Prod.fst).get b = (l'.get (b.cast e')).1 := fun b => by simp
  rw [g1, g2] at h1
  change AreRealEquivalent (l.get a).1.2 fun g => (l'.get ((((finCongr e.symm).trans σ).trans (finCongr e')) a)).1.2 (φ g) at h1
  generalize (((finCongr e.symm).trans σ).trans (finCongr e')) a = b at h1
  obtain ⟨hd, htr⟩ := realEquiv_complex h1
  refine ⟨hd.symm, ?_, fun g => (htr g).symm⟩
  have hnm : n = m := by simpa using Fintype.card_congr φ
  have h2 := hn a a
  have h3 := hn' b b
  rw [if_pos rfl] at h2 h3
  rw [← φ.sum_comp] at h3
  simp only [← htr] at h3
  have hmn : (m : ℝ) = n := by rw [hnm]
  rw [h2, hmn] at h3
  have hn0 : (n : ℝ) ≠ 0 := by
    obtain ⟨e, -⟩ : ∃ e, rots e = 1 := by
      obtain ⟨_, H, hH⟩ := h
      have : (1 : M3) ∈ Set.range rots := by rw [hH]; exact ⟨1, H.one_mem, rfl⟩
      exact this
    exact_mod_cast (lt_of_le_of_lt (Nat.zero_le _) e.2).ne'
  have h4 := mul_left_cancel₀ hn0 h3
  have h5 : ((l'.get b).2 : ℝ) = (l.get a).2 := by linarith
  exact_mod_cast h5

/-- The point group 32. -/
def rotsD3 : Fin 6 → M3 := fun i => (pgData_32.head!.get i).toM3

/-- The point group 3m. -/
def rotsC3v : Fin 6 → M3 := fun i => (pgData_3m.head!.get i).toM3

theorem rotsD3_group : EnumeratesGroup rotsD3 := by
  apply enumerates_of_isMatrixGroup (by norm_num)
  · decide +kernel
  · decide +kernel

theorem rotsC3v_group : EnumeratesGroup rotsC3v := by
  apply enumerates_of_isMatrixGroup (by norm_num)
  · decide +kernel
  · decide +kernel

theorem contract_D3 : PointgroupContract (PgSymbol.pg_32, (1 : M3).map fun x : ℤ => (x : ℝ)) rotsD3 :=
  contract_of_int (std := pgData_32.head!) (by decide +kernel) (.head _) (Equiv.refl (Fin 6)) (by decide +kernel)

theorem contract_C3v : PointgroupContract (PgSymbol.pg_3m, (1 : M3).map fun x : ℤ => (x : ℝ)) rotsC3v :=
  contract_of_int (std := pgData_3m.head!) (by decide +kernel) (.head _) (Equiv.refl (Fin 6)) (by decide +kernel)

/-- 32 and 3m are isomorphic. -/
theorem iso_D3_C3v : IsIsomorphism rotsD3 rotsC3v (Equiv.refl (Fin 6)) := by
  unfold IsIsomorphism
  decide +kernel

/-- With generic draws there are runs without warnings, and the searches succeed. -/
theorem rich_runs {rots : Fin n → M3} (h : EnumeratesGroup rots) (o : Oracles) (ho : PointgroupContract o.pointgroup rots)
    (heig : EigContract o.eig) (rtol : ℝ) {atol : ℝ} (ha : 0 ≤ atol) (hle : atol ≤ 1 / 10) {maxGen : ℕ}
    (hr : RichDraws n o.random atol maxGen) :
    (∃ l, pointgroupIrreps o rots false .neto rtol atol maxGen = .ok (.complex l, false)) ∧
    (∀ L w, rawIrreps o rots (fun _ _ => 1) .neto rtol atol maxGen = .ok (L, w) → ∀ D ∈ L, frobeniusSchur D.2 = .ok 1 →
      (getIntertwiner (o.random D.1) D.2 (fun g => (D.2 g).map star) atol maxGen).2 = false) ∧
    ∃ r, pointgroupIrreps o rots true .neto rtol atol maxGen = .ok (.real r, false) := by
  obtain ⟨T, hT, -, -⟩ := c01_cayley_table_ordinary h
  obtain ⟨L, w, h0, h1, h2⟩ := c69_real_irreps h hT o ho heig rtol ha hle maxGen
  obtain ⟨rfl, h4⟩ := h1 hr
  obtain ⟨r, h5, -, -⟩ := h2 rfl h4
  obtain ⟨L', w', k0, k1, k2⟩ := c64_exact_entries h hT o ho rtol ha (hle.trans (by norm_num)) maxGen
  obtain ⟨l, k3, -⟩ := k2 (k1 hr)
  refine ⟨⟨l, k3⟩, fun L' w' h' => ?_, r, h5⟩
  rw [h0] at h'
  obtain ⟨rfl, -⟩ := Prod.mk.inj (Except.ok.inj h')
  exact h4

/-- Non-vacuity of C110: the point groups 32 and 3m are isomorphic and different, one has rotations only and the other has
reflections.  Both theorems apply to them; the irreps have dimensions with squares adding up to 6. -/
example : ∃ (o o' : Oracles) (l l' : List (AnyRep 6 × ℤ)) (r r' : List (AnyReal 6 × ℤ)), (∀ i, (rotsD3 i).det = 1) ∧
    (∃ i, (rotsC3v i).det = -1) ∧ pointgroupIrreps o rotsD3 false .neto 1e-5 1e-8 9 = .ok (.complex l, false) ∧
    pointgroupIrreps o' rotsC3v false .neto 1e-5 1e-8 9 = .ok (.complex l', false) ∧ (l.map fun x => x.1.1 ^ 2).sum = 6 ∧
    (∃ σ : Fin l.length ≃ Fin l'.length, ∀ a g, ((l'.get (σ a)).1.2 g).trace = ((l.get a).1.2 g).trace) ∧
    pointgroupIrreps o rotsD3 true .neto 1e-5 1e-8 9 = .ok (.real r, false) ∧
    pointgroupIrreps o' rotsC3v true .neto 1e-5 1e-8 9 = .ok (.real r', false) ∧
    ∃ σ : Fin r.length ≃ Fin r'.length, ∀ a g, ((r'.get (σ a)).1.2 g).trace = ((r.get a).1.2 g).trace := by
  obtain ⟨T, hT, -, -⟩ := c01_cayley_table_ordinary rotsD3_group
  obtain ⟨random, hr⟩ := exists_richDraws 1e-8 6 9 fun d hd => by
    have : d ≤ 3 := by by_contra h; push Not at h; nlinarith
    nlinarith
  obtain ⟨eig, heig⟩ := exists_eigContract
  let o : Oracles := ⟨random, eig, fun _ _ => (0, 0), fun _ _ _ => 0, (PgSymbol.pg_32, (1 : M3).map fun x : ℤ => (x : ℝ))⟩
  let o' : Oracles := ⟨random, eig, fun _ _ => (0, 0), fun _ _ _ => 0, (PgSymbol.pg_3m, (1 : M3).map fun x : ℤ => (x : ℝ))⟩
  obtain ⟨⟨l, hl⟩, hs, r, hr1⟩ := rich_runs rotsD3_group o contract_D3 heig 1e-5 (atol := 1e-8) (by norm_num) (by norm_num) hr
  obtain ⟨⟨l', hl'⟩, hs', r', hr1'⟩ := rich_runs rotsC3v_group o' contract_C3v heig 1e-5 (atol := 1e-8) (by norm_num)
    (by norm_num) hr
  obtain ⟨l1, e1, -, hsum, -⟩ := c80_pointgroup_irreps rotsD3_group hT (o := o) contract_D3 (by norm_num) (by norm_num) hl
  cases e1
  obtain ⟨l1, l2, e1, e2, σ, hσ⟩ := c110_isomorphic rotsD3_group rotsC3v_group iso_D3_C3v (o := o) (o' := o') contract_D3
    contract_C3v (by norm_num) (by norm_num) (by norm_num) (by norm_num) hl hl'
  cases e1
  cases e2
  obtain ⟨r1, r2, e1, e2, τ, hτ⟩ := c110_isomorphic_real rotsD3_group rotsC3v_group iso_D3_C3v (o := o) (o' := o') contract_D3
    contract_C3v heig heig (by norm_num) (by norm_num) (by norm_num) (by norm_num) hs hs' hr1 hr1'
  cases e1
  cases e2
  exact ⟨o, o', l, l', r, r', by decide +kernel, by decide +kernel, hl, hl', hsum, ⟨σ, fun a g => (hσ a).2.2 g⟩, hr1, hr1',
    τ, fun a g => (hτ a).2.2 g⟩

end Spgrep
