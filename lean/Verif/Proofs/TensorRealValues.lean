/-
`get_symmetry_adapted_tensors` and `apply_intrinsic_symmetry` on real arrays: everything stays real.
-/
import Verif.Proofs.RealProject

namespace Spgrep

open Spec

variable {n d D p : ℕ}

/-- All entries are real. -/
def TensorBasis.Real (t : TensorBasis n D p) : Prop := (∀ g, RealEntries (t.irrep g)) ∧ ∀ i a, star (t.basis i a) = t.basis i a

theorem projectToIrrep_real {la : LinAlg} {rep : RepArr n D} {E : RepArr n d} (hr : ∀ g, RealEntries (rep g))
    (hE : ∀ g, RealEntries (E g)) {atol : ℝ} {maxTrials : ℕ} {bs : List (Matrix (Fin d) (Fin D) ℂ)} {w : Bool}
    (h : projectToIrrep la rep E atol maxTrials = .ok (bs, w)) : ∀ b ∈ bs, RealEntries b := by
  rcases projectToIrrep_cases h with ⟨_, rfl, _⟩ | ⟨t, _, ht, _, hp, _⟩
  · simp
  · exact projInner_all la rep E (le_trans (by norm_num) ht) (P := RealEntries)
      (fun c j _ => normalizeRows_real (projBlock_real hr hE c j)) hp

theorem vectorBasis_real {la : LinAlg} {rep : RepArr n D} (hr : ∀ g, RealEntries (rep g)) {L : List (AnyRep n)}
    (hL : ∀ E ∈ L, ∀ g, RealEntries (E.2 g)) {atol : ℝ} {x : List (TensorBasis n D 1) × Bool}
    (h : vectorBasis la rep L atol = .ok x) : ∀ v ∈ x.1, v.Real := by
  unfold vectorBasis at h
  simp only [bind, Except.bind, pure, Except.pure] at h
  split at h
  · cases h
  · rename_i ls hls
    cases h
    intro v hv
    obtain ⟨E, hEm, r, hr', hvr⟩ := mem_mapM_flatten hls hv
    split at hr'
    · cases hr'
    · rename_i y hy
      cases hr'
      obtain ⟨b, hb, rfl⟩ := List.mem_map.1 hvr
      exact ⟨hL E hEm, fun i a => projectToIrrep_real hr (hL E hEm) hy b hb i (a 0)⟩

theorem tensorPair_real {la : LinAlg} {L : List (AnyRep n)} (hL : ∀ E ∈ L, ∀ g, RealEntries (E.2 g)) {atol : ℝ}
    {t : TensorBasis n D p} {v : TensorBasis n D 1} (ht : t.Real) (hv : v.Real)
    {x : List (TensorBasis n D (p + 1)) × Bool} (h : tensorPair la L atol t v = .ok x) : ∀ y ∈ x.1, y.Real := by
  obtain ⟨F, hF, hFe, -⟩ := c23_direct_product.2 t.irrep v.irrep
  have hFreal : ∀ g, RealEntries (F g) := by
    intro g x y
    obtain ⟨x, rfl⟩ := finProdFinEquiv.surjective x
    obtain ⟨y, rfl⟩ := finProdFinEquiv.surjective y
    rw [hFe, star_mul', ht.1 g x.1 y.1, hv.1 g x.2 y.2]
  unfold tensorPair at h
  simp only [bind, Except.bind, pure, Except.pure, hF] at h
  split at h
  · cases h
  · rename_i ls hls
    cases h
    intro y hy
    obtain ⟨E, hEm, r, hr', hyr⟩ := mem_mapM_flatten hls hy
    split at hr'
    · cases hr'
    · rename_i z hz
      cases hr'
      obtain ⟨b, hb, rfl⟩ := List.mem_map.1 hyr
      have hbr := projectToIrrep_real hFreal (hL E hEm) hz b hb
      refine ⟨hL E hEm, fun i a => ?_⟩
      show star (contractBasis b t.basis v.basis i a) = contractBasis b t.basis v.basis i a
      unfold contractBasis
      simp only [star_sum, star_mul', hbr i _, ht.2, hv.2]

theorem tensorLoop_real {la : LinAlg} {L : List (AnyRep n)} (hL : ∀ E ∈ L, ∀ g, RealEntries (E.2 g)) {atol : ℝ}
    {vbs : List (TensorBasis n D 1)} (hv : ∀ v ∈ vbs, v.Real) : ∀ (q : ℕ) {x : List (TensorBasis n D (q + 1)) × Bool},
    tensorLoop la L atol vbs q = .ok x → ∀ y ∈ x.1, y.Real
  | 0, x, h => by cases h; exact hv
  | q + 1, x, h => by
    unfold tensorLoop at h
    simp only [bind, Except.bind, pure, Except.pure] at h
    split at h
    · cases h
    · rename_i y hy
      split at h
      · cases h
      · rename_i z hz
        cases h
        have ih := tensorLoop_real hL hv q hy
        unfold tensorStep at hz
        simp only [bind, Except.bind, pure, Except.pure] at hz
        split at hz
        · cases hz
        · rename_i ls hls
          cases hz
          intro u hu
          obtain ⟨tv, htv, r, hr, hur⟩ := mem_mapM_flatten hls hu
          obtain ⟨t, ht, htv⟩ := List.mem_flatMap.1 htv
          obtain ⟨v, hv', rfl⟩ := List.mem_map.1 htv
          exact tensorPair_real hL (ih t ht) (hv v hv') hr u hur

theorem takeInvariant_real : ∀ {tbs : List (TensorBasis n D p)} {ts acc : List (Tensor D p)},
    (∀ x ∈ tbs, x.Real) → (∀ t ∈ acc, ∀ a, star (t a) = t a) → tbs.foldlM invariantStep acc = .ok ts →
    ∀ t ∈ ts, ∀ a, star (t a) = t a := by
  intro tbs
  induction tbs with
  | nil =>
    intro ts acc _ hacc h
    cases h
    exact hacc
  | cons x xs ih =>
    intro ts acc hgood hacc h
    rw [List.foldlM_cons] at h
    simp only [bind, Except.bind, invariantStep] at h
    have hgood' : ∀ y ∈ xs, y.Real := fun y hy => hgood y (List.mem_cons_of_mem _ hy)
    split_ifs at h with h1 h2 h3
    · exact ih hgood' hacc h
    · refine ih hgood' ?_ h
      intro t ht a
      rcases List.mem_append.1 ht with ht | ht
      · exact hacc t ht a
      · rw [List.mem_singleton] at ht
        subst ht
        exact (hgood x (List.mem_cons_self ..)).2 _ a
    · exact ih hgood' hacc h

theorem tensorsFrom_real {la : LinAlg} {rep : RepArr n D} (hr : ∀ g, RealEntries (rep g)) {L : List (AnyRep n)}
    (hL : ∀ E ∈ L, ∀ g, RealEntries (E.2 g)) {rank : ℕ} {atol : ℝ} {ts : List (Tensor D (rank - 1 + 1))} {w : Bool}
    (h : tensorsFrom la rep L rank atol = .ok (ts, w)) : ∀ t ∈ ts, ∀ a, star (t a) = t a := by
  unfold tensorsFrom at h
  simp only [bind, Except.bind, pure, Except.pure] at h
  split at h
  · cases h
  · rename_i x hx
    split at h
    · cases h
    · rename_i y hy
      split at h
      · cases h
      · rename_i z hz
        obtain ⟨rfl, -⟩ := Prod.mk.inj (Except.ok.inj h)
        exact takeInvariant_real (tensorLoop_real hL (vectorBasis_real hr hL hx) _ hy) (by simp) hz

theorem symmetrize_real {t : Tensor D p} (h : ∀ a, star (t a) = t a) (a) : star (symmetrize t a) = symmetrize t a := by
  unfold symmetrize
  rw [star_sum]
  refine Finset.sum_congr rfl fun σ _ => ?_
  rw [star_div₀, h]
  congr 1
  exact Complex.conj_ofReal _

theorem intrinsic_real {la : LinAlg} {atol : ℝ} : ∀ {ts us acc : List (Tensor D p)},
    (∀ t ∈ ts, ∀ a, star (t a) = t a) → (∀ t ∈ acc, ∀ a, star (t a) = t a) →
    ts.foldlM (intrinsicStep la atol) acc = .ok us → ∀ u ∈ us, ∀ a, star (u a) = u a := by
  intro ts
  induction ts with
  | nil =>
    intro us acc _ hacc h
    cases h
    exact hacc
  | cons t ts ih =>
    intro us acc hts hacc h
    have hts' : ∀ u ∈ ts, ∀ a, star (u a) = u a := fun u hu => hts u (List.mem_cons_of_mem _ hu)
    have hnew : ∀ u ∈ acc ++ [fun a => symmetrize t a / (tensorNorm (symmetrize t) : ℂ)], ∀ a, star (u a) = u a := by
      intro u hu a
      rcases List.mem_append.1 hu with hu | hu
      · exact hacc u hu a
      · rw [List.mem_singleton] at hu
        subst hu
        rw [star_div₀, symmetrize_real (hts t (List.mem_cons_self ..))]
        congr 1
        exact Complex.conj_ofReal _
    rw [List.foldlM_cons] at h
    simp only [bind, Except.bind, intrinsicStep] at h
    split at h
    · cases h
    · rename_i r hr
      refine ih hts' ?_ h
      split_ifs at hr
      · cases hr; exact hacc
      · split at hr
        · cases hr
        · split_ifs at hr
          · cases hr; exact hacc
          · cases hr; exact hnew
      · cases hr; exact hnew

end Spgrep
