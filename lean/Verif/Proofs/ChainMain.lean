/-
The loop invariant of the chain enumeration.
-/
import Verif.Proofs.ChainModel

set_option linter.unusedSectionVars false

namespace Spgrep

open Spec Matrix

variable {n : ℕ} {G : Type} [Group G] [Fintype G] [DecidableEq G] (e : Fin n ≃ G) {T : Fin n → Fin n → Fin n}
variable (hT : ∀ i j, e (T i j) = e i * e j)
variable {μ : Fin n → Fin n → ℂ} {H K : Subgroup G} {r : G} {p : ℕ}

/-- What the loop body produces from one irrep of the subgroup. -/
structure InnerOK (e : Fin n ≃ G) (μ : Fin n → Fin n → ℂ) (H K : Subgroup G) (D : AnyRep n)
    (out : List (AnyRep n)) : Prop where
  good : ∀ E ∈ out, GoodOn K (pb2 e μ) (pb e E.2)
  complete : ∀ (k : ℕ) (Γ : G → Matrix (Fin k) (Fin k) ℂ) (X : Matrix (Fin k) (Fin D.1) ℂ), RepOn K (pb2 e μ) Γ →
    Γ 1 = 1 → IsIrreducible (res K Γ) → X ≠ 0 → (∀ s ∈ H, Γ s * X = X * pb e D.2 s) →
    ∃ E ∈ out, AreEquivalent (res K Γ) (res K (pb e E.2))

theorem scaleIntertwiner_eq {d : ℕ} (hd : 0 < d) (U : Matrix (Fin d) (Fin d) ℂ) (hp : 2 ≤ p) {c : ℂ}
    (hc : U ^ p = c • 1) : scaleIntertwiner U p = (c ^ ((1 : ℂ) / p))⁻¹ • U := by
  unfold scaleIntertwiner
  simp only [dif_pos hd, scale_foldl, show p - 1 + 1 = p by omega, hc]
  simp

include hT

theorem chainInner_ok (hμ : Cocy (pb2 e μ)) (C : ChainExt H K r p) {S : List (Fin n)} (hnd : S.Nodup)
    (hmem : ∀ g, e.symm g ∈ S ↔ g ∈ H) (random : ∀ d, ℕ → Matrix (Fin d) (Fin d) ℂ) {atol : ℝ} (ha : 0 ≤ atol)
    (maxGen : ℕ) (D : AnyRep n) (hD : GoodOn H (pb2 e μ) (pb e D.2))
    (hw : (chainInner random T μ (e.symm 1) (e.symm r) (e.symm r⁻¹) p S atol maxGen D).2 = false) :
    InnerOK e μ H K D (chainInner random T μ (e.symm 1) (e.symm r) (e.symm r⁻¹) p S atol maxGen D).1 := by
  classical
  obtain ⟨d, D⟩ := D
  have hp0 : 0 < p := by have := C.hp; omega
  have hd : 0 < d := by
    obtain ⟨i⟩ := hD.irr.1
    exact Nat.lt_of_le_of_lt (Nat.zero_le _) i.2
  have e0 : pb e (conjSub T μ (e.symm 1) (e.symm r) (e.symm r⁻¹) D 0) = pb e D := by
    rw [conjSub_eq e hT, pow_zero, cj_one hμ]
  have e1 : pb e (conjSub T μ (e.symm 1) (e.symm r) (e.symm r⁻¹) D 1) = cj (pb2 e μ) (pb e D) r := by
    rw [conjSub_eq e hT, pow_one]
  have g1 : GoodOn H (pb2 e μ) (cj (pb2 e μ) (pb e D) r) :=
    cj_good hμ hD (fun h hh => C.norm h hh) (fun h hh => by simpa using C.norm_pow' 1 hh)
  have g0' : GoodOn H (pb2 e μ) (pb e (conjSub T μ (e.symm 1) (e.symm r) (e.symm r⁻¹) D 0)) := by rw [e0]; exact hD
  have g1' : GoodOn H (pb2 e μ) (pb e (conjSub T μ (e.symm 1) (e.symm r) (e.symm r⁻¹) D 1)) := by rw [e1]; exact g1
  have hiff := isEquiv_pb e hμ hnd hmem g0' g1'
  rw [e0, e1] at hiff
  unfold chainInner at hw ⊢
  dsimp only at hw ⊢
  by_cases hself : AreEquivalent (res H (pb e D)) (res H (cj (pb2 e μ) (pb e D) r))
  · rw [if_pos (hiff.2 hself)] at hw ⊢
    dsimp only at hw ⊢
    obtain ⟨hU0, hU⟩ := subIntertwiner_spec e hμ hnd hmem g0' g1' (random d) ha maxGen hw
    rw [e0, e1] at hU
    generalize (subIntertwiner (random d) S (conjSub T μ (e.symm 1) (e.symm r) (e.symm r⁻¹) D 0)
      (conjSub T μ (e.symm 1) (e.symm r) (e.symm r⁻¹) D 1) atol maxGen).1 = U at hU0 hU ⊢
    obtain ⟨c, hc⟩ := intertwiner_pow hμ C hD hU
    have hc0 : c ≠ 0 := by
      obtain ⟨S', h1, _⟩ := schur_equiv hD.irr g1.irr (S := U) (fun a => hU a a.2) hU0
      intro h0
      rw [h0, zero_smul] at hc
      have h2 := congrArg Matrix.det hc
      have : Nonempty (Fin d) := ⟨⟨0, hd⟩⟩
      rw [Matrix.det_pow, Matrix.det_zero] at h2
      have h3 := congrArg Matrix.det h1
      rw [Matrix.det_mul, Matrix.det_one, pow_eq_zero_iff hp0.ne' |>.1 h2, zero_mul] at h3
      exact zero_ne_one h3
    have hroot0 : c ^ ((1 : ℂ) / p) ≠ 0 := by
      intro h0
      exact hc0 ((Complex.cpow_eq_zero_iff _ _).1 h0).1
    have hrootp : (c ^ ((1 : ℂ) / p)) ^ p = c := by rw [one_div, Complex.cpow_nat_inv_pow _ hp0.ne']
    rw [scaleIntertwiner_eq hd U C.hp hc]
    set U' := (c ^ ((1 : ℂ) / p))⁻¹ • U with hU'
    let A : ℕ → Matrix (Fin d) (Fin d) ℂ := fun q => (omegaQ T μ (e.symm 1) (e.symm r) p q)⁻¹ • U'
    have hA : ∀ q, ExtMat H (pb2 e μ) r p (pb e D) (A q) := by
      intro q
      obtain ⟨h1, h2⟩ := omegaQ_spec e hT (r := r) hμ C.hp q
      have hAq : A q = ((omegaQ T μ (e.symm 1) (e.symm r) p q)⁻¹ * (c ^ ((1 : ℂ) / p))⁻¹) • U := by
        simp only [A, hU', smul_smul]
      rw [hAq]
      refine extMat_of_intertwiner hμ C hD hU hU0 (mul_ne_zero (inv_ne_zero h2) (inv_ne_zero hroot0)) ?_
      rw [smul_pow, mul_pow, h1, inv_pow, hrootp, hc, smul_smul, mul_assoc, inv_mul_cancel₀ hc0, mul_one]
    let Δ : ℕ → G → Matrix (Fin d) (Fin d) ℂ := fun q => pb e (nextSelf T μ (e.symm 1) (e.symm r) p S D U' q)
    have hΔ : ∀ q, ∀ m < p, ∀ s ∈ H, Δ q (r ^ m * s) =
        (pb2 e μ (r ^ m) s)⁻¹ • (bmat (pb2 e μ) r (A q) m * pb e D s) := fun q m hm s hs =>
      nextSelf_apply e hT C hnd hmem D U' q hm hs
    have hgood : ∀ q, GoodOn K (pb2 e μ) (Δ q) := fun q => ext_good hμ C hD (hA q) (hΔ q)
    have hval : ∀ q, Δ q r = A q := by
      intro q
      have h := hΔ q 1 (by have := C.hp; omega) 1 H.one_mem
      rw [pow_one, mul_one, hμ.one_right, inv_one, one_smul, hD.map_one hμ, Matrix.mul_one, bmat_succ, bmat_zero,
        pow_zero, hμ.one_right, inv_one, one_smul, Matrix.mul_one] at h
      exact h
    constructor
    · intro E hE
      obtain ⟨q, _, rfl⟩ := List.mem_map.1 hE
      exact hgood q
    · intro k Γ X hΓ h1 hΓi hX0 hX
      obtain ⟨q, hq, h⟩ := ext_complete hμ C (D := pb e D) (Δ := Δ) (fun q _ => hgood q)
        (fun q _ s hs => ext_sub hμ C (hA q) (hΔ q) hs)
        (fun q _ => by
          rw [hval, hval]
          simp only [A, omegaQ]
          generalize U' = V
          rw [smul_smul]
          congr 1
          simp [mul_comm]) hΓ h1 hΓi hX0 hX
      exact ⟨⟨d, nextSelf T μ (e.symm 1) (e.symm r) p S D U' q⟩, List.mem_map.2 ⟨q, List.mem_range.2 hq, rfl⟩, h⟩
  · rw [if_neg (fun h => hself (hiff.1 h))] at hw ⊢
    dsimp only at hw ⊢
    obtain ⟨hg, heq⟩ := nextInduced_good e hT hμ C hnd hmem hD hself
    constructor
    · intro E hE
      rw [List.mem_singleton] at hE
      subst hE
      exact hg
    · intro k Γ X hΓ h1 hΓi hX0 hX
      have h := ind_complete hμ C hD hself hΓ h1 hΓi hX0 hX
      exact ⟨_, List.mem_singleton.2 rfl, AreEquivalent.trans h (AreEquivalent.symm heq)⟩

omit hT

/-- The draws contain large multiples of all elementary matrices (of the sizes that can occur). -/
def RichDraws (n : ℕ) (random : ∀ d, ℕ → Matrix (Fin d) (Fin d) ℂ) (atol : ℝ) (maxGen : ℕ) : Prop :=
  ∀ d : ℕ, d ^ 2 ≤ n → ∀ i j : Fin d, ∃ t < maxGen, ∃ c : ℝ, (d : ℝ) ^ 2 * atol < c ∧
    random d t = (c : ℂ) • Matrix.single i j (1 : ℂ)

theorem subIntertwiner_rich (hμ : Cocy (pb2 e μ)) {S : List (Fin n)} (hnd : S.Nodup)
    (hmem : ∀ g, e.symm g ∈ S ↔ g ∈ H) {d : ℕ} {D E : RepArr n d} (hD : GoodOn H (pb2 e μ) (pb e D))
    (hE : GoodOn H (pb2 e μ) (pb e E)) (heq : AreEquivalent (res H (pb e D)) (res H (pb e E)))
    (random : ∀ d, ℕ → Matrix (Fin d) (Fin d) ℂ) {atol : ℝ} (ha : 0 ≤ atol) (maxGen : ℕ)
    (hr : RichDraws n random atol maxGen) : (subIntertwiner (random d) S D E atol maxGen).2 = false := by
  classical
  have : Fintype H := Fintype.ofFinite H
  by_contra hw
  rw [Bool.not_eq_false] at hw
  have hd2 : d ^ 2 ≤ n := by
    have hF : IrrepFamily (A := Unit) (d := fun _ => d) (resμ H (pb2 e μ)) (fun _ => res H (pb e D)) :=
      ⟨fun _ => hD.rep.toRes, fun _ => IsUnitaryRep.isUnit hD.uniRes, fun _ => hD.irr, fun _ _ _ => rfl⟩
    have h1 := sum_sq_le_card (μ := resμ H (pb2 e μ)) (fun a b => hμ.ne a b) hF
    simp only [Finset.univ_unique, Finset.sum_singleton] at h1
    have h2 : Fintype.card H ≤ Fintype.card G := Fintype.card_le_of_injective _ Subtype.val_injective
    have h3 : Fintype.card G = n := by rw [← Fintype.card_congr e, Fintype.card_fin]
    omega
  have hall : ∀ (i j : Fin d), ∃ c : ℝ, (d : ℝ) ^ 2 * atol < c ∧
      ∀ a b, ‖avg (res H (pb e D)) (res H (pb e E)) ((c : ℂ) • Matrix.single i j (1 : ℂ)) a b‖ ≤ atol := by
    intro i j
    obtain ⟨t, ht, c, hc, hrt⟩ := hr d hd2 i j
    refine ⟨c, hc, fun a b => ?_⟩
    rw [← hrt, ← sub_sum_eq_avg e hnd hmem hE]
    exact ((intertwinerLoop_cases _ _ ha _).2 hw).2 _ (List.mem_map.2 ⟨t, List.mem_range.2 ht, rfl⟩) a b
  choose c hc hbound using hall
  obtain ⟨X, X', h1, h2, h3⟩ := heq
  have hne := hD.irr.1
  have : Nonempty (Fin d × Fin d) := ⟨(hne.some, hne.some)⟩
  obtain ⟨⟨a, b⟩, hmax⟩ := Finite.exists_max (fun x : Fin d × Fin d => ‖X x.1 x.2‖)
  have hpos : 0 < ‖X a b‖ := by
    rw [norm_pos_iff]
    intro h0
    have hX0 : X = 0 := by
      ext i j
      have := hmax (i, j)
      simp only [h0, norm_zero, norm_le_zero_iff] at this
      exact this
    rw [hX0, Matrix.zero_mul] at h1
    have := congrFun (congrFun h1 hne.some) hne.some
    simp at this
  -- avg X = |H| X
  have havgX : avg (res H (pb e D)) (res H (pb e E)) X = (Fintype.card H : ℂ) • X := by
    unfold avg
    have : ∀ g : H, res H (pb e D) g * X * (res H (pb e E) g)⁻¹ = X := by
      intro g
      rw [h3 g, Matrix.mul_assoc, Matrix.mul_nonsing_inv _
        ((Matrix.isUnit_iff_isUnit_det _).1 (IsUnitaryRep.isUnit hE.uniRes g)), Matrix.mul_one]
    rw [Finset.sum_congr rfl fun g _ => this g, Finset.sum_const, Finset.card_univ, ← Nat.cast_smul_eq_nsmul ℂ]
  have hlin : avg (res H (pb e D)) (res H (pb e E)) X = ∑ i, ∑ j, (X i j / c i j) •
      avg (res H (pb e D)) (res H (pb e E)) ((c i j : ℂ) • Matrix.single i j (1 : ℂ)) := by
    have hX : X = ∑ i, ∑ j, (X i j / c i j) • ((c i j : ℂ) • Matrix.single i j (1 : ℂ)) := by
      conv_lhs => rw [Matrix.matrix_eq_sum_single X]
      refine Finset.sum_congr rfl fun i _ => Finset.sum_congr rfl fun j _ => ?_
      have h0 : (c i j : ℂ) ≠ 0 := by
        have := hc i j
        have h4 : 0 < c i j := lt_of_le_of_lt (by positivity) this
        exact_mod_cast h4.ne'
      rw [smul_smul, div_mul_cancel₀ _ h0, Matrix.smul_single, smul_eq_mul, mul_one]
    conv_lhs => rw [hX]
    unfold avg
    simp only [Finset.mul_sum, Finset.sum_mul, Finset.smul_sum]
    rw [Finset.sum_comm]
    refine Finset.sum_congr rfl fun i _ => ?_
    rw [Finset.sum_comm]
    refine Finset.sum_congr rfl fun j _ => Finset.sum_congr rfl fun g _ => ?_
    simp only [Matrix.mul_smul, Matrix.smul_mul]
  have hfin := congrArg (fun M : Matrix (Fin d) (Fin d) ℂ => ‖M a b‖) (havgX.symm.trans hlin)
  simp only [Matrix.smul_apply, Matrix.sum_apply, smul_eq_mul, norm_mul, Complex.norm_natCast] at hfin
  have hdpos : 0 < d := Fin.pos_iff_nonempty.2 hne
  have hub : ‖∑ i, ∑ j, X i j / c i j *
      avg (res H (pb e D)) (res H (pb e E)) ((c i j : ℂ) • Matrix.single i j (1 : ℂ)) a b‖ < ‖X a b‖ := by
    have hterm : ∀ i j, ‖X i j / c i j *
        avg (res H (pb e D)) (res H (pb e E)) ((c i j : ℂ) • Matrix.single i j (1 : ℂ)) a b‖ <
        ‖X a b‖ / (d : ℝ) ^ 2 := by
      intro i j
      have h4 : 0 < c i j := lt_of_le_of_lt (by positivity) (hc i j)
      rw [norm_mul, norm_div, Complex.norm_real, Real.norm_of_nonneg h4.le]
      have hd0 : (0 : ℝ) < (d : ℝ) ^ 2 := by positivity
      calc ‖X i j‖ / c i j * ‖avg (res H (pb e D)) (res H (pb e E)) ((c i j : ℂ) • Matrix.single i j (1 : ℂ)) a b‖
          ≤ ‖X a b‖ / c i j * atol := by
            apply mul_le_mul (div_le_div_of_nonneg_right (hmax (i, j)) h4.le) (hbound i j a b) (norm_nonneg _)
            positivity
        _ < ‖X a b‖ / (d : ℝ) ^ 2 := by
            rw [div_mul_eq_mul_div, div_lt_div_iff₀ h4 hd0]
            have := mul_lt_mul_of_pos_left (hc i j) hpos
            linarith
    calc _ ≤ ∑ i, ∑ j, ‖X i j / c i j *
          avg (res H (pb e D)) (res H (pb e E)) ((c i j : ℂ) • Matrix.single i j (1 : ℂ)) a b‖ :=
          (norm_sum_le _ _).trans (Finset.sum_le_sum fun i _ => norm_sum_le _ _)
      _ < ∑ i : Fin d, ∑ j : Fin d, ‖X a b‖ / (d : ℝ) ^ 2 := by
          have hne' : (Finset.univ : Finset (Fin d)).Nonempty := Finset.univ_nonempty_iff.2 hne
          exact Finset.sum_lt_sum_of_nonempty hne' fun i _ => Finset.sum_lt_sum_of_nonempty hne' fun j _ => hterm i j
      _ = ‖X a b‖ := by
          simp only [Finset.sum_const, Finset.card_univ, Fintype.card_fin, nsmul_eq_mul]
          have hd0 : (d : ℝ) ≠ 0 := by exact_mod_cast hdpos.ne'
          field_simp
  have hcard : (1 : ℝ) ≤ Fintype.card H := by exact_mod_cast Fintype.card_pos
  have : ‖X a b‖ ≤ (Fintype.card H : ℝ) * ‖X a b‖ := le_mul_of_one_le_left hpos.le hcard
  rw [hfin] at this
  linarith

include hT in
theorem chainInner_rich (hμ : Cocy (pb2 e μ)) (C : ChainExt H K r p) {S : List (Fin n)} (hnd : S.Nodup)
    (hmem : ∀ g, e.symm g ∈ S ↔ g ∈ H) (random : ∀ d, ℕ → Matrix (Fin d) (Fin d) ℂ) {atol : ℝ} (ha : 0 ≤ atol)
    (maxGen : ℕ) (hr : RichDraws n random atol maxGen) (D : AnyRep n) (hD : GoodOn H (pb2 e μ) (pb e D.2)) :
    (chainInner random T μ (e.symm 1) (e.symm r) (e.symm r⁻¹) p S atol maxGen D).2 = false := by
  classical
  obtain ⟨d, D⟩ := D
  have e0 : pb e (conjSub T μ (e.symm 1) (e.symm r) (e.symm r⁻¹) D 0) = pb e D := by
    rw [conjSub_eq e hT, pow_zero, cj_one hμ]
  have e1 : pb e (conjSub T μ (e.symm 1) (e.symm r) (e.symm r⁻¹) D 1) = cj (pb2 e μ) (pb e D) r := by
    rw [conjSub_eq e hT, pow_one]
  have g1 : GoodOn H (pb2 e μ) (cj (pb2 e μ) (pb e D) r) :=
    cj_good hμ hD (fun h hh => C.norm h hh) (fun h hh => by simpa using C.norm_pow' 1 hh)
  have g0' : GoodOn H (pb2 e μ) (pb e (conjSub T μ (e.symm 1) (e.symm r) (e.symm r⁻¹) D 0)) := by rw [e0]; exact hD
  have g1' : GoodOn H (pb2 e μ) (pb e (conjSub T μ (e.symm 1) (e.symm r) (e.symm r⁻¹) D 1)) := by rw [e1]; exact g1
  unfold chainInner
  dsimp only
  split_ifs with h
  · exact subIntertwiner_rich e hμ hnd hmem g0' g1' ((isEquiv_pb e hμ hnd hmem g0' g1').1 h) random ha maxGen hr
  · rfl

/-- All irreps of a subgroup, each exactly once. -/
structure IrrepsOn (e : Fin n ≃ G) (μ : Fin n → Fin n → ℂ) (H : Subgroup G) (L : List (AnyRep n)) : Prop where
  good : ∀ D ∈ L, GoodOn H (pb2 e μ) (pb e D.2)
  ineq : L.Pairwise fun D E => ¬ AreEquivalent (res H (pb e D.2)) (res H (pb e E.2))
  complete : ∀ (k : ℕ) (Γ : G → Matrix (Fin k) (Fin k) ℂ), RepOn H (pb2 e μ) Γ → Γ 1 = 1 →
    IsIrreducible (res H Γ) → ∃ D ∈ L, AreEquivalent (res H Γ) (res H (pb e D.2))

/-- Removal of duplicates. -/
theorem dedupe_spec (hμ : Cocy (pb2 e μ)) {S : List (Fin n)} (hnd : S.Nodup) (hmem : ∀ g, e.symm g ∈ S ↔ g ∈ K)
    {L : List (AnyRep n)} (hL : ∀ D ∈ L, GoodOn K (pb2 e μ) (pb e D.2)) :
    (∀ D ∈ dedupe S L, GoodOn K (pb2 e μ) (pb e D.2)) ∧
      (dedupe S L).Pairwise (fun D E => ¬ AreEquivalent (res K (pb e D.2)) (res K (pb e E.2))) ∧
      ∀ D ∈ L, ∃ E ∈ dedupe S L, AreEquivalent (res K (pb e D.2)) (res K (pb e E.2)) := by
  classical
  have key : ∀ (L acc : List (AnyRep n)), (∀ D ∈ L, GoodOn K (pb2 e μ) (pb e D.2)) →
      (∀ D ∈ acc, GoodOn K (pb2 e μ) (pb e D.2)) →
      acc.Pairwise (fun D E => ¬ AreEquivalent (res K (pb e D.2)) (res K (pb e E.2))) →
      let out := L.foldl (fun acc D => if acc.any fun E => decide (IsEquivalentIrrep (S.map (getCharacter D.2))
        (S.map (getCharacter E.2))) then acc else acc ++ [D]) acc
      (∀ D ∈ out, GoodOn K (pb2 e μ) (pb e D.2)) ∧
      out.Pairwise (fun D E => ¬ AreEquivalent (res K (pb e D.2)) (res K (pb e E.2))) ∧
      (∀ D ∈ acc, D ∈ out) ∧
      ∀ D ∈ L, ∃ E ∈ out, AreEquivalent (res K (pb e D.2)) (res K (pb e E.2)) := by
    intro L
    induction L with
    | nil => intro acc _ h1 h2; exact ⟨h1, h2, fun D hD => hD, by simp⟩
    | cons D L ih =>
      intro acc hL h1 h2
      have hDg := hL D List.mem_cons_self
      have hL' : ∀ D ∈ L, GoodOn K (pb2 e μ) (pb e D.2) := fun E hE => hL E (List.mem_cons_of_mem _ hE)
      simp only [List.foldl_cons]
      split
      · rename_i hany
        obtain ⟨E, hE, hEq⟩ := List.any_eq_true.1 hany
        have hEq' := (isEquiv_pb e hμ hnd hmem hDg (h1 E hE)).1 (of_decide_eq_true hEq)
        obtain ⟨a, b, c, d⟩ := ih acc hL' h1 h2
        refine ⟨a, b, c, fun F hF => ?_⟩
        rcases List.mem_cons.1 hF with rfl | hF
        · exact ⟨E, c E hE, hEq'⟩
        · exact d F hF
      · rename_i hany
        have hno : ∀ E ∈ acc, ¬ AreEquivalent (res K (pb e D.2)) (res K (pb e E.2)) := by
          intro E hE hEq
          exact hany (List.any_eq_true.2 ⟨E, hE, decide_eq_true ((isEquiv_pb e hμ hnd hmem hDg (h1 E hE)).2 hEq)⟩)
        obtain ⟨a, b, c, d⟩ := ih (acc ++ [D]) hL' (by
            intro F hF
            rcases List.mem_append.1 hF with hF | hF
            · exact h1 F hF
            · rw [List.mem_singleton.1 hF]; exact hDg) (by
            rw [List.pairwise_append]
            refine ⟨h2, List.pairwise_singleton _ _, fun E hE F hF => ?_⟩
            rw [List.mem_singleton.1 hF]
            exact fun h => hno E hE (AreEquivalent.symm h))
        refine ⟨a, b, fun E hE => c E (List.mem_append_left _ hE), fun F hF => ?_⟩
        rcases List.mem_cons.1 hF with rfl | hF
        · exact ⟨F, c F (List.mem_append_right _ (List.mem_singleton.2 rfl)), AreEquivalent.refl _⟩
        · exact d F hF
  obtain ⟨a, b, _, d⟩ := key L [] hL (by simp) List.Pairwise.nil
  exact ⟨a, b, d⟩

/-- An irrep of `K` contains an irrep of `H`. -/
theorem exists_constituent (hμ : Cocy (pb2 e μ)) (C : ChainExt H K r p) {L : List (AnyRep n)} (hL : IrrepsOn e μ H L)
    {k : ℕ} {Γ : G → Matrix (Fin k) (Fin k) ℂ} (hΓ : RepOn K (pb2 e μ) Γ) (h1 : Γ 1 = 1)
    (hΓi : IsIrreducible (res K Γ)) :
    ∃ D ∈ L, ∃ X : Matrix (Fin k) (Fin D.1) ℂ, X ≠ 0 ∧ ∀ s ∈ H, Γ s * X = X * pb e D.2 s := by
  classical
  have : Fintype H := Fintype.ofFinite H
  have hne := hΓi.1
  have htop : (⊤ : Submodule ℂ (Fin k → ℂ)) ≠ ⊥ := top_ne_bot
  obtain ⟨d, J, Γ', hJ, hirr, hinj, _⟩ := exists_irred_sub (D := res H Γ) ⊤ (by simp) htop
  have hΓH : IsProjRep (· * ·) (resμ H (pb2 e μ)) (res H Γ) := fun a b => hΓ a (C.le a.2) b (C.le b.2)
  have hrep' := sub_projRep hΓH hJ hinj
  have hone' : Γ' 1 = 1 := by
    have hu := sub_one (D := res H Γ) (c := 1) one_ne_zero (by rw [one_smul]; exact h1) hJ hinj
    have := projRep_one hrep' hu
    rw [this]
    have h2 : resμ H (pb2 e μ) 1 1 = 1 := hμ.one
    rw [h2, one_smul]
  let E : G → Matrix (Fin d) (Fin d) ℂ := fun g => if h : g ∈ H then Γ' ⟨g, h⟩ else 0
  have hE : res H E = Γ' := by
    funext a
    simp [res, E]
  have hE1 : E 1 = 1 := by
    have := congrFun hE 1
    rw [hone'] at this
    exact this
  obtain ⟨D, hD, S, S', h3, h4, h5⟩ := hL.complete d E (RepOn.of_res (by rw [hE]; exact hrep')) hE1
    (by rw [hE]; exact hirr)
  refine ⟨D, hD, J * S, ?_, fun s hs => ?_⟩
  · intro h0
    have hS0 : S = 0 := by
      apply mul_left_cancel_of_injective hinj
      rw [h0, Matrix.mul_zero]
    rw [hS0, Matrix.zero_mul] at h3
    obtain ⟨i⟩ := hirr.1
    have := congrFun (congrFun h3 i) i
    simp at this
  · have h6 := h5 ⟨s, hs⟩
    rw [hE] at h6
    have h7 := hJ ⟨s, hs⟩
    simp only [res] at h6 h7
    rw [← Matrix.mul_assoc, h7, Matrix.mul_assoc, h6, Matrix.mul_assoc]

include hT

/-- One step of the chain keeps the invariant. -/
theorem chainStep_ok (hμ : Cocy (pb2 e μ)) (C : ChainExt H K r p) (random : ∀ d, ℕ → Matrix (Fin d) (Fin d) ℂ)
    {atol : ℝ} (ha : 0 ≤ atol) (maxGen : ℕ) (st : ChainState n) (hnd : st.grp.Nodup)
    (hmem : ∀ g, e.symm g ∈ st.grp ↔ g ∈ H) (hst : st.warned = false → IrrepsOn e μ H st.irreps) :
    ∃ st', chainStep random T μ (e.symm 1) atol maxGen st (e.symm r) = .ok st' ∧ st'.grp.Nodup ∧
      (∃ Q, st'.grp = (List.finRange n).filter Q) ∧
      (∀ g, e.symm g ∈ st'.grp ↔ g ∈ K) ∧ (st'.warned = false → IrrepsOn e μ K st'.irreps) ∧
      (RichDraws n random atol maxGen → st.warned = false → st'.warned = false) := by
  classical
  have hp := C.hp
  have hord : orderOf r = p := by
    rw [orderOf_eq_iff (by omega)]
    refine ⟨C.hone, fun m hm hm0 h => C.hout m hm0 hm ?_⟩
    rw [h]; exact H.one_mem
  have ho : getOrder T (e.symm r) = .ok p := by rw [getOrder_eq e hT, e.apply_symm_apply, hord]
  have hi : getInverseIndex T (e.symm r) = .ok (e.symm r⁻¹) := by rw [getInverseIndex_eq e hT, e.apply_symm_apply]
  have hconj : ∀ j < p, ∀ s ∈ st.grp, conjElt T (e.symm 1) (e.symm r) (e.symm r⁻¹) j s ∈ st.grp := by
    intro j _ s hs
    obtain ⟨s, rfl⟩ := e.symm.surjective s
    rw [conjElt_eq e hT, hmem]
    exact C.norm_pow j ((hmem s).1 hs)
  have hp1 : p ≠ 1 := by omega
  refine ⟨{ grp := extendGroup T (e.symm 1) (e.symm r) p st.grp,
            irreps := dedupe (extendGroup T (e.symm 1) (e.symm r) p st.grp)
              ((st.irreps.map (chainInner random T μ (e.symm 1) (e.symm r) (e.symm r⁻¹) p st.grp atol
                maxGen)).flatMap Prod.fst),
            warned := st.warned || (st.irreps.map (chainInner random T μ (e.symm 1) (e.symm r) (e.symm r⁻¹) p
              st.grp atol maxGen)).any Prod.snd }, ?_, ?_, ?_, ?_, ?_, ?_⟩
  · unfold chainStep
    simp only [ho, hi, bind, Except.bind]
    rw [if_neg (not_not.2 hconj), if_neg hp1]
    rfl
  · exact nodup_extendGroup _ _ _
  · exact ⟨_, rfl⟩
  · exact mem_extendGroup e hT C hmem
  · intro hw
    dsimp only at hw ⊢
    rw [Bool.or_eq_false_iff] at hw
    have hL := hst hw.1
    have hin : ∀ D ∈ st.irreps, InnerOK e μ H K D
        (chainInner random T μ (e.symm 1) (e.symm r) (e.symm r⁻¹) p st.grp atol maxGen D).1 := by
      intro D hD
      refine chainInner_ok e hT hμ C hnd hmem random ha maxGen D (hL.good D hD) ?_
      by_contra hne
      rw [Bool.not_eq_false] at hne
      have := hw.2
      rw [List.any_eq_false] at this
      exact this _ (List.mem_map_of_mem hD) hne
    have hgoodall : ∀ E ∈ (st.irreps.map (chainInner random T μ (e.symm 1) (e.symm r) (e.symm r⁻¹) p st.grp atol
        maxGen)).flatMap Prod.fst, GoodOn K (pb2 e μ) (pb e E.2) := by
      intro E hE
      obtain ⟨x, hx, hEx⟩ := List.mem_flatMap.1 hE
      obtain ⟨D, hD, rfl⟩ := List.mem_map.1 hx
      exact (hin D hD).good E hEx
    obtain ⟨h1, h2, h3⟩ := dedupe_spec e hμ (nodup_extendGroup (p := p) (T := T) (e.symm 1) (e.symm r) st.grp)
      (mem_extendGroup e hT C hmem) hgoodall
    refine ⟨h1, h2, fun k Γ hΓ hΓ1 hΓi => ?_⟩
    obtain ⟨D, hD, X, hX0, hX⟩ := exists_constituent e hμ C hL hΓ hΓ1 hΓi
    obtain ⟨E, hE, hEq⟩ := (hin D hD).complete k Γ X hΓ hΓ1 hΓi hX0 hX
    obtain ⟨F, hF, hEF⟩ := h3 E (List.mem_flatMap.2 ⟨_, List.mem_map_of_mem hD, hE⟩)
    exact ⟨F, hF, AreEquivalent.trans hEq hEF⟩
  · intro hr hw
    dsimp only
    rw [Bool.or_eq_false_iff]
    refine ⟨hw, List.any_eq_false.2 ?_⟩
    intro x hx
    obtain ⟨D, hD, rfl⟩ := List.mem_map.1 hx
    rw [chainInner_rich e hT hμ C hnd hmem random ha maxGen hr D ((hst hw).good D hD)]
    simp

omit hT in
/-- The subgroup reached by one more generator. -/
theorem exists_chainExt {H : Subgroup G} {r : G} {p : ℕ} (hp : 2 ≤ p) (hone : r ^ p = 1)
    (hout : ∀ m, 0 < m → m < p → r ^ m ∉ H) (hnorm : ∀ h ∈ H, r⁻¹ * h * r ∈ H) (hprime : H = ⊥ ∨ p.Prime) :
    ∃ K : Subgroup G, ChainExt H K r p := by
  have hmod : ∀ m, r ^ (m % p) = r ^ m := by
    intro m
    conv_rhs => rw [← Nat.mod_add_div m p, pow_add, pow_mul, hone, one_pow, mul_one]
  have hn : ∀ (m : ℕ) {h : G}, h ∈ H → (r ^ m)⁻¹ * h * r ^ m ∈ H := by
    intro m
    induction m with
    | zero => intro h hh; simpa using hh
    | succ m ih =>
      intro h hh
      have := hnorm _ (ih hh)
      rwa [show r⁻¹ * ((r ^ m)⁻¹ * h * r ^ m) * r = (r ^ (m + 1))⁻¹ * h * r ^ (m + 1) by
        rw [pow_succ]; group] at this
  have hlt : ∀ m, m % p < p := fun m => Nat.mod_lt _ (by omega)
  let K : Subgroup G :=
    { carrier := {g | ∃ m < p, ∃ h ∈ H, g = r ^ m * h}
      one_mem' := ⟨0, by omega, 1, H.one_mem, by simp⟩
      mul_mem' := by
        rintro _ _ ⟨m, _, h, hh, rfl⟩ ⟨m', _, h', hh', rfl⟩
        refine ⟨(m + m') % p, hlt _, (r ^ m')⁻¹ * h * r ^ m' * h', H.mul_mem (hn m' hh) hh', ?_⟩
        rw [hmod, pow_add]; group
      inv_mem' := by
        rintro _ ⟨m, hm, h, hh, rfl⟩
        have e1 : (r ^ m)⁻¹ = r ^ (p - m) := by
          apply inv_eq_of_mul_eq_one_right
          rw [← pow_add, Nat.add_sub_cancel' hm.le, hone]
        refine ⟨(p - m) % p, hlt _, (r ^ (p - m))⁻¹ * h⁻¹ * r ^ (p - m), hn _ (H.inv_mem hh), ?_⟩
        rw [hmod, _root_.mul_inv_rev, e1]; group }
  exact ⟨K, hp, hone, hout, hnorm, fun g => Iff.rfl, hprime⟩

/-- The initial state. -/
noncomputable def chainInit (e1 : Fin n) : ChainState n :=
  { grp := [e1], irreps := [⟨1, fun g => if g = e1 then 1 else 0⟩], warned := false }

omit hT in
theorem irrepsOn_bot (hμ : Cocy (pb2 e μ)) : IrrepsOn e μ ⊥ (chainInit (e.symm 1)).irreps := by
  have hval : pb e (fun g => if g = e.symm 1 then (1 : Matrix (Fin 1) (Fin 1) ℂ) else 0) 1 = 1 := by simp [pb]
  have hirr : IsIrreducible (res ⊥ (pb e fun g => if g = e.symm 1 then (1 : Matrix (Fin 1) (Fin 1) ℂ) else 0)) := by
    refine ⟨⟨0⟩, fun W _ => ?_⟩
    by_cases hW : W = ⊥
    · exact Or.inl hW
    · right
      obtain ⟨v, hv, hv0⟩ := Submodule.exists_mem_ne_zero_of_ne_bot hW
      have hv00 : v 0 ≠ 0 := fun h => hv0 (by funext i; rw [Subsingleton.elim i 0, h]; rfl)
      rw [Submodule.eq_top_iff']
      intro w
      have : w = (w 0 / v 0) • v := by
        funext i
        rw [Subsingleton.elim i 0, Pi.smul_apply, smul_eq_mul, div_mul_cancel₀ _ hv00]
      rw [this]
      exact W.smul_mem _ hv
  constructor
  · intro D hD
    rw [chainInit, List.mem_singleton] at hD
    subst hD
    refine ⟨?_, ?_, hirr⟩
    · intro g hg h hh
      rw [Subgroup.mem_bot.1 hg, Subgroup.mem_bot.1 hh, mul_one, hval, hμ.one]; simp
    · intro g hg
      rw [Subgroup.mem_bot.1 hg, hval]; simp
  · exact List.pairwise_singleton _ _
  · intro k Γ hΓ h1 hΓi
    refine ⟨_, List.mem_singleton.2 rfl, ?_⟩
    obtain ⟨i0⟩ := hΓi.1
    -- the irrep of the trivial group: the identity matrix
    let X : Matrix (Fin k) (Fin 1) ℂ := Matrix.of fun i _ => if i = i0 then 1 else 0
    have hX : ∀ g : (⊥ : Subgroup G), res ⊥ Γ g * X = X * res ⊥ (pb e fun g => if g = e.symm 1 then
        (1 : Matrix (Fin 1) (Fin 1) ℂ) else 0) g := by
      rintro ⟨g, hg⟩
      have := Subgroup.mem_bot.1 hg
      subst this
      simp only [res]
      rw [h1, hval, Matrix.one_mul, Matrix.mul_one]
    have hX0 : X ≠ 0 := by
      intro h
      have := congrFun (congrFun h i0) 0
      simp [X] at this
    obtain ⟨S', h3, h4⟩ := schur_equiv hΓi hirr hX hX0
    exact ⟨X, S', h3, h4, hX⟩

/-- The whole loop. -/
theorem chainLoop_ok (hμ : Cocy (pb2 e μ)) (random : ∀ d, ℕ → Matrix (Fin d) (Fin d) ℂ) {atol : ℝ} (ha : 0 ≤ atol)
    (maxGen : ℕ) {gens : List (Fin n)} {S : Set (Fin n)} (hc : IsSolvableChain T (e.symm 1) gens S) :
    ∃ H : Subgroup G, (∀ g, g ∈ H ↔ e.symm g ∈ S) ∧
      ∃ st, gens.reverse.foldlM (chainStep random T μ (e.symm 1) atol maxGen) (chainInit (e.symm 1)) = .ok st ∧
        st.grp.Nodup ∧ (∃ Q, st.grp = (List.finRange n).filter Q) ∧ (∀ g, e.symm g ∈ st.grp ↔ g ∈ H) ∧
        (st.warned = false → IrrepsOn e μ H st.irreps) ∧ (RichDraws n random atol maxGen → st.warned = false) := by
  classical
  generalize hone : e.symm 1 = e1 at hc
  induction hc with
  | nil =>
    subst hone
    refine ⟨⊥, fun g => ?_, chainInit (e.symm 1), rfl, List.nodup_singleton _, ⟨fun g => decide (g = e.symm 1), ?_⟩,
      fun g => ?_, fun _ => irrepsOn_bot e hμ, fun _ => rfl⟩
    · rw [Subgroup.mem_bot, Set.mem_singleton_iff, e.symm.injective.eq_iff]
    · have : (List.finRange n).filter (fun g => decide (g = e.symm 1)) = [e.symm 1] := by
        have h := (List.nodup_finRange n).filter (fun g => decide (g = e.symm 1))
        exact List.perm_singleton.1 ((List.perm_ext_iff_of_nodup h (List.nodup_singleton _)).2 fun g => by simp)
      rw [this]; rfl
    · rw [chainInit, List.mem_singleton, Subgroup.mem_bot, e.symm.injective.eq_iff]
  | @cons gens S r p hH hp h1 hout hnorm hprime ih =>
    subst hone
    obtain ⟨H, hHS, st, hst, hnd, _, hmem, hinv, hrich⟩ := ih
    obtain ⟨r, rfl⟩ := e.symm.surjective r
    rw [power_eq e hT, e.symm.injective.eq_iff] at h1
    have hout' : ∀ m, 0 < m → m < p → r ^ m ∉ H := by
      intro m hm0 hm h
      apply hout m hm0 hm
      rw [power_eq e hT]
      exact (hHS _).1 h
    have hnorm' : ∀ h ∈ H, r⁻¹ * h * r ∈ H := by
      intro h hh
      obtain ⟨h', hh', heq⟩ := hnorm _ ((hHS h).1 hh)
      obtain ⟨h', rfl⟩ := e.symm.surjective h'
      rw [tg_mul e hT, tg_mul e hT, e.symm.injective.eq_iff] at heq
      rw [mul_assoc, heq, inv_mul_cancel_left]
      exact (hHS h').2 hh'
    have hprime' : H = ⊥ ∨ p.Prime := by
      rcases hprime with h | h
      · left
        rw [Subgroup.eq_bot_iff_forall]
        intro x hx
        have := (hHS x).1 hx
        rw [h, Set.mem_singleton_iff, e.symm.injective.eq_iff] at this
        exact this
      · exact Or.inr h
    obtain ⟨K, C⟩ := exists_chainExt hp h1 hout' hnorm' hprime'
    obtain ⟨st', hst', hnd', hQ', hmem', hinv', hrich'⟩ := chainStep_ok e hT hμ C random ha maxGen st hnd hmem hinv
    refine ⟨K, fun g => ?_, st', ?_, hnd', hQ', hmem', hinv', fun h => hrich' h (hrich h)⟩
    · rw [C.mem]
      constructor
      · rintro ⟨m, hm, h, hh, rfl⟩
        exact ⟨m, hm, e.symm h, (hHS h).1 hh, by rw [power_eq e hT, tg_mul e hT]⟩
      · rintro ⟨m, hm, h, hh, heq⟩
        obtain ⟨h, rfl⟩ := e.symm.surjective h
        rw [power_eq e hT, tg_mul e hT, e.symm.injective.eq_iff] at heq
        exact ⟨m, hm, h, (hHS h).2 hh, heq⟩
    · rw [List.reverse_cons, List.foldlM_append, hst]
      simp only [bind, Except.bind, List.foldlM_cons, List.foldlM_nil, hst']
      rfl

end Spgrep
