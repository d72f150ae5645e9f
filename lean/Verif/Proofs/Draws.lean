/-
Which draws make the chain enumeration succeed: finitely many linear conditions, independent of the draws.
-/
import Verif.Props.Chain
import Mathlib.Data.Set.Finite.Lattice
import Mathlib.Algebra.Polynomial.Roots

set_option linter.unusedSectionVars false

namespace Spgrep

open Spec Matrix

/-- The value of a linear form on a matrix. -/
noncomputable def formVal {d : ℕ} (v X : Matrix (Fin d) (Fin d) ℂ) : ℂ := ∑ i, ∑ j, v i j * X i j

/-- Every form is above the tolerance for one of the draws. -/
def DrawsAvoid (V : Set (Σ d, Matrix (Fin d) (Fin d) ℂ)) (random : ∀ d, ℕ → Matrix (Fin d) (Fin d) ℂ) (atol : ℝ)
    (maxGen : ℕ) : Prop := ∀ v ∈ V, ∃ t < maxGen, atol < ‖formVal v.2 (random v.1 t)‖

section
variable {n : ℕ} {G : Type} [Group G] [Fintype G] [DecidableEq G] (e : Fin n ≃ G) {T : Fin n → Fin n → Fin n}
variable (hT : ∀ i j, e (T i j) = e i * e j)
variable {μ : Fin n → Fin n → ℂ} {H K : Subgroup G} {r : G} {p : ℕ}

theorem good_dim_le (hμ : Cocy (pb2 e μ)) {d : ℕ} {D : RepArr n d} (hD : GoodOn H (pb2 e μ) (pb e D)) : d ^ 2 ≤ n := by
  classical
  have : Fintype H := Fintype.ofFinite H
  have hF : IrrepFamily (A := Unit) (d := fun _ => d) (resμ H (pb2 e μ)) (fun _ => res H (pb e D)) :=
    ⟨fun _ => hD.rep.toRes, fun _ => IsUnitaryRep.isUnit hD.uniRes, fun _ => hD.irr, fun _ _ _ => rfl⟩
  have h1 := sum_sq_le_card (μ := resμ H (pb2 e μ)) (fun a b => hμ.ne a b) hF
  simp only [Finset.univ_unique, Finset.sum_singleton] at h1
  have h2 : Fintype.card H ≤ Fintype.card G := Fintype.card_le_of_injective _ Subtype.val_injective
  have h3 : Fintype.card G = n := by rw [← Fintype.card_congr e, Fintype.card_fin]
  omega

/-- One linear form decides whether a draw is good for a pair of equivalent irreps. -/
theorem subIntertwiner_form (hμ : Cocy (pb2 e μ)) {S : List (Fin n)} (hnd : S.Nodup)
    (hmem : ∀ g, e.symm g ∈ S ↔ g ∈ H) {d : ℕ} {D E : RepArr n d} (hD : GoodOn H (pb2 e μ) (pb e D))
    (hE : GoodOn H (pb2 e μ) (pb e E)) (heq : AreEquivalent (res H (pb e D)) (res H (pb e E))) :
    ∃ v : Matrix (Fin d) (Fin d) ℂ, v ≠ 0 ∧ ∀ (random : ℕ → Matrix (Fin d) (Fin d) ℂ) (atol : ℝ), 0 ≤ atol →
      ∀ maxGen, (∃ t < maxGen, atol < ‖formVal v (random t)‖) → (subIntertwiner random S D E atol maxGen).2 = false := by
  classical
  have : Fintype H := Fintype.ofFinite H
  obtain ⟨X, X', h1, h2, h3⟩ := heq
  have hne := hD.irr.1
  have hX0 : X ≠ 0 := by
    intro hX0
    rw [hX0, Matrix.zero_mul] at h1
    have := congrFun (congrFun h1 hne.some) hne.some
    simp at this
  have havgX : avg (res H (pb e D)) (res H (pb e E)) X = (Fintype.card H : ℂ) • X := by
    unfold avg
    have : ∀ g : H, res H (pb e D) g * X * (res H (pb e E) g)⁻¹ = X := by
      intro g
      rw [h3 g, Matrix.mul_assoc, Matrix.mul_nonsing_inv _
        ((Matrix.isUnit_iff_isUnit_det _).1 (IsUnitaryRep.isUnit hE.uniRes g)), Matrix.mul_one]
    rw [Finset.sum_congr rfl fun g _ => this g, Finset.sum_const, Finset.card_univ, ← Nat.cast_smul_eq_nsmul ℂ]
  obtain ⟨a, b, hab⟩ : ∃ a b, X a b ≠ 0 := by
    by_contra hno
    push Not at hno
    exact hX0 (by ext a b; exact hno a b)
  let v : Matrix (Fin d) (Fin d) ℂ := Matrix.of fun i j =>
    avg (res H (pb e D)) (res H (pb e E)) (Matrix.single i j (1 : ℂ)) a b
  have hv : ∀ B, avg (res H (pb e D)) (res H (pb e E)) B a b = formVal v B := by
    intro B
    have hlin : avg (res H (pb e D)) (res H (pb e E)) B = ∑ i, ∑ j, B i j •
        avg (res H (pb e D)) (res H (pb e E)) (Matrix.single i j (1 : ℂ)) := by
      conv_lhs => rw [Matrix.matrix_eq_sum_single B]
      have : ∀ i j, Matrix.single i j (B i j) = B i j • Matrix.single i j (1 : ℂ) := fun i j => by
        rw [Matrix.smul_single, smul_eq_mul, mul_one]
      simp only [this]
      unfold avg
      simp only [Finset.mul_sum, Finset.sum_mul, Finset.smul_sum]
      rw [Finset.sum_comm]
      refine Finset.sum_congr rfl fun i _ => ?_
      rw [Finset.sum_comm]
      refine Finset.sum_congr rfl fun j _ => Finset.sum_congr rfl fun g _ => ?_
      simp only [Matrix.mul_smul, Matrix.smul_mul]
    rw [hlin]
    simp only [Matrix.sum_apply, Matrix.smul_apply, smul_eq_mul, formVal, v, Matrix.of_apply, mul_comm]
  refine ⟨v, ?_, ?_⟩
  · intro h0
    have h4 := hv X
    rw [h0, havgX] at h4
    simp only [Matrix.smul_apply, smul_eq_mul, formVal, Matrix.zero_apply, zero_mul, Finset.sum_const_zero] at h4
    rcases mul_eq_zero.1 h4 with h5 | h5
    · exact Fintype.card_ne_zero (by exact_mod_cast h5)
    · exact hab h5
  · rintro random atol ha maxGen ⟨t, ht, hlt⟩
    by_contra hw
    rw [Bool.not_eq_false] at hw
    have h5 := ((intertwinerLoop_cases _ _ ha _).2 hw).2 _ (List.mem_map.2 ⟨t, List.mem_range.2 ht, rfl⟩) a b
    rw [sub_sum_eq_avg e hnd hmem hE, hv] at h5
    linarith

include hT

/-- The loop body for one irrep: one linear form decides about the warning, and finitely many results are possible. -/
theorem chainInner_forms (hμ : Cocy (pb2 e μ)) (C : ChainExt H K r p) {S : List (Fin n)} (hnd : S.Nodup)
    (hmem : ∀ g, e.symm g ∈ S ↔ g ∈ H) (D : AnyRep n) (hD : GoodOn H (pb2 e μ) (pb e D.2)) :
    (∃ v : Matrix (Fin D.1) (Fin D.1) ℂ, v ≠ 0 ∧ ∀ (random : ∀ d, ℕ → Matrix (Fin d) (Fin d) ℂ) (atol : ℝ), 0 ≤ atol →
      ∀ maxGen, (∃ t < maxGen, atol < ‖formVal v (random D.1 t)‖) →
        (chainInner random T μ (e.symm 1) (e.symm r) (e.symm r⁻¹) p S atol maxGen D).2 = false) ∧
    Set.Finite {out | ∃ (random : ∀ d, ℕ → Matrix (Fin d) (Fin d) ℂ) (atol : ℝ) (maxGen : ℕ), 0 ≤ atol ∧
      chainInner random T μ (e.symm 1) (e.symm r) (e.symm r⁻¹) p S atol maxGen D = (out, false)} := by
  classical
  obtain ⟨d, D⟩ := D
  have hp0 : 0 < p := by have := C.hp; omega
  have hne := hD.irr.1
  have hd : 0 < d := by
    obtain ⟨i⟩ := hD.irr.1
    exact Nat.lt_of_le_of_lt (Nat.zero_le _) i.2
  have e0 : pb e (conjSub T μ (e.symm 1) (e.symm r) (e.symm r⁻¹) D 0) = pb e D := by
    rw [conjSub_eq e hT, pow_zero, cj_one hμ]
  have e1 : pb e (conjSub T μ (e.symm 1) (e.symm r) (e.symm r⁻¹) D 1) = cj (pb2 e μ) (pb e D) r := by
    rw [conjSub_eq e hT, pow_one]
  have g1 : GoodOn H (pb2 e μ) (cj (pb2 e μ) (pb e D) r) :=
    cj_good hμ hD (fun h hh => C.norm h hh) (fun h hh => by simpa using C.norm_pow' 1 hh)
  have g0' : GoodOn H (pb2 e μ) (pb e (conjSub T μ (e.symm 1) (e.symm r) (e.symm r⁻¹) D 0)) := by rw [e0]; exact hD
  have g1' : GoodOn H (pb2 e μ) (pb e (conjSub T μ (e.symm 1) (e.symm r) (e.symm r⁻¹) D 1)) := by rw [e1]; exact g1
  have hiff := isEquiv_pb e hμ hnd hmem g0' g1'
  by_cases hself : AreEquivalent (res H (pb e (conjSub T μ (e.symm 1) (e.symm r) (e.symm r⁻¹) D 0)))
      (res H (pb e (conjSub T μ (e.symm 1) (e.symm r) (e.symm r⁻¹) D 1)))
  · have hin : ∀ random atol maxGen, chainInner random T μ (e.symm 1) (e.symm r) (e.symm r⁻¹) p S atol maxGen ⟨d, D⟩ =
        ((List.range p).map fun q => ⟨d, nextSelf T μ (e.symm 1) (e.symm r) p S D (scaleIntertwiner
          (subIntertwiner (random d) S (conjSub T μ (e.symm 1) (e.symm r) (e.symm r⁻¹) D 0)
            (conjSub T μ (e.symm 1) (e.symm r) (e.symm r⁻¹) D 1) atol maxGen).1 p) q⟩,
          (subIntertwiner (random d) S (conjSub T μ (e.symm 1) (e.symm r) (e.symm r⁻¹) D 0)
            (conjSub T μ (e.symm 1) (e.symm r) (e.symm r⁻¹) D 1) atol maxGen).2) := by
      intro random atol maxGen
      unfold chainInner
      dsimp only
      rw [if_pos (hiff.2 hself)]
    obtain ⟨v, hv0, hv⟩ := subIntertwiner_form e hμ hnd hmem g0' g1' hself
    refine ⟨⟨v, hv0, fun random atol ha maxGen h => ?_⟩, ?_⟩
    · rw [hin]
      exact hv (random d) atol ha maxGen h
    · rw [e0, e1] at hself
      obtain ⟨U0, U0', h1, h2, h3⟩ := hself
      have hU0 : ∀ s ∈ H, pb e D s * U0 = U0 * cj (pb2 e μ) (pb e D) r s := fun s hs => h3 ⟨s, hs⟩
      obtain ⟨c0, hc0⟩ := intertwiner_pow hμ C hD hU0
      have hc00 : c0 ≠ 0 := by
        intro h0
        rw [h0, zero_smul] at hc0
        have h4 : (U0 * U0') = 1 := h1
        have h5 := congrArg Matrix.det hc0
        have : Nonempty (Fin d) := hne
        rw [Matrix.det_pow, Matrix.det_zero] at h5
        have h6 := congrArg Matrix.det h1
        rw [Matrix.det_mul, Matrix.det_one, pow_eq_zero_iff hp0.ne' |>.1 h5, zero_mul] at h6
        exact zero_ne_one h6
      have hfin : Set.Finite {lam : ℂ | lam ^ p = c0⁻¹} := by
        have h4 : (Polynomial.X ^ p - Polynomial.C c0⁻¹ : Polynomial ℂ) ≠ 0 :=
          Polynomial.X_pow_sub_C_ne_zero hp0 _
        refine (Polynomial.finite_setOf_isRoot h4).subset fun lam hl => ?_
        simp only [Set.mem_setOf_eq] at hl ⊢
        simp [Polynomial.IsRoot, hl]
      refine (hfin.image fun lam => (List.range p).map fun q =>
        (⟨d, nextSelf T μ (e.symm 1) (e.symm r) p S D (lam • U0) q⟩ : AnyRep n)).subset ?_
      rintro out ⟨random, atol, maxGen, ha, hout⟩
      rw [hin] at hout
      obtain ⟨ho1, ho2⟩ := Prod.mk.inj hout
      obtain ⟨hUn, hU⟩ := subIntertwiner_spec e hμ hnd hmem g0' g1' (random d) ha maxGen ho2
      rw [e0, e1] at hU
      rw [← ho1]
      generalize (subIntertwiner (random d) S (conjSub T μ (e.symm 1) (e.symm r) (e.symm r⁻¹) D 0)
        (conjSub T μ (e.symm 1) (e.symm r) (e.symm r⁻¹) D 1) atol maxGen).1 = U at hUn hU
      obtain ⟨lam, hlam⟩ := schur_scalar hD.irr (M := U * U0') (by
        intro a
        have h4 : U0' * pb e D a = cj (pb2 e μ) (pb e D) r a * U0' := by
          calc U0' * pb e D a = U0' * (pb e D a * U0) * U0' := by
                rw [Matrix.mul_assoc, Matrix.mul_assoc, h1, Matrix.mul_one]
            _ = U0' * U0 * (cj (pb2 e μ) (pb e D) r a * U0') := by
                rw [hU0 a a.2]; simp only [Matrix.mul_assoc]
            _ = _ := by rw [h2, Matrix.one_mul]
        show pb e D a * (U * U0') = U * U0' * pb e D a
        rw [Matrix.mul_assoc, h4, ← Matrix.mul_assoc, hU a a.2, Matrix.mul_assoc])
      have hUl : U = lam • U0 := by
        calc U = U * U0' * U0 := by rw [Matrix.mul_assoc, h2, Matrix.mul_one]
          _ = lam • U0 := by rw [hlam, Matrix.smul_mul, Matrix.one_mul]
      have hl0 : lam ≠ 0 := by
        rintro rfl
        exact hUn (by rw [hUl, zero_smul])
      have hUp : U ^ p = (lam ^ p * c0) • 1 := by rw [hUl, smul_pow, hc0, smul_smul]
      rw [scaleIntertwiner_eq hd U C.hp hUp]
      set z := (lam ^ p * c0) ^ ((1 : ℂ) / p) with hz
      have hzp : z ^ p = lam ^ p * c0 := by rw [hz, one_div, Complex.cpow_nat_inv_pow _ hp0.ne']
      refine ⟨z⁻¹ * lam, ?_, ?_⟩
      · show (z⁻¹ * lam) ^ p = c0⁻¹
        rw [mul_pow, inv_pow, hzp]
        have : lam ^ p ≠ 0 := pow_ne_zero _ hl0
        field_simp
      · beta_reduce
        rw [hUl, smul_smul]
  · have hin : ∀ random atol maxGen, chainInner random T μ (e.symm 1) (e.symm r) (e.symm r⁻¹) p S atol maxGen ⟨d, D⟩ =
        ([⟨p * d, nextInduced T μ (e.symm 1) (e.symm r) (e.symm r⁻¹) p S D⟩], false) := by
      intro random atol maxGen
      unfold chainInner
      dsimp only
      rw [if_neg fun h => hself (hiff.1 h)]
    refine ⟨⟨1, ?_, fun random atol _ maxGen _ => by rw [hin]⟩, ?_⟩
    · intro h0
      have := congrFun (congrFun h0 hne.some) hne.some
      simp at this
    · refine (Set.finite_singleton [(⟨p * d, nextInduced T μ (e.symm 1) (e.symm r) (e.symm r⁻¹) p S D⟩ : AnyRep n)]).subset ?_
      rintro out ⟨random, atol, maxGen, _, hout⟩
      rw [hin] at hout
      exact (Prod.mk.inj hout).1.symm

end

/-- Finitely many lists can be formed from finitely many choices at each place. -/
theorem finite_forall₂ {α β : Type} (R : α → β → Prop) :
    ∀ L : List α, (∀ a ∈ L, Set.Finite {b | R a b}) → Set.Finite {M : List β | List.Forall₂ R L M}
  | [], _ => (Set.finite_singleton []).subset fun M hM => by
      have h : List.Forall₂ R [] M := hM
      cases h
      rfl
  | a :: L, h => by
    have h1 := h a List.mem_cons_self
    have h2 := finite_forall₂ R L fun b hb => h b (List.mem_cons_of_mem _ hb)
    refine (Set.Finite.image2 (fun b M => b :: M) h1 h2).subset ?_
    intro M hM
    have hM' : List.Forall₂ R (a :: L) M := hM
    cases hM' with
    | cons h3 h4 => exact ⟨_, h3, _, h4, rfl⟩

section
variable {n : ℕ} {G : Type} [Group G] [Fintype G] [DecidableEq G] (e : Fin n ≃ G) {T : Fin n → Fin n → Fin n}
variable (hT : ∀ i j, e (T i j) = e i * e j)
variable {μ : Fin n → Fin n → ℂ}

include hT

/-- The whole loop: finitely many linear forms decide about the warning. -/
theorem chainLoop_forms (hμ : Cocy (pb2 e μ)) {gens : List (Fin n)} {S : Set (Fin n)}
    (hc : IsSolvableChain T (e.symm 1) gens S) :
    ∃ (H : Subgroup G) (V : Set (Σ d, Matrix (Fin d) (Fin d) ℂ)) (P : Set (List (AnyRep n))) (grp : List (Fin n)),
      (∀ g, g ∈ H ↔ e.symm g ∈ S) ∧ V.Finite ∧ (∀ v ∈ V, v.2 ≠ 0 ∧ v.1 ^ 2 ≤ n) ∧ P.Finite ∧
      grp.Nodup ∧ (∀ g, e.symm g ∈ grp ↔ g ∈ H) ∧ (∀ L ∈ P, IrrepsOn e μ H L) ∧
      ∀ (random : ∀ d, ℕ → Matrix (Fin d) (Fin d) ℂ) (atol : ℝ) (maxGen : ℕ), 0 ≤ atol →
        ∃ st, gens.reverse.foldlM (chainStep random T μ (e.symm 1) atol maxGen) (chainInit (e.symm 1)) = .ok st ∧
          st.grp = grp ∧ (st.warned = false → st.irreps ∈ P) ∧
          (DrawsAvoid V random atol maxGen → st.warned = false) := by
  classical
  generalize hone : e.symm 1 = e1 at hc
  induction hc with
  | nil =>
    subst hone
    refine ⟨⊥, ∅, {(chainInit (e.symm 1)).irreps}, [e.symm 1], fun g => ?_, Set.finite_empty, by simp,
      Set.finite_singleton _, List.nodup_singleton _, fun g => ?_, ?_, fun random atol maxGen _ =>
        ⟨chainInit (e.symm 1), rfl, rfl, fun _ => rfl, fun _ => rfl⟩⟩
    · rw [Subgroup.mem_bot, Set.mem_singleton_iff, e.symm.injective.eq_iff]
    · rw [List.mem_singleton, Subgroup.mem_bot, e.symm.injective.eq_iff]
    · intro L hL
      rw [Set.mem_singleton_iff.1 hL]
      exact irrepsOn_bot e hμ
  | @cons gens S r p hH hp h1 hout hnorm hprime ih =>
    subst hone
    obtain ⟨H, V, P, grp, hHS, hVf, hV0, hPf, hnd, hmem, hP, hrun⟩ := ih
    obtain ⟨r, rfl⟩ := e.symm.surjective r
    rw [power_eq e hT, e.symm.injective.eq_iff] at h1
    have hout' : ∀ m, 0 < m → m < p → r ^ m ∉ H := by
      intro m hm0 hm h
      apply hout m hm0 hm
      rw [power_eq e hT]
      exact (hHS _).1 h
    have hnorm' : ∀ h ∈ H, r⁻¹ * h * r ∈ H := by
      intro h hh
      obtain ⟨h', hh', heq⟩ := hnorm _ ((hHS h).1 hh)
      obtain ⟨h', rfl⟩ := e.symm.surjective h'
      rw [tg_mul e hT, tg_mul e hT, e.symm.injective.eq_iff] at heq
      rw [mul_assoc, heq, inv_mul_cancel_left]
      exact (hHS h').2 hh'
    have hprime' : H = ⊥ ∨ p.Prime := by
      rcases hprime with h | h
      · left
        rw [Subgroup.eq_bot_iff_forall]
        intro x hx
        have := (hHS x).1 hx
        rw [h, Set.mem_singleton_iff, e.symm.injective.eq_iff] at this
        exact this
      · exact Or.inr h
    obtain ⟨K, C⟩ := exists_chainExt hp h1 hout' hnorm' hprime'
    have hord : orderOf r = p := by
      rw [orderOf_eq_iff (by omega)]
      refine ⟨C.hone, fun m hm hm0 h => C.hout m hm0 hm ?_⟩
      rw [h]; exact H.one_mem
    have ho : getOrder T (e.symm r) = .ok p := by rw [getOrder_eq e hT, e.apply_symm_apply, hord]
    have hi : getInverseIndex T (e.symm r) = .ok (e.symm r⁻¹) := by rw [getInverseIndex_eq e hT, e.apply_symm_apply]
    have hconj : ∀ j < p, ∀ s ∈ grp, conjElt T (e.symm 1) (e.symm r) (e.symm r⁻¹) j s ∈ grp := by
      intro j _ s hs
      obtain ⟨s, rfl⟩ := e.symm.surjective s
      rw [conjElt_eq e hT, hmem]
      exact C.norm_pow j ((hmem s).1 hs)
    have hp1 : p ≠ 1 := by omega
    have hforms := fun (L : List (AnyRep n)) (hL : L ∈ P) (D : AnyRep n) (hD : D ∈ L) =>
      chainInner_forms e hT hμ C hnd hmem D ((hP L hL).good D hD)
    -- the possible outputs of the loop body
    let Out : AnyRep n → Set (List (AnyRep n)) := fun D => {out | ∃ (random : ∀ d, ℕ → Matrix (Fin d) (Fin d) ℂ) (atol : ℝ)
      (maxGen : ℕ), 0 ≤ atol ∧ chainInner random T μ (e.symm 1) (e.symm r) (e.symm r⁻¹) p grp atol maxGen D = (out, false)}
    let Form : AnyRep n → Set (Σ d, Matrix (Fin d) (Fin d) ℂ) := fun D =>
      if h : ∃ v : Matrix (Fin D.1) (Fin D.1) ℂ, v ≠ 0 ∧ ∀ (random : ∀ d, ℕ → Matrix (Fin d) (Fin d) ℂ) (atol : ℝ), 0 ≤ atol →
        ∀ maxGen, (∃ t < maxGen, atol < ‖formVal v (random D.1 t)‖) →
          (chainInner random T μ (e.symm 1) (e.symm r) (e.symm r⁻¹) p grp atol maxGen D).2 = false
      then {⟨D.1, h.choose⟩} else ∅
    have hFormf : ∀ D, (Form D).Finite := by
      intro D
      by_cases h : ∃ v : Matrix (Fin D.1) (Fin D.1) ℂ, v ≠ 0 ∧ ∀ (random : ∀ d, ℕ → Matrix (Fin d) (Fin d) ℂ) (atol : ℝ),
        0 ≤ atol → ∀ maxGen, (∃ t < maxGen, atol < ‖formVal v (random D.1 t)‖) →
          (chainInner random T μ (e.symm 1) (e.symm r) (e.symm r⁻¹) p grp atol maxGen D).2 = false
      · simp only [Form, dif_pos h]
        exact Set.finite_singleton _
      · simp only [Form, dif_neg h]
        exact Set.finite_empty
    let grp' := extendGroup T (e.symm 1) (e.symm r) p grp
    let P' : Set (List (AnyRep n)) := ⋃ L ∈ P, (fun M : List (List (AnyRep n)) => dedupe grp' M.flatten) ''
      {M | List.Forall₂ (fun D out => out ∈ Out D) L M}
    let V' : Set (Σ d, Matrix (Fin d) (Fin d) ℂ) := V ∪ ⋃ L ∈ P, ⋃ D ∈ {D | D ∈ L}, Form D
    have hgoodP : ∀ L ∈ P', IrrepsOn e μ K L := by
      intro L' hL'
      simp only [P', Set.mem_iUnion] at hL'
      obtain ⟨L, hL, M, hM, rfl⟩ := hL'
      have hLI := hP L hL
      have hM' : List.Forall₂ (fun D out => out ∈ Out D) L M := hM
      have hex : ∀ D ∈ L, ∃ out ∈ M, InnerOK e μ H K D out := by
        intro D hD
        obtain ⟨i, hi, rfl⟩ := List.getElem_of_mem hD
        have hi' : i < M.length := by rw [← hM'.length_eq]; exact hi
        obtain ⟨random, atol, maxGen, ha, ho⟩ : M[i] ∈ Out L[i] := (List.forall₂_iff_get.1 hM').2 i hi hi'
        refine ⟨M[i], List.getElem_mem _, ?_⟩
        have := chainInner_ok e hT hμ C hnd hmem random ha maxGen L[i] (hLI.good _ hD) (by rw [ho])
        rwa [ho] at this
      have hex' : ∀ out ∈ M, ∀ E ∈ out, GoodOn K (pb2 e μ) (pb e E.2) := by
        intro out hout E hE
        obtain ⟨i, hi, rfl⟩ := List.getElem_of_mem hout
        have hi' : i < L.length := by rw [hM'.length_eq]; exact hi
        obtain ⟨random, atol, maxGen, ha, ho⟩ : M[i] ∈ Out L[i] := (List.forall₂_iff_get.1 hM').2 i hi' hi
        have := chainInner_ok e hT hμ C hnd hmem random ha maxGen L[i] (hLI.good _ (List.getElem_mem _)) (by rw [ho])
        rw [ho] at this
        exact this.good E hE
      obtain ⟨q1, q2, q3⟩ := dedupe_spec e hμ (nodup_extendGroup (p := p) (T := T) (e.symm 1) (e.symm r) grp)
        (mem_extendGroup e hT C hmem) (L := M.flatten) (fun E hE => by
          obtain ⟨out, ho, hE'⟩ := List.mem_flatten.1 hE
          exact hex' out ho E hE')
      refine ⟨q1, q2, fun k Γ hΓ hΓ1 hΓi => ?_⟩
      obtain ⟨D, hD, X, hX0, hX⟩ := exists_constituent e hμ C hLI hΓ hΓ1 hΓi
      obtain ⟨out, ho, hok⟩ := hex D hD
      obtain ⟨E, hE, hEq⟩ := hok.complete k Γ X hΓ hΓ1 hΓi hX0 hX
      obtain ⟨F, hF, hEF⟩ := q3 E (List.mem_flatten.2 ⟨_, ho, hE⟩)
      exact ⟨F, hF, AreEquivalent.trans hEq hEF⟩
    refine ⟨K, V', P', grp', fun g => ?_, ?_, ?_, ?_, nodup_extendGroup _ _ _, mem_extendGroup e hT C hmem, hgoodP, ?_⟩
    · rw [C.mem]
      constructor
      · rintro ⟨m, hm, h, hh, rfl⟩
        exact ⟨m, hm, e.symm h, (hHS h).1 hh, by rw [power_eq e hT, tg_mul e hT]⟩
      · rintro ⟨m, hm, h, hh, heq⟩
        obtain ⟨h, rfl⟩ := e.symm.surjective h
        rw [power_eq e hT, tg_mul e hT, e.symm.injective.eq_iff] at heq
        exact ⟨m, hm, h, (hHS h).2 hh, heq⟩
    · refine hVf.union (hPf.biUnion fun L _ => Set.Finite.biUnion (List.finite_toSet L) fun D _ => hFormf D)
    · rintro v (hv | hv)
      · exact hV0 v hv
      · simp only [Set.mem_iUnion] at hv
        obtain ⟨L, hL, D, hD, hv⟩ := hv
        have h2 := (hforms L hL D hD).1
        simp only [Form, dif_pos h2, Set.mem_singleton_iff] at hv
        subst hv
        exact ⟨h2.choose_spec.1, good_dim_le e hμ ((hP L hL).good D hD)⟩
    · exact hPf.biUnion fun L hL => (finite_forall₂ _ L fun D hD => (hforms L hL D hD).2).image _
    · intro random atol maxGen ha
      obtain ⟨st, hst, hgrp, hin, hav⟩ := hrun random atol maxGen ha
      refine ⟨{ grp := grp',
                irreps := dedupe grp' ((st.irreps.map (chainInner random T μ (e.symm 1) (e.symm r) (e.symm r⁻¹) p grp atol
                  maxGen)).flatMap Prod.fst),
                warned := st.warned || (st.irreps.map (chainInner random T μ (e.symm 1) (e.symm r) (e.symm r⁻¹) p
                  grp atol maxGen)).any Prod.snd }, ?_, rfl, ?_, ?_⟩
      · rw [List.reverse_cons, List.foldlM_append, hst]
        simp only [bind, Except.bind, List.foldlM_cons, List.foldlM_nil]
        unfold chainStep
        simp only [ho, hi, bind, Except.bind, hgrp]
        rw [if_neg (not_not.2 hconj), if_neg hp1]
        rfl
      · intro hw
        dsimp only at hw ⊢
        rw [Bool.or_eq_false_iff] at hw
        have hL := hin hw.1
        simp only [P', Set.mem_iUnion]
        refine ⟨st.irreps, hL, (st.irreps.map (chainInner random T μ (e.symm 1) (e.symm r) (e.symm r⁻¹) p grp atol
          maxGen)).map Prod.fst, ?_, by rw [List.flatMap_def]⟩
        rw [List.map_map]
        show List.Forall₂ _ _ _
        rw [List.forall₂_map_right_iff, List.forall₂_same]
        intro D hD
        refine ⟨random, atol, maxGen, ha, Prod.ext rfl ?_⟩
        have := List.any_eq_false.1 hw.2 _ (List.mem_map_of_mem hD)
        simpa using this
      · intro hD
        have hw := hav fun v hv => hD v (Or.inl hv)
        have hL := hin hw
        dsimp only
        rw [Bool.or_eq_false_iff]
        refine ⟨hw, List.any_eq_false.2 ?_⟩
        intro x hx
        obtain ⟨D, hDm, rfl⟩ := List.mem_map.1 hx
        have h2 := (hforms _ hL D hDm).1
        have h3 := h2.choose_spec.2 random atol ha maxGen (hD ⟨D.1, h2.choose⟩ (Or.inr (by
          simp only [Set.mem_iUnion]
          exact ⟨st.irreps, hL, D, hDm, by simp only [Form, dif_pos h2, Set.mem_singleton_iff]⟩)))
        rw [h3]
        simp

end

/-- Outside finitely many hyperplanes there are matrices with entries in the unit interval. -/
theorem exists_avoid {V : Set (Σ d, Matrix (Fin d) (Fin d) ℂ)} (hV : V.Finite) (h0 : ∀ v ∈ V, v.2 ≠ 0) :
    ∃ X : ∀ d, Matrix (Fin d) (Fin d) ℂ, (∀ d i j, ∃ x : ℝ, 0 < x ∧ x < 1 ∧ X d i j = x) ∧ ∀ v ∈ V, formVal v.2 (X v.1) ≠ 0 := by
  classical
  let f : (Σ d, Matrix (Fin d) (Fin d) ℂ) → Polynomial ℂ := fun v =>
    ∑ x : Fin (v.1 * v.1), Polynomial.monomial (x : ℕ) (v.2 (finProdFinEquiv.symm x).1 (finProdFinEquiv.symm x).2)
  have hcoeff : ∀ v : (Σ d, Matrix (Fin d) (Fin d) ℂ), ∀ x : Fin (v.1 * v.1),
      (f v).coeff x = v.2 (finProdFinEquiv.symm x).1 (finProdFinEquiv.symm x).2 := by
    intro v x
    simp only [f, Polynomial.finset_sum_coeff, Polynomial.coeff_monomial]
    rw [Finset.sum_eq_single x]
    · simp
    · intro y _ hy
      rw [if_neg (fun h => hy (Fin.ext h))]
    · simp
  have hf : ∀ v ∈ V, f v ≠ 0 := by
    intro v hv h
    apply h0 v hv
    ext i j
    have := hcoeff v (finProdFinEquiv (i, j))
    rw [h] at this
    simpa using this.symm
  have hbad : Set.Finite {s : ℝ | ∃ v ∈ V, (f v).eval (s : ℂ) = 0} := by
    have : {s : ℝ | ∃ v ∈ V, (f v).eval (s : ℂ) = 0} = ⋃ v ∈ V, {s : ℝ | (f v).eval (s : ℂ) = 0} := by
      ext s; simp
    rw [this]
    refine hV.biUnion fun v hv => ?_
    exact ((Polynomial.finite_setOf_isRoot (hf v hv)).preimage (f := fun s : ℝ => (s : ℂ))
      Complex.ofReal_injective.injOn)
  obtain ⟨s, hs, hs'⟩ := ((Set.Ioo_infinite (show (0 : ℝ) < 1 by norm_num)).sdiff hbad).nonempty
  refine ⟨fun d => Matrix.of fun i j => ((s ^ ((finProdFinEquiv (i, j) : ℕ) + 1) : ℝ) : ℂ), fun d i j =>
    ⟨_, pow_pos hs.1 _, pow_lt_one₀ hs.1.le hs.2 (by omega), rfl⟩, fun v hv h => hs' ⟨v, hv, ?_⟩⟩
  have h1 : formVal v.2 (Matrix.of fun i j => ((s ^ ((finProdFinEquiv (i, j) : ℕ) + 1) : ℝ) : ℂ)) =
      (f v).eval (s : ℂ) * s := by
    simp only [f, Polynomial.eval_finsetSum, Polynomial.eval_monomial, formVal, Matrix.of_apply]
    rw [← Fintype.sum_prod_type' (f := fun i j => v.2 i j * ((s ^ ((finProdFinEquiv (i, j) : ℕ) + 1) : ℝ) : ℂ)),
      ← finProdFinEquiv.sum_comp, Finset.sum_mul]
    refine Finset.sum_congr rfl fun x _ => ?_
    simp only [Equiv.symm_apply_apply, Complex.ofReal_pow]
    rw [pow_succ]
    ring
  rw [h1] at h
  exact (mul_eq_zero.1 h).resolve_right (by exact_mod_cast hs.1.ne')

end Spgrep
