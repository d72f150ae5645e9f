/-
C117: irreducible representations of the whole space group and stars of k-points.
-/
import Verif.Props.FullGroup
import Mathlib.LinearAlgebra.Eigenspace.Triangularizable

namespace Spgrep

open Spec Module
open scoped ComplexOrder

variable {n : ℕ} {rots : Fin n → M3} {trans : Fin n → V3} {e : ℕ}

theorem translation_iff (h : IsSpaceGroup rots trans) {g : spaceGroup rots trans} {t : Fin 3 → ℤ} :
    IsOperation 1 0 t g.1 ↔ rotOf h g = 1 ∧ g.1 0 = fun a => (t a : ℝ) := by
  rw [isOperation_iff]
  constructor
  · intro hg
    have := rotOf_unique h g hg
    rwa [zero_add] at this
  · rintro ⟨h1, h2⟩ x
    rw [apply_eq h g, h1, h2, zero_add]

theorem translation_exists (h : IsSpaceGroup rots trans) (t : Fin 3 → ℤ) : ∃ g : spaceGroup rots trans, IsOperation 1 0 t g.1 := by
  obtain ⟨e, he, u, hu⟩ := exists_one h
  obtain ⟨g, h1, h2⟩ := operation_mem h e (t - u)
  refine ⟨g, (translation_iff h).2 ⟨by unfold rotOf; rw [h1, he], ?_⟩⟩
  rw [h2, hu]
  funext a
  simp

theorem element_ext (h : IsSpaceGroup rots trans) {g g' : spaceGroup rots trans} (h1 : rotOf h g = rotOf h g')
    (h2 : g.1 0 = g'.1 0) : g = g' := by
  apply Subtype.ext
  apply Equiv.ext
  intro x
  rw [apply_eq h g, apply_eq h g', h1, h2]

theorem translation_conj (h : IsSpaceGroup rots trans) (g : spaceGroup rots trans) {τ : spaceGroup rots trans} {t : Fin 3 → ℤ}
    (hτ : IsOperation 1 0 t τ.1) : IsOperation 1 0 ((rotOf h g⁻¹).mulVec t) (g⁻¹ * τ * g).1 := by
  obtain ⟨hτr, hτ0⟩ := (translation_iff h).1 hτ
  refine (translation_iff h).2 ⟨?_, ?_⟩
  · rw [(rotOf_mul h _ _).1, (rotOf_mul h _ _).1, hτr, mul_one, ← (rotOf_mul h _ _).1, inv_mul_cancel, (rotOf_one h).1]
  · have e1 : (g⁻¹ * τ * g).1 0 = g⁻¹.1 (τ.1 (g.1 0)) := rfl
    rw [e1, apply_eq h τ, hτr, actR_one, hτ0, apply_eq h g⁻¹, actR_add, actR_int]
    have e2 : g⁻¹.1 (g.1 0) = 0 := g.1.symm_apply_apply 0
    rw [apply_eq h g⁻¹] at e2
    rw [add_right_comm, e2, zero_add]

/-- The Bloch states at `k`. -/
def blochStates (E : spaceGroup rots trans →* Matrix (Fin e) (Fin e) ℂ) (k : V3) : Submodule ℂ (Fin e → ℂ) where
  carrier := {v | ∀ (g : spaceGroup rots trans) (t : Fin 3 → ℤ), IsOperation 1 0 t g.1 →
    (E g).mulVec v = transPhase k (fun a => t a) • v}
  add_mem' := by
    intro a b ha hb g t ht
    rw [Matrix.mulVec_add, ha g t ht, hb g t ht, smul_add]
  zero_mem' := by
    intro g t _
    rw [Matrix.mulVec_zero, smul_zero]
  smul_mem' := by
    intro c a ha g t ht
    rw [Matrix.mulVec_smul, ha g t ht, smul_comm]

/-- The point `Rᵀ k` of the star. -/
def starPoint (R : M3) (k : V3) : V3 := fun a => ∑ b, (R b a : ℝ) * k b

theorem starPoint_dot (R : M3) (k : V3) (t : Fin 3 → ℤ) : ∑ a, starPoint R k a * (t a : ℝ) = ∑ a, k a * (R.mulVec t a : ℝ) := by
  simp only [starPoint, Matrix.mulVec, dotProduct, Fin.sum_univ_three]
  push_cast
  ring

theorem starPoint_phase (R : M3) (k : V3) (t : Fin 3 → ℤ) :
    transPhase (starPoint R k) (fun a => t a) = transPhase k fun a => (R.mulVec t a : ℝ) := by
  unfold transPhase
  rw [starPoint_dot]

theorem starPoint_mul (A B : M3) (k : V3) : starPoint (A * B) k = starPoint B (starPoint A k) := by
  funext a
  simp only [starPoint, Matrix.mul_apply, Fin.sum_univ_three]
  push_cast
  ring

theorem bloch_move (h : IsSpaceGroup rots trans) (E : spaceGroup rots trans →* Matrix (Fin e) (Fin e) ℂ) {k : V3} {v : Fin e → ℂ}
    (hv : v ∈ blochStates E k) (g : spaceGroup rots trans) :
    (E g).mulVec v ∈ blochStates E (starPoint (rotOf h g⁻¹) k) := by
  intro τ t ht
  have h1 : τ * g = g * (g⁻¹ * τ * g) := by group
  rw [Matrix.mulVec_mulVec, ← map_mul, h1, map_mul, ← Matrix.mulVec_mulVec, hv _ _ (translation_conj h g ht), Matrix.mulVec_smul,
    starPoint_phase]

theorem transPhase_congr {k k' : V3} : (∀ t : Fin 3 → ℤ, transPhase k (fun a => (t a : ℝ)) = transPhase k' fun a => (t a : ℝ)) ↔
    ∀ a, ∃ m : ℤ, k a - k' a = m := by
  have key : ∀ t : Fin 3 → ℤ, transPhase k (fun a => (t a : ℝ)) = transPhase k' (fun a => (t a : ℝ)) ↔
      ∃ m : ℤ, (∑ a, (k a - k' a) * (t a : ℝ)) = m := by
    intro t
    have h2 : transPhase k (fun a => (t a : ℝ)) = transPhase k' (fun a => (t a : ℝ)) ↔
        ∃ m : ℤ, (∑ a, k a * (t a : ℝ)) - ∑ a, k' a * (t a : ℝ) = m := by
      have e1 : ∀ q : V3, transPhase q (fun a => (t a : ℝ)) = transPhase (fun a => if a = 0 then 1 else 0)
          (fun _ => ∑ a, q a * (t a : ℝ)) := fun q => by
        unfold transPhase
        congr 3
        simp
      rw [e1 k, e1 k', transPhase_eq]
      simp
    rw [h2, ← Finset.sum_sub_distrib]
    simp only [sub_mul]
  simp only [key]
  constructor
  · intro h a
    obtain ⟨m, hm⟩ := h (Pi.single a 1)
    refine ⟨m, ?_⟩
    rw [← hm, Finset.sum_eq_single a]
    · simp
    · intro b _ hb
      simp [hb]
    · simp
  · intro h t
    choose m hm using h
    refine ⟨∑ a, m a * t a, ?_⟩
    push_cast
    simp only [hm]

/-- **C117.** The k-points of the Bloch states in an irreducible representation of the whole group form one star. -/
theorem c117_star (h : IsSpaceGroup rots trans) (E : spaceGroup rots trans →* Matrix (Fin e) (Fin e) ℂ)
    (hE : Spec.IsIrreducible fun g => E g) {k : V3} (hk : HasBloch k E) (k' : V3) :
    HasBloch k' E ↔ ∃ i, ∀ a, ∃ m : ℤ, k' a - (∑ b, (rots i b a : ℝ) * k b) = m := by
  obtain ⟨v, hv0, hv⟩ := hk
  have hvW : v ∈ blochStates E k := hv
  constructor
  · rintro ⟨v', hv0', hv'⟩
    by_contra hall
    push Not at hall
    -- translations that tell `k'` from the points of the star
    have hsep : ∀ i, ∃ t : Fin 3 → ℤ, transPhase k' (fun a => (t a : ℝ)) ≠ transPhase (starPoint (rots i) k) fun a => (t a : ℝ) := by
      intro i
      by_contra hne
      push Not at hne
      obtain ⟨a, ha⟩ := hall i
      obtain ⟨m, hm⟩ := transPhase_congr.1 hne a
      exact ha m hm
    have hQ : ∀ s : Finset (Fin n), ∃ (Q : Matrix (Fin e) (Fin e) ℂ) (c : ℂ), c ≠ 0 ∧ Q.mulVec v' = c • v' ∧
        ∀ i ∈ s, ∀ w ∈ blochStates E (starPoint (rots i) k), Q.mulVec w = 0 := by
      intro s
      induction s using Finset.induction_on with
      | empty => exact ⟨1, 1, one_ne_zero, by simp, by simp⟩
      | insert i s _ ih =>
        obtain ⟨Q, c, hc, hQv, hQs⟩ := ih
        obtain ⟨t, ht⟩ := hsep i
        obtain ⟨τ, hτ⟩ := translation_exists h t
        refine ⟨Q * (E τ - transPhase (starPoint (rots i) k) (fun a => (t a : ℝ)) • 1),
          c * (transPhase k' (fun a => (t a : ℝ)) - transPhase (starPoint (rots i) k) fun a => (t a : ℝ)),
          mul_ne_zero hc (sub_ne_zero.2 ht), ?_, ?_⟩
        · rw [← Matrix.mulVec_mulVec, Matrix.sub_mulVec, hv' τ t hτ, Matrix.smul_mulVec, Matrix.one_mulVec, ← sub_smul,
            Matrix.mulVec_smul, hQv, smul_smul, mul_comm]
        · intro j hj w hw
          rw [← Matrix.mulVec_mulVec, Matrix.sub_mulVec, hw τ t hτ, Matrix.smul_mulVec, Matrix.one_mulVec, ← sub_smul,
            Matrix.mulVec_smul]
          rcases Finset.mem_insert.1 hj with rfl | hj
          · rw [sub_self, zero_smul]
          · rw [hQs j hj w hw, smul_zero]
    obtain ⟨Q, c, hc, hQv, hQ0⟩ := hQ Finset.univ
    let U : Submodule ℂ (Fin e → ℂ) := ⨆ i, blochStates E (starPoint (rots i) k)
    have hle : ∀ g w, w ∈ blochStates E k → (E g).mulVec w ∈ U := by
      intro g w hw
      exact Submodule.mem_iSup_of_mem (opIndex h g⁻¹) (bloch_move h E hw g)
    have hUinv : ∀ g, ∀ w ∈ U, (E g).mulVec w ∈ U := by
      intro g w hw
      refine Submodule.iSup_induction (motive := fun w => (E g).mulVec w ∈ U) _ hw (fun i w hw => ?_) ?_ fun x y hx hy => ?_
      · obtain ⟨l, hl⟩ := enum_mul h.1 i (opIndex h g⁻¹)
        have := bloch_move h E hw g
        rw [← starPoint_mul, show rots i * rotOf h g⁻¹ = rots l from hl.symm] at this
        exact Submodule.mem_iSup_of_mem l this
      · rw [Matrix.mulVec_zero]
        exact U.zero_mem
      · rw [Matrix.mulVec_add]
        exact U.add_mem hx hy
    have hU : U = ⊤ := by
      refine (hE.2 U hUinv).resolve_left fun hb => hv0 ?_
      have := hle 1 v hvW
      rw [map_one, Matrix.one_mulVec, hb] at this
      exact (Submodule.mem_bot ℂ).1 this
    have h0 : Q.mulVec v' = 0 := by
      have hmem : v' ∈ U := by rw [hU]; trivial
      refine Submodule.iSup_induction (motive := fun w => Q.mulVec w = 0) _ hmem (fun i w hw => hQ0 i (Finset.mem_univ _) w hw)
        (Matrix.mulVec_zero _) fun x y hx hy => ?_
      rw [Matrix.mulVec_add, hx, hy, add_zero]
    rw [hQv] at h0
    exact hv0' ((smul_eq_zero.1 h0).resolve_left hc)
  · rintro ⟨i, hi⟩
    obtain ⟨g, hg, -⟩ := operation_mem h i 0
    refine ⟨(E g⁻¹).mulVec v, fun h0 => hv0 ?_, fun τ t ht => ?_⟩
    · have := congrArg (E g).mulVec h0
      rwa [Matrix.mulVec_mulVec, ← map_mul, mul_inv_cancel, map_one, Matrix.one_mulVec, Matrix.mulVec_zero] at this
    · have h1 := bloch_move h E hvW g⁻¹ τ t ht
      rw [inv_inv] at h1
      have h2 : rotOf h g = rots i := by unfold rotOf; rw [hg]
      rw [h1, h2]
      congr 1
      exact (transPhase_congr.2 hi t).symm

theorem eigen_in {W : Submodule ℂ (Fin e → ℂ)} (hW : W ≠ ⊥) {f : Matrix (Fin e) (Fin e) ℂ} (hf : ∀ v ∈ W, f.mulVec v ∈ W) :
    ∃ (z : ℂ) (v : Fin e → ℂ), v ∈ W ∧ v ≠ 0 ∧ f.mulVec v = z • v := by
  have : Nontrivial W := Submodule.nontrivial_iff_ne_bot.2 hW
  let F : End ℂ W := f.mulVecLin.restrict hf
  obtain ⟨z, hz⟩ := Module.End.exists_eigenvalue F
  obtain ⟨v, hv⟩ := hz.exists_hasEigenvector
  refine ⟨z, v, v.2, fun h0 => hv.2 (Subtype.ext h0), ?_⟩
  exact congrArg Subtype.val hv.apply_eq_smul

theorem unitary_eigenvalue {A : Matrix (Fin e) (Fin e) ℂ} (hA : A * A.conjTranspose = 1) {z : ℂ} {v : Fin e → ℂ} (hv : v ≠ 0)
    (hz : A.mulVec v = z • v) : ‖z‖ = 1 := by
  have h1 : dotProduct (star (A.mulVec v)) (A.mulVec v) = dotProduct (star v) v := by
    rw [Matrix.star_mulVec, ← Matrix.dotProduct_mulVec, Matrix.mulVec_mulVec, mul_eq_one_comm.1 hA, Matrix.one_mulVec]
  rw [hz, star_smul, smul_dotProduct, dotProduct_smul, smul_smul, smul_eq_mul] at h1
  have h2 : dotProduct (star v) v ≠ 0 := by
    intro h0
    exact hv (dotProduct_star_self_eq_zero.1 h0)
  have h3 : star z * z = 1 := mul_right_cancel₀ h2 (by rw [h1, one_mul])
  have h4 : ‖z‖ * ‖z‖ = 1 := by
    have := congrArg norm h3
    rwa [norm_mul, norm_star, norm_one] at this
  nlinarith [norm_nonneg z]

/-- **C117.** Every unitary representation of the whole group contains Bloch states at some real k-point. -/
theorem c117_exists (h : IsSpaceGroup rots trans) (E : spaceGroup rots trans →* Matrix (Fin e) (Fin e) ℂ)
    (hu : IsUnitaryRep fun g => E g) (he : 0 < e) : ∃ k, HasBloch k E := by
  choose τ hτ using fun a : Fin 3 => translation_exists h (Pi.single a 1)
  have hcomm : ∀ a b, τ a * τ b = τ b * τ a := by
    intro a b
    obtain ⟨r1, z1⟩ := (translation_iff h).1 (hτ a)
    obtain ⟨r2, z2⟩ := (translation_iff h).1 (hτ b)
    refine element_ext h ?_ ?_
    · rw [(rotOf_mul h _ _).1, (rotOf_mul h _ _).1, r1, r2]
    · rw [(rotOf_mul h _ _).2, (rotOf_mul h _ _).2, r1, r2, actR_one, actR_one, add_comm]
  -- common eigenspaces
  let Z : Fin 3 → ℂ → Submodule ℂ (Fin e → ℂ) := fun a z => End.eigenspace (E (τ a)).mulVecLin z
  have hZ : ∀ a z v, v ∈ Z a z ↔ (E (τ a)).mulVec v = z • v := fun a z v => End.mem_eigenspace_iff
  have hinv : ∀ a b z v, v ∈ Z a z → (E (τ b)).mulVec v ∈ Z a z := by
    intro a b z v hv
    rw [hZ] at hv ⊢
    rw [Matrix.mulVec_mulVec, ← map_mul, hcomm, map_mul, ← Matrix.mulVec_mulVec, hv, Matrix.mulVec_smul]
  have htop : (⊤ : Submodule ℂ (Fin e → ℂ)) ≠ ⊥ := by
    have : Nonempty (Fin e) := ⟨⟨0, he⟩⟩
    exact top_ne_bot
  obtain ⟨z0, v0, -, hv0, h0⟩ := eigen_in htop (f := E (τ 0)) fun _ _ => trivial
  obtain ⟨z1, v1, hv1m, hv1, h1⟩ := eigen_in (W := Z 0 z0) ((Submodule.ne_bot_iff _).2 ⟨v0, (hZ _ _ _).2 h0, hv0⟩)
    (f := E (τ 1)) (hinv 0 1 z0)
  obtain ⟨z2, v, hvm, hv, h2⟩ := eigen_in (W := Z 0 z0 ⊓ Z 1 z1)
    ((Submodule.ne_bot_iff _).2 ⟨v1, ⟨hv1m, (hZ _ _ _).2 h1⟩, hv1⟩) (f := E (τ 2))
    fun w hw => ⟨hinv 0 2 z0 w hw.1, hinv 1 2 z1 w hw.2⟩
  let z : Fin 3 → ℂ := ![z0, z1, z2]
  have hz : ∀ a, (E (τ a)).mulVec v = z a • v := by
    intro a
    fin_cases a
    · exact (hZ _ _ _).1 hvm.1
    · exact (hZ _ _ _).1 hvm.2
    · exact h2
  have hnorm : ∀ a, ‖z a‖ = 1 := fun a => unitary_eigenvalue (hu (τ a)) hv (hz a)
  let k : V3 := fun a => -(Complex.arg (z a) / (2 * Real.pi))
  have hk : ∀ a, transPhase k (fun b => ((Pi.single a 1 : Fin 3 → ℤ) b : ℝ)) = z a := by
    intro a
    unfold transPhase
    have e1 : ∑ b, k b * ((Pi.single a 1 : Fin 3 → ℤ) b : ℝ) = k a := by
      rw [Finset.sum_eq_single a]
      · simp
      · intro b _ hb
        simp [hb]
      · simp
    rw [e1]
    have e2 : (-2 * Real.pi * Complex.I * ((k a : ℝ) : ℂ) : ℂ) = Complex.arg (z a) * Complex.I := by
      simp only [k]
      push_cast
      have : (Real.pi : ℂ) ≠ 0 := by exact_mod_cast Real.pi_ne_zero
      field_simp
    rw [e2]
    have := Complex.norm_mul_exp_arg_mul_I (z a)
    rwa [hnorm, Complex.ofReal_one, one_mul] at this
  -- all translations
  let P : AddSubgroup (Fin 3 → ℤ) :=
    { carrier := {t | ∀ g : spaceGroup rots trans, IsOperation 1 0 t g.1 → (E g).mulVec v = transPhase k (fun a => t a) • v}
      zero_mem' := by
        intro g hg
        obtain ⟨r, z0⟩ := (translation_iff h).1 hg
        have : g = 1 := element_ext h (r.trans (rotOf_one h).1.symm) (by rw [z0, (rotOf_one h).2]; funext a; simp)
        rw [this, map_one, Matrix.one_mulVec]
        have e1 : (fun a => (((0 : Fin 3 → ℤ) a : ℤ) : ℝ)) = 0 := by funext a; simp
        rw [e1, transPhase_zero, one_smul]
      add_mem' := by
        intro s t hs ht g hg
        obtain ⟨gs, hgs⟩ := translation_exists h s
        obtain ⟨gt, hgt⟩ := translation_exists h t
        obtain ⟨r, z0⟩ := (translation_iff h).1 hg
        obtain ⟨r1, z1⟩ := (translation_iff h).1 hgs
        obtain ⟨r2, z2⟩ := (translation_iff h).1 hgt
        have : g = gs * gt := element_ext h (by rw [(rotOf_mul h _ _).1, r, r1, r2, one_mul]) (by
          rw [(rotOf_mul h _ _).2, r1, actR_one, z0, z1, z2]
          funext a
          simp [add_comm])
        rw [this, map_mul, ← Matrix.mulVec_mulVec, ht gt hgt, Matrix.mulVec_smul, hs gs hgs, smul_smul]
        have e1 : (fun a => (((s + t) a : ℤ) : ℝ)) = (fun a => (t a : ℝ)) + fun a => (s a : ℝ) := by
          funext a
          simp [add_comm]
        rw [e1, transPhase_add]
      neg_mem' := by
        intro t ht g hg
        obtain ⟨gt, hgt⟩ := translation_exists h t
        obtain ⟨r, z0⟩ := (translation_iff h).1 hg
        obtain ⟨r2, z2⟩ := (translation_iff h).1 hgt
        have hgg : g * gt = 1 := element_ext h (by rw [(rotOf_mul h _ _).1, r, r2, one_mul, (rotOf_one h).1]) (by
          rw [(rotOf_mul h _ _).2, r, actR_one, z0, z2, (rotOf_one h).2]
          funext a
          simp)
        have e1 := congrArg (E g).mulVec (ht gt hgt)
        rw [Matrix.mulVec_mulVec, ← map_mul, hgg, map_one, Matrix.one_mulVec, Matrix.mulVec_smul] at e1
        have e2 : transPhase k (fun a => (((-t) a : ℤ) : ℝ)) * transPhase k (fun a => (t a : ℝ)) = 1 := by
          rw [← transPhase_add, ← transPhase_zero k]
          congr 1
          funext a
          simp
        calc (E g).mulVec v = (transPhase k (fun a => (((-t) a : ℤ) : ℝ)) * transPhase k (fun a => (t a : ℝ))) • (E g).mulVec v := by
              rw [e2, one_smul]
          _ = _ := by rw [mul_smul, ← e1] }
  have hPs : ∀ a, (Pi.single a 1 : Fin 3 → ℤ) ∈ P := by
    intro a g hg
    obtain ⟨r, z0⟩ := (translation_iff h).1 hg
    obtain ⟨r2, z2⟩ := (translation_iff h).1 (hτ a)
    have : g = τ a := element_ext h (r.trans r2.symm) (z0.trans z2.symm)
    rw [this, hz, hk]
  have hP : ∀ t, t ∈ P := by
    intro t
    have : t = ∑ a, t a • (Pi.single a 1 : Fin 3 → ℤ) := by
      funext b
      simp [Finset.sum_apply, Pi.single_apply]
    rw [this]
    exact P.sum_mem fun a _ => P.zsmul_mem (hPs a) _
  exact ⟨k, v, hv, fun g t ht => hP t g ht⟩

/-- **C117**, with C116: every irreducible unitary representation of the whole group comes from one of the returned small
representations, as soon as the function has been called at one of its k-points; the calls at two k-points give
representations of the whole group in common exactly if the k-points belong to the same star. -/
theorem c117_classification (h : IsSpaceGroup rots trans) (E : spaceGroup rots trans →* Matrix (Fin e) (Fin e) ℂ)
    (hE : Spec.IsIrreducible fun g => E g) (hu : IsUnitaryRep fun g => E g) :
    ∃ k, HasBloch k E ∧ (∀ k', HasBloch k' E ↔ ∃ i, ∀ a, ∃ m : ℤ, k' a - (∑ b, (rots i b a : ℝ) * k b) = m) ∧
      ∀ k', HasBloch k' E → ∀ {o : Oracles} {method : IrrepMethod} {rtol atol : ℝ}, 0 < atol → atol ≤ 1 / 5 →
        NoNearMiss 1 rots k' atol → (MethodContract o method rtol fun i => rots ((littleMapping rots k' atol).get i)) →
        ∀ {maxGen : ℕ} {M : List (Fin n)} {out : IrrepsOut M.length},
        irrepsFromPrimitive o rots trans k' false method rtol atol maxGen = .ok ⟨M, out, false⟩ →
        ∃ S : List (AnyRep M.length), List.Forall₂ (NearRep atol) S out.irreps ∧
          ∃! a : Fin S.length, SubducesTo k' M (S.get a).2 E := by
  obtain ⟨x⟩ := hE.1
  obtain ⟨k, hk⟩ := c117_exists h E hu (Nat.pos_of_ne_zero fun h0 => by subst h0; exact x.elim0)
  refine ⟨k, hk, fun k' => c117_star h E hE hk k', fun k' hk' {o method rtol atol} ha ha5 hnm ho {maxGen M out} hrun => ?_⟩
  obtain ⟨S, h1, h2⟩ := c116_full_group h ha ha5 hnm ho hrun
  exact ⟨S, h1, h2.label e E hE hk'⟩

/-- The rotations of the group `P-1`. -/
def rotsInv : Fin 2 → M3 := ![1, -1]

theorem groupInv : IsSpaceGroup rotsInv (fun _ _ => 0) := by
  refine ⟨enumerates_of_isMatrixGroup (by norm_num) ?_ ?_, fun _ _ _ _ _ => ⟨0, by simp⟩⟩
  · decide +kernel
  · decide +kernel

theorem rotInv_cases (g : spaceGroup rotsInv fun _ _ => 0) : rotOf groupInv g = 1 ∨ rotOf groupInv g = -1 := by
  unfold rotOf
  generalize opIndex groupInv g = i
  fin_cases i
  · exact .inl rfl
  · exact .inr rfl

theorem actR_neg_one (x : V3) : actR (-1) x = -x := by
  funext a
  simp only [actR_eq, Matrix.mulVec, dotProduct, Fin.sum_univ_three, Matrix.map_apply]
  fin_cases a <;> simp [Matrix.one_apply]

/-- The matrices of the two-dimensional representation of `P-1` with Bloch states at `(1/4, 0, 0)` and `(-1/4, 0, 0)`. -/
noncomputable def matInv (R : M3) (x : V3) : Matrix (Fin 2) (Fin 2) ℂ :=
  if R = 1 then !![transPhase (kAxis 1 0) x, 0; 0, transPhase (kAxis 1 0) (-x)]
  else !![0, transPhase (kAxis 1 0) x; transPhase (kAxis 1 0) (-x), 0]

theorem neg_one_ne : (-1 : M3) ≠ 1 := by decide

noncomputable def repInv : (spaceGroup rotsInv fun _ _ => 0) →* Matrix (Fin 2) (Fin 2) ℂ where
  toFun g := matInv (rotOf groupInv g) (g.1 0)
  map_one' := by
    rw [(rotOf_one groupInv).1, (rotOf_one groupInv).2, matInv, if_pos rfl, neg_zero, transPhase_zero, Matrix.one_fin_two]
  map_mul' g g' := by
    rw [(rotOf_mul groupInv g g').1, (rotOf_mul groupInv g g').2]
    rcases rotInv_cases g with h1 | h1 <;> rcases rotInv_cases g' with h2 | h2 <;> rw [h1, h2] <;>
      simp only [matInv, actR_one, actR_neg_one, one_mul, mul_one, neg_mul_neg, neg_one_ne, if_true, if_false, neg_add, neg_neg,
        transPhase_add, Matrix.mul_fin_two, mul_zero, zero_mul, add_zero, zero_add, mul_comm]

theorem repInv_unitary : IsUnitaryRep fun g => repInv g := by
  intro g
  have hφ : ∀ x, transPhase (kAxis 1 0) x * (starRingEnd ℂ) (transPhase (kAxis 1 0) x) = 1 := by
    intro x
    rw [Complex.mul_conj, Complex.normSq_eq_norm_sq]
    unfold transPhase
    rw [show ∀ r : ℝ, (-2 * Real.pi * Complex.I * (r : ℂ) : ℂ) = ((-2 * Real.pi * r : ℝ) : ℂ) * Complex.I from fun r => by
      push_cast; ring, Complex.norm_exp_ofReal_mul_I]
    simp
  change matInv _ _ * (matInv _ _).conjTranspose = 1
  unfold matInv
  split_ifs
  all_goals
    ext i j
    fin_cases i <;> fin_cases j <;> simp [Matrix.mul_apply, Fin.sum_univ_two, Matrix.conjTranspose_apply, hφ]

theorem repInv_irreducible : Spec.IsIrreducible fun g => repInv g := by
  refine ⟨⟨0⟩, fun U hU => ?_⟩
  obtain ⟨τ, hτ⟩ := translation_exists groupInv (Pi.single 0 1)
  obtain ⟨r, z⟩ := (translation_iff groupInv).1 hτ
  obtain ⟨s, hs, hs0⟩ := operation_mem groupInv 1 0
  have hsr : rotOf groupInv s = -1 := by unfold rotOf; rw [hs]; rfl
  have hτm : repInv τ = !![-Complex.I, 0; 0, Complex.I] := by
    change matInv _ _ = _
    have e1 : transPhase (kAxis 1 0) (τ.1 0) = -Complex.I := by
      rw [z]
      unfold transPhase
      rw [Fin.sum_univ_three]
      rw [← Complex.exp_neg_pi_div_two_mul_I]
      congr 1
      simp [kAxis]
      ring
    have e2 : transPhase (kAxis 1 0) (-τ.1 0) = Complex.I := by
      have h1 : transPhase (kAxis 1 0) (-τ.1 0) * transPhase (kAxis 1 0) (τ.1 0) = 1 := by
        rw [← transPhase_add, neg_add_cancel, transPhase_zero]
      rw [e1] at h1
      linear_combination Complex.I * h1 + transPhase (kAxis 1 0) (-τ.1 0) * Complex.I_mul_I
    rw [matInv, if_pos r, e1, e2]
  have hsm : repInv s = !![0, 1; 1, 0] := by
    change matInv _ _ = _
    have e1 : s.1 0 = 0 := by rw [hs0]; funext a; simp
    rw [matInv, hsr, if_neg neg_one_ne, e1, neg_zero, transPhase_zero]
  by_cases hb : U = ⊥
  · exact .inl hb
  right
  obtain ⟨u, hu, hu0⟩ := (Submodule.ne_bot_iff _).1 hb
  have hswap : ∀ a b, ![a, b] ∈ U → ![b, a] ∈ U := by
    intro a b hab
    have := hU s _ hab
    simp only [hsm] at this
    convert this using 1
    funext i
    fin_cases i <;> simp [Matrix.mulVec, dotProduct, Fin.sum_univ_two]
  have hproj : ∀ a b, ![a, b] ∈ U → ![a, 0] ∈ U := by
    intro a b hab
    have h1 := hU τ _ hab
    have hmv : (!![-Complex.I, 0; 0, Complex.I] : Matrix (Fin 2) (Fin 2) ℂ).mulVec ![a, b] = ![-Complex.I * a, Complex.I * b] := by
      funext i
      fin_cases i <;> simp [Matrix.mulVec, dotProduct, Fin.sum_univ_two]
    simp only [hτm, hmv] at h1
    have h2 := U.smul_mem (1 / 2 : ℂ) (U.add_mem hab (U.smul_mem Complex.I h1))
    convert h2 using 1
    funext i
    fin_cases i
    · change a = 1 / 2 * (a + Complex.I * (-Complex.I * a))
      linear_combination (a / 2) * Complex.I_mul_I
    · change 0 = 1 / 2 * (b + Complex.I * (Complex.I * b))
      linear_combination (-(b / 2)) * Complex.I_mul_I
  have hpair : ∀ w : Fin 2 → ℂ, w = ![w 0, w 1] := fun w => by funext i; fin_cases i <;> rfl
  have h10 : ![(1 : ℂ), 0] ∈ U := by
    have key : ∀ a b, ![a, b] ∈ U → a ≠ 0 → ![(1 : ℂ), 0] ∈ U := by
      intro a b hab ha
      have := U.smul_mem a⁻¹ (hproj a b hab)
      convert this using 1
      funext i
      fin_cases i <;> simp [ha]
    rw [hpair u] at hu
    by_cases h0 : u 0 = 0
    · refine key _ _ (hswap _ _ hu) fun h1 => hu0 ?_
      rw [hpair u, h0, h1]
      funext i
      fin_cases i <;> rfl
    · exact key _ _ hu h0
  refine (Submodule.eq_top_iff').2 fun w => ?_
  have := U.add_mem (U.smul_mem (w 0) h10) (U.smul_mem (w 1) (hswap _ _ h10))
  convert this using 1
  funext i
  fin_cases i <;> simp

/-- Non-vacuity of C117: a two-dimensional irreducible unitary representation of `P-1`; it has Bloch states at `(1/4, 0, 0)`
and `(-1/4, 0, 0)`, and none at the zone centre. -/
example : IsSpaceGroup rotsInv (fun _ _ => 0) ∧ Spec.IsIrreducible (fun g => repInv g) ∧ IsUnitaryRep (fun g => repInv g) ∧
    HasBloch (kAxis 1 0) repInv ∧ HasBloch (kAxis (-1) 0) repInv ∧ ¬ HasBloch 0 repInv := by
  have hb : HasBloch (kAxis 1 0) repInv := by
    refine ⟨![1, 0], fun h0 => one_ne_zero (congrFun h0 0), fun g t ht => ?_⟩
    obtain ⟨r, z⟩ := (translation_iff groupInv).1 ht
    change (matInv _ _).mulVec _ = _
    rw [matInv, if_pos r, z]
    funext i
    fin_cases i <;> simp [Matrix.mulVec, dotProduct, Fin.sum_univ_two]
  refine ⟨groupInv, repInv_irreducible, repInv_unitary, hb, ?_, ?_⟩
  · refine (c117_star groupInv _ repInv_irreducible hb _).2 ⟨1, fun a => ⟨0, ?_⟩⟩
    fin_cases a <;> simp [kAxis, rotsInv, Fin.sum_univ_three] <;> norm_num
  · intro h0
    obtain ⟨i, hi⟩ := (c117_star groupInv _ repInv_irreducible hb _).1 h0
    obtain ⟨m, hm⟩ := hi 0
    have h4 : (4 * m : ℝ) = -1 ∨ (4 * m : ℝ) = 1 := by
      rw [← hm]
      fin_cases i
      · left; simp [kAxis, rotsInv, Fin.sum_univ_three]
      · right; simp [kAxis, rotsInv, Fin.sum_univ_three]
    rcases h4 with h4 | h4
    · have : (4 * m : ℤ) = -1 := by exact_mod_cast h4
      omega
    · have : (4 * m : ℤ) = 1 := by exact_mod_cast h4
      omega

end Spgrep
