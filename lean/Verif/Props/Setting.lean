/-
C65: the small representations do not depend on the setting, the method and the random draws.
-/
import Verif.Proofs.Setting
import Verif.Props.Conventional

namespace Spgrep

open Spec

variable {n : ℕ} {rots rots' : Fin n → M3} {trans trans' : Fin n → V3} {k k' : V3} {U V : M3} {x₀ : V3}
  {π : Equiv.Perm (Fin n)} {m : Fin n → Fin 3 → ℤ} {G : Fin 3 → ℤ}

theorem trace_near {d : ℕ} {A B : Matrix (Fin d) (Fin d) ℂ} {ε : ℝ} (h : ∀ i j, ‖A i j - B i j‖ ≤ ε) :
    ‖A.trace - B.trace‖ ≤ d * ε := by
  rw [← Matrix.trace_sub]
  refine (norm_sum_le _ _).trans ?_
  refine (Finset.sum_le_sum fun i _ => h i i).trans ?_
  rw [Finset.sum_const, Finset.card_univ, Fintype.card_fin, nsmul_eq_mul]

theorem setting_pair {X Y Γ Γ' : AnyRep n} {A : RepArr n Γ.1} {A' : RepArr n Γ'.1} (hX : X = ⟨_, A⟩) (hY : Y = ⟨_, A'⟩)
    {atol atol' : ℝ} (hA : ∀ g a b, ‖Γ.2 g a b - A g a b‖ ≤ atol) (hA' : ∀ g a b, ‖Γ'.2 g a b - A' g a b‖ ≤ atol')
    (hΓ : SpaceGroupLaw rots trans k (fun _ _ => 1) Γ.2 ∧ IsUnitaryRep Γ.2 ∧ Spec.IsIrreducible Γ.2)
    (heq : AreEquivalent (settingRep k π m Γ.2) Γ'.2) :
    X.1 = Y.1 ∧ (∃ (Γ : RepArr n X.1) (Γ' : RepArr n Y.1),
        (∀ g a b, ‖Γ g a b - X.2 g a b‖ ≤ atol) ∧ (∀ g a b, ‖Γ' g a b - Y.2 g a b‖ ≤ atol') ∧
        Spec.IsIrreducible Γ ∧ IsUnitaryRep Γ ∧ SpaceGroupLaw rots trans k (fun _ _ => 1) Γ ∧
        AreEquivalent (fun i => Complex.exp (-2 * Real.pi * Complex.I * ((∑ a, k a * (m i a : ℝ) : ℝ) : ℂ)) • Γ (π i)) Γ') ∧
      ∀ i, ‖(Y.2 i).trace - Complex.exp (-2 * Real.pi * Complex.I * ((∑ a, k a * (m i a : ℝ) : ℝ) : ℂ)) *
        (X.2 (π i)).trace‖ ≤ X.1 * (atol + atol') := by
  subst hX hY
  have hd : Γ.1 = Γ'.1 := AreEquivalent.dim_eq heq
  refine ⟨hd, ⟨Γ.2, Γ'.2, hA, hA', hΓ.2.2, hΓ.2.1, hΓ.1, heq⟩, fun i => ?_⟩
  have h1 := AreEquivalent.trace heq i
  have h2 := trace_near (hA (π i))
  have h3 := trace_near (hA' i)
  have e : (A' i).trace - settingPhase k m i * (A (π i)).trace =
      -((Γ'.2 i).trace - (A' i).trace) + settingPhase k m i * ((Γ.2 (π i)).trace - (A (π i)).trace) := by
    rw [← h1]
    unfold settingRep
    rw [Matrix.trace_smul, smul_eq_mul]
    ring
  change ‖(A' i).trace - settingPhase k m i * (A (π i)).trace‖ ≤ Γ.1 * (atol + atol')
  rw [e]
  refine (norm_add_le _ _).trans ?_
  rw [norm_neg, norm_mul, settingPhase_norm, one_mul, mul_add, add_comm]
  have hd' : (Γ.1 : ℝ) = Γ'.1 := by exact_mod_cast hd
  exact add_le_add h2 (h3.trans_eq (by rw [hd']))

/-- C65: two runs without warning for the same space group and k-point, described in two settings (another primitive
basis, origin, order of the operations, coset representatives, equivalent k-point), with any of the two methods, any
tolerances and any random draws, return the same representations up to equivalence and order: there is a bijection
between the two lists under which the dimensions agree, and the arrays are entrywise within `atol` of exact families
that are equivalent after multiplying the matrix of operation `i` by the phase of the lattice vector `m i`.  Hence the
characters agree. -/
theorem c65_setting_independent (h : ChangeOfSetting rots trans k rots' trans' k' U V x₀ π m G)
    (hs : IsSpaceGroup rots trans) (hk : ∀ i, FixesK (rots i) k) {o o' : Oracles} {method method' : IrrepMethod}
    {rtol rtol' : ℝ} (ho : MethodContract o method rtol rots) (ho' : MethodContract o' method' rtol' rots')
    {atol atol' : ℝ} (ha : 0 < atol) (ha5 : atol ≤ 1 / 5) (ha' : 0 < atol') (ha5' : atol' ≤ 1 / 5) {maxGen maxGen' : ℕ}
    {out out' : IrrepsOut n}
    (hrun : enumerateSmallReps o rots trans k false method rtol atol maxGen = .ok (out, false))
    (hrun' : enumerateSmallReps o' rots' trans' k' false method' rtol' atol' maxGen' = .ok (out', false)) :
    ∃ l l', out = .complex l ∧ out' = .complex l' ∧ ∃ σ : Fin l.length ≃ Fin l'.length, ∀ j,
      (l.get j).1.1 = (l'.get (σ j)).1.1 ∧
      (∃ (Γ : RepArr n (l.get j).1.1) (Γ' : RepArr n (l'.get (σ j)).1.1),
        (∀ g a b, ‖Γ g a b - (l.get j).1.2 g a b‖ ≤ atol) ∧ (∀ g a b, ‖Γ' g a b - (l'.get (σ j)).1.2 g a b‖ ≤ atol') ∧
        Spec.IsIrreducible Γ ∧ IsUnitaryRep Γ ∧ SpaceGroupLaw rots trans k (fun _ _ => 1) Γ ∧
        AreEquivalent (fun i => Complex.exp (-2 * Real.pi * Complex.I * ((∑ a, k a * (m i a : ℝ) : ℝ) : ℂ)) • Γ (π i)) Γ') ∧
      ∀ i, ‖((l'.get (σ j)).1.2 i).trace -
        Complex.exp (-2 * Real.pi * Complex.I * ((∑ a, k a * (m i a : ℝ) : ℝ) : ℂ)) * ((l.get j).1.2 (π i)).trace‖ ≤
          (l.get j).1.1 * (atol + atol') := by
  obtain ⟨l, S, rfl, hS1, hS2, hS3, hS4, hS5⟩ := small_reps_complete hs hk o ho ha ha5 maxGen hrun
  obtain ⟨l', S', rfl, hS1', hS2', hS3', hS4', hS5'⟩ :=
    small_reps_complete (h.isSpaceGroup hs) (h.fixesK hk) o' ho' ha' ha5' maxGen' hrun'
  obtain ⟨σ, hσ⟩ := bijection_of_sum_sq (S := S) (S' := S') (fun {d} Γ => settingRep k π m Γ)
    (fun h => settingRep_equiv h) hS3 (fun Γ hΓ => hS4' _ _ (h.law hs hk (hS2 Γ hΓ).1)
      (fun g => settingRep_unit (hS2 Γ hΓ).2.1 g) (settingRep_irreducible (hS2 Γ hΓ).2.2))
    (fun Γ hΓ => Fin.pos_iff_nonempty.2 (hS2' Γ hΓ).2.2.1) (hS5.trans hS5'.symm)
  rw [List.forall₂_iff_get] at hS1 hS1'
  obtain ⟨q1, q2⟩ := hS1
  obtain ⟨q1', q2'⟩ := hS1'
  refine ⟨l, l', rfl, rfl, (finCongr q1.symm).trans (σ.trans (finCongr q1')), fun j => ?_⟩
  have hb := (σ (Fin.cast q1.symm j)).2
  obtain ⟨A, hA, hA1⟩ := q2 j.1 (by rw [q1]; exact j.2) j.2
  obtain ⟨A', hA', hA1'⟩ := q2' (σ (Fin.cast q1.symm j)).1 hb (by rw [← q1']; exact hb)
  exact setting_pair hA hA' hA1 hA1' (hS2 _ (List.get_mem S _)) (hσ (Fin.cast q1.symm j))

/-- A change of basis and its inverse. -/
def exU : M3 := !![1, 1, 0; 0, 1, 0; 0, 0, 1]
@[inherit_doc exU] def exV : M3 := !![1, -1, 0; 0, 1, 0; 0, 0, 1]

/-- The lattice vectors that compensate the shift of the origin by the first basis vector. -/
def exM (i : Fin 4) (a : Fin 3) : ℤ := ![1, 0, 0] a - ∑ c, rotsI24 (Equiv.swap 1 2 i) a c * ![1, 0, 0] c

/-- The rotations of I222 in another basis and order. -/
def exRots (i : Fin 4) : M3 := exV * rotsI24 (Equiv.swap 1 2 i) * exU

/-- The point W in the other basis, plus a reciprocal lattice vector. -/
noncomputable def exK : V3 := fun a => (∑ b, (exU b a : ℝ) * kW b) + (![1, 0, 0] : Fin 3 → ℤ) a

theorem setting_I222 : ChangeOfSetting rotsI24 (fun _ _ => 0) kW exRots (fun _ _ => 0) exK exU exV
    (fun a => ((![1, 0, 0] : Fin 3 → ℤ) a : ℝ)) (Equiv.swap 1 2) exM ![1, 0, 0] := by
  refine ⟨by decide, fun i => by rw [exRots], fun i a => ?_, fun a => by rw [exK]⟩
  symm
  refine Finset.sum_eq_zero fun b _ => mul_eq_zero_of_right _ ?_
  simp only [exM]
  push_cast
  ring

/-- Non-vacuity of C65: I222 at W by the random method, and after a change of basis, origin and order at an
equivalent k-point by the method of Neto; the lattice vectors are not all zero. -/
example : exM 1 ≠ 0 ∧ ∃ (o o' : Oracles) (out out' : IrrepsOut 4),
    MethodContract o .random 1e-5 rotsI24 ∧ MethodContract o' .neto 1e-5 exRots ∧
    IsSpaceGroup rotsI24 (fun _ _ => 0) ∧ (∀ i, FixesK (rotsI24 i) kW) ∧
    enumerateSmallReps o rotsI24 (fun _ _ => 0) kW false .random 1e-5 1e-8 4 = .ok (out, false) ∧
    enumerateSmallReps o' exRots (fun _ _ => 0) exK false .neto 1e-5 1e-8 4 = .ok (out', false) := by
  refine ⟨by decide, ?_⟩
  obtain ⟨o, out, ho, hrun⟩ := random_I222
  have hs : IsSpaceGroup rotsI24 (fun _ _ => 0) := ⟨rotsI24_group, fun _ _ _ _ _ => ⟨0, by simp⟩⟩
  obtain ⟨random, hr⟩ := exists_richDraws 1e-8 4 4 fun d hd => hd
  have hc₀ := setting_I222.contract pointgroup_I24
  let o' : Oracles := { random := random, eig := fun d _ => (fun _ => 0, 0), eigh := fun d _ => (fun _ => 0, 0),
                        qr := fun _ _ _ => 0,
                        pointgroup := (PgSymbol.pg_222, exV.map (fun x : ℤ => (x : ℝ)) * trafoI24.map fun x : ℤ => (x : ℝ)) }
  have hc : PointgroupContract o'.pointgroup exRots := hc₀
  obtain ⟨L, w, -, hw, hrw⟩ := c18_small_reps_partial (setting_I222.isSpaceGroup hs) (setting_I222.fixesK fixesK_I24)
    (.of_symmorphic fun _ _ => rfl) o' hc 1e-5 (atol := 1e-8) (by norm_num) (by norm_num) 4 false
  obtain ⟨out', hrun'⟩ := hw (hrw hr)
  exact ⟨o, o', out, out', ⟨ho, by norm_num, by norm_num⟩, hc, hs, fixesK_I24, hrun, hrun'⟩

end Spgrep
