/-
C66: characters of the enumerated irreps: both orthogonality relations, number of irreps.
-/
import Verif.Proofs.ClassCount
import Verif.Props.Spinor
import Verif.Props.Exact

set_option linter.unusedSectionVars false

namespace Spgrep

open Spec

variable {n : ℕ} {T : Fin n → Fin n → Fin n} {μ : Fin n → Fin n → ℂ}

/-- Classes and orthogonality relations for a complete list. -/
theorem table_classes (hT : IsGroupTable T) (hμ : ∀ g h, μ g h ≠ 0)
    (hc : ∀ i j k, μ i (T j k) * μ j k = μ (T i j) k * μ i j) {L : List (AnyRep n)} (hL : IsCompleteIrreps T μ L) :
    (∃ r : Fin L.length → Fin n, (∀ a x, T x (r a) = T (r a) x → μ x (r a) = μ (r a) x) ∧
      ∀ g, (∀ x, T x g = T g x → μ x g = μ g x) → ∃! a, ∃ x, T x (r a) = T g x) ∧
    (∀ a b : Fin L.length, ∑ g, ((L.get a).2 g).trace * star ((L.get b).2 g).trace = if a = b then (n : ℂ) else 0) ∧
    (∀ g h, ∑ a : Fin L.length, ((L.get a).2 g).trace * star ((L.get a).2 h).trace =
      ∑ x, if T x g = T h x then μ x g / μ h x else 0) ∧
    ∀ g, (∀ x, T x g = T g x → μ x g = μ g x) ↔ ∃ a : Fin L.length, ((L.get a).2 g).trace ≠ 0 := by
  let _ := TG.group hT
  have hcd : Fintype.card (TG T) = n := Fintype.card_fin n
  have hmem : ∀ i : Fin L.length, L.get i ∈ L := fun i => List.get_mem L i
  have hneq : ∀ i j, AreEquivalent (L.get i).2 (L.get j).2 → i = j := by
    intro i j hij
    have hd := List.pairwise_iff_get.1 hL.inequiv
    rcases lt_trichotomy i j with h1 | h1 | h1
    · exact absurd hij (hd i j h1)
    · exact h1
    · exact absurd (AreEquivalent.symm hij) (hd j i h1)
  have hF : IrrepFamily (G := TG T) (A := Fin L.length) (d := fun i => (L.get i).1) μ
      (fun i => (L.get i).2) :=
    ⟨fun i => hL.rep _ (hmem i), fun i => IsUnitaryRep.isUnit (hL.unitary _ (hmem i)),
      fun i => hL.irred _ (hmem i), hneq⟩
  have hu : ∀ i : Fin L.length, IsUnitaryRep (L.get i).2 := fun i => hL.unitary _ (hmem i)
  have hs : ∑ i : Fin L.length, (L.get i).1 ^ 2 = Fintype.card (TG T) := by
    refine Eq.trans ?_ ((IsCompleteIrreps.sum_sq hT hμ hc hL).trans hcd.symm)
    rw [← List.sum_ofFn]
    refine congrArg List.sum ?_
    conv_rhs => rw [← List.ofFn_get L, List.map_ofFn]
    rfl
  have : Nonempty (Fin L.length) := by
    by_contra hne
    rw [not_nonempty_iff] at hne
    rw [Finset.univ_eq_empty, Finset.sum_empty, hcd] at hs
    exact absurd hs (table_pos hT).ne
  refine ⟨family_classes (G := TG T) hμ hF hu hs, fun a b => ?_, fun g h => family_columns (G := TG T) hμ hF hu hs g h,
    fun g => regular_iff (G := TG T) hμ hF hu hs g⟩
  have h1 := table_char_orthogonality hT hμ (hL.rep _ (hmem a)) (hL.rep _ (hmem b)) (hu a) (hL.irred _ (hmem a))
    (hL.irred _ (hmem b)) (hu b)
  split_ifs with hab
  · subst hab
    exact h1.1 (AreEquivalent.refl _)
  · exact h1.2 fun h => hab (hneq _ _ h)

/-- What a successful run of `enumerate_unitary_irreps` returns, in terms of the unpurified irreps. -/
theorem unitaryIrreps_ok {rots : Fin n → M3} {o : Oracles} {μ : Option (Fin n → Fin n → ℂ)} {method : IrrepMethod}
    {rtol atol : ℝ} {maxGen : ℕ} {out : IrrepsOut n} {w : Bool}
    (h : enumerateUnitaryIrreps o rots μ false method rtol atol maxGen = .ok (out, w)) :
    ∃ L l, rawIrreps o rots (μ.getD fun _ _ => 1) method rtol atol maxGen = .ok (L, w) ∧ out = .complex l ∧
      l.map Prod.fst = L.map fun D => (⟨D.1, purifyIrrepValue D.2 atol⟩ : AnyRep n) := by
  unfold enumerateUnitaryIrreps at h
  simp only [bind, Except.bind, pure, Except.pure] at h
  cases hraw : rawIrreps o rots (μ.getD fun _ _ => 1) method rtol atol maxGen with
  | error e => rw [hraw] at h; cases h
  | ok Lw =>
    obtain ⟨L, w'⟩ := Lw
    rw [hraw] at h
    simp only [Bool.false_eq_true, if_false] at h
    cases hl : withIndicators (L.map fun D => (⟨D.1, purifyIrrepValue D.2 atol⟩ : AnyRep n)) with
    | error e => rw [hl] at h; cases h
    | ok l =>
      rw [hl] at h
      obtain ⟨h1, rfl⟩ := Prod.mk.inj (Except.ok.inj h)
      exact ⟨L, l, rfl, h1.symm, withIndicators_fst hl⟩

theorem cayley_mul_iff {rots : Fin n → M3} (h : EnumeratesGroup rots) (hT : getCayleyTable rots = .ok T) (a b c d : Fin n) :
    rots a * rots b = rots c * rots d ↔ T a b = T c d := by
  rw [← (cayley_none_spec hT a b).1, ← (cayley_none_spec hT c d).1]
  exact h.1.eq_iff

/-- **C66.** For every group of rotations, every unit-modulus cocycle `μ` (none: all ones), both methods and all random
draws: if `enumerate_unitary_irreps` returns without warning, the number of returned arrays is the number of conjugacy
classes of elements that commute with their centralizers in the twisted sense (`r` picks one element of each class), and
the arrays are within `atol` of families `S` with this multiplication law whose characters satisfy both orthogonality
relations and vanish exactly on the other elements. -/
theorem c66_characters {rots : Fin n → M3} (h : EnumeratesGroup rots) (hT : getCayleyTable rots = .ok T)
    {μ? : Option (Fin n → Fin n → ℂ)} (hμ : μ = μ?.getD fun _ _ => 1) (hc : IsCocycle T μ) (hn : ∀ g h, ‖μ g h‖ = 1)
    {e : Fin n} (he : rots e = 1) (h1 : μ e e = 1) {o : Oracles} {method : IrrepMethod} {rtol : ℝ}
    (ho : MethodContract o method rtol rots) {atol : ℝ} (ha : 0 < atol) (ha5 : atol ≤ 1 / 5) {maxGen : ℕ}
    {out : IrrepsOut n} (hrun : enumerateUnitaryIrreps o rots μ? false method rtol atol maxGen = .ok (out, false)) :
    ∃ l, out = .complex l ∧
    (∃ r : Fin l.length → Fin n,
      (∀ a x, rots x * rots (r a) = rots (r a) * rots x → μ x (r a) = μ (r a) x) ∧
      ∀ g, (∀ x, rots x * rots g = rots g * rots x → μ x g = μ g x) →
        ∃! a, ∃ x, rots x * rots (r a) = rots g * rots x) ∧
    ∃ S : List (AnyRep n),
      List.Forall₂ (fun Γ x => ∃ A : RepArr n Γ.1, x.1 = ⟨Γ.1, A⟩ ∧ ∀ g i j, ‖Γ.2 g i j - A g i j‖ ≤ atol) S l ∧
      (∀ Γ ∈ S, IsUnitaryRep Γ.2 ∧ ∀ i j k, rots i * rots j = rots k → Γ.2 i * Γ.2 j = μ i j • Γ.2 k) ∧
      (∀ a b : Fin S.length, ∑ g, ((S.get a).2 g).trace * star ((S.get b).2 g).trace = if a = b then (n : ℂ) else 0) ∧
      (∀ g h, ∑ a : Fin S.length, ((S.get a).2 g).trace * star ((S.get a).2 h).trace =
        ∑ x, if rots x * rots g = rots h * rots x then μ x g / μ h x else 0) ∧
      ∀ g, (∀ x, rots x * rots g = rots g * rots x → μ x g = μ g x) ↔ ∃ Γ ∈ S, (Γ.2 g).trace ≠ 0 := by
  obtain ⟨T', hT', -, hTg⟩ := c01_cayley_table_ordinary h
  obtain rfl : T' = T := by rw [hT] at hT'; exact (Except.ok.inj hT').symm
  obtain ⟨L, l, hraw, rfl, hl⟩ := unitaryIrreps_ok hrun
  rw [← hμ] at hraw
  have hL := raw_complete h hT hc hn he h1 ho ha.le hraw
  obtain ⟨k1, k2, k3, k4⟩ := table_classes hTg (ne_zero_of_norm_one hn) hc hL
  have hlen : L.length = l.length := by simpa using (congrArg List.length hl).symm
  simp only [cayley_mul_iff h hT]
  refine ⟨l, rfl, hlen ▸ k1, L, ?_, fun Γ hΓ => ⟨hL.unitary Γ hΓ, fun i j k hk => ?_⟩, k2, k3, fun g => ?_⟩
  · have h3 : List.Forall₂ (fun (D : AnyRep n) (x : AnyRep n) => x = ⟨D.1, purifyIrrepValue D.2 atol⟩) L (l.map Prod.fst) := by
      rw [hl, List.forall₂_map_right_iff, List.forall₂_same]
      exact fun _ _ => rfl
    rw [List.forall₂_map_right_iff] at h3
    exact h3.imp fun D x hx => ⟨_, hx, near_purify D.2 ha ha5⟩
  · have h4 := hL.rep Γ hΓ i j
    rw [h4, show T' i j = k from h.1 (((cayley_none_spec hT i j).1).trans hk)]
  · rw [k4 g]
    constructor
    · rintro ⟨a, ha⟩; exact ⟨_, List.get_mem L a, ha⟩
    · rintro ⟨Γ, hΓ, ht⟩
      obtain ⟨a, rfl⟩ := List.get_of_mem hΓ
      exact ⟨a, ht⟩

theorem regularAt_iff {rots : Fin n → M3} {trans : Fin n → V3} {k : V3} (g : Fin n) : RegularAt rots trans k g ↔
    ∀ x, rots x * rots g = rots g * rots x → getFactorSystem rots trans k x g = getFactorSystem rots trans k g x := by
  refine forall_congr' fun x => imp_congr_right fun _ => ?_
  have h1 := small_law_aux (rots := rots) (trans := trans) (k := k) (i := x) (j := g) (w := 0)
  have h2 := small_law_aux (rots := rots) (trans := trans) (k := k) (i := g) (j := x) (w := 0)
  have hne : expPhase (dot3 k (trans x)) * expPhase (dot3 k (trans g)) ≠ 0 :=
    mul_ne_zero (expPhase_ne_zero _) (expPhase_ne_zero _)
  rw [mul_comm (expPhase (dot3 k (trans g)))] at h2
  have h0 : expPhase (dot3 k 0) ≠ 0 := expPhase_ne_zero _
  have h3 : getFactorSystem rots trans k x g = getFactorSystem rots trans k g x ↔
      expPhase (dot3 k fun y => rotVec (rots x) (trans g) y + trans x y - (0 : V3) y) =
        expPhase (dot3 k fun y => rotVec (rots g) (trans x) y + trans g y - (0 : V3) y) := by
    constructor
    · intro h
      rw [h, h2] at h1
      exact (mul_right_cancel₀ h0 h1).symm
    · intro h
      rw [h, ← h2] at h1
      exact mul_left_cancel₀ hne h1
  rw [h3, expPhase_spec, expPhase_spec, Complex.exp_eq_exp_iff_exists_int]
  have hpi : (2 * Real.pi * Complex.I : ℂ) ≠ 0 := Complex.two_pi_I_ne_zero
  have e : (∑ a, k a * (((∑ b, (rots x a b : ℝ) * trans g b) + trans x a) - ((∑ b, (rots g a b : ℝ) * trans x b) + trans g a))) =
      (dot3 k fun y => rotVec (rots x) (trans g) y + trans x y - (0 : V3) y) -
        dot3 k fun y => rotVec (rots g) (trans x) y + trans g y - (0 : V3) y := by
    unfold dot3 rotVec
    rw [← Finset.sum_sub_distrib]
    refine Finset.sum_congr rfl fun a _ => ?_
    simp only [Pi.zero_apply]
    ring
  rw [e]
  generalize (dot3 k fun y => rotVec (rots x) (trans g) y + trans x y - (0 : V3) y) = p
  generalize (dot3 k fun y => rotVec (rots g) (trans x) y + trans g y - (0 : V3) y) = q
  constructor
  · rintro ⟨m, hm⟩
    refine ⟨-m, ?_⟩
    have : (p : ℂ) = q + m := by rw [← Complex.ofReal_intCast, ← hm]; push_cast; ring
    rw [this]
    push_cast
    ring
  · rintro ⟨m, hm⟩
    refine ⟨-m, ?_⟩
    have h4 : (2 * Real.pi * Complex.I : ℂ) * (p - q + m) = 0 := by linear_combination -hm
    have h5 := (mul_eq_zero.1 h4).resolve_left hpi
    have h6 : ((p - q : ℝ) : ℂ) = ((-m : ℤ) : ℝ) := by push_cast; linear_combination h5
    exact_mod_cast h6

/-- **C66** for small representations: the number of small representations returned without warning is the number of
conjugacy classes of the little co-group that are regular at `k`. -/
theorem c66_small_reps {rots : Fin n → M3} {trans : Fin n → V3} {k : V3} (h : IsSpaceGroup rots trans)
    (hk : ∀ i, FixesK (rots i) k) {o : Oracles} {method : IrrepMethod} {rtol : ℝ} (ho : MethodContract o method rtol rots)
    {atol : ℝ} (ha : 0 < atol) {maxGen : ℕ} {out : IrrepsOut n}
    (hrun : enumerateSmallReps o rots trans k false method rtol atol maxGen = .ok (out, false)) :
    ∃ l, out = .complex l ∧ ∃ r : Fin l.length → Fin n, (∀ a, RegularAt rots trans k (r a)) ∧
      ∀ g, RegularAt rots trans k g → ∃! a, ∃ x, rots x * rots (r a) = rots g * rots x := by
  obtain ⟨T, e, hT, hTg, he, hc, hn, h1⟩ := small_setup h hk
  obtain ⟨L, hraw, hl0, -⟩ := smallReps_ok hrun
  obtain ⟨l, hout, hl⟩ := hl0 rfl
  have hL := raw_complete h.1 hT hc hn he h1 ho ha.le hraw
  obtain ⟨k1, -⟩ := table_classes hTg (ne_zero_of_norm_one hn) hc hL
  have hlen : L.length = l.length := by
    have := congrArg List.length (withIndicators_fst hl)
    unfold smallList at this
    simpa using this.symm
  simp only [regularAt_iff, cayley_mul_iff h.1 hT]
  exact ⟨l, hout, hlen ▸ k1⟩

/-- Non-vacuity of C66: the noncommutative group 23 with trivial factor system and the default tolerance. -/
example : ∃ (o : Oracles) (T : Fin 12 → Fin 12 → Fin 12) (e : Fin 12) (out : IrrepsOut 12),
    MethodContract o .neto 1e-5 rots23 ∧ EnumeratesGroup rots23 ∧ getCayleyTable rots23 = .ok T ∧ rots23 e = 1 ∧
    IsCocycle T (fun _ _ => 1) ∧ enumerateUnitaryIrreps o rots23 none false .neto 1e-5 1e-8 9 = .ok (out, false) := by
  obtain ⟨T, hT, hs, hTg⟩ := c01_cayley_table_ordinary rots23_group
  obtain ⟨random, hr⟩ := exists_richDraws 1e-8 12 9 fun d hd => by
    have : d ≤ 3 := by by_contra h; push Not at h; nlinarith
    nlinarith
  let o : Oracles := { random := random, eig := fun d _ => (fun _ => 0, 0), eigh := fun d _ => (fun _ => 0, 0),
                       qr := fun _ _ _ => 0,
                       pointgroup := (PgSymbol.pg_23, (1 : M3).map fun x : ℤ => (x : ℝ)) }
  obtain ⟨L, w, -, h1, h2⟩ := c64_exact_entries rots23_group hT o pointgroup_23 1e-5 (atol := 1e-8) (by norm_num)
    (by norm_num) 9
  obtain ⟨l, h3, -, h4, h5⟩ := h2 (h1 hr)
  exact ⟨o, T, 0, _, pointgroup_23, rots23_group, hT, by decide +kernel, fun _ _ _ => by simp, h3⟩

/-- Non-vacuity of C66 with a nontrivial factor system: three of the four elements of I222 at W are not regular (the
second and the third rotation commute, their factors differ), so there is only one irrep. -/
example : IsCocycle tblV4 μV4 ∧ (∀ g h, ‖μV4 g h‖ = 1) ∧ rotsI24 1 * rotsI24 2 = rotsI24 2 * rotsI24 1 ∧
    μV4 1 2 ≠ μV4 2 1 :=
  ⟨μV4_cocycle, μV4_norm, by decide +kernel, by simp [μV4, sgnV4]; norm_num⟩

/-- Non-vacuity of C66 for small representations: I222 at W, by the random method. -/
example : ∃ (o : Oracles) (out : IrrepsOut 4), MethodContract o .random 1e-5 rotsI24 ∧
    IsSpaceGroup rotsI24 (fun _ _ => 0) ∧ (∀ i, FixesK (rotsI24 i) kW) ∧
    enumerateSmallReps o rotsI24 (fun _ _ => 0) kW false .random 1e-5 1e-8 4 = .ok (out, false) := by
  obtain ⟨o, out, h1, h2⟩ := random_I222
  exact ⟨o, out, ⟨h1, by norm_num, by norm_num⟩, ⟨rotsI24_group, fun _ _ _ _ _ => ⟨0, by simp⟩⟩, fixesK_I24, h2⟩

/-- The hypothesis on regular elements is restrictive: in I2₁2₁2₁ at W the second operation is not regular. -/
example : ¬ RegularAt rotsI24 transI24 kW 1 := by
  intro h
  obtain ⟨q, hq⟩ := h 2 (by decide +kernel)
  simp [Fin.sum_univ_three, rotsI24, transI24, trans2I24, kW] at hq
  have h2 : (2 : ℤ) * q = 1 := by
    have : (2 : ℝ) * q = 1 := by rw [← hq]; norm_num
    exact_mod_cast this
  omega

end Spgrep
