/-
C114: every representation of a little group is decomposed by the returned small representations.
-/
import Verif.Proofs.Multiplicity
import Verif.Props.Star
import Verif.Props.TensorRun

namespace Spgrep

open Spec Module

variable {n : ℕ} {T : Fin n → Fin n → Fin n} {μ : Fin n → Fin n → ℂ}

section
variable {ι κ : Type*} [Fintype ι] [DecidableEq ι] [Fintype κ] [DecidableEq κ]

/-- Representations with equal characters are equivalent. -/
theorem equiv_of_char (hT : IsGroupTable T) (hμ : ∀ g h, μ g h ≠ 0) (hc : IsCocycle T μ) {L : List (AnyRep n)}
    (hL : IsCompleteIrreps T μ L) {D : Fin n → Matrix ι ι ℂ} (hD : IsProjRep T μ D) (hu : ∀ g, IsUnit (D g))
    {E : Fin n → Matrix κ κ ℂ} (hE : IsProjRep T μ E) (hEu : ∀ g, IsUnit (E g)) (hchar : ∀ g, (D g).trace = (E g).trace) :
    AreEquivalent D E := by
  obtain ⟨m, hm, h1⟩ : ∃ m : Fin L.length → ℕ, m = (fun a => finrank ℂ (homSub D (L.get a).2)) ∧
      AreEquivalent D (blockSum m fun a => (L.get a).2) := ⟨_, rfl, equiv_blockSum hT hμ hc hL hD hu⟩
  obtain ⟨m', hm', h2⟩ : ∃ m : Fin L.length → ℕ, m = (fun a => finrank ℂ (homSub E (L.get a).2)) ∧
      AreEquivalent E (blockSum m fun a => (L.get a).2) := ⟨_, rfl, equiv_blockSum hT hμ hc hL hE hEu⟩
  have hn : (n : ℂ) ≠ 0 := by exact_mod_cast (table_pos hT).ne'
  have h3 : (fun a : Fin L.length => finrank ℂ (homSub D (L.get a).2)) = fun a => finrank ℂ (homSub E (L.get a).2) := by
    funext a
    have e1 := table_sum_char_conj hT hμ hD (hL.rep _ (List.get_mem L a)) (hL.unitary _ (List.get_mem L a))
    have e2 := table_sum_char_conj hT hμ hE (hL.rep _ (List.get_mem L a)) (hL.unitary _ (List.get_mem L a))
    simp_rw [hchar] at e1
    exact_mod_cast mul_left_cancel₀ hn (e1.symm.trans e2)
  obtain rfl : m = m' := hm.trans (h3.trans hm'.symm)
  exact AreEquivalent.trans h1 (AreEquivalent.symm h2)

/-- The multiplicities of the members of a complete list. -/
theorem multiplicities (hT : IsGroupTable T) (hμ : ∀ g h, μ g h ≠ 0) (hc : IsCocycle T μ) {L : List (AnyRep n)}
    (hL : IsCompleteIrreps T μ L) {D : Fin n → Matrix ι ι ℂ} (hD : IsProjRep T μ D) (hu : ∀ g, IsUnit (D g)) :
    ∃ m : Fin L.length → ℕ, AreEquivalent D (blockSum m fun a => (L.get a).2) ∧
      ∑ a, m a * (L.get a).1 = Fintype.card ι ∧
      (∀ a, ∑ g, (D g).trace * star ((L.get a).2 g).trace = (n : ℂ) * m a) ∧
      (∀ g, (D g).trace = ∑ a, (m a : ℂ) * ((L.get a).2 g).trace) ∧
      ∑ g, (D g).trace * star (D g).trace = (n : ℂ) * (∑ a, m a ^ 2 : ℕ) ∧
      (Spec.IsIrreducible D ↔ ∑ a, m a ^ 2 = 1) := by
  have hn : (n : ℂ) ≠ 0 := by exact_mod_cast (table_pos hT).ne'
  obtain ⟨-, horth, -, -⟩ := table_classes hT hμ hc hL
  obtain ⟨m, hm, h1⟩ : ∃ m : Fin L.length → ℕ, m = (fun a => finrank ℂ (homSub D (L.get a).2)) ∧
      AreEquivalent D (blockSum m fun a => (L.get a).2) := ⟨_, rfl, equiv_blockSum hT hμ hc hL hD hu⟩
  have h2 := dim_expand hT hμ hc hL hD hu
  have h3 : ∀ a, ∑ g, (D g).trace * star ((L.get a).2 g).trace = (n : ℂ) * m a := fun a => by
    rw [hm]
    exact table_sum_char_conj hT hμ hD (hL.rep _ (List.get_mem L a)) (hL.unitary _ (List.get_mem L a))
  have h4 : ∀ g, (D g).trace = ∑ a, (m a : ℂ) * ((L.get a).2 g).trace := fun g => by
    rw [hm]
    exact char_expand hT hμ hc hL hD hu g
  have h2' : ∑ a, m a * (L.get a).1 = Fintype.card ι := by rw [hm]; exact h2
  have h5 : ∑ g, (D g).trace * star (D g).trace = (n : ℂ) * (∑ a, m a ^ 2 : ℕ) := by
    calc ∑ g, (D g).trace * star (D g).trace
        = ∑ g, (D g).trace * ∑ a, (m a : ℂ) * star ((L.get a).2 g).trace := by
          refine Finset.sum_congr rfl fun g _ => ?_
          conv_lhs => rw [h4 g]
          rw [star_sum, ← h4 g]
          exact congrArg _ (Finset.sum_congr rfl fun a _ => by rw [star_mul', star_natCast])
      _ = ∑ a, (m a : ℂ) * ∑ g, (D g).trace * star ((L.get a).2 g).trace := by
          simp_rw [Finset.mul_sum]
          rw [Finset.sum_comm]
          exact Finset.sum_congr rfl fun a _ => Finset.sum_congr rfl fun g _ => by ring
      _ = _ := by
          simp_rw [h3]
          push_cast
          rw [Finset.mul_sum]
          exact Finset.sum_congr rfl fun a _ => by ring
  refine ⟨m, h1, h2', h3, h4, h5, fun hi => ?_, fun hs => ?_⟩
  · -- an irreducible representation is a member of the list
    let f := Fintype.equivFin ι
    have hre : AreEquivalent D fun g => (D g).submatrix f.symm f.symm := by
      refine ⟨(1 : Matrix ι ι ℂ).submatrix id f.symm, (1 : Matrix ι ι ℂ).submatrix f.symm id, ?_, ?_, fun g => ?_⟩
      · rw [Matrix.submatrix_mul_equiv (e₂ := f.symm)]; simp
      · rw [← Matrix.submatrix_mul _ _ f.symm id f.symm Function.bijective_id, Matrix.one_mul]
        exact Matrix.submatrix_one_equiv f.symm
      · rw [Matrix.submatrix_mul_equiv (e₂ := f.symm), Matrix.one_mul]
        ext x y
        simp [Matrix.mul_apply, Matrix.one_apply]
    obtain ⟨Γ, hΓ, heq⟩ := hL.complete _ (fun g => (D g).submatrix f.symm f.symm) (fun x y => by
        rw [Matrix.submatrix_mul_equiv, hD x y]
        rfl)
      (fun g => by
        obtain ⟨v, hv⟩ := hu g
        rw [← hv]
        exact (Units.map (Matrix.reindexAlgEquiv ℂ ℂ f).toMulEquiv.toMonoidHom v).isUnit)
      (AreEquivalent.irreducible (AreEquivalent.symm hre) hi)
    obtain ⟨b, rfl⟩ := List.get_of_mem hΓ
    have htr : ∀ g, (D g).trace = ((L.get b).2 g).trace := fun g => AreEquivalent.trace (AreEquivalent.trans hre heq) g
    have hmb : ∀ a, m a = if b = a then 1 else 0 := by
      intro a
      have h6 := h3 a
      simp_rw [htr] at h6
      rw [horth b a] at h6
      apply Nat.cast_injective (R := ℂ)
      apply mul_left_cancel₀ hn
      rw [← h6]
      split <;> simp
    simp [hmb]
  · obtain ⟨b, hb⟩ : ∃ b, ∀ a, m a = if b = a then 1 else 0 := by
      have hex : ∃ b, m b ≠ 0 := by
        by_contra hne
        push Not at hne
        simp [hne] at hs
      obtain ⟨b, hb⟩ := hex
      have h6 := Finset.add_sum_erase Finset.univ (fun a => m a ^ 2) (Finset.mem_univ b)
      have h7 : 1 ≤ m b ^ 2 := Nat.one_le_pow _ _ (Nat.pos_of_ne_zero hb)
      have h8 : ∑ a ∈ Finset.univ.erase b, m a ^ 2 = 0 := by
        omega
      have h9 : m b ^ 2 = 1 := by
        omega
      refine ⟨b, fun a => ?_⟩
      split
      · next h => rw [← h]; exact (Nat.pow_eq_one.1 h9).resolve_right (by norm_num)
      · next h =>
        have := Finset.sum_eq_zero_iff.1 h8 a (Finset.mem_erase.2 ⟨fun hh => h hh.symm, Finset.mem_univ _⟩)
        exact pow_eq_zero_iff (two_ne_zero) |>.1 this
    have htr : ∀ g, (D g).trace = ((L.get b).2 g).trace := fun g => by
      rw [h4 g]
      simp [hb]
    exact AreEquivalent.irreducible (equiv_of_char hT hμ hc hL hD hu (hL.rep _ (List.get_mem L b))
      (IsUnitaryRep.isUnit (hL.unitary _ (List.get_mem L b))) htr) (hL.irred _ (List.get_mem L b))

end

/-- The list `L` decomposes all representations of the operations at `k` with spin factors `z`: up to `ε` it consists of
irreducible unitary families `S`, and every family `E` of invertible matrices with the multiplication law of the operations is
equivalent to a direct sum of members of `S`.  The multiplicities are those that the characters of the matrices in `L` give up
to an error that vanishes with `ε`. -/
def DecomposesAll (rots : Fin n → M3) (trans : Fin n → V3) (k : V3) (z : Fin n → Fin n → ℂ) (L : List (AnyRep n)) (ε : ℝ) :
    Prop :=
  ∃ (S : List (AnyRep n)) (hl : S.length = L.length), List.Forall₂ (NearRep ε) S L ∧
    (∀ a : Fin S.length, (L.get (a.cast hl)).1 = (S.get a).1 ∧
      ∀ g, ‖((L.get (a.cast hl)).2 g).trace - ((S.get a).2 g).trace‖ ≤ (S.get a).1 * ε) ∧
    (∀ Γ ∈ S, SpaceGroupLaw rots trans k z Γ.2 ∧ IsUnitaryRep Γ.2 ∧ Spec.IsIrreducible Γ.2) ∧
    ∀ (e : ℕ) (E : RepArr n e), SpaceGroupLaw rots trans k z E → (∀ g, IsUnit (E g)) →
      ∃ m : Fin S.length → ℕ, AreEquivalent E (blockSum m fun a => (S.get a).2) ∧
        ∑ a, m a * (S.get a).1 = e ∧
        (∀ a, ‖(∑ g, (E g).trace * star ((L.get (a.cast hl)).2 g).trace) / n - m a‖ ≤ e * ((S.get a).1 * ε)) ∧
        (∀ g, ‖(E g).trace - ∑ a, (m a : ℂ) * ((L.get (a.cast hl)).2 g).trace‖ ≤ e * ε) ∧
        (Spec.IsIrreducible E ↔ ∑ a, m a ^ 2 = 1)

theorem unitary_trace_le {d : ℕ} {D : RepArr n d} (h : IsUnitaryRep D) (g : Fin n) : ‖(D g).trace‖ ≤ d := by
  have := norm_sum_le (Finset.univ : Finset (Fin d)) fun i => D g i i
  refine this.trans ((Finset.sum_le_sum fun i _ => unitary_entry_le h g i i).trans ?_)
  simp

theorem complete_decomposes {rots : Fin n → M3} (h : EnumeratesGroup rots) {trans : Fin n → V3} {k : V3}
    {z : Fin n → Fin n → ℂ} (hz : ∀ i j, ‖z i j‖ = 1) {S L : List (AnyRep n)} (hS : IsCompleteSmall rots trans k z S) {ε : ℝ}
    (hnear : List.Forall₂ (NearRep ε) S L) : DecomposesAll rots trans k z L ε := by
  obtain ⟨T, hT, -, hTg⟩ := c01_cayley_table_ordinary h
  have hC := hS.irreps h hT
  have hμ := ne_zero_of_norm_one (smallFactor_norm (rots := rots) (trans := trans) (k := k) (T := T) hz)
  have hpos := table_pos hTg
  have hc : IsCocycle T (smallFactor rots trans k z T) := by
    have hne : S ≠ [] := by
      rintro rfl
      have := hS.sum_sq
      simp at this
      omega
    obtain ⟨Γ, hΓ⟩ := List.exists_mem_of_ne_nil S hne
    have := (hC.irred Γ hΓ).1
    exact cocycle_of_units hTg (hC.rep Γ hΓ) (IsUnitaryRep.isUnit (hC.unitary Γ hΓ))
  have hl := hnear.length_eq
  have key : ∀ a : Fin S.length, (L.get (a.cast hl)).1 = (S.get a).1 ∧
      ∀ g, ‖((L.get (a.cast hl)).2 g).trace - ((S.get a).2 g).trace‖ ≤ (S.get a).1 * ε := by
    intro a
    obtain ⟨-, hget⟩ := List.forall₂_iff_get.1 hnear
    obtain ⟨F, h1, h2⟩ := hget a a.2 (a.cast hl).2
    have h3 : L.get (a.cast hl) = ⟨(S.get a).1, F⟩ := h1
    rw [h3]
    refine ⟨rfl, fun g => ?_⟩
    rw [norm_sub_rev]
    exact trace_near fun i j => h2 g i j
  refine ⟨S, hl, hnear, key, hS.law, fun e E hE hu => ?_⟩
  obtain ⟨m, m1, m2, m3, m4, -, m6⟩ := multiplicities hTg hμ hc hC ((small_proj h hT).1 hE) hu
  rw [Fintype.card_fin] at m2
  have hEle : ∀ g, ‖(E g).trace‖ ≤ e := by
    intro g
    rw [m4 g]
    refine (norm_sum_le _ _).trans ?_
    have h1 : (e : ℝ) = ∑ a, (m a : ℝ) * (S.get a).1 := by rw [← m2]; push_cast; rfl
    rw [h1]
    refine Finset.sum_le_sum fun a _ => ?_
    rw [norm_mul, Complex.norm_natCast]
    exact mul_le_mul_of_nonneg_left (unitary_trace_le (hC.unitary _ (List.get_mem S a)) g) (Nat.cast_nonneg _)
  refine ⟨m, m1, m2, fun a => ?_, fun g => ?_, m6⟩
  · have hn : (n : ℂ) ≠ 0 := by exact_mod_cast hpos.ne'
    have h1 : (∑ g, (E g).trace * star ((L.get (a.cast hl)).2 g).trace) / n - m a =
        (∑ g, (E g).trace * star (((L.get (a.cast hl)).2 g).trace - ((S.get a).2 g).trace)) / n := by
      simp only [star_sub, mul_sub, Finset.sum_sub_distrib, m3 a]
      field_simp
    rw [h1, norm_div, Complex.norm_natCast, div_le_iff₀ (by exact_mod_cast hpos)]
    refine (norm_sum_le _ _).trans ?_
    calc _ ≤ ∑ _g : Fin n, (e : ℝ) * ((S.get a).1 * ε) := Finset.sum_le_sum fun g _ => by
          rw [norm_mul, norm_star]
          exact mul_le_mul (hEle g) ((key a).2 g) (norm_nonneg _) (Nat.cast_nonneg _)
      _ = _ := by simp; ring
  · rw [m4 g, ← Finset.sum_sub_distrib]
    refine (norm_sum_le _ _).trans ?_
    have h1 : (e : ℝ) * ε = ∑ a, (m a : ℝ) * ((S.get a).1 * ε) := by
      rw [← m2]; push_cast; rw [Finset.sum_mul]
      exact Finset.sum_congr rfl fun a _ => by ring
    rw [h1]
    refine Finset.sum_le_sum fun a _ => ?_
    rw [← mul_sub, norm_mul, Complex.norm_natCast, norm_sub_rev]
    exact mul_le_mul_of_nonneg_left ((key a).2 g) (Nat.cast_nonneg _)

/-- **C114.** What `enumerate_small_representations` returns without a warning decomposes every representation of the little
group (displacements of atoms, orbitals, products of representations and so on), by the usual formula for multiplicities. -/
theorem c114_decomposition {rots : Fin n → M3} {trans : Fin n → V3} {k : V3} (h : IsSpaceGroup rots trans)
    (hk : ∀ i, FixesK (rots i) k) {o : Oracles} {method : IrrepMethod} {rtol : ℝ} (ho : MethodContract o method rtol rots)
    {atol : ℝ} (ha : 0 < atol) (ha5 : atol ≤ 1 / 5) {maxGen : ℕ} {out : IrrepsOut n}
    (hrun : enumerateSmallReps o rots trans k false method rtol atol maxGen = .ok (out, false)) :
    DecomposesAll rots trans k (fun _ _ => 1) out.irreps atol := by
  obtain ⟨l, S, rfl, h1, h2, h3, h4, h5⟩ := small_reps_complete h hk o ho ha ha5 maxGen hrun
  exact complete_decomposes h.1 (by simp) ⟨h2, h3, h4, h5⟩ (List.forall₂_map_right_iff.2 h1)

/-- **C114** for `get_spacegroup_irreps_from_primitive_symmetry`, at every k-point without near misses. -/
theorem c114_primitive {rots : Fin n → M3} {trans : Fin n → V3} {k : V3} (h : IsSpaceGroup rots trans) {o : Oracles}
    {method : IrrepMethod} {rtol atol : ℝ} (ha : 0 < atol) (ha5 : atol ≤ 1 / 5) (hnm : NoNearMiss 1 rots k atol)
    (ho : MethodContract o method rtol fun i => rots ((littleMapping rots k atol).get i)) {maxGen : ℕ}
    {M : List (Fin n)} {out : IrrepsOut M.length}
    (hrun : irrepsFromPrimitive o rots trans k false method rtol atol maxGen = .ok ⟨M, out, false⟩) :
    (∀ i, i ∈ M ↔ FixesK (rots i) k) ∧
    DecomposesAll (fun i => rots (M.get i)) (fun i => trans (M.get i)) k (fun _ _ => 1) out.irreps atol := by
  obtain ⟨rfl, e1⟩ := primitive_ok hrun
  have hM := little_lists ha.le hnm
  exact ⟨hM.2, c114_decomposition (little_spaceGroup h ha.le hnm) (fun i => (hM.2 _).1 (List.get_mem _ i)) ho ha ha5 e1⟩

/-- **C114** for `get_spacegroup_spinor_irreps_from_primitive_symmetry`: the representations with the returned spin factors. -/
theorem c114_spinor {rots : Fin n → M3} {trans : Fin n → V3} {k : V3} (h : IsSpaceGroup rots trans) {o : Oracles}
    (he : SymmEigContract o.eig) {L : R3} (hL : L.det ≠ 0) (hm : ∀ i, PreservesMetric L (rots i))
    {method : IrrepMethod} {rtol atol : ℝ} (ha : 0 < atol) (ha5 : atol ≤ 1 / 5) (hnm : NoNearMiss 1 rots k atol)
    (ho : MethodContract o method rtol fun i => rots ((littleMapping rots k atol).get i)) {maxGen : ℕ}
    {M : List (Fin n)} {l : List (AnyRep M.length)} {z : Fin M.length → Fin M.length → ℂ}
    {U : Fin M.length → Matrix (Fin 2) (Fin 2) ℂ}
    (hrun : spinorIrrepsFromPrimitive o L rots trans k method rtol atol maxGen = .ok ⟨M, (l, z, U), false⟩) :
    (∀ i, i ∈ M ↔ FixesK (rots i) k) ∧
    DecomposesAll (fun i => rots (M.get i)) (fun i => trans (M.get i)) k z l atol := by
  obtain ⟨rfl, e1⟩ := spinor_primitive_ok hrun
  have hM := little_lists ha.le hnm
  have hG := little_spaceGroup h ha.le hnm
  obtain ⟨hz, S, h1, h2, h3, h4, h5⟩ := c45_spinor_small_reps hG (fun i => (hM.2 _).1 (List.get_mem _ i)) he hL
    (fun i => hm _) ho ha ha5 e1
  obtain ⟨z', U', hz', -, hsign, -⟩ := c44_spinor_factor_system he hL hG.1 fun i => hm _
  rw [hz] at hz'
  obtain ⟨rfl, rfl⟩ := Prod.mk.inj (Except.ok.inj hz')
  exact ⟨hM.2, complete_decomposes hG.1 (fun i j => by rcases hsign i j with h | h <;> simp [h]) ⟨h2, h3, h4, h5⟩ h1⟩

/-- Non-vacuity of C114: the group 23 at `(1/4, 0, 0)`, with and without spin, and the action of the little group on vectors,
which is reducible, meets the hypotheses on `E`. -/
example : ∃ (o : Oracles) (M : List (Fin 12)) (out : IrrepsOut M.length) (l : List (AnyRep M.length)) (z : _) (U : _),
    irrepsFromPrimitive o rots23 (fun _ _ => 0) (kAxis 1 0) false .neto 1e-5 1e-8 9 = .ok ⟨M, out, false⟩ ∧
    DecomposesAll (fun i => rots23 (M.get i)) (fun _ _ => 0) (kAxis 1 0) (fun _ _ => 1) out.irreps 1e-8 ∧
    SpaceGroupLaw (fun i => rots23 (M.get i)) (fun _ _ => 0) (kAxis 1 0) (fun _ _ => 1) (repOfRots fun i => rots23 (M.get i)) ∧
    (∀ i, IsUnit (repOfRots (fun i => rots23 (M.get i)) i)) ∧
    spinorIrrepsFromPrimitive o 1 rots23 (fun _ _ => 0) (kAxis 1 0) .neto 1e-5 1e-8 9 = .ok ⟨M, (l, z, U), false⟩ ∧
    DecomposesAll (fun i => rots23 (M.get i)) (fun _ _ => 0) (kAxis 1 0) z l 1e-8 := by
  obtain ⟨o, he, hc, ⟨M, out, hrun⟩, M', l, z, U, hrun'⟩ := run_axis (t := 1) (.inl rfl) 0 (atol := 1e-8) (by norm_num)
    (by norm_num)
  have hnm := noMiss23 1 0 (atol := 1e-8) (by norm_num) (by norm_num)
  obtain rfl : M = M' := (primitive_ok hrun).1.trans (spinor_primitive_ok hrun').1.symm
  refine ⟨o, M, out, l, z, U, hrun, (c114_primitive group23 (by norm_num) (by norm_num) hnm hc hrun).2, fun i j p hp => ?_,
    fun i => ?_, hrun', (c114_spinor group23 he (by rw [Matrix.det_one]; exact one_ne_zero) metric23 (by norm_num) (by norm_num)
      hnm hc hrun').2⟩
  · have h1 := congrArg (fun A : M3 => A.map (Int.castRingHom ℂ)) hp
    simp only [Matrix.map_mul] at h1
    simp only [mul_zero, Finset.sum_const_zero, add_zero, sub_zero, Complex.ofReal_zero, Complex.exp_zero, one_smul, mul_one]
    exact h1
  · obtain ⟨v, hv⟩ := enum_inv rots23_group (M.get i)
    have h1 := congrArg (fun A : M3 => A.map (Int.castRingHom ℂ)) hv
    simp only [Matrix.map_mul] at h1
    rw [Matrix.map_one _ (map_zero _) (map_one _)] at h1
    exact IsUnit.of_mul_eq_one _ h1

end Spgrep
