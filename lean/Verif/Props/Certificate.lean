/-
C99: what passing the checks of the test suite implies.

The tests of spgrep check a list of irreps by `is_unitary`, `is_representation` (or `check_spacegroup_representation`),
`is_equivalent_irrep` on all pairs of characters, and the sum of the squares of the dimensions (tests/test_irreps.py:67-77,
186-191).  A list that passes is, up to explicit errors, a complete list of unitary irreps, no matter how it was computed.
-/
import Verif.Props.Checkers
import Verif.Props.Rounding
import Verif.Props.SmallReal

namespace Spgrep

open Spec

variable {n : ℕ}

/-- Two arrays of the same shape whose entries differ by at most `ε`. -/
def NearRep (ε : ℝ) (X Y : AnyRep n) : Prop :=
  ∃ F : RepArr n X.1, Y = ⟨X.1, F⟩ ∧ ∀ g i j, ‖X.2 g i j - F g i j‖ ≤ ε

/-- is_unique_irreps (tests/test_irreps.py:186-191): `is_equivalent_irrep` holds exactly for equal positions. -/
def IsUniqueIrreps (L : List (AnyRep n)) : Prop :=
  ∀ i j : Fin L.length, IsEquivalentIrrep (List.ofFn (getCharacter (L.get i).2))
    (List.ofFn (getCharacter (L.get j).2)) ↔ i = j

theorem dim_le {d : ℕ} (hn : 0 < n) (h1 : n * d ^ 3 ≤ 15000) : d ≤ 24 := by
  by_contra hlt
  have h2 : 25 ^ 3 ≤ d ^ 3 := Nat.pow_le_pow_left (by omega) 3
  have h3 : 1 * d ^ 3 ≤ n * d ^ 3 := Nat.mul_le_mul_right _ hn
  omega

theorem star_expPhase_mul (x : ℝ) : star (expPhase x) * expPhase x = 1 := by
  rw [mul_comm, Complex.star_def, Complex.mul_conj, Complex.normSq_eq_norm_sq, norm_expPhase]; simp

/-- The common part: unitary up to the tolerance, products up to `1.02·10⁻⁵`, the tests on the characters. -/
theorem certificate_core {T : Fin n → Fin n → Fin n} {μ : Fin n → Fin n → ℂ} (hT : IsGroupTable T) (hμc : IsCocycle T μ)
    (hμ : ∀ g h, ‖μ g h‖ = 1) {L : List (AnyRep n)} (hdim : ∀ X ∈ L, n * X.1 ^ 3 ≤ 15000)
    (hunit : ∀ X ∈ L, IsUnitaryTest X.2)
    (hrep : ∀ X ∈ L, ∀ g h i j, ‖(X.2 g * X.2 h) i j - μ g h * X.2 (T g h) i j‖ ≤ 1.02e-5)
    (huniq : IsUniqueIrreps L) (hsum : (L.map fun X => X.1 ^ 2).sum = n) :
    ∃ L' : List (AnyRep n), IsCompleteIrreps T μ L' ∧ List.Forall₂ (fun X Y => NearRep (1.3e-4 * X.1) X Y) L L' := by
  have hn := table_pos hT
  have hn1 : (1 : ℝ) ≤ n := by exact_mod_cast hn
  have hn0 : (n : ℂ) ≠ 0 := by exact_mod_cast hn.ne'
  have hmem : ∀ i : Fin L.length, L.get i ∈ L := fun i => List.get_mem L i
  have hd24 : ∀ X ∈ L, X.1 ≤ 24 := fun X hX => dim_le hn (hdim X hX)
  have hF : ∀ i : Fin L.length, ∃ F : RepArr n (L.get i).1, IsProjRep T μ F ∧ IsUnitaryRep F ∧
      (∀ g a b, ‖(L.get i).2 g a b - F g a b‖ ≤ 1.3e-4 * (L.get i).1) ∧
      ∀ g, ‖((L.get i).2 g).trace - (F g).trace‖ ≤ 1.53e-5 * (L.get i).1 ^ 2 := by
    intro i
    have hd := (hd24 _ (hmem i)).trans (by norm_num : 24 ≤ 48)
    exact near_unitary hT hμc hμ (hunit _ (hmem i)) hd (hrep _ (hmem i))
  choose F hF1 hF2 hF3 hF4 using hF
  -- errors of the characters of two members of the list
  have herr : ∀ i j : Fin L.length, ∃ ε : ℝ,
      (∀ g, ‖getCharacter (L.get i).2 g - (F i g).trace‖ ≤ ε) ∧
      (∀ g, ‖getCharacter (L.get j).2 g - (F j g).trace‖ ≤ ε) ∧
      (n : ℝ) * (ε * ((L.get i).1 + (L.get j).1 + ε)) < 1 / 2 := by
    intro i j
    set p := max (L.get i).1 (L.get j).1 with hp
    have hip : ((L.get i).1 : ℝ) ≤ p := by exact_mod_cast le_max_left _ _
    have hjp : ((L.get j).1 : ℝ) ≤ p := by exact_mod_cast le_max_right _ _
    have hpn : n * p ^ 3 ≤ 15000 := by
      rcases max_choice (L.get i).1 (L.get j).1 with h | h
      · rw [hp, h]; exact hdim _ (hmem i)
      · rw [hp, h]; exact hdim _ (hmem j)
    have hp24 : p ≤ 24 := max_le (hd24 _ (hmem i)) (hd24 _ (hmem j))
    have hpn' : (n : ℝ) * p ^ 3 ≤ 15000 := by exact_mod_cast hpn
    have hp24' : (p : ℝ) ≤ 24 := by exact_mod_cast hp24
    have hp0 : (0 : ℝ) ≤ p := Nat.cast_nonneg p
    refine ⟨1.53e-5 * p ^ 2, fun g => (hF4 i g).trans ?_, fun g => (hF4 j g).trans ?_, ?_⟩
    · gcongr
    · gcongr
    · have h1 : (n : ℝ) * (1.53e-5 * p ^ 2 * ((L.get i).1 + (L.get j).1 + 1.53e-5 * p ^ 2)) ≤
          n * (1.53e-5 * p ^ 2 * (p + p + 1.53e-5 * p ^ 2)) := by gcongr
      have h2 : (n : ℝ) * (1.53e-5 * p ^ 2 * (p + p + 1.53e-5 * p ^ 2)) =
          (n * p ^ 3) * (3.06e-5 + 1.53e-5 * 1.53e-5 * p) := by ring
      have h3 : (n : ℝ) * p ^ 3 * (3.06e-5 + 1.53e-5 * 1.53e-5 * p) ≤ 15000 * (3.06e-5 + 1.53e-5 * 1.53e-5 * 24) := by
        gcongr
      rw [h2] at h1
      refine lt_of_le_of_lt (h1.trans h3) (by norm_num)
  have hirr : ∀ i, Spec.IsIrreducible (F i) := by
    intro i
    obtain ⟨ε, e1, e2, e3⟩ := herr i i
    have h1 := char_sum_near (hF2 i) (hF2 i) e1 e2 e3
    have h2 := (huniq i i).2 rfl
    rw [isEquivalentIrrep_ofFn] at h2
    rw [table_irreducible_iff hT (ne_zero_of_norm_one hμ) (hF1 i) (hF2 i)]
    have h3 := table_sum_char_conj hT (ne_zero_of_norm_one hμ) (hF1 i) (hF1 i) (hF2 i)
    rw [h3] at h1 ⊢
    set r := Module.finrank ℂ (homSub (F i) (F i))
    set S := ∑ g, star (getCharacter (L.get i).2 g) * getCharacter (L.get i).2 g
    have h4 : |S.re - n * r| < 1 / 2 := by
      have := Complex.abs_re_le_norm (S - (n : ℂ) * r)
      have h5 : (S - (n : ℂ) * r).re = S.re - n * r := by simp
      rw [h5] at this
      linarith
    have h5 : rint S.re = n := by
      have := congrArg Complex.re h2
      simp only [rintC, Complex.natCast_re] at this
      exact_mod_cast this
    have h6 := abs_sub_rint_le S.re
    rw [h5] at h6
    push_cast at h6
    have h7 : |(n : ℝ) * r - n| < 1 := by
      have : (n : ℝ) * r - n = (S.re - n) - (S.re - n * r) := by ring
      rw [this]
      exact lt_of_le_of_lt (abs_sub _ _) (by linarith)
    have h8 : r = 1 := by
      by_contra hr
      have h9 : |(n : ℤ) * r - n| < 1 := by exact_mod_cast h7
      have h10 : (n : ℤ) * r - n = 0 := Int.abs_lt_one_iff.1 h9
      have h11 : (n : ℤ) * (r - 1) = 0 := by linarith
      rcases mul_eq_zero.1 h11 with h | h
      · exact hn.ne' (by exact_mod_cast h)
      · exact hr (by omega)
    rw [h8]
    simp
  refine ⟨List.ofFn fun i => ⟨(L.get i).1, F i⟩, isCompleteIrreps_of_card hT (ne_zero_of_norm_one hμ) ?_ ?_ ?_ ?_ ?_, ?_⟩
  · intro X hX
    obtain ⟨i, rfl⟩ := (List.mem_ofFn' _ _).1 hX
    exact hF1 i
  · intro X hX
    obtain ⟨i, rfl⟩ := (List.mem_ofFn' _ _).1 hX
    exact hF2 i
  · intro X hX
    obtain ⟨i, rfl⟩ := (List.mem_ofFn' _ _).1 hX
    exact hirr i
  · rw [List.pairwise_ofFn]
    intro i j hij heq
    obtain ⟨ε, e1, e2, e3⟩ := herr i j
    have h1 := (c97_character_test hT hμ (hF1 i) (hF1 j) (hF2 i) (hF2 j) (hirr i) (hirr j) e1 e2 e3).2 heq
    exact hij.ne ((huniq i j).1 h1)
  · rw [List.map_ofFn]
    conv_rhs => rw [← hsum]
    congr 1
    conv_rhs => rw [← List.ofFn_get L, List.map_ofFn]
    rfl
  · rw [List.forall₂_iff_get]
    refine ⟨by simp, fun i h1 h2 => ⟨F ⟨i, h1⟩, by simp, hF3 ⟨i, h1⟩⟩⟩

/-- **C99.** A list of arrays that passes the checks is near a complete list of inequivalent unitary irreps. -/
theorem c99_certificate {T : Fin n → Fin n → Fin n} {μ : Fin n → Fin n → ℂ} (hT : IsGroupTable T) (hμc : IsCocycle T μ)
    (hμ : ∀ g h, ‖μ g h‖ = 1) {L : List (AnyRep n)} (hdim : ∀ X ∈ L, n * X.1 ^ 3 ≤ 15000)
    (hunit : ∀ X ∈ L, IsUnitaryTest X.2) (hrep : ∀ X ∈ L, IsRepresentationTest X.2 T (some μ) 1e-5 1e-8)
    (huniq : IsUniqueIrreps L) (hsum : (L.map fun X => X.1 ^ 2).sum = n) :
    ∃ L' : List (AnyRep n), IsCompleteIrreps T μ L' ∧ List.Forall₂ (fun X Y => NearRep (1.3e-4 * X.1) X Y) L L' :=
  certificate_core hT hμc hμ hdim hunit
    (fun X hX => test_error hμ (hunit X hX) ((dim_le (table_pos hT) (hdim X hX)).trans (by norm_num)) (hrep X hX)) huniq hsum

/-- The phases of the translations cancel in the tests on the characters. -/
theorem unique_phase (trans : Fin n → V3) (k : V3) (M : List (AnyRep n)) :
    IsUniqueIrreps (M.map fun Y => (⟨Y.1, phaseMul trans k Y.2⟩ : AnyRep n)) ↔ IsUniqueIrreps M := by
  set L := M.map fun Y => (⟨Y.1, phaseMul trans k Y.2⟩ : AnyRep n) with hL
  have hlen : M.length = L.length := by rw [hL, List.length_map]
  have hget : ∀ i : Fin M.length, L.get (i.cast hlen) = ⟨(M.get i).1, phaseMul trans k (M.get i).2⟩ := by
    intro i
    simp only [List.get_eq_getElem, Fin.val_cast]
    rw [List.getElem_of_eq hL, List.getElem_map]
  have h4 : ∀ i j : Fin M.length, IsEquivalentIrrep (List.ofFn (getCharacter (L.get (i.cast hlen)).2))
      (List.ofFn (getCharacter (L.get (j.cast hlen)).2)) ↔ IsEquivalentIrrep (List.ofFn (getCharacter (M.get i).2))
      (List.ofFn (getCharacter (M.get j).2)) := by
    intro i j
    rw [hget, hget, isEquivalentIrrep_ofFn, isEquivalentIrrep_ofFn]
    have : ∀ g, star (getCharacter (phaseMul trans k (M.get i).2) g) * getCharacter (phaseMul trans k (M.get j).2) g =
        star (getCharacter (M.get i).2 g) * getCharacter (M.get j).2 g := by
      intro g
      have hc : ∀ l : Fin M.length, getCharacter (phaseMul trans k (M.get l).2) g =
          expPhase (dot3 k (trans g)) * getCharacter (M.get l).2 g := fun l => Matrix.trace_smul _ _
      rw [hc, hc, star_mul]
      linear_combination (star (getCharacter (M.get i).2 g) * getCharacter (M.get j).2 g) * star_expPhase_mul _
    simp only [this]
  constructor
  · intro h i j
    rw [← h4, h, Fin.cast_inj]
  · intro h i j
    have h5 := h4 (i.cast hlen.symm) (j.cast hlen.symm)
    rw [h, Fin.cast_inj] at h5
    exact h5

/-- **C99 for space groups.** A list of arrays that passes `check_spacegroup_representation` and the other checks is near a
complete list of small representations at `k`: the phases of the translations times a complete list of irreps for the
factor system. -/
theorem c99_spacegroup {rots : Fin n → M3} {trans : Fin n → V3} {k : V3} (h : IsSpaceGroup rots trans)
    (hk : ∀ i, FixesK (rots i) k) {z : Fin n → Fin n → ℂ} (hz : ∀ i j, ‖z i j‖ = 1) {T : Fin n → Fin n → Fin n}
    (hT : getCayleyTable rots = .ok T) (hzc : IsCocycle T z) {L : List (AnyRep n)} (hdim : ∀ X ∈ L, n * X.1 ^ 3 ≤ 15000)
    (hunit : ∀ X ∈ L, IsUnitaryTest X.2) (hrep : ∀ X ∈ L, checkSpacegroupRep rots trans k X.2 (some z) = .ok true)
    (huniq : IsUniqueIrreps L) (hsum : (L.map fun X => X.1 ^ 2).sum = n) :
    ∃ L' : List (AnyRep n), IsCompleteIrreps T (fun i j => z i j * getFactorSystem rots trans k i j) L' ∧
      (∀ Y ∈ L', SpaceGroupLaw rots trans k z (phaseMul trans k Y.2)) ∧
      List.Forall₂ (fun X Y => NearRep (1.3e-4 * X.1) X ⟨Y.1, phaseMul trans k Y.2⟩) L L' := by
  obtain ⟨hg, hFc, hFn⟩ := spacegroup_factor h hk hz hT hzc
  have hn := table_pos hg
  have hX : ∀ X : {X // X ∈ L}, ∃ D : RepArr n X.1.1, phaseMul trans k D = X.1.2 ∧ IsUnitaryTest D ∧
      ∀ i j a b, ‖(D i * D j) a b - z i j * getFactorSystem rots trans k i j * D (T i j) a b‖ ≤ 1.02e-5 :=
    fun X => spacegroup_test h.1 hT (hunit _ X.2) ((dim_le hn (hdim _ X.2)).trans (by norm_num)) (hrep _ X.2)
  choose D hD1 hD2 hD3 using hX
  set M : List (AnyRep n) := L.attach.map fun X => ⟨X.1.1, D X⟩ with hM
  have hML : M.map (fun Y => (⟨Y.1, phaseMul trans k Y.2⟩ : AnyRep n)) = L := by
    rw [hM, List.map_map]
    conv_rhs => rw [← List.attach_map_subtype_val L]
    refine List.map_congr_left fun X _ => ?_
    show (⟨X.1.1, phaseMul trans k (D X)⟩ : AnyRep n) = X.1
    rw [hD1]
  have hMmem : ∀ Y ∈ M, ∃ X : {X // X ∈ L}, Y = ⟨X.1.1, D X⟩ := by
    intro Y hY
    rw [hM, List.mem_map] at hY
    obtain ⟨X, -, rfl⟩ := hY
    exact ⟨X, rfl⟩
  have key : ∃ L' : List (AnyRep n), IsCompleteIrreps T (fun i j => z i j * getFactorSystem rots trans k i j) L' ∧
      List.Forall₂ (fun X Y => NearRep (1.3e-4 * X.1) X Y) M L' := by
    refine certificate_core hg hFc hFn ?_ ?_ ?_ ?_ ?_
    · intro Y hY
      obtain ⟨X, rfl⟩ := hMmem Y hY
      exact hdim X.1 X.2
    · intro Y hY
      obtain ⟨X, rfl⟩ := hMmem Y hY
      exact hD2 X
    · intro Y hY
      obtain ⟨X, rfl⟩ := hMmem Y hY
      exact hD3 X
    · exact (unique_phase trans k M).1 (hML.symm ▸ huniq)
    · refine Eq.trans ?_ hsum
      conv_rhs => rw [← hML, List.map_map]
      rfl
  obtain ⟨L', h1, h2⟩ := key
  refine ⟨L', h1, fun Y hY => (c10_small_representation h.1 hT trans k z Y.2).1.1 (h1.rep Y hY), ?_⟩
  rw [← hML, List.forall₂_map_left_iff]
  refine h2.imp fun X Y => ?_
  rintro ⟨F, rfl, hF⟩
  exact ⟨phaseMul trans k F, rfl, fun g i j => by rw [phaseMul_sub_norm]; exact hF g i j⟩

/-- The tests on the characters, for a list near a complete list. -/
theorem unique_near {T : Fin n → Fin n → Fin n} {μ : Fin n → Fin n → ℂ} (hT : IsGroupTable T)
    (hμ : ∀ g h, ‖μ g h‖ = 1) {L L' : List (AnyRep n)} (hL : IsCompleteIrreps T μ L)
    (hdim : ∀ X ∈ L, n * X.1 ^ 3 ≤ 15000) {ε : ℝ} (hε : ∀ X ∈ L, (X.1 : ℝ) * ε ≤ 5e-7) (hε0 : 0 ≤ ε)
    (hnear : List.Forall₂ (NearRep ε) L L') : IsUniqueIrreps L' := by
  have hn := table_pos hT
  obtain ⟨hlen, hget⟩ := List.forall₂_iff_get.1 hnear
  have hX : ∀ i : Fin L'.length, ∃ X ∈ L, X = L.get (i.cast hlen.symm) ∧ ∀ g,
      ‖getCharacter (L'.get i).2 g - (X.2 g).trace‖ ≤ X.1 * ε := by
    intro i
    refine ⟨_, List.get_mem L (i.cast hlen.symm), rfl, fun g => ?_⟩
    obtain ⟨F, h1, h2⟩ := hget i (i.cast hlen.symm).2 i.2
    have h3 : L'.get i = ⟨(L.get (i.cast hlen.symm)).1, F⟩ := h1
    rw [h3]
    have := sum_near (fun a => F g a a) (fun a => (L.get (i.cast hlen.symm)).2 g a a) fun a => by
      rw [norm_sub_rev]; exact h2 g a a
    rw [Fintype.card_fin] at this
    exact this
  intro i j
  obtain ⟨X, hX1, hX2, hX3⟩ := hX i
  obtain ⟨Y, hY1, hY2, hY3⟩ := hX j
  have hXd := dim_le hn (hdim X hX1)
  have hYd := dim_le hn (hdim Y hY1)
  have hXε := hε X hX1
  have hYε := hε Y hY1
  have hX0 : 0 < X.1 := by
    obtain ⟨⟨a⟩, -⟩ := hL.irred X hX1
    exact a.pos
  have hn15 : n ≤ 15000 := le_trans (Nat.le_mul_of_pos_right n (pow_pos hX0 3)) (hdim X hX1)
  have hb : (n : ℝ) * (5e-7 * ((X.1 : ℝ) + Y.1 + 5e-7)) < 1 / 2 := by
    have h1 : (n : ℝ) ≤ 15000 := by exact_mod_cast hn15
    have h2 : (X.1 : ℝ) ≤ 24 := by exact_mod_cast hXd
    have h3 : (Y.1 : ℝ) ≤ 24 := by exact_mod_cast hYd
    calc _ ≤ (15000 : ℝ) * (5e-7 * (24 + 24 + 5e-7)) := by gcongr
      _ < _ := by norm_num
  rw [c97_character_test hT hμ (hL.rep X hX1) (hL.rep Y hY1) (hL.unitary X hX1) (hL.unitary Y hY1) (hL.irred X hX1)
    (hL.irred Y hY1) (fun g => (hX3 g).trans hXε) (fun g => (hY3 g).trans hYε) hb]
  constructor
  · intro heq
    by_contra hne
    have hp := List.pairwise_iff_get.1 hL.inequiv
    subst hX2 hY2
    rcases lt_or_gt_of_ne hne with h | h
    · exact hp (i.cast hlen.symm) (j.cast hlen.symm) h heq
    · exact hp (j.cast hlen.symm) (i.cast hlen.symm) h (AreEquivalent.symm heq)
  · rintro rfl
    rw [hX2, hY2]
    exact ⟨1, 1, by simp, by simp, fun g => by simp⟩

theorem NearRep.map_dim {ε : ℝ} {L L' : List (AnyRep n)} (hnear : List.Forall₂ (NearRep ε) L L') :
    (L'.map fun X => X.1 ^ 2) = L.map fun X => X.1 ^ 2 := by
  induction hnear with
  | nil => rfl
  | cons h _ ih =>
    obtain ⟨F, rfl, -⟩ := h
    simp only [List.map_cons, ih]

/-- **C99, converse.** Every list near a complete list of unitary irreps passes the checks. -/
theorem c99_converse {T : Fin n → Fin n → Fin n} {μ : Fin n → Fin n → ℂ} (hT : IsGroupTable T) (hμc : IsCocycle T μ)
    (hμ : ∀ g h, ‖μ g h‖ = 1) {L L' : List (AnyRep n)} (hL : IsCompleteIrreps T μ L)
    (hdim : ∀ X ∈ L, n * X.1 ^ 3 ≤ 15000) {ε : ℝ} (hε : ∀ X ∈ L, (X.1 : ℝ) * (2 * ε + ε ^ 2) + ε ≤ 1e-8) (hε0 : 0 ≤ ε)
    (hnear : List.Forall₂ (NearRep ε) L L') :
    (∀ X ∈ L', n * X.1 ^ 3 ≤ 15000) ∧ (∀ X ∈ L', IsUnitaryTest X.2) ∧
      (∀ X ∈ L', IsRepresentationTest X.2 T (some μ) 1e-5 1e-8) ∧ IsUniqueIrreps L' ∧
      (L'.map fun X => X.1 ^ 2).sum = n := by
  have hn := table_pos hT
  have hmem : ∀ Y ∈ L', ∃ X ∈ L, NearRep ε X Y := by
    intro Y hY
    obtain ⟨i, rfl⟩ := List.get_of_mem hY
    obtain ⟨hlen, hget⟩ := List.forall₂_iff_get.1 hnear
    exact ⟨L.get (i.cast hlen.symm), List.get_mem _ _, hget i (i.cast hlen.symm).2 i.2⟩
  refine ⟨?_, ?_, ?_, ?_, ?_⟩
  · intro Y hY
    obtain ⟨X, hX, F, rfl, -⟩ := hmem Y hY
    exact hdim X hX
  · intro Y hY
    obtain ⟨X, hX, F, rfl, hF⟩ := hmem Y hY
    exact c98_accepts_unitary (hL.unitary X hX) hF (by linarith [hε X hX])
  · intro Y hY
    obtain ⟨X, hX, F, rfl, hF⟩ := hmem Y hY
    exact c98_accepts hμ (hL.rep X hX) (hL.unitary X hX) hF (by norm_num) (hε X hX)
  · refine unique_near hT hμ hL hdim (fun X hX => ?_) hε0 hnear
    have h1 := hε X hX
    have h2 : (0 : ℝ) ≤ X.1 * ε ^ 2 := by positivity
    linarith
  · exact (congrArg List.sum (NearRep.map_dim hnear)).trans
      (IsCompleteIrreps.sum_sq hT (ne_zero_of_norm_one hμ) hμc hL)

/-- **C99 for space groups, converse.** Every list near a complete list of small representations passes the checks. -/
theorem c99_spacegroup_converse {rots : Fin n → M3} {trans : Fin n → V3} {k : V3} (h : IsSpaceGroup rots trans)
    (hk : ∀ i, FixesK (rots i) k) {z : Fin n → Fin n → ℂ} (hz : ∀ i j, ‖z i j‖ = 1) {T : Fin n → Fin n → Fin n}
    (hT : getCayleyTable rots = .ok T) (hzc : IsCocycle T z) {L L' : List (AnyRep n)}
    (hL : IsCompleteIrreps T (fun i j => z i j * getFactorSystem rots trans k i j) L)
    (hdim : ∀ X ∈ L, n * X.1 ^ 3 ≤ 15000) {ε : ℝ} (hε : ∀ X ∈ L, (X.1 : ℝ) * (2 * ε + ε ^ 2) + ε ≤ 1e-8) (hε0 : 0 ≤ ε)
    (hnear : List.Forall₂ (fun X Y => NearRep ε ⟨X.1, phaseMul trans k X.2⟩ Y) L L') :
    (∀ X ∈ L', n * X.1 ^ 3 ≤ 15000) ∧ (∀ X ∈ L', IsUnitaryTest X.2) ∧
      (∀ X ∈ L', checkSpacegroupRep rots trans k X.2 (some z) = .ok true) ∧ IsUniqueIrreps L' ∧
      (L'.map fun X => X.1 ^ 2).sum = n := by
  obtain ⟨hg, hFc, hFn⟩ := spacegroup_factor h hk hz hT hzc
  set un : AnyRep n → AnyRep n := fun Y => ⟨Y.1, fun i => star (expPhase (dot3 k (trans i))) • Y.2 i⟩ with hun
  have hph : ∀ Y, (⟨(un Y).1, phaseMul trans k (un Y).2⟩ : AnyRep n) = Y := by
    intro Y
    obtain ⟨e, Y⟩ := Y
    refine congrArg (Sigma.mk e) (funext fun i => ?_)
    show expPhase (dot3 k (trans i)) • (star (expPhase (dot3 k (trans i))) • Y i) = Y i
    rw [smul_smul, mul_comm, star_expPhase_mul, one_smul]
  have hback : (L'.map un).map (fun Y => (⟨Y.1, phaseMul trans k Y.2⟩ : AnyRep n)) = L' := by
    rw [List.map_map]
    conv_rhs => rw [← List.map_id L']
    exact List.map_congr_left fun Y _ => hph Y
  have hnear' : List.Forall₂ (NearRep ε) L (L'.map un) := by
    rw [List.forall₂_map_right_iff]
    refine hnear.imp fun X Y => ?_
    rintro ⟨F, rfl, hF⟩
    refine ⟨_, rfl, fun g i j => ?_⟩
    have h3 : phaseMul trans k (un ⟨X.1, F⟩).2 = F := eq_of_heq (Sigma.mk.inj (hph ⟨X.1, F⟩)).2
    have h4 := (phaseMul_sub_norm trans k X.2 (un ⟨X.1, F⟩).2 g i j).symm
    rw [h3] at h4
    exact h4.trans_le (hF g i j)
  obtain ⟨g1, -, -, g4, g5⟩ := c99_converse hg hFc hFn hL hdim hε hε0 hnear'
  have hmem : ∀ Y ∈ L', ∃ X ∈ L, NearRep ε ⟨X.1, phaseMul trans k X.2⟩ Y := by
    intro Y hY
    obtain ⟨i, rfl⟩ := List.get_of_mem hY
    obtain ⟨hlen, hget⟩ := List.forall₂_iff_get.1 hnear
    exact ⟨L.get (i.cast hlen.symm), List.get_mem _ _, hget i (i.cast hlen.symm).2 i.2⟩
  refine ⟨fun Y hY => g1 (un Y) (List.mem_map_of_mem hY), fun Y hY => ?_, fun Y hY => ?_, ?_, ?_⟩
  · obtain ⟨X, hX, F, rfl, hF⟩ := hmem Y hY
    exact c98_accepts_unitary ((c10_small_representation h.1 hT trans k z X.2).2.1.1 (hL.unitary X hX)) hF
      (by linarith [hε X hX])
  · obtain ⟨X, hX, F, rfl, hF⟩ := hmem Y hY
    exact c98_spacegroup_accepts h.1 hT hz ((c10_small_representation h.1 hT trans k z X.2).1.1 (hL.rep X hX))
      ((c10_small_representation h.1 hT trans k z X.2).2.1.1 (hL.unitary X hX)) hF (by norm_num) (hε X hX)
  · rw [← hback]
    exact (unique_phase trans k _).2 g4
  · rw [List.map_map] at g5
    exact g5

/-- The Pauli-like irrep of the Klein four-group, off by up to `10⁻⁹`, passes the checks, and so is near a complete list. -/
example {F : RepArr 4 2} (hF : ∀ g i j, ‖repV4 g i j - F g i j‖ ≤ 1e-9) :
    IsUniqueIrreps [(⟨2, F⟩ : AnyRep 4)] ∧ ∃ L' : List (AnyRep 4), IsCompleteIrreps tblV4 μV4 L' ∧
      List.Forall₂ (fun X Y => NearRep (1.3e-4 * X.1) X Y) [⟨2, F⟩] L' := by
  obtain ⟨h1, h2, h3, h4, h5⟩ := c99_converse (L' := [(⟨2, F⟩ : AnyRep 4)]) tblV4_group μV4_cocycle μV4_norm repV4_complete
    (by simp) (ε := 1e-9) (by simp; norm_num) (by norm_num) (List.Forall₂.cons ⟨F, rfl, hF⟩ List.Forall₂.nil)
  exact ⟨h4, c99_certificate tblV4_group μV4_cocycle μV4_norm h1 h2 h3 h4 h5⟩

/-- The screw group 4_1 at (0,0,1/2): its four small representations, off by up to `10⁻⁹`, pass the checks. -/
example : ∃ (T : Fin 4 → Fin 4 → Fin 4) (L : List (AnyRep 4)), getCayleyTable rotsC4 = .ok T ∧
    IsCompleteIrreps T (fun i j => 1 * getFactorSystem rotsC4 trans41 ![0, 0, 1/2] i j) L ∧ L.length = 4 ∧
    ∀ L', List.Forall₂ (fun X Y => NearRep 1e-9 ⟨X.1, phaseMul trans41 ![0, 0, 1/2] X.2⟩ Y) L L' →
      (∀ X ∈ L', checkSpacegroupRep rotsC4 trans41 ![0, 0, 1/2] X.2 (some fun _ _ => 1) = .ok true) ∧ IsUniqueIrreps L' := by
  obtain ⟨T, hT, -, hg⟩ := c01_cayley_table_ordinary rotsC4_group
  have hk : ∀ i, FixesK (rotsC4 i) ![0, 0, 1/2] := by
    intro i a
    refine ⟨0, ?_⟩
    fin_cases i <;> fin_cases a <;> simp [rotsC4, Fin.sum_univ_three]
  have hF : ∀ i j, 1 * getFactorSystem rotsC4 trans41 ![0, 0, 1/2] i j = 1 := by
    intro i j
    unfold getFactorSystem
    have h0 : dot3 (residual (rotsC4 i) ![0, 0, 1/2]) (trans41 j) = 0 := by
      fin_cases i <;> simp [dot3, residual, rotsC4, trans41, Fin.sum_univ_three]
    rw [h0, expPhase_zero, mul_one]
  have hTs : ∀ i j : Fin 4, (i : ℕ) + j = T i j ∨ (i : ℕ) + j = T i j + 4 := by
    have h : ∀ i j l : Fin 4, rotsC4 l = rotsC4 i * rotsC4 j → ((i : ℕ) + j = l ∨ (i : ℕ) + j = l + 4) := by decide +kernel
    exact fun i j => h i j _ (cayley_none_spec hT i j).1
  let R : Fin 4 → RepArr 4 1 := fun m i => (Complex.I ^ (m * i : ℕ)) • 1
  have hI : ∀ m : ℕ, Complex.I ^ (m * 4) = 1 := fun m => by rw [mul_comm, pow_mul, Complex.I_pow_four, one_pow]
  have hLc : IsCompleteIrreps T (fun i j => 1 * getFactorSystem rotsC4 trans41 ![0, 0, 1/2] i j)
      (List.ofFn fun m => (⟨1, R m⟩ : AnyRep 4)) := by
    refine isCompleteIrreps_of_card hg (fun i j => by rw [hF]; exact one_ne_zero) ?_ ?_ ?_ ?_ ?_
    · intro X hX
      obtain ⟨m, rfl⟩ := (List.mem_ofFn' _ _).1 hX
      intro i j
      show R m i * R m j = _ • R m (T i j)
      have h1 := hF i j
      simp only [h1, one_smul]
      show (Complex.I ^ (m * i : ℕ)) • (1 : Matrix (Fin 1) (Fin 1) ℂ) * (Complex.I ^ (m * j : ℕ)) • 1 = _ • 1
      rw [Matrix.smul_mul, one_mul, smul_smul, ← pow_add, ← mul_add]
      rcases hTs i j with h | h
      · rw [h]
      · rw [h, mul_add, pow_add, hI, mul_one]
    · intro X hX
      obtain ⟨m, rfl⟩ := (List.mem_ofFn' _ _).1 hX
      intro i
      show (Complex.I ^ (m * i : ℕ)) • (1 : Matrix (Fin 1) (Fin 1) ℂ) * ((Complex.I ^ (m * i : ℕ)) • (1 : Matrix (Fin 1) (Fin 1) ℂ)).conjTranspose = 1
      rw [Matrix.conjTranspose_smul, Matrix.conjTranspose_one, Matrix.smul_mul, Matrix.mul_smul, one_mul, smul_smul,
        star_pow, ← mul_pow]
      simp
    · intro X hX
      obtain ⟨m, rfl⟩ := (List.mem_ofFn' _ _).1 hX
      exact irreducible_dim_one _
    · rw [List.pairwise_ofFn]
      rintro i j hij ⟨S, S', h1, -, h2⟩
      have h3 := congrFun (congrFun (h2 1) 0) 0
      have h4 := congrFun (congrFun h1 0) 0
      have h5 : S 0 0 ≠ 0 := by
        intro h
        rw [Matrix.mul_apply, Fin.sum_univ_one, h, zero_mul] at h4
        simp at h4
      have h6 : Complex.I ^ (i : ℕ) = Complex.I ^ (j : ℕ) := by
        have : Complex.I ^ (i : ℕ) * S 0 0 = S 0 0 * Complex.I ^ (j : ℕ) := by
          simpa [R, Matrix.mul_apply] using h3
        rw [mul_comm] at this
        exact mul_left_cancel₀ h5 this
      revert h6
      fin_cases i <;> fin_cases j <;> simp at hij ⊢ <;> simp [Complex.ext_iff] <;> norm_num
    · rw [List.map_ofFn]
      simp
  refine ⟨T, _, hT, hLc, by simp, fun L' hL' => ?_⟩
  obtain ⟨-, -, h3, h4, -⟩ := c99_spacegroup_converse space41 hk (by simp) hT (fun _ _ _ => rfl) hLc
    (by intro X hX; obtain ⟨m, rfl⟩ := (List.mem_ofFn' _ _).1 hX; norm_num)
    (by intro X hX; obtain ⟨m, rfl⟩ := (List.mem_ofFn' _ _).1 hX; norm_num) (by norm_num) hL'
  exact ⟨h3, h4⟩

end Spgrep
