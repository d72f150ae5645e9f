/-
C22: which small representations survive `enumerate_small_representations(real=True)` (irreps.py:101-140).
-/
import Verif.Proofs.SmallReal
import Verif.Props.SmallReps

namespace Spgrep

open Spec Matrix

variable {n : ℕ} {d : ℕ} {T : Fin n → Fin n → Fin n} {μ : Fin n → Fin n → ℂ}

theorem mapM_forall₂ {α β : Type} {f : α → Except PyErr β} : ∀ {L : List α} {ys : List β},
    L.mapM f = .ok ys → List.Forall₂ (fun x y => f x = .ok y) L ys
  | [], ys, h => by
    have h2 : (Except.ok [] : Except PyErr (List β)) = .ok ys := h
    rw [← Except.ok.inj h2]
    exact .nil
  | x :: L, ys, h => by
    rw [List.mapM_cons] at h
    cases hx : f x with
    | error e => rw [hx] at h; cases h
    | ok y =>
      cases hl : L.mapM f with
      | error e => rw [hx, hl] at h; cases h
      | ok ys' =>
        rw [hx, hl] at h
        obtain rfl := Except.ok.inj h
        exact .cons hx (mapM_forall₂ hl)

theorem forall₂_left {α β : Type*} {R : α → β → Prop} {l : List α} {l' : List β} (h : List.Forall₂ R l l') {a : α}
    (ha : a ∈ l) : ∃ b ∈ l', R a b := by
  induction h with
  | nil => simp at ha
  | cons h1 _ ih =>
    rcases List.mem_cons.1 ha with rfl | ha
    · exact ⟨_, by simp, h1⟩
    · obtain ⟨b, hb, hR⟩ := ih ha
      exact ⟨b, by simp [hb], hR⟩

theorem forall₂_right {α β : Type*} {R : α → β → Prop} {l : List α} {l' : List β} (h : List.Forall₂ R l l') {b : β}
    (hb : b ∈ l') : ∃ a ∈ l, R a b := by
  induction h with
  | nil => simp at hb
  | cons h1 _ ih =>
    rcases List.mem_cons.1 hb with rfl | hb
    · exact ⟨_, by simp, h1⟩
    · obtain ⟨a, ha, hR⟩ := ih hb
      exact ⟨a, by simp [ha], hR⟩

theorem realIrreps_forall {o : Oracles} {L : List (AnyRep n)} {force : Bool} {atol : ℝ} {maxGen : ℕ}
    {l : List (AnyReal n × ℤ)} (h : realIrreps o L force atol maxGen = .ok l) :
    List.Forall₂ (fun p x => ∃ c : ℤ, frobeniusSchur (L.get p.1).2 = .ok c ∧ x.2 = (if force then 0 else c) ∧
        ∃ r, getPhysicallyIrrep o.eig (o.random (L.get p.1).1) (L.get p.1).2 x.2
          atol maxGen = .ok r ∧ x.1 = ⟨r.1, purifyRealIrrepValue r.2 atol⟩) (pairsOf L) l := by
  refine (mapM_forall₂ h).imp fun p x hx => ?_
  cases hc : frobeniusSchur (L.get p.1).2 with
  | error e =>
    simp only [bind, Except.bind, pure, Except.pure] at hx
    rw [hc] at hx; cases hx
  | ok c =>
    simp only [bind, Except.bind, pure, Except.pure] at hx
    rw [hc] at hx
    simp only at hx
    cases hr : getPhysicallyIrrep o.eig (o.random (L.get p.1).1) (L.get p.1).2 (if force then 0 else c) atol maxGen with
    | error e => rw [hr] at hx; cases hx
    | ok r =>
      rw [hr] at hx
      obtain rfl := Except.ok.inj hx
      exact ⟨c, rfl, rfl, r, hr, rfl⟩

/-- The purified double of a purified matrix family. -/
theorem double_near {D D' : RepArr n d} {atol : ℝ} (ha : 0 < atol) (ha10 : atol ≤ 1 / 10) (h : Near atol D D')
    (eig : EigOracle) (random : ℕ → Matrix (Fin d) (Fin d) ℂ) {i : ℤ} (hi : i = -1 ∨ i = 0) {maxGen : ℕ}
    {r : AnyReal n} (hr : getPhysicallyIrrep eig random D' i atol maxGen = .ok r) :
    ∃ R' : Fin n → Matrix (Fin d ⊕ Fin d) (Fin d ⊕ Fin d) ℝ,
      (⟨r.1, purifyRealIrrepValue r.2 atol⟩ : AnyReal n) =
        ⟨d + d, fun g => (R' g).reindex finSumFinEquiv finSumFinEquiv⟩ ∧
      (∀ g, R' g = (physDouble D' g).map (purifyRealEntry atol)) ∧
      ∀ g i j, |physDouble D g i j - R' g i j| ≤ 2 * atol := by
  unfold getPhysicallyIrrep at hr
  rw [if_neg (by rcases hi with h | h <;> rw [h] <;> norm_num), if_pos hi] at hr
  obtain rfl := Except.ok.inj hr
  refine ⟨fun g => (physDouble D' g).map (purifyRealEntry atol), rfl, fun _ => rfl, fun g i j => ?_⟩
  have h1 : |physDouble D g i j - physDouble D' g i j| ≤ atol := by
    have hre : ∀ a b, |(D g a b).re - (D' g a b).re| ≤ atol := fun a b => by
      rw [← Complex.sub_re]; exact (Complex.abs_re_le_norm _).trans (h g a b)
    have him : ∀ a b, |(D g a b).im - (D' g a b).im| ≤ atol := fun a b => by
      rw [← Complex.sub_im]; exact (Complex.abs_im_le_norm _).trans (h g a b)
    unfold physDouble
    rcases i with i | i <;> rcases j with j | j
    · exact hre i j
    · exact him i j
    · have := him i j
      simp only [Matrix.fromBlocks_apply₂₁, Matrix.neg_apply, Matrix.map_apply]
      rw [abs_sub_comm] at this
      rwa [neg_sub_neg]
    · exact hre i j
  have h2 : |physDouble D' g i j - purifyRealEntry atol (physDouble D' g i j)| ≤ atol := by
    have h3 : atol ≤ 1 - Real.sqrt 3 / 2 := by
      have := sqrt3_bounds.2.2
      nlinarith
    exact ((c29_purify.2 1 1 (fun _ _ _ => physDouble D' g i j) atol ha h3).1 0 0 0).1.le
  have h4 := abs_sub_le (physDouble D g i j) (physDouble D' g i j) (purifyRealEntry atol (physDouble D' g i j))
  have h5 : (physDouble D' g).map (purifyRealEntry atol) i j = purifyRealEntry atol (physDouble D' g i j) := rfl
  show |_ - (physDouble D' g).map (purifyRealEntry atol) i j| ≤ _
  rw [h5]
  linarith

theorem get_smallList (trans : Fin n → V3) (k : V3) (atol : ℝ) (L : List (AnyRep n))
    (i : Fin (smallList trans k atol L).length) : ∃ j : Fin L.length, (j : ℕ) = i ∧
      (smallList trans k atol L).get i = ⟨(L.get j).1, phaseMul trans k (purifyIrrepValue (L.get j).2 atol)⟩ := by
  have hl : (smallList trans k atol L).length = L.length := by unfold smallList; rw [List.length_map]
  refine ⟨i.cast hl, rfl, ?_⟩
  simp only [List.get_eq_getElem]
  unfold smallList
  rw [List.getElem_map]
  rfl

theorem forceZero_of_int {k : V3} (h : ∀ a, ∃ m : ℤ, 2 * k a = m) : forceZero k = false := by
  unfold forceZero
  have : AllClose 1e-5 1e-8 (fun a => 2 * k a - rint (2 * k a)) fun _ => 0 := by
    intro a
    obtain ⟨m, hm⟩ := h a
    have : rint (2 * k a) = m := rint_eq_of_abs_lt (by rw [hm]; norm_num)
    unfold IsClose
    beta_reduce
    rw [this, hm]
    norm_num
  simp [this]

theorem forceZero_of_not {k : V3} (h : ∃ a, ∀ m : ℤ, 1e-8 < |2 * k a - m|) : forceZero k = true := by
  unfold forceZero
  obtain ⟨a, ha⟩ := h
  have : ¬ AllClose 1e-5 1e-8 (fun a => 2 * k a - rint (2 * k a)) fun _ => 0 := by
    intro h2
    have h3 := h2 a
    unfold IsClose at h3
    have := ha (rint (2 * k a))
    norm_num at h3 this
    linarith
  simp [this]

theorem equiv_index {L : List (AnyRep n)} (hL : L.Pairwise fun D E => ¬ AreEquivalent D.2 E.2) {i j : Fin L.length}
    (hij : AreEquivalent (L.get i).2 (L.get j).2) : i = j := by
  have hd := List.pairwise_iff_get.1 hL
  rcases lt_trichotomy i j with h1 | h1 | h1
  · exact absurd hij (hd i j h1)
  · exact h1
  · exact absurd (AreEquivalent.symm hij) (hd j i h1)

theorem fs_sum_equiv {e : ℕ} {D : RepArr n d} {E : RepArr n e} (h : AreEquivalent D E) :
    ∑ k, ∑ i, ∑ j, D k i j * D k j i = ∑ k, ∑ i, ∑ j, E k i j * E k j i := by
  obtain ⟨S, S', h1, h2, h3⟩ := h
  refine Finset.sum_congr rfl fun g _ => ?_
  have e1 : ∀ {m : ℕ} (A : Matrix (Fin m) (Fin m) ℂ), ∑ i, ∑ j, A i j * A j i = (A * A).trace := by
    intro m A
    simp only [Matrix.trace, Matrix.diag_apply, Matrix.mul_apply]
  rw [e1, e1]
  have e2 : D g = S * E g * S' := by rw [← h3 g, Matrix.mul_assoc, h1, Matrix.mul_one]
  rw [e2]
  calc _ = (S * (E g * (S' * S) * E g * S')).trace := by simp only [Matrix.mul_assoc]
    _ = _ := by rw [h2, Matrix.mul_one, Matrix.trace_mul_comm, Matrix.mul_assoc, h2, Matrix.mul_one]

/-- C22, first part of what holds: if `2k` is a reciprocal lattice vector, every small representation that is
not of real type is contained (up to the tolerance of the purification) in one of the returned doubled
representations.  Missing: small representations of real type, whose real form is wrong in general (C20), and
other k-points (`c22_real_lost_partial`, `c22_real_refuted`). -/
theorem c22_real_contains_partial {rots : Fin n → M3} {trans : Fin n → V3} {k : V3} (h : IsSpaceGroup rots trans)
    (hk : ∀ i, FixesK (rots i) k) (h2k : ∀ a, ∃ m : ℤ, 2 * k a = m) (o : Oracles)
    (ho : PointgroupContract o.pointgroup rots) (rtol : ℝ) {atol : ℝ} (ha : 0 < atol) (ha10 : atol ≤ 1 / 10)
    (hna : (n : ℝ) ^ 2 * atol ≤ 1 / 5) (maxGen : ℕ) {out : IrrepsOut n}
    (hrun : enumerateSmallReps o rots trans k true .neto rtol atol maxGen = .ok (out, false)) :
    ∃ l : List (AnyReal n × ℤ), out = .real l ∧
      ∀ (d : ℕ) (Γ : RepArr n d), SpaceGroupLaw rots trans k (fun _ _ => 1) Γ → IsUnitaryRep Γ →
        IsIrreducible Γ → frobeniusSchur Γ ≠ .ok 1 →
        ∃ x ∈ l, ∃ (e : ℕ) (R R' : Fin n → Matrix (Fin e ⊕ Fin e) (Fin e ⊕ Fin e) ℝ),
          x.1 = ⟨e + e, fun g => (R' g).reindex finSumFinEquiv finSumFinEquiv⟩ ∧
          (∀ g i j, |R g i j - R' g i j| ≤ 2 * atol) ∧ ContainsSmall k R Γ := by
  obtain ⟨T, e, hT, hTg, he, hc, hn, h1⟩ := small_setup h hk
  obtain ⟨L, hraw, -, hl0⟩ := smallReps_ok hrun
  obtain ⟨l, hout, hl⟩ := hl0 rfl
  obtain ⟨L', w, hraw', hw, -⟩ := neto_raw h.1 hT hTg hc hn he h1 o ho rtol ha.le maxGen
  rw [hraw] at hraw'
  obtain ⟨rfl, rfl⟩ := Prod.mk.inj (Except.ok.inj hraw')
  have hL := hw rfl
  have hS := complete_small h.1 hT trans k hL
  have hn0 := table_pos hTg
  have hn1 : (1 : ℝ) ≤ n := by exact_mod_cast hn0
  have hsgn : ∀ i j, latticePhase rots T trans k i j = 1 ∨ latticePhase rots T trans k i j = -1 := by
    intro i j
    choose m hm using h2k
    have hlat := h.2 i j (T i j) (cayley_none_spec hT i j).1.symm
    choose t ht using hlat
    refine expPhase_sign ⟨∑ a, m a * t a, ?_⟩
    unfold dot3 rotVec
    push_cast
    rw [Finset.mul_sum]
    refine Finset.sum_congr rfl fun a _ => ?_
    rw [ht a, ← hm a]
    ring
  refine ⟨l, hout, fun d Γ hΓ hΓu hΓi hΓr => ?_⟩
  have hF := realIrreps_forall hl
  rw [forceZero_of_int h2k] at hF
  -- exact small representations
  have hx : ∀ j : Fin L.length, IsProjRep T (latticePhase rots T trans k) (phaseMul trans k (L.get j).2) ∧
      IsUnitaryRep (phaseMul trans k (L.get j).2) ∧ IsIrreducible (phaseMul trans k (L.get j).2) ∧
      (L.get j).1 ^ 2 ≤ n ∧
      Near atol (phaseMul trans k (L.get j).2) (phaseMul trans k (purifyIrrepValue (L.get j).2 atol)) := by
    intro j
    have hj := List.mem_map_of_mem (f := fun D : AnyRep n => (⟨D.1, phaseMul trans k D.2⟩ : AnyRep n))
      (List.get_mem L j)
    exact ⟨hS.rep _ hj, hS.unitary _ hj, hS.irred _ hj,
      IsCompleteIrreps.dim_le hTg (ne_zero_of_norm_one hn) hc hL (List.get_mem L j),
      (near_purify _ ha (by linarith)).phaseMul trans k⟩
  obtain ⟨Γ', hΓ', hE⟩ := hS.complete d Γ ((spaceGroupLaw_iff h.1 hT trans k _).1 hΓ)
    (IsUnitaryRep.isUnit hΓu) hΓi
  obtain ⟨D, hD, rfl⟩ := List.mem_map.1 hΓ'
  obtain ⟨j, rfl⟩ := List.mem_iff_get.1 hD
  dsimp only at hE
  -- its pair
  have hlen : (smallList trans k atol L).length = L.length := by unfold smallList; rw [List.length_map]
  obtain ⟨hex, -, hlead⟩ := c21_pairing.1 _ (fun i j : Fin (smallList trans k atol L).length =>
    IsEquivalentIrrep ((charList ((smallList trans k atol L).get i).2).map star)
      (charList ((smallList trans k atol L).get j).2))
  obtain ⟨p, ⟨hp, hjp⟩, -⟩ := hex (j.cast hlen.symm)
  obtain ⟨x, hxl, hpx⟩ := forall₂_left hF (show p ∈ pairsOf (smallList trans k atol L) from hp)
  obtain ⟨c, hfs, hxc, r, hr, hxr⟩ := hpx
  obtain ⟨j1, hj1, hg1⟩ := get_smallList trans k atol L p.1
  obtain ⟨j2, hj2, hg2⟩ := get_smallList trans k atol L p.2
  have hlp := hlead p hp
  rw [hg1] at hfs hr
  rw [hg1, hg2] at hlp
  simp only [Bool.false_eq_true, if_false] at hxc
  dsimp only at hfs hr hlp
  obtain ⟨hr1, hu1, hi1, hd1, hn1'⟩ := hx j1
  obtain ⟨hr2, hu2, hi2, hd2, hn2'⟩ := hx j2
  obtain ⟨c', hc', hsum, hc0⟩ := fs_exact hTg hsgn hr1 hu1 hi1
  have hcc : c = c' := by
    have hε : ((L.get j1).1 : ℝ) * ((L.get j1).1 * (2 * atol + atol ^ 2)) < 1 / 2 := by
      have h3 : (((L.get j1).1 : ℝ)) ^ 2 ≤ n := by exact_mod_cast hd1
      have h4 : (0 : ℝ) ≤ 2 * atol + atol ^ 2 := by positivity
      have h5 : (n : ℝ) * atol ≤ 1 / 5 := by nlinarith
      have h6 : (n : ℝ) * atol * atol ≤ 1 / 5 * (1 / 10) := mul_le_mul h5 ha10 ha.le (by norm_num)
      calc _ = (((L.get j1).1 : ℝ)) ^ 2 * (2 * atol + atol ^ 2) := by ring
        _ ≤ n * (2 * atol + atol ^ 2) := by gcongr
        _ < 1 / 2 := by nlinarith
    have h3 := fs_of_near hn0 (unitary_entry_le hu1) hn1' hsum hε
    rw [hfs] at h3
    split at h3
    · cases h3
    · exact Except.ok.inj h3
  subst hcc
  have hpos : 0 < (L.get j1).1 := Fin.pos_iff_nonempty.2 hi1.1
  have hcne : AreEquivalent Γ (phaseMul trans k (L.get j1).2) → c ≠ 1 := by
    intro hE1 hc1
    apply hΓr
    have h3 := fs_sum_equiv hE1
    rw [hsum] at h3
    have h4 := fs_of_near (ε := 0) hn0 (unitary_entry_le hΓu) (D' := Γ) (fun g i j => by simp) h3 (by norm_num)
    rw [h4, hc1]
    rfl
  -- if the partner is a different index, the leader is not self-conjugate
  have hcase : (c = -1 ∨ c = 0) ∧ ContainsSmall k (physDouble (phaseMul trans k (L.get j1).2)) Γ := by
    rcases hjp with hjp | hjp
    · have hjj : j = j1 := Fin.ext (by rw [hj1, ← hjp]; rfl)
      subst hjj
      refine ⟨?_, ContainsSmall.equiv (double_contains hpos _ k) (AreEquivalent.symm hE)⟩
      rcases hc' with hc' | hc' | hc'
      · exact absurd hc' (hcne hE)
      · exact .inl hc'
      · exact .inr hc'
    · have hjj : j = j2 := Fin.ext (by rw [hj2, ← hjp]; rfl)
      subst hjj
      by_cases hpp : p.1 = p.2
      · have hjj : j = j1 := Fin.ext (by rw [hj1, hpp, ← hj2])
        subst hjj
        refine ⟨?_, ContainsSmall.equiv (double_contains hpos _ k) (AreEquivalent.symm hE)⟩
        rcases hc' with hc' | hc' | hc'
        · exact absurd hc' (hcne hE)
        · exact .inl hc'
        · exact .inr hc'
      · have htest := hlp.2 hpp
        have hconj := equiv_of_near_test hTg hsgn hr1 hr2 hu1 hu2 hi1 hi2 hd1 hd2 ha.le hna hn1' hn2' htest
        refine ⟨.inr (hc0.2 fun hself => ?_), ContainsSmall.equiv (double_contains_conj hpos _ h2k)
          (AreEquivalent.trans hconj (AreEquivalent.symm hE))⟩
        have h3 := (phaseMul_equiv_iff trans k).1 (AreEquivalent.trans hself hconj)
        have h4 := equiv_index hL.inequiv h3
        apply hpp
        apply Fin.ext
        rw [← hj1, ← hj2, h4]
  obtain ⟨R', hR1, -, hR2⟩ := double_near ha ha10 hn1' o.eig _ (hxc ▸ hcase.1) hr
  exact ⟨x, hxl, _, _, R', hxr.trans hR1, hR2, hcase.2⟩

/-- C22, second part: if `2k` is not a reciprocal lattice vector, the returned representations are (up to the
tolerance of the purification) doubled representations, each of which contains at `k` exactly one of the small
representations; so only as many small representations survive as there are returned representations. -/
theorem c22_real_lost_partial {rots : Fin n → M3} {trans : Fin n → V3} {k : V3} (h : IsSpaceGroup rots trans)
    (hk : ∀ i, FixesK (rots i) k) (h2k : ∃ a, ∀ m : ℤ, 1e-8 < |2 * k a - m|) (o : Oracles)
    (ho : PointgroupContract o.pointgroup rots) (rtol : ℝ) {atol : ℝ} (ha : 0 < atol) (ha10 : atol ≤ 1 / 10)
    (maxGen : ℕ) {out : IrrepsOut n}
    (hrun : enumerateSmallReps o rots trans k true .neto rtol atol maxGen = .ok (out, false)) :
    ∃ l : List (AnyReal n × ℤ), out = .real l ∧ ∀ x ∈ l, x.2 = 0 ∧
      ∃ (e : ℕ) (R R' : Fin n → Matrix (Fin e ⊕ Fin e) (Fin e ⊕ Fin e) ℝ) (Γ : RepArr n e),
        x.1 = ⟨e + e, fun g => (R' g).reindex finSumFinEquiv finSumFinEquiv⟩ ∧
        (∀ g i j, |R g i j - R' g i j| ≤ 2 * atol) ∧
        SpaceGroupLaw rots trans k (fun _ _ => 1) Γ ∧ IsUnitaryRep Γ ∧ IsIrreducible Γ ∧
        ∀ (d : ℕ) (Γ' : RepArr n d), IsIrreducible Γ' → (ContainsSmall k R Γ' ↔ AreEquivalent Γ Γ') := by
  obtain ⟨T, e, hT, hTg, he, hc, hn, h1⟩ := small_setup h hk
  obtain ⟨L, hraw, -, hl0⟩ := smallReps_ok hrun
  obtain ⟨l, hout, hl⟩ := hl0 rfl
  obtain ⟨L', w, hraw', hw, -⟩ := neto_raw h.1 hT hTg hc hn he h1 o ho rtol ha.le maxGen
  rw [hraw] at hraw'
  obtain ⟨rfl, rfl⟩ := Prod.mk.inj (Except.ok.inj hraw')
  have hL := hw rfl
  have hS := complete_small h.1 hT trans k hL
  refine ⟨l, hout, fun x hx => ?_⟩
  have hF := realIrreps_forall hl
  rw [forceZero_of_not h2k] at hF
  obtain ⟨p, -, c, -, hxc, r, hr, hxr⟩ := forall₂_right hF hx
  rw [if_pos rfl] at hxc
  refine ⟨hxc, ?_⟩
  obtain ⟨j1, hj1, hg1⟩ := get_smallList trans k atol L p.1
  rw [hg1] at hr
  dsimp only at hr
  have hj := List.mem_map_of_mem (f := fun D : AnyRep n => (⟨D.1, phaseMul trans k D.2⟩ : AnyRep n))
    (List.get_mem L j1)
  have hi : IsIrreducible (phaseMul trans k (L.get j1).2) := hS.irred _ hj
  have hpos : 0 < (L.get j1).1 := Fin.pos_iff_nonempty.2 hi.1
  obtain ⟨R', hR1, -, hR2⟩ := double_near ha ha10
    ((near_purify (L.get j1).2 ha (by linarith)).phaseMul trans k) o.eig _ (.inr hxc) hr
  refine ⟨_, _, R', phaseMul trans k (L.get j1).2, hxr.trans hR1, hR2,
    (spaceGroupLaw_iff h.1 hT trans k _).2 (hS.rep _ hj), hS.unitary _ hj, hi, fun d Γ' hΓ' => ⟨fun hcon => ?_,
      fun hE => ContainsSmall.equiv (double_contains hpos _ k) hE⟩⟩
  refine double_contains_only (fun hint => ?_) hi hΓ' hcon
  obtain ⟨b, hb⟩ := h2k
  obtain ⟨m, hm⟩ := hint b
  have := hb m
  rw [hm, sub_self] at this
  norm_num at this

/-! ### The counterexample: P3 at k = (0,0,1/3) -/

/-- With suitable draws the enumeration runs without warning in the cases of C18. -/
theorem exists_run {rots : Fin n → M3} {trans : Fin n → V3} {k : V3} (h : IsSpaceGroup rots trans)
    (hk : ∀ i, FixesK (rots i) k) (hs : SafeCase rots trans k) {pg : PgSymbol × Matrix (Fin 3) (Fin 3) ℝ}
    (hpg : PointgroupContract pg rots) (hn : n ≤ 4) : ∃ o : Oracles, o.pointgroup = pg ∧
      ∀ real, ∃ out, enumerateSmallReps o rots trans k real = .ok (out, false) := by
  obtain ⟨random, hr⟩ := exists_richDraws 1e-8 n 4 fun d hd => hd.trans hn
  let o : Oracles := { random := random, eig := fun d _ => (fun _ => 0, 0), eigh := fun d _ => (fun _ => 0, 0),
                       qr := fun _ _ _ => 0, pointgroup := pg }
  refine ⟨o, rfl, fun real => ?_⟩
  have hna : (n : ℝ) * 1e-8 ≤ 1 / 5 := by
    have : (n : ℝ) ≤ 4 := by exact_mod_cast hn
    nlinarith
  obtain ⟨L, w, -, h2, h3⟩ := c18_small_reps_partial h hk hs o hpg 1e-5 (atol := 1e-8) (by norm_num) hna 4 real
  exact h2 (h3 hr)

/-- Rotations of P3. -/
def rotsP3 : Fin 3 → M3 :=
  ![!![1, 0, 0; 0, 1, 0; 0, 0, 1], !![0, -1, 0; 1, -1, 0; 0, 0, 1], !![-1, 1, 0; -1, 0, 0; 0, 0, 1]]

def tblC3 : Fin 3 → Fin 3 → Fin 3 := fun i j => i + j

/-- A point on the line Δ, at one third of the way to the next reciprocal lattice point. -/
noncomputable def kDelta : V3 := ![0, 0, 1 / 3]

theorem rotsP3_group : EnumeratesGroup rotsP3 := by
  apply enumerates_of_isMatrixGroup (by norm_num)
  · decide +kernel
  · decide +kernel

theorem isSpaceGroup_C3 : IsSpaceGroup rotsP3 fun _ _ => 0 := ⟨rotsP3_group, fun _ _ _ _ _ => ⟨0, by simp⟩⟩

theorem fixesK_C3 (z : ℝ) (i : Fin 3) : FixesK (rotsP3 i) ![0, 0, z] := by
  intro a
  refine ⟨0, ?_⟩
  fin_cases i <;> fin_cases a <;> simp [rotsP3, Fin.sum_univ_three]

theorem cayley_C3 : getCayleyTable rotsP3 = .ok tblC3 := by
  obtain ⟨T, hT, hs, -⟩ := c01_cayley_table_ordinary rotsP3_group
  have : T = tblC3 := by
    funext i j
    rw [hs]
    revert i j
    decide +kernel
  rw [hT, this]

theorem pointgroup_C3 : PointgroupContract (PgSymbol.pg_3, (1 : M3).map fun x : ℤ => (x : ℝ)) rotsP3 :=
  contract_of_int (std := pgData_3.head!) (by decide +kernel) (List.mem_singleton.2 rfl) (Equiv.refl (Fin 3))
    (by decide +kernel)

theorem phaseMul_zero (k : V3) (D : RepArr n d) : phaseMul (fun _ _ => 0) k D = D := by
  funext g
  unfold phaseMul
  have : dot3 k (fun _ => 0) = 0 := by unfold dot3; simp
  rw [this, expPhase_zero, one_smul]

theorem factor_zero (rots : Fin n → M3) (k : V3) : getFactorSystem rots (fun _ _ => 0) k = fun _ _ => 1 := by
  funext i j
  unfold getFactorSystem
  have : dot3 (residual (rots i) k) (fun _ => 0) = 0 := by unfold dot3; simp
  rw [this, expPhase_zero]

theorem latticePhase_zero (rots : Fin n → M3) (k : V3) :
    latticePhase rots T (fun _ _ => 0) k = fun _ _ => 1 := by
  funext i j
  unfold latticePhase
  have : (dot3 k fun x => rotVec (rots i) (fun _ => 0) x + 0 - 0) = 0 := by unfold dot3 rotVec; simp
  rw [this, expPhase_zero]

/-- The primitive third root of unity. -/
noncomputable def ω3 : ℂ := ⟨-(1 / 2), Real.sqrt 3 / 2⟩

theorem sqrt3_mul : Real.sqrt 3 * Real.sqrt 3 = 3 := Real.mul_self_sqrt (by norm_num)

theorem ω3_sq : ω3 * ω3 = star ω3 := by
  apply Complex.ext <;> simp [ω3] <;> nlinarith [sqrt3_mul]

theorem ω3_norm : ω3 * star ω3 = 1 := by
  apply Complex.ext <;> simp [ω3] <;> nlinarith [sqrt3_mul]

theorem cube_root {z : ℂ} (h : z ^ 3 = 1) : z = 1 ∨ z = ω3 ∨ z = star ω3 := by
  have h1 : (z - 1) * ((z - ω3) * (z - star ω3)) = 0 := by
    have h2 : ω3 + star ω3 = -1 := by apply Complex.ext <;> simp [ω3]; norm_num
    linear_combination h - (z - 1) * z * h2 + (z - 1) * ω3_norm
  rcases mul_eq_zero.1 h1 with h1 | h1
  · exact .inl (sub_eq_zero.1 h1)
  · rcases mul_eq_zero.1 h1 with h1 | h1
    · exact .inr (.inl (sub_eq_zero.1 h1))
    · exact .inr (.inr (sub_eq_zero.1 h1))

/-- The irrep of C3 with eigenvalue `ω`. -/
noncomputable def repC3 : RepArr 3 1 := fun g => (![1, ω3, star ω3] : Fin 3 → ℂ) g • 1

theorem repC3_proj : IsProjRep tblC3 (fun _ _ => 1) repC3 := by
  intro i j
  have h1 := ω3_sq
  have h2 := ω3_norm
  have h3 : star ω3 * star ω3 = ω3 := by rw [← star_mul', ω3_sq, star_star]
  fin_cases i <;> fin_cases j <;> ext a b <;> simp [repC3, tblC3] at * <;>
    (try rw [Matrix.one_apply]) <;> (try split) <;> simp_all [mul_comm]

theorem repC3_unitary : IsUnitaryRep repC3 := by
  intro g
  have h2 := ω3_norm
  fin_cases g <;> ext a b <;> rw [Subsingleton.elim a 0, Subsingleton.elim b 0] <;>
    simp [repC3, Matrix.mul_apply] <;> simp_all [mul_comm]

theorem irreducible_dim_one (D : RepArr n 1) : IsIrreducible D := by
  refine ⟨⟨0⟩, fun W _ => ?_⟩
  by_cases hW : W = ⊥
  · exact Or.inl hW
  · right
    obtain ⟨v, hv, hv0⟩ := Submodule.exists_mem_ne_zero_of_ne_bot hW
    have hv00 : v 0 ≠ 0 := fun h => hv0 (by funext i; rw [Subsingleton.elim i 0, h]; rfl)
    rw [Submodule.eq_top_iff']
    intro w
    have : w = (w 0 / v 0) • v := by
      funext i
      rw [Subsingleton.elim i 0, Pi.smul_apply, smul_eq_mul, div_mul_cancel₀ _ hv00]
    rw [this]
    exact W.smul_mem _ hv

theorem repC3_not_conj : ¬ AreEquivalent repC3 fun g => (repC3 g).map star := by
  rintro ⟨S, S', h1, -, h3⟩
  have h4 := congrFun (congrFun (h3 1) 0) 0
  have h5 := congrFun (congrFun h1 0) 0
  simp [repC3, Matrix.mul_apply] at h4 h5
  have h6 : S 0 0 ≠ 0 := by intro h; rw [h] at h5; simp at h5
  have h7 : ω3 = star ω3 := mul_right_cancel₀ h6 (h4.trans (mul_comm _ _))
  have h8 := congrArg Complex.im h7
  simp [ω3] at h8
  have := Real.sqrt_pos.2 (show (0 : ℝ) < 3 by norm_num)
  linarith

theorem special_cube {z : ℂ} (h : z = 1 ∨ z = ω3 ∨ z = star ω3) : SpecialComplex z ∧ SpecialReal z.re ∧
    SpecialReal z.im ∧ SpecialReal (-z.im) := by
  have h3 : star ω3 = ⟨-(1 / 2), -(Real.sqrt 3 / 2)⟩ := by apply Complex.ext <;> simp [ω3]
  unfold SpecialComplex SpecialReal
  rcases h with rfl | rfl | rfl
  · simp
  · simp [ω3]
  · rw [h3]; simp

/-- Complete lists of irreps of C3: all one-dimensional with third roots of unity. -/
theorem complete_C3 {L : List (AnyRep 3)} (hL : IsCompleteIrreps tblC3 (fun _ _ => 1) L) (hT : IsGroupTable tblC3)
    {D : AnyRep 3} (hD : D ∈ L) : ∃ E : RepArr 3 1, D = ⟨1, E⟩ ∧ ∀ g i j, E g i j = 1 ∨ E g i j = ω3 ∨
      E g i j = star ω3 := by
  have hd := IsCompleteIrreps.dim_le hT (fun _ _ => one_ne_zero) (fun _ _ _ => by simp) hL hD
  obtain ⟨d, E⟩ := D
  dsimp only at hd
  have hi : IsIrreducible E := hL.irred _ hD
  have hpos : 0 < d := Fin.pos_iff_nonempty.2 hi.1
  have hd1 : d = 1 := by nlinarith
  subst hd1
  refine ⟨E, rfl, fun g i j => ?_⟩
  rw [Subsingleton.elim i 0, Subsingleton.elim j 0]
  have hr : IsProjRep tblC3 (fun _ _ => 1) E := hL.rep _ hD
  have hu : IsUnitaryRep E := hL.unitary _ hD
  have hne : ∀ g, E g 0 0 ≠ 0 := by
    intro g h0
    have := congrFun (congrFun (hu g) 0) 0
    simp [Matrix.mul_apply, h0] at this
  have hm : ∀ g h, E g 0 0 * E h 0 0 = E (g + h) 0 0 := by
    intro g h
    have := congrFun (congrFun (hr g h) 0) 0
    simpa [Matrix.mul_apply, tblC3] using this
  apply cube_root
  have h1 : E (0 : Fin 3) 0 0 = 1 := by
    have := hm 0 0
    simp only [add_zero] at this
    exact mul_left_cancel₀ (hne 0) (this.trans (mul_one _).symm)
  have h3 : g + g + g = 0 := by revert g; decide
  rw [pow_succ, pow_two, hm, hm, h3, h1]

theorem tblC3_group : IsGroupTable tblC3 := by
  obtain ⟨T, hT, -, hTg⟩ := c01_cayley_table_ordinary rotsP3_group
  rw [cayley_C3] at hT
  obtain rfl := Except.ok.inj hT
  exact hTg

/-- C22 is false of the code: for P3 at k = (0,0,1/3), for every answer of the oracles, a run without warning
returns real representations none of which contains one of the three small representations. -/
theorem c22_real_refuted :
    IsSpaceGroup rotsP3 (fun _ _ => 0) ∧ (∀ i, FixesK (rotsP3 i) kDelta) ∧
    (∃ o : Oracles, PointgroupContract o.pointgroup rotsP3 ∧
      ∃ out, enumerateSmallReps o rotsP3 (fun _ _ => 0) kDelta true = .ok (out, false)) ∧
    ∀ o : Oracles, PointgroupContract o.pointgroup rotsP3 → ∀ out,
      enumerateSmallReps o rotsP3 (fun _ _ => 0) kDelta true = .ok (out, false) →
      ∃ l, out = .real l ∧ ∃ Γ : RepArr 3 1, SpaceGroupLaw rotsP3 (fun _ _ => 0) kDelta (fun _ _ => 1) Γ ∧
        IsUnitaryRep Γ ∧ IsIrreducible Γ ∧
        ∀ x ∈ l, ∀ (e : ℕ) (R : Fin 3 → Matrix (Fin e ⊕ Fin e) (Fin e ⊕ Fin e) ℝ),
          x.1 = ⟨e + e, fun g => (R g).reindex finSumFinEquiv finSumFinEquiv⟩ → ¬ ContainsSmall kDelta R Γ := by
  refine ⟨isSpaceGroup_C3, fixesK_C3 _, ?_, fun o ho out hrun => ?_⟩
  · obtain ⟨o, ho, hrun⟩ := exists_run isSpaceGroup_C3 (fixesK_C3 (1 / 3)) (.of_symmorphic fun _ _ => rfl) pointgroup_C3
      (by norm_num)
    exact ⟨o, ho ▸ pointgroup_C3, hrun true⟩
  obtain ⟨T, e, hT, hTg, he, hc, hn, h1⟩ := small_setup isSpaceGroup_C3 (fixesK_C3 (1 / 3))
  rw [cayley_C3] at hT
  obtain rfl := Except.ok.inj hT
  obtain ⟨L, hraw, -, hl0⟩ := smallReps_ok hrun
  obtain ⟨l, hout, hl⟩ := hl0 rfl
  obtain ⟨L', w, hraw', hw, -⟩ := neto_raw rotsP3_group cayley_C3 hTg hc hn he h1 o ho 1e-5
    (atol := 1e-8) (by norm_num) 4
  change rawIrreps o rotsP3 (getFactorSystem rotsP3 (fun _ _ => 0) kDelta) .neto 1e-5 1e-8 4 = _ at hraw'
  rw [hraw] at hraw'
  obtain ⟨rfl, rfl⟩ := Prod.mk.inj (Except.ok.inj hraw')
  have hL := hw rfl
  rw [factor_zero] at hL
  -- nothing is changed by purification and phases
  have hsmall : smallList (fun _ _ => 0) kDelta 1e-8 L = L := by
    unfold smallList
    rw [List.map_congr_left (g := id), List.map_id]
    intro D hD
    obtain ⟨E, rfl, hE⟩ := complete_C3 hL hTg hD
    simp only [id_eq]
    rw [phaseMul_zero]
    congr 1
    funext g; ext i j
    have hb : (1e-8 : ℝ) ^ 2 ≤ 2 - Real.sqrt 3 := by
      have := sqrt3_bounds.2.2
      norm_num
      nlinarith
    exact ((c29_purify.1 3 1 E 1e-8 (by norm_num) hb).1 g i j).2.1 (special_cube (hE g i j)).1
  have hk2 : ¬ ∀ a, ∃ m : ℤ, 2 * kDelta a = m := by
    intro h
    obtain ⟨m, hm⟩ := h 2
    have : (2 : ℝ) = ((3 * m : ℤ) : ℝ) := by
      push_cast; rw [← hm]; simp [kDelta]; norm_num
    have h3 : (2 : ℤ) = 3 * m := by exact_mod_cast this
    omega
  have hk2' : ∃ a, ∀ m : ℤ, 1e-8 < |2 * kDelta a - m| := by
    refine ⟨2, fun m => ?_⟩
    have h2 : 2 * kDelta 2 - m = ((2 - 3 * m : ℤ) : ℝ) / 3 := by simp [kDelta]; ring
    have h3 : (1 : ℝ) ≤ |((2 - 3 * m : ℤ) : ℝ)| := by
      rw [← Int.cast_abs]
      exact_mod_cast Int.one_le_abs (by omega)
    rw [h2, abs_div, abs_of_pos (by norm_num : (0 : ℝ) < 3)]
    norm_num at h3 ⊢
    linarith
  have hF := realIrreps_forall hl
  rw [forceZero_of_not hk2', hsmall] at hF
  -- each returned representation contains only its leader
  have honly : ∀ x ∈ l, ∃ p ∈ pairsOf L, ∀ (e : ℕ) (R : Fin 3 → Matrix (Fin e ⊕ Fin e) (Fin e ⊕ Fin e) ℝ),
      x.1 = ⟨e + e, fun g => (R g).reindex finSumFinEquiv finSumFinEquiv⟩ → ∀ Γ : RepArr 3 1,
      ContainsSmall kDelta R Γ → AreEquivalent (L.get p.1).2 Γ := by
    intro x hx
    obtain ⟨p, hp, c, -, hxc, r, hr, hxr⟩ := forall₂_right hF hx
    rw [if_pos rfl] at hxc
    refine ⟨p, hp, fun e R hR Γ hcon => ?_⟩
    obtain ⟨E, hE, hEv⟩ := complete_C3 hL hTg (List.get_mem L p.1)
    rw [hE] at hr ⊢
    dsimp only at hr ⊢
    obtain ⟨R', hR1, hR2, -⟩ := double_near (D := E) (by norm_num) (by norm_num)
      (fun g i j => by rw [sub_self, norm_zero]; norm_num) o.eig _ (.inr hxc) hr
    have hR3 : R' = physDouble E := by
      funext g
      rw [hR2 g]
      ext i j
      have hb : (1e-8 : ℝ) ≤ 1 - Real.sqrt 3 / 2 := by
        have := sqrt3_bounds.2.2
        norm_num
        nlinarith
      have hsp : SpecialReal (physDouble E g i j) := by
        unfold physDouble
        rcases i with i | i <;> rcases j with j | j
        · exact (special_cube (hEv g i j)).2.1
        · exact (special_cube (hEv g i j)).2.2.1
        · exact (special_cube (hEv g i j)).2.2.2
        · exact (special_cube (hEv g i j)).2.1
      exact ((c29_purify.2 1 1 (fun _ _ _ => physDouble E g i j) 1e-8 (by norm_num) hb).1 0 0 0).2.1 hsp
    have hsig := hR.symm.trans (hxr.trans hR1)
    have he1 : e = 1 := by
      have := congrArg Sigma.fst hsig
      dsimp only at this
      omega
    subst he1
    have hfun := eq_of_heq (Sigma.mk.inj hsig).2
    have hRR : R = physDouble E := by
      funext g
      rw [← hR3]
      exact (Matrix.reindex _ _).injective (congrFun hfun g)
    rw [hRR] at hcon
    exact double_contains_only hk2 (irreducible_dim_one E) (irreducible_dim_one Γ) hcon
  refine ⟨l, hout, ?_⟩
  have hlaw : ∀ {Γ : RepArr 3 1}, IsProjRep tblC3 (fun _ _ => 1) Γ →
      SpaceGroupLaw rotsP3 (fun _ _ => 0) kDelta (fun _ _ => 1) Γ := by
    intro Γ hΓ
    rw [spaceGroupLaw_iff rotsP3_group cayley_C3, latticePhase_zero]
    exact hΓ
  have hconj : IsProjRep tblC3 (fun _ _ => 1) fun g => (repC3 g).map star :=
    conj_projRep (by simp) repC3_proj
  have hconju := conj_unitary repC3_unitary
  by_contra hno
  push Not at hno
  obtain ⟨x1, hx1, e1, R1, hR1, hc1⟩ := hno repC3 (hlaw repC3_proj) repC3_unitary (irreducible_dim_one _)
  obtain ⟨x2, hx2, e2, R2, hR2, hc2⟩ := hno _ (hlaw hconj) hconju (irreducible_dim_one _)
  obtain ⟨p1, hp1, hon1⟩ := honly x1 hx1
  obtain ⟨p2, hp2, hon2⟩ := honly x2 hx2
  have q1 := hon1 e1 R1 hR1 _ hc1
  have q2 := hon2 e2 R2 hR2 _ hc2
  obtain ⟨hpair, huniq⟩ := c21_pairing.2 3 tblC3 (fun _ _ => 1) L hTg (fun _ _ => .inl rfl) hL
  obtain ⟨p, -, hp⟩ := huniq 1 _ hconj (IsUnitaryRep.isUnit hconju) (irreducible_dim_one _)
  have r2 := hp p2 ⟨hp2, .inl (AreEquivalent.symm q2)⟩
  have r1 := hp p1 ⟨hp1, .inr (AreEquivalent.trans (AreEquivalent.symm (AreEquivalent.conj q1)) (hpair p1 hp1).2)⟩
  rw [r1] at q1
  rw [r2] at q2
  exact repC3_not_conj (AreEquivalent.trans (AreEquivalent.symm q1) q2)

/-- Non-vacuity of the first partial theorem: P3 at Γ; the irrep `ω` is not of real type, so it is contained in
one of the returned representations. -/
example : ∃ (o : Oracles) (l : List (AnyReal 3 × ℤ)),
    enumerateSmallReps o rotsP3 (fun _ _ => 0) ![0, 0, 0] true = .ok (.real l, false) ∧
      ∃ x ∈ l, ∃ (e : ℕ) (R R' : Fin 3 → Matrix (Fin e ⊕ Fin e) (Fin e ⊕ Fin e) ℝ),
        x.1 = ⟨e + e, fun g => (R' g).reindex finSumFinEquiv finSumFinEquiv⟩ ∧
        (∀ g i j, |R g i j - R' g i j| ≤ 2 * 1e-8) ∧ ContainsSmall ![0, 0, 0] R repC3 := by
  obtain ⟨o, ho, hrun⟩ := exists_run isSpaceGroup_C3 (fixesK_C3 0) (.of_symmorphic fun _ _ => rfl) pointgroup_C3 (by norm_num)
  obtain ⟨out, hout⟩ := hrun true
  obtain ⟨l, rfl, h⟩ := c22_real_contains_partial isSpaceGroup_C3 (fixesK_C3 0)
    (fun a => ⟨0, by fin_cases a <;> simp⟩) o (ho ▸ pointgroup_C3) 1e-5 (atol := 1e-8) (by norm_num) (by norm_num)
    (by norm_num) 4 hout
  refine ⟨o, l, hout, h 1 repC3 ?_ repC3_unitary (irreducible_dim_one _) ?_⟩
  · rw [spaceGroupLaw_iff rotsP3_group cayley_C3, latticePhase_zero]
    exact repC3_proj
  · have h1 : ∑ k, ∑ i, ∑ j, repC3 k i j * repC3 k j i = ((3 : ℕ) : ℂ) * ((0 : ℤ) : ℂ) := by
      simp [repC3, Fin.sum_univ_three]
      have h2 := ω3_sq
      have h3 : star ω3 * star ω3 = ω3 := by rw [← star_mul', ω3_sq, star_star]
      have h4 : ω3 + star ω3 = -1 := by apply Complex.ext <;> simp [ω3]; norm_num
      simp only [Complex.star_def] at h2 h3 h4
      rw [h2, h3]
      linear_combination h4
    have := fs_of_near (ε := 0) (by norm_num) (unitary_entry_le repC3_unitary) (D' := repC3) (fun g i j => by simp) h1
      (by norm_num)
    rw [this]
    intro h
    have := Except.ok.inj h
    norm_num at this

end Spgrep
