/-
Helper lemmas about core.py: the little group of the conventional cell and the centring phases.
-/
import Verif.Model.Core
import Verif.Proofs.Transform
import Verif.Proofs.SmallReps
import Verif.Proofs.Enumerate
import Verif.Props.Utils

namespace Spgrep

open Spec Matrix

variable {n u d : ℕ}

theorem remap_some {mapping : List (Fin u)} {q : ℤ} {l : Fin mapping.length} (h : remap mapping q = some l) :
    (((mapping.get l).1 : ℕ) : ℤ) = q := by
  have := List.find?_some h
  simpa using this

theorem remap_isSome {mapping : List (Fin u)} {p : Fin u} : (remap mapping ((p : ℕ) : ℤ)).isSome ↔ p ∈ mapping := by
  unfold remap
  rw [List.find?_isSome]
  constructor
  · rintro ⟨l, -, hl⟩
    have hl : (((mapping.get l).1 : ℕ) : ℤ) = ((p : ℕ) : ℤ) := by simpa using hl
    have : mapping.get l = p := Fin.ext (by exact_mod_cast hl)
    exact this ▸ List.get_mem mapping l
  · intro h
    obtain ⟨l, hl⟩ := List.get_of_mem h
    exact ⟨l, by simp, by simp [← hl]⟩

theorem keptOps_mem {mapTo : Fin n → ℤ} {mapping : List (Fin u)} {x : Fin n × Fin mapping.length} :
    x ∈ keptOps mapTo mapping ↔ remap mapping (mapTo x.1) = some x.2 := by
  unfold keptOps
  rw [List.mem_filterMap]
  constructor
  · rintro ⟨i, -, hi⟩
    obtain ⟨l, hl, rfl⟩ := Option.map_eq_some_iff.1 hi
    exact hl
  · intro h
    exact ⟨x.1, List.mem_finRange _, by rw [h]; rfl⟩

theorem keptOps_sorted (mapTo : Fin n → ℤ) (mapping : List (Fin u)) :
    (keptOps mapTo mapping).Pairwise fun x y => x.1 < y.1 := by
  unfold keptOps
  rw [List.pairwise_filterMap]
  refine (List.pairwise_lt_finRange n).imp fun {i j} hij x hx y hy => ?_
  obtain ⟨_, _, rfl⟩ := Option.map_eq_some_iff.1 hx
  obtain ⟨_, _, rfl⟩ := Option.map_eq_some_iff.1 hy
  exact hij

theorem keptOps_strictMono (mapTo : Fin n → ℤ) (mapping : List (Fin u)) :
    StrictMono fun q : Fin (keptOps mapTo mapping).length => ((keptOps mapTo mapping).get q).1 := by
  intro a b hab
  exact List.pairwise_iff_get.1 (keptOps_sorted mapTo mapping) a b hab

theorem keptOps_get {mapTo : Fin n → ℤ} {mapping : List (Fin u)} {p : Fin n → Fin u}
    (hp : ∀ i, mapTo i = ((p i : ℕ) : ℤ)) (q : Fin (keptOps mapTo mapping).length) :
    mapping.get ((keptOps mapTo mapping).get q).2 = p ((keptOps mapTo mapping).get q).1 := by
  have h := keptOps_mem.1 (List.get_mem (keptOps mapTo mapping) q)
  have h2 := remap_some h
  rw [hp] at h2
  exact Fin.ext (by exact_mod_cast h2)

theorem keptOps_exists {mapTo : Fin n → ℤ} {mapping : List (Fin u)} {p : Fin n → Fin u}
    (hp : ∀ i, mapTo i = ((p i : ℕ) : ℤ)) (i : Fin n) :
    (∃ q, ((keptOps mapTo mapping).get q).1 = i) ↔ p i ∈ mapping := by
  constructor
  · rintro ⟨q, rfl⟩
    rw [← keptOps_get hp q]
    exact List.get_mem _ _
  · intro h
    obtain ⟨l, hl⟩ := Option.isSome_iff_exists.1 (remap_isSome.2 h)
    rw [← hp] at hl
    obtain ⟨q, hq⟩ := List.get_of_mem (keptOps_mem (x := (i, l)).2 hl)
    exact ⟨q, by rw [hq]⟩

theorem dot3_residual_int {k : V3} {R : M3} (hk : FixesK R k) {v : V3} (hv : ∀ a, ∃ m : ℤ, v a = m) :
    ∃ m : ℤ, dot3 (residual R k) v = m := by
  choose m hm using hv
  choose r hr using hk
  refine ⟨∑ a, r a * m a, ?_⟩
  unfold dot3
  push_cast
  refine Finset.sum_congr rfl fun a _ => ?_
  rw [hm a, ← hr a]
  rfl

/-- The exponent of the multiplication law. -/
def lawExp (rots : Fin n → M3) (trans : Fin n → V3) (k : V3) (i j l : Fin n) : ℝ :=
  dot3 k fun a => rotVec (rots i) (trans j) a + trans i a - trans l a

theorem spaceGroupLaw_exp {rots : Fin n → M3} {trans : Fin n → V3} {k : V3} {z : Fin n → Fin n → ℂ}
    {Γ : RepArr n d} : SpaceGroupLaw rots trans k z Γ ↔ ∀ i j l, rots i * rots j = rots l →
      Γ i * Γ j = (z i j * expPhase (lawExp rots trans k i j l)) • Γ l := by
  unfold SpaceGroupLaw lawExp
  simp only [expPhase_spec]
  exact Iff.rfl

/-- The phases of `adjustPhase` turn the law of the primitive representatives into the law of all operations. -/
theorem adjust_law {primRots : Fin n → M3} {primTrans : Fin n → V3} {uRots : Fin u → M3} {uTrans : Fin u → V3}
    {k : V3} {mapTo : Fin n → ℤ} {mapping : List (Fin u)} {p : Fin n → Fin u}
    (hp : ∀ i, mapTo i = ((p i : ℕ) : ℤ)) (hr : ∀ i, uRots (p i) = primRots i)
    (ht : ∀ i a, ∃ m : ℤ, primTrans i a - uTrans (p i) a = m)
    (hk : ∀ l, FixesK (uRots (mapping.get l)) k) {z : Fin mapping.length → Fin mapping.length → ℂ}
    {D : RepArr mapping.length d}
    (hD : SpaceGroupLaw (fun l => uRots (mapping.get l)) (fun l => uTrans (mapping.get l)) k z D) :
    SpaceGroupLaw (fun q => primRots ((keptOps mapTo mapping).get q).1)
      (fun q => primTrans ((keptOps mapTo mapping).get q).1) k
      (fun q q' => z ((keptOps mapTo mapping).get q).2 ((keptOps mapTo mapping).get q').2)
      (fun q => expPhase (dot3 k (fun a => primTrans ((keptOps mapTo mapping).get q).1 a -
        uTrans (mapping.get ((keptOps mapTo mapping).get q).2) a)) • D ((keptOps mapTo mapping).get q).2) := by
  have hget := keptOps_get (mapping := mapping) hp
  generalize keptOps mapTo mapping = kept at hget ⊢
  rw [spaceGroupLaw_exp] at hD ⊢
  intro a b c habc
  have hRot : ∀ q, uRots (mapping.get (kept.get q).2) = primRots (kept.get q).1 := fun q => by rw [hget, hr]
  have h1 := hD (kept.get a).2 (kept.get b).2 (kept.get c).2 (by simp only [hRot]; exact habc)
  rw [Matrix.smul_mul, Matrix.mul_smul, h1, smul_smul, smul_smul, smul_smul]
  congr 1
  have h2 : expPhase (dot3 k fun x => primTrans (kept.get a).1 x - uTrans (mapping.get (kept.get a).2) x) *
      (expPhase (dot3 k fun x => primTrans (kept.get b).1 x - uTrans (mapping.get (kept.get b).2) x) *
      expPhase (lawExp (fun l => uRots (mapping.get l)) (fun l => uTrans (mapping.get l)) k (kept.get a).2
        (kept.get b).2 (kept.get c).2)) =
      expPhase (lawExp (fun q => primRots (kept.get q).1) (fun q => primTrans (kept.get q).1) k a b c) *
      expPhase (dot3 k fun x => primTrans (kept.get c).1 x - uTrans (mapping.get (kept.get c).2) x) := by
    rw [← expPhase_add, ← expPhase_add, ← expPhase_add]
    apply expPhase_eq_of_sub_int
    obtain ⟨m, hm⟩ := dot3_residual_int (hk (kept.get a).2)
      (v := fun x => primTrans (kept.get b).1 x - uTrans (mapping.get (kept.get b).2) x) fun x => by
        rw [hget]
        exact ht _ x
    refine ⟨-m, ?_⟩
    push_cast
    rw [← hm]
    unfold lawExp
    simp only [hRot]
    simp only [dot3, residual, rotVec, Fin.sum_univ_three]
    ring
  calc _ = z (kept.get a).2 (kept.get b).2 *
        (expPhase (dot3 k fun x => primTrans (kept.get a).1 x - uTrans (mapping.get (kept.get a).2) x) *
      (expPhase (dot3 k fun x => primTrans (kept.get b).1 x - uTrans (mapping.get (kept.get b).2) x) *
      expPhase (lawExp (fun l => uRots (mapping.get l)) (fun l => uTrans (mapping.get l)) k (kept.get a).2
        (kept.get b).2 (kept.get c).2))) := by ring
    _ = _ := by rw [h2]; ring

/-- The array of `adjustPhase` before it is purified. -/
noncomputable def adjusted (primTrans : Fin n → V3) (k : V3) (uTrans : Fin u → V3) (mapTo : Fin n → ℤ)
    (mapping : List (Fin u)) (D : RepArr mapping.length d) : RepArr (keptOps mapTo mapping).length d := fun q =>
  expPhase (dot3 k (fun a => primTrans ((keptOps mapTo mapping).get q).1 a -
    uTrans (mapping.get ((keptOps mapTo mapping).get q).2) a)) • D ((keptOps mapTo mapping).get q).2

theorem adjusted_near {primTrans : Fin n → V3} {k : V3} {uTrans : Fin u → V3} {mapTo : Fin n → ℤ}
    {mapping : List (Fin u)} {D X : RepArr mapping.length d} {δ : ℝ} (h : ∀ g i j, ‖D g i j - X g i j‖ ≤ δ)
    (g : Fin (keptOps mapTo mapping).length) (i j : Fin d) :
    ‖adjusted primTrans k uTrans mapTo mapping D g i j -
      purifyIrrepValue (adjusted primTrans k uTrans mapTo mapping X) 1e-8 g i j‖ ≤ δ + 1e-8 := by
  have h3 := near_purify (adjusted primTrans k uTrans mapTo mapping X) (atol := 1e-8) (by norm_num) (by norm_num) g i j
  refine (norm_sub_le_norm_sub_add_norm_sub _ _ _).trans (add_le_add ?_ h3)
  unfold adjusted
  rw [Matrix.smul_apply, Matrix.smul_apply, ← smul_sub, norm_smul, norm_expPhase, one_mul]
  exact h _ i j

theorem adjusted_unitary {primTrans : Fin n → V3} {k : V3} {uTrans : Fin u → V3} {mapTo : Fin n → ℤ}
    {mapping : List (Fin u)} {D : RepArr mapping.length d} (h : IsUnitaryRep D) :
    IsUnitaryRep (adjusted primTrans k uTrans mapTo mapping D) := by
  intro q
  unfold adjusted
  have h1 := h ((keptOps mapTo mapping).get q).2
  rw [Matrix.conjTranspose_smul, Matrix.smul_mul, Matrix.mul_smul, smul_smul, h1, ← starRingEnd_apply,
    Complex.mul_conj, Complex.normSq_eq_norm_sq, norm_expPhase]
  simp

theorem identity_of_law_z {rots : Fin u → M3} {trans : Fin u → V3} {k : V3} {D : RepArr u d} {z : Fin u → Fin u → ℂ}
    (hD : SpaceGroupLaw rots trans k z D) {l : Fin u} (hz : z l l = 1) (hu : IsUnit (D l)) (hl : rots l = 1) :
    D l = expPhase (dot3 k (trans l)) • 1 := by
  rw [spaceGroupLaw_exp] at hD
  have hDD := hD l l l (by rw [hl, one_mul])
  rw [hz] at hDD
  obtain ⟨X, h1⟩ := hu.exists_right_inv
  have h5 := congrArg (fun M => M * X) hDD
  simp only [Matrix.smul_mul, mul_assoc, h1, mul_one, one_mul] at h5
  rw [h5]
  congr 2
  unfold lawExp
  rw [hl]
  simp [dot3, rotVec, Fin.sum_univ_three, Matrix.one_apply]

theorem identity_of_law {rots : Fin u → M3} {trans : Fin u → V3} {k : V3} {D : RepArr u d}
    (hD : SpaceGroupLaw rots trans k (fun _ _ => 1) D) {l : Fin u} (hu : IsUnit (D l)) (hl : rots l = 1) :
    D l = expPhase (dot3 k (trans l)) • 1 := identity_of_law_z hD rfl hu hl

theorem isUnit_of_unitary {D : RepArr u d} (h : IsUnitaryRep D) (l : Fin u) : IsUnit (D l) :=
  (Units.mkOfMulEqOne _ _ (h l)).isUnit

/-- Every family obeying the law of all operations comes from one obeying the law of the primitive ones. -/
theorem adjusted_surj {primRots : Fin n → M3} {primTrans : Fin n → V3} {uRots : Fin u → M3} {uTrans : Fin u → V3}
    {k : V3} {mapTo : Fin n → ℤ} {mapping : List (Fin u)} {p : Fin n → Fin u}
    (hp : ∀ i, mapTo i = ((p i : ℕ) : ℤ)) (hr : ∀ i, uRots (p i) = primRots i)
    (ht : ∀ i a, ∃ m : ℤ, primTrans i a - uTrans (p i) a = m)
    (hk : ∀ l, FixesK (uRots (mapping.get l)) k)
    (hs : ∀ l, ∃ q, ((keptOps mapTo mapping).get q).2 = l)
    {e : Fin (keptOps mapTo mapping).length} (he : primRots ((keptOps mapTo mapping).get e).1 = 1)
    (het : ∀ a, ∃ m : ℤ, primTrans ((keptOps mapTo mapping).get e).1 a = m)
    {z : Fin mapping.length → Fin mapping.length → ℂ} (hz : ∀ l, z l ((keptOps mapTo mapping).get e).2 = 1)
    {E : RepArr (keptOps mapTo mapping).length d} (hE : ∀ q, IsUnit (E q))
    (hlaw : SpaceGroupLaw (fun q => primRots ((keptOps mapTo mapping).get q).1)
      (fun q => primTrans ((keptOps mapTo mapping).get q).1) k
      (fun q q' => z ((keptOps mapTo mapping).get q).2 ((keptOps mapTo mapping).get q').2) E) :
    ∃ E' : RepArr mapping.length d, E = adjusted primTrans k uTrans mapTo mapping E' ∧ (∀ l, IsUnit (E' l)) ∧
      SpaceGroupLaw (fun l => uRots (mapping.get l)) (fun l => uTrans (mapping.get l)) k z E' := by
  have hget := keptOps_get (mapping := mapping) hp
  have hid := identity_of_law_z hlaw (hz _) (hE e) he
  unfold adjusted
  generalize keptOps mapTo mapping = kept at *
  have hRot : ∀ q, uRots (mapping.get (kept.get q).2) = primRots (kept.get q).1 := fun q => by rw [hget, hr]
  rw [spaceGroupLaw_exp] at hlaw
  have hsame : ∀ q q0, (kept.get q).2 = (kept.get q0).2 →
      E q = expPhase (dot3 k fun a => primTrans (kept.get q).1 a - primTrans (kept.get q0).1 a) • E q0 := by
    intro q q0 hq
    have h1 := hlaw q e q0 (by rw [he, mul_one, ← hRot, ← hRot, hq])
    rw [hz, hid, Matrix.mul_smul, mul_one, one_mul] at h1
    have h2 : E q = (expPhase (-dot3 k (primTrans (kept.get e).1)) *
        expPhase (lawExp (fun q => primRots (kept.get q).1) (fun q => primTrans (kept.get q).1) k q e q0)) • E q0 := by
      rw [mul_smul, ← h1, smul_smul, ← expPhase_add, neg_add_cancel, expPhase_zero, one_smul]
    rw [h2, ← expPhase_add]
    congr 1
    apply expPhase_eq_of_sub_int
    obtain ⟨m, hm⟩ := dot3_residual_int (hk (kept.get q).2) het
    refine ⟨m, ?_⟩
    rw [← hm, hRot]
    simp only [lawExp, dot3, residual, rotVec, Fin.sum_univ_three]
    ring
  choose sec hsec using hs
  refine ⟨fun l => expPhase (dot3 k fun a => uTrans (mapping.get l) a - primTrans (kept.get (sec l)).1 a) • E (sec l),
    ?_, ?_, ?_⟩
  · funext q
    rw [smul_smul, ← expPhase_add, hsame q (sec (kept.get q).2) (hsec _).symm]
    congr 2
    simp only [dot3, Fin.sum_univ_three]
    ring
  · intro l
    have hne : expPhase (dot3 k fun a => uTrans (mapping.get l) a - primTrans (kept.get (sec l)).1 a) ≠ 0 := by
      intro h
      have := norm_expPhase (dot3 k fun a => uTrans (mapping.get l) a - primTrans (kept.get (sec l)).1 a)
      rw [h] at this
      simp at this
    exact (hE (sec l)).smul (Units.mk0 _ hne)
  · rw [spaceGroupLaw_exp]
    intro a b c habc
    have hRs : ∀ l, primRots (kept.get (sec l)).1 = uRots (mapping.get l) := fun l => by rw [← hRot, hsec]
    have h1 := hlaw (sec a) (sec b) (sec c) (by simp only [hRs]; exact habc)
    simp only [Matrix.smul_mul, Matrix.mul_smul, smul_smul, h1, hsec]
    congr 1
    suffices key : expPhase (dot3 k fun x => uTrans (mapping.get a) x - primTrans (kept.get (sec a)).1 x) *
        (expPhase (dot3 k fun x => uTrans (mapping.get b) x - primTrans (kept.get (sec b)).1 x) *
        expPhase (lawExp (fun q => primRots (kept.get q).1) (fun q => primTrans (kept.get q).1) k (sec a) (sec b) (sec c))) =
        expPhase (lawExp (fun l => uRots (mapping.get l)) (fun l => uTrans (mapping.get l)) k a b c) *
        expPhase (dot3 k fun x => uTrans (mapping.get c) x - primTrans (kept.get (sec c)).1 x) by
      linear_combination z a b * key
    rw [← expPhase_add, ← expPhase_add, ← expPhase_add]
    apply expPhase_eq_of_sub_int
    obtain ⟨m, hm⟩ := dot3_residual_int (hk a)
      (v := fun x => primTrans (kept.get (sec b)).1 x - uTrans (mapping.get b) x) fun x => by
        have := ht (kept.get (sec b)).1 x
        rw [← hget, hsec] at this
        exact this
    refine ⟨m, ?_⟩
    rw [← hm]
    unfold lawExp
    simp only [hRs]
    simp only [dot3, residual, rotVec, Fin.sum_univ_three]
    ring

theorem adjusted_irreducible {primTrans : Fin n → V3} {k : V3} {uTrans : Fin u → V3} {mapTo : Fin n → ℤ}
    {mapping : List (Fin u)} (hs : ∀ l, ∃ q, ((keptOps mapTo mapping).get q).2 = l) {D : RepArr mapping.length d} :
    Spec.IsIrreducible (adjusted primTrans k uTrans mapTo mapping D) ↔ Spec.IsIrreducible D := by
  unfold Spec.IsIrreducible
  refine and_congr_right fun _ => forall_congr' fun W => imp_congr ?_ Iff.rfl
  unfold adjusted
  constructor
  · intro h l v hv
    obtain ⟨q, rfl⟩ := hs l
    have := h q v hv
    rw [Matrix.smul_mulVec] at this
    have h2 := W.smul_mem (expPhase (-(dot3 k (fun a => primTrans ((keptOps mapTo mapping).get q).1 a -
      uTrans (mapping.get ((keptOps mapTo mapping).get q).2) a)))) this
    rwa [smul_smul, ← expPhase_add, neg_add_cancel, expPhase_zero, one_smul] at h2
  · intro h q v hv
    rw [Matrix.smul_mulVec]
    exact W.smul_mem _ (h _ v hv)

theorem adjusted_equivalent {d' : ℕ} {primTrans : Fin n → V3} {k : V3} {uTrans : Fin u → V3} {mapTo : Fin n → ℤ}
    {mapping : List (Fin u)} (hs : ∀ l, ∃ q, ((keptOps mapTo mapping).get q).2 = l) {D : RepArr mapping.length d}
    {D' : RepArr mapping.length d'} :
    AreEquivalent (adjusted primTrans k uTrans mapTo mapping D) (adjusted primTrans k uTrans mapTo mapping D') ↔
      AreEquivalent D D' := by
  unfold AreEquivalent
  refine exists_congr fun S => exists_congr fun S' => and_congr_right fun _ => and_congr_right fun _ => ?_
  unfold adjusted
  constructor
  · intro h l
    obtain ⟨q, rfl⟩ := hs l
    have := congrArg (fun M => (expPhase (-(dot3 k (fun a => primTrans ((keptOps mapTo mapping).get q).1 a -
      uTrans (mapping.get ((keptOps mapTo mapping).get q).2) a)))) • M) (h q)
    simp only [Matrix.smul_mul, Matrix.mul_smul, smul_smul, ← expPhase_add, neg_add_cancel, expPhase_zero,
      one_smul] at this
    exact this
  · intro h q
    rw [Matrix.smul_mul, Matrix.mul_smul, h]

open Classical in
theorem primitiveCheck_eq {rots : Fin n → M3} {trans : Fin n → V3} {rtol atol : ℝ} (h0 : 0 ≤ atol) (hr : 0 ≤ rtol)
    (h1 : atol + rtol < 1) : primitiveCheck rots trans rtol atol =
      if ∃ i, rots i = 1 ∧ ∃ a, atol < |trans i a| then .error .valueError else .ok () := by
  unfold primitiveCheck
  congr 1
  apply propext
  refine exists_congr fun i => and_congr ?_ ?_
  · constructor
    · intro h
      ext a b
      have h2 := h (a, b)
      unfold IsClose at h2
      dsimp only at h2
      rw [Matrix.one_apply]
      by_cases hab : a = b
      · rw [if_pos hab] at h2 ⊢
        have h3 : |((rots i a b - 1 : ℤ) : ℝ)| < 1 := by
          push_cast
          rw [abs_one] at h2
          linarith
        have h4 : |rots i a b - 1| < 1 := by
          rw [← Int.cast_abs] at h3
          exact_mod_cast h3
        rw [Int.abs_lt_one_iff] at h4
        omega
      · rw [if_neg hab] at h2 ⊢
        have h3 : |((rots i a b : ℤ) : ℝ)| < 1 := by
          rw [abs_zero, sub_zero] at h2
          linarith
        have h4 : |rots i a b| < 1 := by
          rw [← Int.cast_abs] at h3
          exact_mod_cast h3
        rwa [Int.abs_lt_one_iff] at h4
    · intro h p
      unfold IsClose
      rw [h]
      dsimp only
      rw [Matrix.one_apply]
      by_cases hab : p.1 = p.2
      · simp only [if_pos hab]
        simp
        linarith
      · simp only [if_neg hab]
        simp
        linarith
  · unfold AllClose IsClose
    simp

end Spgrep
