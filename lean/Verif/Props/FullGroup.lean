/-
C116: the returned small representations label the irreducible representations of the whole space group.
-/
import Verif.Proofs.FullGroup
import Verif.Props.Multiplicity

namespace Spgrep

open Spec Module

variable {n : ℕ} {rots : Fin n → M3} {trans : Fin n → V3}

/-- The families in `S` label the irreducible representations of the space group with Bloch states at `k`; `M` lists the
operations of the little group.  Each label occurs, in dimension (number of points in the star) times (dimension of the
label); every irreducible representation with Bloch states at `k` has exactly one label; and the label determines it up to
equivalence. -/
structure LabelsIrreps (rots : Fin n → M3) (trans : Fin n → V3) (k : V3) (M : List (Fin n)) (S : List (AnyRep M.length)) :
    Prop where
  occurs : ∀ a : Fin S.length, ∃ (q : ℕ) (E : spaceGroup rots trans →* Matrix (Fin q × Fin (S.get a).1) _ ℂ),
    q * M.length = n ∧ Spec.IsIrreducible (fun g => E g) ∧ HasBloch k E ∧ SubducesTo k M (S.get a).2 E
  label : ∀ (e : ℕ) (E : spaceGroup rots trans →* Matrix (Fin e) (Fin e) ℂ), Spec.IsIrreducible (fun g => E g) → HasBloch k E →
    ∃! a : Fin S.length, SubducesTo k M (S.get a).2 E
  dim : ∀ (e : ℕ) (E : spaceGroup rots trans →* Matrix (Fin e) (Fin e) ℂ), Spec.IsIrreducible (fun g => E g) →
    ∀ a : Fin S.length, SubducesTo k M (S.get a).2 E → e * M.length = n * (S.get a).1
  unique : ∀ (e e' : ℕ) (E : spaceGroup rots trans →* Matrix (Fin e) (Fin e) ℂ)
    (E' : spaceGroup rots trans →* Matrix (Fin e') (Fin e') ℂ), Spec.IsIrreducible (fun g => E g) →
    Spec.IsIrreducible (fun g => E' g) → ∀ a : Fin S.length, SubducesTo k M (S.get a).2 E → SubducesTo k M (S.get a).2 E' →
    AreEquivalent (fun g => E g) fun g => E' g

theorem isUnit_of_mul_smul {d : ℕ} {A B : Matrix (Fin d) (Fin d) ℂ} {z : ℂ} (hz : z ≠ 0) (h : A * B = z • 1) : IsUnit A := by
  refine IsUnit.of_mul_eq_one (z⁻¹ • B) ?_
  rw [Matrix.mul_smul, h, smul_smul, inv_mul_cancel₀ hz, one_smul]

section
variable (h : IsSpaceGroup rots trans) (k : V3) {M : List (Fin n)} (pos : Fin n → Fin M.length)

/-- A small representation as a family on the whole space group. -/
noncomputable def spread {d : ℕ} (Γ : RepArr M.length d) (g : spaceGroup rots trans) : Matrix (Fin d) (Fin d) ℂ :=
  transPhase k (g.1 0 - trans (opIndex h g)) • Γ (pos (opIndex h g))

/-- The lattice translations. -/
def latticeSet : Set (spaceGroup rots trans) := {g | rotOf h g = 1}

variable {k pos} (hM : ListsLittle rots k M) (hpos : ∀ i ∈ M, M.get (pos i) = i)

include hM hpos in
theorem spread_mul {d : ℕ} {Γ : RepArr M.length d}
    (hΓ : SpaceGroupLaw (fun i => rots (M.get i)) (fun i => trans (M.get i)) k (fun _ _ => 1) Γ) {g g' : spaceGroup rots trans}
    (hg : g ∈ littleSub h k) (hg' : g' ∈ littleSub h k) : spread h k pos Γ (g * g') = spread h k pos Γ g * spread h k pos Γ g' := by
  have m1 := hpos _ ((hM.2 _).2 hg)
  have m2 := hpos _ ((hM.2 _).2 hg')
  have m3 := hpos _ ((hM.2 _).2 ((littleSub h k).mul_mem hg hg'))
  obtain ⟨r1, r2⟩ := rotOf_mul h g g'
  have hlaw := hΓ (pos (opIndex h g)) (pos (opIndex h g')) (pos (opIndex h (g * g'))) (by
    simp only [m1, m2, m3]; exact r1.symm)
  simp only [m1, m2, m3] at hlaw
  have hph : Complex.exp (-2 * Real.pi * Complex.I * ((∑ a, k a * ((∑ b, (rots (opIndex h g) a b : ℝ) * trans (opIndex h g') b) +
      trans (opIndex h g) a - trans (opIndex h (g * g')) a) : ℝ) : ℂ)) =
      transPhase k (actR (rotOf h g) (trans (opIndex h g')) + trans (opIndex h g) - trans (opIndex h (g * g'))) := rfl
  rw [one_mul, hph] at hlaw
  unfold spread
  rw [Matrix.smul_mul, Matrix.mul_smul, hlaw, smul_smul, smul_smul, ← transPhase_add, ← transPhase_add]
  congr 1
  obtain ⟨t, ht⟩ := zero_eq h g'
  rw [transPhase_eq, r2, ht, actR_add, actR_int]
  obtain ⟨m, hm⟩ := fixesK_dot.1 (mem_littleSub.1 hg) t
  refine ⟨m, ?_⟩
  rw [← hm, ← Finset.sum_sub_distrib, ← Finset.sum_sub_distrib]
  refine Finset.sum_congr rfl fun a _ => ?_
  simp only [Pi.add_apply, Pi.sub_apply]
  ring

include hM hpos in
theorem spread_rep {d : ℕ} {Γ : RepArr M.length d}
    (hΓ : SpaceGroupLaw (fun i => rots (M.get i)) (fun i => trans (M.get i)) k (fun _ _ => 1) Γ) (hu : ∀ g, IsUnit (Γ g)) :
    IndRepOn (littleSub h k) (spread h k pos Γ) := by
  refine ⟨?_, fun g hg g' hg' => spread_mul h hM hpos hΓ hg hg'⟩
  have h1 := spread_mul h hM hpos hΓ (littleSub h k).one_mem (littleSub h k).one_mem
  rw [one_mul] at h1
  have h2 : IsUnit (spread h k pos Γ 1) := (hu _).smul (Units.mk0 _ (transPhase_ne k _))
  exact (h2.mul_left_cancel (h1.symm.trans (mul_one _).symm))

include hM hpos in
theorem spread_over {d : ℕ} {Γ : RepArr M.length d}
    (hΓ : SpaceGroupLaw (fun i => rots (M.get i)) (fun i => trans (M.get i)) k (fun _ _ => 1) Γ) (hu : ∀ g, IsUnit (Γ g)) :
    IsOverChar (littleSub h k) (latticeSet h) (fun g => transPhase k (g.1 0)) (spread h k pos Γ) where
  scalar := by
    intro t ht
    have h1 := (spread_rep h hM hpos hΓ hu).one
    have hi : opIndex h t = opIndex h 1 := h.1.1 (Eq.trans ht (rotOf_one h).1.symm)
    unfold spread at h1 ⊢
    rw [(rotOf_one h).2] at h1
    rw [hi]
    have e1 : t.1 0 - trans (opIndex h 1) = t.1 0 + (0 - trans (opIndex h 1)) := by abel
    rw [e1, transPhase_add, mul_smul, h1]
  le := by
    intro t ht
    rw [mem_littleSub, show rotOf h t = 1 from ht]
    exact fixesK_one k
  normal := by
    intro g t ht
    show rotOf h _ = 1
    rw [(rotOf_mul h _ _).1, (rotOf_mul h _ _).1, show rotOf h t = 1 from ht, mul_one, ← (rotOf_mul h _ _).1, inv_mul_cancel,
      (rotOf_one h).1]
  moved := by
    intro g hg
    by_contra hall
    push Not at hall
    apply hg
    rw [← (littleSub h k).inv_mem_iff, mem_littleSub, fixesK_dot]
    intro t
    obtain ⟨e, he, u, hu'⟩ := exists_one h
    obtain ⟨τ, hτ1, hτ2⟩ := operation_mem h e (t - u)
    have hτ0 : τ.1 0 = fun a => (t a : ℝ) := by
      rw [hτ2, hu']
      funext a
      simp
    have hτr : rotOf h τ = 1 := by unfold rotOf; rw [hτ1, he]
    have h1 := hall τ hτr
    have h2 : (g⁻¹ * τ * g).1 0 = fun a => ((rotOf h g⁻¹).mulVec t a : ℝ) := by
      have e1 : (g⁻¹ * τ * g).1 0 = g⁻¹.1 (τ.1 (g.1 0)) := rfl
      rw [e1, apply_eq h τ, hτr, actR_one, hτ0, apply_eq h g⁻¹, actR_add, actR_int]
      have e2 : g⁻¹.1 (g.1 0) = 0 := g.1.symm_apply_apply 0
      rw [apply_eq h g⁻¹] at e2
      rw [add_right_comm, e2, zero_add]
    simp only [h2, hτ0] at h1
    exact transPhase_eq.1 h1

include hM hpos in
/-- Subduction to a small representation in terms of the whole little group. -/
theorem subduces_iff {ε : Type*} [Fintype ε] [DecidableEq ε] {d : ℕ} {Γ : RepArr M.length d}
    {E : spaceGroup rots trans →* Matrix ε ε ℂ} :
    SubducesTo k M Γ E ↔ ∃ X : Matrix ε (Fin d) ℂ, X ≠ 0 ∧ ∀ g ∈ littleSub h k, E g * X = X * spread h k pos Γ g := by
  constructor
  · rintro ⟨X, hX, hint⟩
    refine ⟨X, hX, fun g hg => ?_⟩
    obtain ⟨t, ht⟩ := opIndex_spec h g
    have m1 := hpos _ ((hM.2 _).2 hg)
    have h1 := hint g (pos (opIndex h g)) t (by rw [m1]; exact ht)
    rw [h1]
    unfold spread
    rw [Matrix.mul_smul]
    congr 2
    have h2 := (rotOf_unique h g (isOperation_iff.1 ht)).2
    rw [h2, add_sub_cancel_left]
  · rintro ⟨X, hX, hint⟩
    refine ⟨X, hX, fun g p t ht => ?_⟩
    obtain ⟨h1, h2⟩ := rotOf_unique h g (isOperation_iff.1 ht)
    have hi : opIndex h g = M.get p := h.1.1 h1
    have hg : g ∈ littleSub h k := by
      rw [mem_littleSub, h1]
      exact (hM.2 _).1 (List.get_mem M p)
    have hp : pos (M.get p) = p := by
      have := hpos (M.get p) (List.get_mem M p)
      exact (List.nodup_iff_injective_get.1 hM.1) this
    rw [hint g hg]
    unfold spread
    rw [Matrix.mul_smul, hi, hp, h2, add_sub_cancel_left]

include h hM hpos in
/-- A representation with Bloch states at `k` contains a member of a complete list. -/
theorem bloch_subduces {S : List (AnyRep M.length)}
    (hS : IsCompleteSmall (fun i => rots (M.get i)) (fun i => trans (M.get i)) k (fun _ _ => 1) S)
    (hR : EnumeratesGroup fun i => rots (M.get i)) {e : ℕ} (E : spaceGroup rots trans →* Matrix (Fin e) (Fin e) ℂ)
    (hb : HasBloch k E) : ∃ a : Fin S.length, SubducesTo k M (S.get a).2 E := by
  obtain ⟨T, hT, -, hTg⟩ := c01_cayley_table_ordinary hR
  have hC := hS.irreps hR hT
  have hμ := ne_zero_of_norm_one (smallFactor_norm (rots := fun i => rots (M.get i)) (trans := fun i => trans (M.get i)) (k := k)
    (T := T) (z := fun _ _ => 1) (by simp))
  have hpos' := table_pos hTg
  have hne : S ≠ [] := by
    rintro rfl
    have := hS.sum_sq
    simp at this
    omega
  obtain ⟨Γ, hΓ⟩ := List.exists_mem_of_ne_nil S hne
  have hc : IsCocycle T (smallFactor (fun i => rots (M.get i)) (fun i => trans (M.get i)) k (fun _ _ => 1) T) := by
    have := (hC.irred Γ hΓ).1
    exact cocycle_of_units hTg (hC.rep Γ hΓ) (IsUnitaryRep.isUnit (hC.unitary Γ hΓ))
  obtain ⟨hΓl, hΓu, hΓi⟩ := hS.law Γ hΓ
  have hΓU : ∀ g, IsUnit (Γ.2 g) := IsUnitaryRep.isUnit hΓu
  have hrep := spread_rep h hM hpos hΓl hΓU
  have hover := spread_over h hM hpos hΓl hΓU
  -- the phases of translations do not change by conjugation
  have hconj : ∀ s ∈ littleSub h k, ∀ t ∈ latticeSet h, transPhase k ((s⁻¹ * t * s).1 0) = transPhase k (t.1 0) := by
    intro s hs t ht
    have := hΓi.1
    exact overChar_conj hrep hover hs ht
  -- the Bloch states
  let W : Submodule ℂ (Fin e → ℂ) :=
    { carrier := {v | ∀ t ∈ latticeSet h, (E t).mulVec v = transPhase k (t.1 0) • v}
      add_mem' := by
        intro a b ha hb t ht
        rw [Matrix.mulVec_add, ha t ht, hb t ht, smul_add]
      zero_mem' := by
        intro t _
        rw [Matrix.mulVec_zero, smul_zero]
      smul_mem' := by
        intro c a ha t ht
        rw [Matrix.mulVec_smul, ha t ht, smul_comm] }
  have hWne : W ≠ ⊥ := by
    obtain ⟨v, hv, hE⟩ := hb
    refine (Submodule.ne_bot_iff W).2 ⟨v, fun t ht => ?_, hv⟩
    obtain ⟨e0, he0, u, hu⟩ := exists_one h
    obtain ⟨s, hs⟩ := zero_eq h t
    have hi : opIndex h t = e0 := h.1.1 (Eq.trans ht he0.symm)
    rw [hi, hu] at hs
    have h1 := hE t (u + s) (isOperation_iff.2 fun x => by
      rw [apply_eq h t x, show rotOf h t = 1 from ht, hs]
      funext a
      simp)
    rw [h1, hs]
    congr 2
    funext a
    simp
  have hWinv : ∀ s ∈ littleSub h k, ∀ v ∈ W, (E s).mulVec v ∈ W := by
    intro s hs v hv t ht
    have h1 : t * s = s * (s⁻¹ * t * s) := by group
    rw [Matrix.mulVec_mulVec, ← map_mul, h1, map_mul, ← Matrix.mulVec_mulVec, hv _ (hover.normal s t ht), Matrix.mulVec_smul,
      hconj s hs t ht]
  -- a basis of them
  obtain ⟨w, X0, hw, hinj, hcol, hlift⟩ := basis_matrix W hWne
  choose σ hσ hσ0 using fun i => operation_mem h i 0
  have hrot : ∀ i, rotOf h (σ i) = rots i := fun i => by unfold rotOf; rw [hσ]
  have hσ0' : ∀ i, (σ i).1 0 = trans i := fun i => by
    rw [hσ0]
    funext a
    simp
  have hσM : ∀ p : Fin M.length, σ (M.get p) ∈ littleSub h k := fun p => by
    rw [mem_littleSub, hrot]
    exact (hM.2 _).1 (List.get_mem M p)
  choose F hF using fun p : Fin M.length => hlift (E (σ (M.get p))) (hWinv _ (hσM p))
  have htrans : ∀ t ∈ latticeSet h, E t * X0 = transPhase k (t.1 0) • X0 := fun t ht => by
    ext i j
    have := congrFun (hcol j t ht) i
    exact this
  have hFlaw : SpaceGroupLaw (fun i => rots (M.get i)) (fun i => trans (M.get i)) k (fun _ _ => 1) F := by
    intro i j l hl
    let t : spaceGroup rots trans := σ (M.get i) * σ (M.get j) * (σ (M.get l))⁻¹
    have ht : t ∈ latticeSet h := by
      show rotOf h _ = 1
      rw [(rotOf_mul h _ _).1, (rotOf_mul h _ _).1, hrot, hrot]
      have e1 : rots (M.get i) * rots (M.get j) = rotOf h (σ (M.get l)) := by rw [hrot]; exact hl
      rw [e1, rotOf_inv]
    have hts : t * σ (M.get l) = σ (M.get i) * σ (M.get j) := by simp [t]
    have ht0 : t.1 0 = actR (rots (M.get i)) (trans (M.get j)) + trans (M.get i) - trans (M.get l) := by
      have e1 := (rotOf_mul h t (σ (M.get l))).2
      rw [hts, (rotOf_mul h _ _).2, show rotOf h t = 1 from ht, actR_one, hσ0', hσ0', hσ0', hrot] at e1
      rw [e1, add_sub_cancel_left]
    have h1 : X0 * (F i * F j) = X0 * (transPhase k (t.1 0) • F l) := by
      rw [← Matrix.mul_assoc, ← hF, Matrix.mul_assoc, ← hF, ← Matrix.mul_assoc, ← map_mul, ← hts, map_mul, Matrix.mul_assoc, hF,
        ← Matrix.mul_assoc, htrans t ht, Matrix.smul_mul, Matrix.mul_smul]
    have h2 := hinj _ _ h1
    rw [h2, ht0, one_mul]
    rfl
  have hFu : ∀ p, IsUnit (F p) := by
    intro p
    obtain ⟨p', hp'⟩ := enum_inv hR p
    obtain ⟨l, hl⟩ := enum_mul hR p p'
    have h1 := hFlaw p p' l hl.symm
    have hl1 : σ (M.get l) ∈ latticeSet h := by
      show rotOf h _ = 1
      rw [hrot]
      exact hl.trans hp'
    have h2 : F l = transPhase k ((σ (M.get l)).1 0) • 1 := by
      apply hinj
      rw [← hF, htrans _ hl1, Matrix.mul_smul, Matrix.mul_one]
    rw [h2, smul_smul] at h1
    refine isUnit_of_mul_smul (z := _ * transPhase k ((σ (M.get l)).1 0)) ?_ h1
    exact mul_ne_zero (mul_ne_zero one_ne_zero (Complex.exp_ne_zero _)) (transPhase_ne k _)
  have hdim := dim_expand hTg hμ hc hC ((small_proj hR hT).1 hFlaw) hFu
  rw [Fintype.card_fin] at hdim
  obtain ⟨a, ha⟩ : ∃ a : Fin S.length, finrank ℂ (homSub F (S.get a).2) ≠ 0 := by
    by_contra hall
    push Not at hall
    simp only [hall, zero_mul, Finset.sum_const_zero] at hdim
    omega
  obtain ⟨X, hXm, hX0⟩ := (Submodule.ne_bot_iff _).1 (show homSub F (S.get a).2 ≠ ⊥ from fun hb => ha (by rw [hb]; simp))
  refine ⟨a, (subduces_iff h hM hpos).2 ⟨X0 * X, fun hz => hX0 ?_, fun g hg => ?_⟩⟩
  · exact hinj X 0 (by rw [hz, Matrix.mul_zero])
  · have m1 := hpos _ ((hM.2 _).2 hg)
    let p := pos (opIndex h g)
    have hp : M.get p = opIndex h g := m1
    let t : spaceGroup rots trans := g * (σ (M.get p))⁻¹
    have ht : t ∈ latticeSet h := by
      show rotOf h _ = 1
      rw [(rotOf_mul h _ _).1]
      have : rotOf h g = rotOf h (σ (M.get p)) := by rw [hrot, hp]; rfl
      rw [this, rotOf_inv]
    have hts : t * σ (M.get p) = g := by simp [t]
    have ht0 : t.1 0 = g.1 0 - trans (opIndex h g) := by
      have e1 := (rotOf_mul h t (σ (M.get p))).2
      rw [hts, show rotOf h t = 1 from ht, actR_one, hσ0', hp] at e1
      rw [e1, add_sub_cancel_left]
    have e2 : E g * X0 = transPhase k (t.1 0) • (X0 * F p) := by
      rw [← hts, map_mul, Matrix.mul_assoc, hF, ← Matrix.mul_assoc, htrans t ht, Matrix.smul_mul]
    rw [← Matrix.mul_assoc, e2, Matrix.smul_mul, Matrix.mul_assoc, hXm p, ht0, ← Matrix.mul_assoc]
    unfold spread
    rw [Matrix.mul_smul]

end

theorem labels_irreps (h : IsSpaceGroup rots trans) {k : V3} {M : List (Fin n)} (hM : ListsLittle rots k M)
    {S : List (AnyRep M.length)}
    (hS : IsCompleteSmall (fun i => rots (M.get i)) (fun i => trans (M.get i)) k (fun _ _ => 1) S)
    (hR : EnumeratesGroup fun i => rots (M.get i)) : LabelsIrreps rots trans k M S := by
  obtain ⟨e0, he0, -⟩ := exists_one h
  have he0M : e0 ∈ M := (hM.2 _).2 (by rw [he0]; exact fixesK_one k)
  obtain ⟨pos, hpos⟩ : ∃ pos : Fin n → Fin M.length, ∀ i ∈ M, M.get (pos i) = i := by
    have : ∀ i, ∃ p : Fin M.length, i ∈ M → M.get p = i := fun i => by
      by_cases hi : i ∈ M
      · obtain ⟨p, hp⟩ := List.get_of_mem hi
        exact ⟨p, fun _ => hp⟩
      · obtain ⟨p, hp⟩ := List.get_of_mem he0M
        exact ⟨p, fun h => absurd h hi⟩
    choose pos hpos using this
    exact ⟨pos, hpos⟩
  obtain ⟨hfin, hcard⟩ := littleSub_index h k hM
  -- representatives of the cosets
  obtain ⟨q, hq, c, hc, α₀, h0⟩ : ∃ q, q * M.length = n ∧ ∃ c : Fin q → spaceGroup rots trans, CosetReps (littleSub h k) c ∧
      ∃ α₀, c α₀ = 1 := by
    classical
    let Q := spaceGroup rots trans ⧸ littleSub h k
    let f : Q ≃ Fin (Nat.card Q) := Finite.equivFin Q
    let r : Q → spaceGroup rots trans := fun x => if x = ((1 : spaceGroup rots trans) : Q) then 1 else x.out
    have hr : ∀ x : Q, ((r x : spaceGroup rots trans) : Q) = x := fun x => by
      simp only [r]
      split
      · next hx => exact hx.symm
      · exact QuotientGroup.out_eq' x
    refine ⟨Nat.card Q, hcard, fun α => r (f.symm α), ⟨fun g => ⟨f (g : Q), ?_⟩, fun α β hαβ => ?_⟩,
      f ((1 : spaceGroup rots trans) : Q), ?_⟩
    · rw [← QuotientGroup.eq, hr, Equiv.symm_apply_apply]
    · rw [← QuotientGroup.eq, hr, hr] at hαβ
      exact f.symm.injective hαβ
    · simp [r]
  have hlaw := fun a : Fin S.length => (hS.law _ (List.get_mem S a)).1
  have hirr := fun a : Fin S.length => (hS.law _ (List.get_mem S a)).2.2
  have hU := fun a : Fin S.length => IsUnitaryRep.isUnit (hS.law _ (List.get_mem S a)).2.1
  have hrep := fun a => spread_rep h hM hpos (hlaw a) (hU a)
  have hover := fun a => spread_over h hM hpos (hlaw a) (hU a)
  have hspread : ∀ a : Fin S.length, Nonempty (Fin (S.get a).1) ∧ ∀ W : Submodule ℂ (Fin (S.get a).1 → ℂ),
      (∀ g ∈ littleSub h k, ∀ v ∈ W, (spread h k pos (S.get a).2 g).mulVec v ∈ W) → W = ⊥ ∨ W = ⊤ := by
    refine fun a => ⟨(hirr a).1, fun W hW => (hirr a).2 W fun p v hv => ?_⟩
    obtain ⟨g, hg, -⟩ := operation_mem h (M.get p) 0
    have hgl : g ∈ littleSub h k := by
      rw [mem_littleSub]
      unfold rotOf
      rw [hg]
      exact (hM.2 _).1 (List.get_mem M p)
    have hp : pos (M.get p) = p := (List.nodup_iff_injective_get.1 hM.1) (hpos (M.get p) (List.get_mem M p))
    have h1 := W.smul_mem (transPhase k (g.1 0 - trans (opIndex h g)))⁻¹ (hW g hgl v hv)
    unfold spread at h1
    rw [Matrix.smul_mulVec, smul_smul, inv_mul_cancel₀ (transPhase_ne k _), one_smul, hg, hp] at h1
    exact h1
  have hind : ∀ a, Spec.IsIrreducible (indRep (littleSub h k) c (spread h k pos (S.get a).2)) := fun a =>
    indRep_irreducible hc (hrep a) (hover a) h0 (hspread a)
  have hequiv : ∀ {e : ℕ} (E : spaceGroup rots trans →* Matrix (Fin e) (Fin e) ℂ), Spec.IsIrreducible (fun g => E g) →
      ∀ a : Fin S.length, SubducesTo k M (S.get a).2 E →
      AreEquivalent (fun g => E g) (indRep (littleSub h k) c (spread h k pos (S.get a).2)) := by
    intro e E hE a hsub
    obtain ⟨X, hX, hint⟩ := (subduces_iff h hM hpos).1 hsub
    obtain ⟨Y, hY, hYi⟩ := indRep_hom hc h0 (E := fun g => E g) (map_one E) (map_mul E) hX hint
    obtain ⟨Y', h1, h2⟩ := schur_equiv hE (hind a) hYi hY
    exact ⟨Y, Y', h1, h2, hYi⟩
  refine ⟨fun a => ?_, fun e E hE hb => ?_, fun e E hE a hsub => ?_, fun e e' E E' hE hE' a hsub hsub' => ?_⟩
  · have := (hirr a).1
    refine ⟨q, ⟨⟨indRep (littleSub h k) c (spread h k pos (S.get a).2), indRep_one hc (hrep a)⟩, indRep_mul hc (hrep a)⟩, hq,
      hind a, ?_, ?_⟩
    · obtain ⟨x0⟩ := (hirr a).1
      refine ⟨Pi.single (α₀, x0) 1, by simp, fun g t ht => ?_⟩
      obtain ⟨h1, h2⟩ := rotOf_unique h g (isOperation_iff.1 ht)
      rw [zero_add] at h2
      show (indRep _ c _ g).mulVec _ = _
      funext p
      rw [indRep_scalar hc (hover a) h1, Pi.smul_apply, smul_eq_mul]
      by_cases hp : p = (α₀, x0)
      · subst hp
        simp only [h0, inv_one, one_mul, mul_one, h2]
      · simp [hp]
    · exact (subduces_iff h hM hpos).2 (indRep_block hc h0)
  · obtain ⟨a, ha⟩ := bloch_subduces h hM hpos hS hR E hb
    refine ⟨a, ha, fun b hb' => ?_⟩
    have := (hirr b).1
    obtain ⟨X, hX, hint⟩ := indRep_separates hc (hrep b) (hover b) (hrep a) (hover a) h0
      (AreEquivalent.trans (AreEquivalent.symm (hequiv E hE b hb')) (hequiv E hE a ha))
    have hint' : ∀ p, (S.get a).2 p * X = X * (S.get b).2 p := by
      intro p
      obtain ⟨g, hg, hg0⟩ := operation_mem h (M.get p) 0
      have hgl : g ∈ littleSub h k := by
        rw [mem_littleSub]
        unfold rotOf
        rw [hg]
        exact (hM.2 _).1 (List.get_mem M p)
      have hp : pos (M.get p) = p := (List.nodup_iff_injective_get.1 hM.1) (hpos (M.get p) (List.get_mem M p))
      have h1 := hint g hgl
      unfold spread at h1
      rw [hg, hp, Matrix.smul_mul, Matrix.mul_smul] at h1
      exact smul_right_injective _ (transPhase_ne k _) h1
    obtain ⟨X', h1, h2⟩ := schur_equiv (hirr a) (hirr b) hint' hX
    have heq : AreEquivalent (S.get a).2 (S.get b).2 := ⟨X, X', h1, h2, hint'⟩
    have hd := List.pairwise_iff_get.1 hS.inequiv
    rcases lt_trichotomy a b with hab | hab | hab
    · exact absurd heq (hd a b hab)
    · exact hab.symm
    · exact absurd (AreEquivalent.symm heq) (hd b a hab)
  · have h1 := AreEquivalent.trace (hequiv E hE a hsub) 1
    rw [indRep_one hc (hrep a), map_one] at h1
    simp only [Matrix.trace_one, Fintype.card_prod, Fintype.card_fin] at h1
    have h2 : e = q * (S.get a).1 := by exact_mod_cast h1
    rw [h2]
    calc q * (S.get a).1 * M.length = q * M.length * (S.get a).1 := by ring
      _ = _ := by rw [hq]
  · exact AreEquivalent.trans (hequiv E hE a hsub) (AreEquivalent.symm (hequiv E' hE' a hsub'))

/-- **C116.** What `get_spacegroup_irreps_from_primitive_symmetry` returns without a warning is, up to `atol` in each entry, a
list of labels for the irreducible representations of the whole space group with Bloch states at `k`. -/
theorem c116_full_group {k : V3} (h : IsSpaceGroup rots trans) {o : Oracles} {method : IrrepMethod} {rtol atol : ℝ}
    (ha : 0 < atol) (ha5 : atol ≤ 1 / 5) (hnm : NoNearMiss 1 rots k atol)
    (ho : MethodContract o method rtol fun i => rots ((littleMapping rots k atol).get i)) {maxGen : ℕ}
    {M : List (Fin n)} {out : IrrepsOut M.length}
    (hrun : irrepsFromPrimitive o rots trans k false method rtol atol maxGen = .ok ⟨M, out, false⟩) :
    ∃ S : List (AnyRep M.length), List.Forall₂ (NearRep atol) S out.irreps ∧ LabelsIrreps rots trans k M S := by
  obtain ⟨rfl, e1⟩ := primitive_ok hrun
  have hM := little_lists ha.le hnm
  have hG := little_spaceGroup h ha.le hnm
  obtain ⟨l, S, rfl, h1, h2, h3, h4, h5⟩ := small_reps_complete hG (fun i => (hM.2 _).1 (List.get_mem _ i)) o ho ha ha5 maxGen e1
  exact ⟨S, List.forall₂_map_right_iff.2 h1, labels_irreps h hM ⟨h2, h3, h4, h5⟩ hG.1⟩

/-- Non-vacuity of C116: the group 23 at `(1/4, 0, 0)`, where the star has six points and the little group has two
operations. -/
example : ∃ (o : Oracles) (M : List (Fin 12)) (out : IrrepsOut M.length) (S : List (AnyRep M.length)),
    irrepsFromPrimitive o rots23 (fun _ _ => 0) (kAxis 1 0) false .neto 1e-5 1e-8 9 = .ok ⟨M, out, false⟩ ∧
    List.Forall₂ (NearRep 1e-8) S out.irreps ∧ LabelsIrreps rots23 (fun _ _ => 0) (kAxis 1 0) M S := by
  obtain ⟨o, -, hc, ⟨M, out, hrun⟩, -⟩ := run_axis (t := 1) (.inl rfl) 0 (atol := 1e-8) (by norm_num) (by norm_num)
  obtain ⟨S, h1, h2⟩ := c116_full_group group23 (by norm_num) (by norm_num) (noMiss23 1 0 (atol := 1e-8) (by norm_num) (by norm_num))
    hc hrun
  exact ⟨o, M, out, S, hrun, h1, h2⟩

end Spgrep
