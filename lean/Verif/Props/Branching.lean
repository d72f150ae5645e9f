/-
C115: subduction to subgroups, selection rules and products with the irreps of `get_crystallographic_pointgroup_irreps_from_symmetry`.
-/
import Verif.Props.Multiplicity
import Verif.Props.Neumann

namespace Spgrep

open Spec Module

variable {n p : ℕ} {T : Fin n → Fin n → Fin n}

/-- The members of the output as a complete list, with its table. -/
theorem pointgroup_list {rots : Fin n → M3} (h : EnumeratesGroup rots) {o : Oracles} (ho : PointgroupContract o.pointgroup rots)
    {rtol atol : ℝ} (ha : 0 ≤ atol) (ha2 : atol ≤ 1 / 2) {maxGen : ℕ} {out : IrrepsOut n}
    (hrun : pointgroupIrreps o rots false .neto rtol atol maxGen = .ok (out, false)) :
    ∃ T, getCayleyTable rots = .ok T ∧ IsGroupTable T ∧ IsCompleteIrreps T (fun _ _ => 1) out.irreps := by
  obtain ⟨T, hT, -, hTg⟩ := c01_cayley_table_ordinary h
  obtain ⟨l, rfl, hl, -⟩ := c80_pointgroup_irreps h hT ho ha ha2 hrun
  exact ⟨T, hT, hTg, hl⟩

theorem one_cocycle : IsCocycle T fun _ _ => (1 : ℂ) := fun _ _ _ => by simp

/-- The characters weighted with the dimensions vanish outside the identity. -/
theorem regular_sum (hT : IsGroupTable T) {L : List (AnyRep n)} (hL : IsCompleteIrreps T (fun _ _ => 1) L) {e : Fin n}
    (he : ∀ a, T e a = a) (he' : ∀ a, T a e = a) (g : Fin n) :
    ∑ a : Fin L.length, ((L.get a).2 g).trace * ((L.get a).1 : ℂ) = if g = e then (n : ℂ) else 0 := by
  obtain ⟨-, -, h, -⟩ := table_classes (μ := fun _ _ => 1) hT (by simp) (fun _ _ _ => by simp) hL
  have h1 := h g e
  have h2 : ∀ a : Fin L.length, star ((L.get a).2 e).trace = ((L.get a).1 : ℂ) := fun a => by
    rw [units_at_one (hL.rep _ (List.get_mem L a)) (IsUnitaryRep.isUnit (hL.unitary _ (List.get_mem L a))) (he e)]
    simp
  simp_rw [h2] at h1
  rw [h1]
  by_cases hg : g = e
  · subst hg
    simp [he, he']
  · rw [if_neg hg]
    refine Finset.sum_eq_zero fun x _ => if_neg fun hx => hg ?_
    rw [he x] at hx
    obtain ⟨e', h3, h4, h5⟩ := hT.one_inv
    obtain ⟨b, -, hb⟩ := h5 x
    have := congrArg (T b) hx
    rw [← hT.assoc, hb, h3] at this
    rw [this, ← h4 e, he e']

/-- **C115, subduction.** Two calls, for a point group and for a subgroup, possibly written in another basis: every irrep of the
group restricted to the subgroup is equivalent to a direct sum of irreps of the second call.  The multiplicities come from the
characters, and conversely each irrep of the subgroup occurs in total as often as Frobenius reciprocity says. -/
theorem c115_subduction {rots : Fin n → M3} (h : EnumeratesGroup rots) {rots' : Fin p → M3} (h' : EnumeratesGroup rots')
    {S : M3} (hS : S.det ≠ 0) {emb : Fin p → Fin n} (hemb : ∀ x, rots' x * S = S * rots (emb x)) {o o' : Oracles}
    (ho : PointgroupContract o.pointgroup rots) (ho' : PointgroupContract o'.pointgroup rots') {rtol rtol' atol atol' : ℝ}
    (ha : 0 ≤ atol) (ha2 : atol ≤ 1 / 2) (ha' : 0 ≤ atol') (ha2' : atol' ≤ 1 / 2) {maxGen maxGen' : ℕ} {out : IrrepsOut n}
    {out' : IrrepsOut p} (hrun : pointgroupIrreps o rots false .neto rtol atol maxGen = .ok (out, false))
    (hrun' : pointgroupIrreps o' rots' false .neto rtol' atol' maxGen' = .ok (out', false)) :
    ∃ b : Fin out.irreps.length → Fin out'.irreps.length → ℕ,
      (∀ a, AreEquivalent (fun x => (out.irreps.get a).2 (emb x)) (blockSum (b a) fun c => (out'.irreps.get c).2)) ∧
      (∀ a c, ∑ x, ((out.irreps.get a).2 (emb x)).trace * star ((out'.irreps.get c).2 x).trace = (p : ℂ) * b a c) ∧
      (∀ a, ∑ c, b a c * (out'.irreps.get c).1 = (out.irreps.get a).1) ∧
      ∀ c, p * ∑ a, b a c * (out.irreps.get a).1 = n * (out'.irreps.get c).1 := by
  obtain ⟨T, hT, hTg, hL⟩ := pointgroup_list h ho ha ha2 hrun
  obtain ⟨T', hT', hTg', hL'⟩ := pointgroup_list h' ho' ha' ha2' hrun'
  have hcancel : ∀ {A B : M3}, S * A = S * B → A = B := by
    intro A B hAB
    have h1 := congrArg (fun M => S.adjugate * M) hAB
    simp only [← Matrix.mul_assoc, Matrix.adjugate_mul, Matrix.smul_mul, Matrix.one_mul] at h1
    ext i j
    have := congrFun (congrFun h1 i) j
    simp only [Matrix.smul_apply, smul_eq_mul] at this
    exact mul_left_cancel₀ hS this
  have hcancel' : ∀ {A B : M3}, A * S = B * S → A = B := by
    intro A B hAB
    have h1 := congrArg (fun M => M * S.adjugate) hAB
    simp only [Matrix.mul_assoc, Matrix.mul_adjugate, Matrix.mul_smul, Matrix.mul_one] at h1
    ext i j
    have := congrFun (congrFun h1 i) j
    simp only [Matrix.smul_apply, smul_eq_mul] at this
    exact mul_left_cancel₀ hS this
  have hhom : ∀ x y, emb (T' x y) = T (emb x) (emb y) := fun x y => by
    apply h.1
    rw [(cayley_none_spec hT _ _).1]
    apply hcancel
    rw [← hemb, (cayley_none_spec hT' _ _).1, Matrix.mul_assoc, hemb, ← Matrix.mul_assoc, hemb, Matrix.mul_assoc]
  have hinj : Function.Injective emb := fun x y hxy => by
    apply h'.1
    apply hcancel'
    rw [hemb, hemb, hxy]
  have hrep : ∀ a, IsProjRep T' (fun _ _ => 1) fun x => (out.irreps.get a).2 (emb x) := fun a x y => by
    have := hL.rep _ (List.get_mem _ a) (emb x) (emb y)
    rw [← hhom] at this
    exact this
  have hunit : ∀ (a : Fin out.irreps.length) (x : Fin p), IsUnit ((out.irreps.get a).2 (emb x)) := fun a x =>
    IsUnitaryRep.isUnit (hL.unitary _ (List.get_mem _ a)) _
  choose b h1 h2 h3 h4 _ _ using fun a => multiplicities hTg' (by simp) one_cocycle hL' (hrep a) (hunit a)
  refine ⟨b, h1, h3, fun a => (h2 a).trans (Fintype.card_fin _), fun c => ?_⟩
  obtain ⟨e, he1, he2, -⟩ := hTg.one_inv
  obtain ⟨e', he1', he2', -⟩ := hTg'.one_inv
  have hee : emb e' = e := by
    have := hhom e' e'
    rw [he1'] at this
    obtain ⟨q, hq, hq'⟩ := (hTg.one_inv).choose_spec.2.2 (emb e')
    have h0 := (hTg.one_inv).choose_spec
    have h5 := congrArg (T q) this
    rw [← hTg.assoc, hq', h0.1] at h5
    rw [← h5, ← he2 (hTg.one_inv).choose, h0.1]
  have h6 : ((p : ℂ) * ∑ a, (b a c : ℂ) * ((out.irreps.get a).1 : ℂ)) = (n : ℂ) * ((out'.irreps.get c).1 : ℂ) := by
    calc (p : ℂ) * ∑ a, (b a c : ℂ) * ((out.irreps.get a).1 : ℂ)
        = ∑ a, (∑ x, ((out.irreps.get a).2 (emb x)).trace * star ((out'.irreps.get c).2 x).trace) *
            ((out.irreps.get a).1 : ℂ) := by
          rw [Finset.mul_sum]
          exact Finset.sum_congr rfl fun a _ => by rw [h3]; ring
      _ = ∑ x, (∑ a : Fin out.irreps.length, ((out.irreps.get a).2 (emb x)).trace * ((out.irreps.get a).1 : ℂ)) *
            star ((out'.irreps.get c).2 x).trace := by
          simp_rw [Finset.sum_mul]
          rw [Finset.sum_comm]
          exact Finset.sum_congr rfl fun x _ => Finset.sum_congr rfl fun a _ => by ring
      _ = ∑ x, (if x = e' then (n : ℂ) else 0) * star ((out'.irreps.get c).2 x).trace := by
          refine Finset.sum_congr rfl fun x _ => ?_
          rw [regular_sum hTg hL he1 he2]
          congr 1
          have : emb x = e ↔ x = e' := ⟨fun hx => hinj (hx.trans hee.symm), fun hx => hx ▸ hee⟩
          simp [this]
      _ = _ := by
          simp only [ite_mul, zero_mul, Finset.sum_ite_eq', Finset.mem_univ, if_true]
          rw [units_at_one (hL'.rep _ (List.get_mem _ c)) (IsUnitaryRep.isUnit (hL'.unitary _ (List.get_mem _ c))) (he1' e')]
          simp
  exact_mod_cast h6

/-- **C115, products.** The product of two irreps that one call returns is equivalent to a direct sum of irreps of the same
call, with multiplicities given by the characters.  The trivial irrep is in the list, and it occurs in a product once if the
characters of the factors are complex conjugates of each other, and otherwise not at all. -/
theorem c115_products {rots : Fin n → M3} (h : EnumeratesGroup rots) {o : Oracles} (ho : PointgroupContract o.pointgroup rots)
    {rtol atol : ℝ} (ha : 0 ≤ atol) (ha2 : atol ≤ 1 / 2) {maxGen : ℕ} {out : IrrepsOut n}
    (hrun : pointgroupIrreps o rots false .neto rtol atol maxGen = .ok (out, false)) :
    ∃ N : Fin out.irreps.length → Fin out.irreps.length → Fin out.irreps.length → ℕ,
      (∀ a b, AreEquivalent (fun g => Matrix.kroneckerMap (· * ·) ((out.irreps.get a).2 g) ((out.irreps.get b).2 g))
        (blockSum (N a b) fun c => (out.irreps.get c).2)) ∧
      (∀ a b c, ∑ g, ((out.irreps.get a).2 g).trace * ((out.irreps.get b).2 g).trace * star ((out.irreps.get c).2 g).trace =
        (n : ℂ) * N a b c) ∧
      (∀ a b, ∑ c, N a b c * (out.irreps.get c).1 = (out.irreps.get a).1 * (out.irreps.get b).1) ∧
      (∀ a b c, N a b c = N b a c) ∧
      ∃ t, (out.irreps.get t).1 = 1 ∧ (∀ g, ((out.irreps.get t).2 g).trace = 1) ∧
        ∀ a b, ((∀ g, ((out.irreps.get b).2 g).trace = star ((out.irreps.get a).2 g).trace) → N a b t = 1) ∧
          ((∃ g, ((out.irreps.get b).2 g).trace ≠ star ((out.irreps.get a).2 g).trace) → N a b t = 0) := by
  obtain ⟨T, hT, hTg, hL⟩ := pointgroup_list h ho ha ha2 hrun
  generalize out.irreps = L at hL ⊢
  have hn : (n : ℂ) ≠ 0 := by exact_mod_cast (table_pos hTg).ne'
  have hrep : ∀ a b : Fin L.length, IsProjRep T (fun _ _ => 1)
      fun g => Matrix.kroneckerMap (· * ·) ((L.get a).2 g) ((L.get b).2 g) := fun a b x y => by
    have e1 := hL.rep _ (List.get_mem L a) x y
    have e2 := hL.rep _ (List.get_mem L b) x y
    rw [one_smul] at e1 e2 ⊢
    beta_reduce
    rw [← e1, ← e2]
    exact (Matrix.mul_kronecker_mul _ _ _ _).symm
  have hU : ∀ a : Fin L.length, IsUnitaryRep (L.get a).2 := fun a => hL.unitary _ (List.get_mem L a)
  have hunit : ∀ (a b : Fin L.length) g, IsUnit (Matrix.kroneckerMap (· * ·) ((L.get a).2 g) ((L.get b).2 g)) := fun a b g => by
    refine IsUnit.of_mul_eq_one
      (Matrix.kroneckerMap (· * ·) ((L.get a).2 g).conjTranspose ((L.get b).2 g).conjTranspose) ?_
    have h1 := Matrix.mul_kronecker_mul ((L.get a).2 g) ((L.get a).2 g).conjTranspose ((L.get b).2 g)
      ((L.get b).2 g).conjTranspose
    rw [hU a g, hU b g, Matrix.one_kronecker_one] at h1
    exact h1.symm
  choose N h1 h2 h3 h4 _ _ using fun a b => multiplicities hTg (by simp) one_cocycle hL (hrep a b) (hunit a b)
  have h3' : ∀ a b c, ∑ g, ((L.get a).2 g).trace * ((L.get b).2 g).trace * star ((L.get c).2 g).trace = (n : ℂ) * N a b c := by
    intro a b c
    rw [← h3 a b c]
    exact Finset.sum_congr rfl fun g _ => by rw [← Matrix.trace_kronecker]
  refine ⟨N, h1, h3', fun a b => (h2 a b).trans ?_, fun a b c => ?_, ?_⟩
  · simp
  · apply Nat.cast_injective (R := ℂ)
    apply mul_left_cancel₀ hn
    rw [← h3', ← h3']
    exact Finset.sum_congr rfl fun g _ => by ring
  · obtain ⟨Γ, hΓ, heq⟩ := hL.complete 1 (fun _ => 1) (fun _ _ => by simp) (fun _ => isUnit_one) (irreducible_dim_one _)
    obtain ⟨t, rfl⟩ := List.get_of_mem hΓ
    have ht : ∀ g, ((L.get t).2 g).trace = 1 := fun g => by
      rw [← AreEquivalent.trace heq g]
      simp
    obtain ⟨-, horth, -, -⟩ := table_classes (μ := fun _ _ => 1) hTg (by simp) (fun _ _ _ => by simp) hL
    refine ⟨t, (AreEquivalent.dim_eq heq).symm, ht, fun a b => ⟨fun hb => ?_, fun ⟨g0, hg0⟩ => ?_⟩⟩
    · have h5 := h3' a b t
      have h6 := horth a a
      rw [if_pos rfl] at h6
      simp_rw [ht, hb] at h5
      rw [star_one] at h5
      simp only [mul_one] at h5
      rw [h6] at h5
      apply Nat.cast_injective (R := ℂ)
      apply mul_left_cancel₀ hn
      rw [← h5]
      simp
    · obtain ⟨Γ, hΓ, heq'⟩ := hL.complete _ _ (conj_projRep (by simp) (hL.rep _ (List.get_mem L a)))
        (IsUnitaryRep.isUnit (conj_unitary (hU a))) (conj_irreducible (hL.irred _ (List.get_mem L a)))
      obtain ⟨c, rfl⟩ := List.get_of_mem hΓ
      have hc : ∀ g, ((L.get c).2 g).trace = star ((L.get a).2 g).trace := fun g => by
        rw [← AreEquivalent.trace heq' g, trace_map_star]
      have hne : b ≠ c := fun hbc => hg0 (hbc ▸ hc g0)
      have h5 := h3' a b t
      have h6 := horth b c
      rw [if_neg hne] at h6
      simp_rw [hc, star_star] at h6
      simp_rw [ht, star_one, mul_one] at h5
      have h7 : (n : ℂ) * N a b t = 0 := by
        rw [← h5, ← h6]
        exact Finset.sum_congr rfl fun g _ => mul_comm _ _
      exact_mod_cast (mul_eq_zero.1 h7).resolve_left hn

/-- Non-vacuity of C115: runs for 4/m with the axis z and for 2/m with the axis y. -/
example : ∃ (o o' : Oracles) (emb : Fin 4 → Fin 8) (out : IrrepsOut 8) (out' : IrrepsOut 4),
    PointgroupContract o.pointgroup rots4m ∧ PointgroupContract o'.pointgroup axes2m ∧ axesCycle.det ≠ 0 ∧
    (∀ x, axes2m x * axesCycle = axesCycle * rots4m (emb x)) ∧
    pointgroupIrreps o rots4m = .ok (out, false) ∧ pointgroupIrreps o' axes2m = .ok (out', false) := by
  have run : ∀ {n : ℕ} {rots : Fin n → M3} {s : PgSymbol × R3}, n ≤ 8 → EnumeratesGroup rots → PointgroupContract s rots →
      ∃ (o : Oracles) (out : IrrepsOut n), PointgroupContract o.pointgroup rots ∧
        pointgroupIrreps o rots = .ok (out, false) := by
    intro n rots s hn h ho
    obtain ⟨T, hT, -, -⟩ := c01_cayley_table_ordinary h
    obtain ⟨random, hr⟩ := exists_richDraws 1e-8 n 4 fun d hd => by
      have : d ≤ 2 := by by_contra h; push Not at h; nlinarith
      nlinarith
    let o : Oracles := { random := random, eig := fun d _ => (fun _ => 0, 0), eigh := fun d _ => (fun _ => 0, 0),
                         qr := fun _ _ _ => 0, pointgroup := s }
    obtain ⟨L, w, hraw, hw2, hw⟩ := c64_exact_entries h hT o ho 1e-5 (atol := 1e-8) (by norm_num) (by norm_num) 4
    obtain ⟨l, henum, -⟩ := hw (hw2 hr)
    exact ⟨o, _, ho, henum⟩
  obtain ⟨o, out, h1, h2⟩ := run le_rfl rots4m_group pointgroup_4m
  obtain ⟨o', out', h1', h2'⟩ := run (by norm_num) axes2m_group contract_axes2m
  choose emb hemb using sub2m
  exact ⟨o, o', emb, out, out', h1, h1', by decide +kernel, hemb, h2, h2'⟩

end Spgrep
