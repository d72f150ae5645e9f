/-
C90: number, dimensions and characters of the point-group irreps over the reals.
-/
import Verif.Proofs.RealCharacters

set_option linter.unusedSectionVars false

namespace Spgrep

open Spec

variable {n : ℕ} {T : Fin n → Fin n → Fin n}

/-- **C90.** For every list of rotations that is a group, all answers of `get_pointgroup` and of `np.linalg.eig` within their
contracts, every tolerance up to one tenth and all random draws: if no intertwiner search gave up, the characters of the
arrays that `get_crystallographic_pointgroup_irreps_from_symmetry` returns with `real=True` are orthogonal with square norm
`n (2 - indicator)`; weighted with `1 / (2 - indicator)` they satisfy the second relation, in which an element counts as
related to its conjugates and to the conjugates of its inverse; `2 n` times their number is the number of pairs that commute
plus the number of pairs with `g x g = x`; and the squares of their dimensions, halved for indicator zero, add up to `n`. -/
theorem c90_real_characters {rots : Fin n → M3} (h : EnumeratesGroup rots) {o : Oracles}
    (ho : PointgroupContract o.pointgroup rots) (heig : EigContract o.eig) {rtol atol : ℝ} (ha : 0 ≤ atol)
    (ha2 : atol ≤ 1 / 10) {maxGen : ℕ} {out : IrrepsOut n}
    (hsearch : ∀ L w, rawIrreps o rots (fun _ _ => 1) .neto rtol atol maxGen = .ok (L, w) → ∀ D ∈ L,
      frobeniusSchur D.2 = .ok 1 → (getIntertwiner (o.random D.1) D.2 (fun g => (D.2 g).map star) atol maxGen).2 = false)
    (hrun : pointgroupIrreps o rots true .neto rtol atol maxGen = .ok (out, false)) :
    ∃ l : List (AnyReal n × ℤ), out = .real l ∧ (∀ x ∈ l, x.2 = 1 ∨ x.2 = 0) ∧
      (∀ a b : Fin l.length, ∑ g, ((l.get a).1.2 g).trace * ((l.get b).1.2 g).trace =
        if a = b then n * (2 - ((l.get a).2 : ℝ)) else 0) ∧
      (∀ g h, ∑ a : Fin l.length, ((l.get a).1.2 g).trace * ((l.get a).1.2 h).trace / (2 - ((l.get a).2 : ℝ)) =
        ((Finset.univ.filter fun x => rots x * rots g = rots h * rots x).card +
          (Finset.univ.filter fun x => rots h * rots x * rots g = rots x).card : ℝ) / 2) ∧
      2 * n * l.length = (Finset.univ.filter fun p : Fin n × Fin n => rots p.1 * rots p.2 = rots p.2 * rots p.1).card +
        (Finset.univ.filter fun p : Fin n × Fin n => rots p.1 * rots p.2 * rots p.1 = rots p.2).card ∧
      (l.map fun x => (x.1.1 : ℝ) ^ 2 / (2 - (x.2 : ℝ))).sum = (n : ℝ) := by
  obtain ⟨T, hT, -, -⟩ := c01_cayley_table_ordinary h
  obtain ⟨hTg, L, w, hraw, -, hok⟩ := real_run h hT o ho heig rtol ha ha2 maxGen
  unfold pointgroupIrreps at hrun
  have hw : w = false := by
    unfold enumerateUnitaryIrreps at hrun
    simp only [Option.getD_none, hraw, bind, Except.bind, pure, Except.pure, if_true] at hrun
    split at hrun
    · cases hrun
    · exact (Prod.mk.inj (Except.ok.inj hrun)).2
  obtain ⟨hL, l, hl, hF⟩ := hok hw (hsearch L w hraw)
  rw [hl] at hrun
  obtain ⟨rfl, -⟩ := Prod.mk.inj (Except.ok.inj hrun)
  have hm : ∀ a : Fin L.length, L.get a ∈ L := fun a => List.get_mem L a
  have hlen := hF.length_eq
  obtain ⟨hpart, hnd, -⟩ := c21_pairing.1 L.length fun i j =>
    IsEquivalentIrrep ((charList (L.get i).2).map star) (charList (L.get j).2)
  obtain ⟨hpair, -⟩ := c21_pairing.2 n T _ L hTg (fun _ _ => Or.inl rfl) hL
  let P : Fin l.length → Fin L.length × Fin L.length := fun a => (pairsOf L).get (a.cast hlen.symm)
  have hPm : ∀ a, P a ∈ pairsOf L := fun a => List.get_mem _ _
  have hPF : ∀ a : Fin l.length, _ := fun a => (List.forall₂_iff_get.1 hF).2 a (a.cast hlen.symm).2 a.2
  have hPi : Function.Injective P := fun a b hab => by
    have := (List.Nodup.get_inj_iff hnd).1 hab
    exact Fin.cast_injective _ this
  have hP : ∀ i, ∃! a, i = (P a).1 ∨ i = (P a).2 := by
    intro i
    obtain ⟨p, ⟨hp, hi⟩, hu⟩ := hpart i
    obtain ⟨a, ha⟩ := List.get_of_mem hp
    refine ⟨a.cast hlen, ?_, fun b hb => ?_⟩
    · show i = ((pairsOf L).get a).1 ∨ i = ((pairsOf L).get a).2
      unfold pairsOf
      rw [ha]
      exact hi
    · refine hPi ((hu (P b) ⟨hPm b, hb⟩).trans ?_)
      exact ha.symm
  have hself : ∀ a, (P a).1 = (P a).2 ↔ AreEquivalent (L.get (P a).1).2 fun g => ((L.get (P a).1).2 g).map star := by
    intro a
    have h1 := (hpair (P a) (hPm a)).2
    constructor
    · intro h2
      have h3 := AreEquivalent.symm h1
      rwa [← h2] at h3
    · intro h2
      have h3 := AreEquivalent.trans h2 h1
      by_contra hne
      have hd := List.pairwise_iff_get.1 hL.inequiv
      rcases lt_or_gt_of_ne hne with h4 | h4
      · exact hd _ _ h4 h3
      · exact hd _ _ h4 (AreEquivalent.symm h3)
  have hfs : ∀ a : Fin l.length, (l.get a).2 = 0 ↔ ¬ (P a).1 = (P a).2 := by
    intro a
    obtain ⟨s, h1, -, h2, -⟩ := c17_frobenius_schur hTg (μ := fun _ _ => 1) (fun _ _ => .inl rfl) (hL.rep _ (hm (P a).1))
      (hL.unitary _ (hm _)) (hL.irred _ (hm _))
    have h3 := (hPF a).2.2.1
    rw [hself, ← h2]
    have h4 := h1.symm.trans h3
    rw [← Except.ok.inj h4]
  have hind : ∀ x ∈ l, x.2 = 1 ∨ x.2 = 0 := by
    intro x hx
    obtain ⟨p, -, h1⟩ := forall₂_right hF hx
    exact h1.2.2.2.1.imp_right fun h => h.1
  have hc : ∀ a : Fin l.length, 2 - ((l.get a).2 : ℝ) = if (P a).1 = (P a).2 then 1 else 2 := by
    intro a
    split_ifs with h1
    · rcases hind _ (List.get_mem l a) with h2 | h2
      · rw [h2]; norm_num
      · exact absurd h1 ((hfs a).1 h2)
    · rw [(hfs a).2 h1]; norm_num
  have ht : ∀ (a : Fin l.length) g, ((((l.get a).1.2 g).trace : ℝ) : ℂ) = if (P a).1 = (P a).2 then
      ((L.get (P a).1).2 g).trace else ((L.get (P a).1).2 g).trace + star ((L.get (P a).1).2 g).trace := by
    intro a g
    have h0 := hPF a
    split_ifs with h1
    · have h2 : (l.get a).2 = 1 := by
        rcases hind _ (List.get_mem l a) with h2 | h2
        · exact h2
        · exact absurd h1 ((hfs a).1 h2)
      have h3 := AreEquivalent.trace (h0.2.2.2.2 h2) g
      refine Eq.trans ?_ h3
      simp [Matrix.trace]
    · have h2 := (hfs a).2 h1
      rcases h0.2.2.2.1 with h3 | ⟨-, h4, h5⟩
      · exact absurd (h2.symm.trans h3) (by norm_num)
      · obtain ⟨X, hX0, hX⟩ := h0.1.contains
        have h6 := (hself a).not.1 h1
        exact double_trace' h4 h5 hX0 hX h6 g
  obtain ⟨k1, k2⟩ := pair_characters hTg hL hP (fun a => (hpair (P a) (hPm a)).2) ht hc
  have hmul := cayley_mul_iff h hT
  have hmul3 : ∀ x y z w, rots x * rots y * rots z = rots w ↔ T (T x y) z = w := by
    intro x y z w
    rw [← (cayley_none_spec hT x y).1, ← (cayley_none_spec hT (T x y) z).1]
    exact h.1.eq_iff
  simp only [hmul, hmul3]
  refine ⟨l, rfl, hind, k1, k2, ?_, ?_⟩
  · have h1 : ∑ a : Fin l.length, (∑ g, ((l.get a).1.2 g).trace * ((l.get a).1.2 g).trace) / (2 - ((l.get a).2 : ℝ)) =
        n * l.length := by
      simp only [k1, if_true]
      have : ∀ a : Fin l.length, n * (2 - ((l.get a).2 : ℝ)) / (2 - ((l.get a).2 : ℝ)) = n := by
        intro a
        refine mul_div_cancel_right₀ _ ?_
        rw [hc]; split_ifs <;> norm_num
      simp only [this]
      simp [mul_comm]
    have h2 : ∑ a : Fin l.length, (∑ g, ((l.get a).1.2 g).trace * ((l.get a).1.2 g).trace) / (2 - ((l.get a).2 : ℝ)) =
        ∑ g, ((Finset.univ.filter fun x => T x g = T g x).card + (Finset.univ.filter fun x => T (T g x) g = x).card : ℝ) / 2 := by
      simp only [Finset.sum_div]
      rw [Finset.sum_comm]
      exact Finset.sum_congr rfl fun g _ => (k2 g g).trans (by ring)
    have h3 : ∑ g, (Finset.univ.filter fun x => T x g = T g x).card =
        (Finset.univ.filter fun p : Fin n × Fin n => T p.1 p.2 = T p.2 p.1).card := by
      simp only [Finset.card_filter]
      rw [Fintype.sum_prod_type]
      exact Finset.sum_comm
    have h4 : ∑ g, (Finset.univ.filter fun x => T (T g x) g = x).card =
        (Finset.univ.filter fun p : Fin n × Fin n => T (T p.1 p.2) p.1 = p.2).card := by
      simp only [Finset.card_filter]
      rw [Fintype.sum_prod_type]
    rw [h1, ← Finset.sum_div, Finset.sum_add_distrib] at h2
    rw [← h3, ← h4]
    refine Nat.cast_injective (R := ℝ) ?_
    push_cast
    linarith
  · obtain ⟨e, he, he', -⟩ := hTg.one_inv
    have h1 := k2 e e
    have h2 : ∀ a : Fin l.length, ((l.get a).1.2 e).trace = (l.get a).1.1 := by
      intro a
      have h3 := (hPF a).1
      have h4 : (l.get a).1.2 e = 1 := by
        have h5 := h3.rep e e
        rw [he, one_smul] at h5
        calc (l.get a).1.2 e = (l.get a).1.2 e * (l.get a).1.2 e * ((l.get a).1.2 e).transpose := by
              rw [Matrix.mul_assoc, h3.orth e, Matrix.mul_one]
          _ = 1 := by rw [h5, h3.orth e]
      rw [h4, Matrix.trace_one, Fintype.card_fin]
    simp only [h2, he, he'] at h1
    have h6 : (l.map fun x => (x.1.1 : ℝ) ^ 2 / (2 - (x.2 : ℝ))).sum =
        ∑ a : Fin l.length, ((l.get a).1.1 : ℝ) * (l.get a).1.1 / (2 - ((l.get a).2 : ℝ)) := by
      rw [← List.sum_ofFn]
      congr 1
      conv_lhs => rw [← List.ofFn_get l, List.map_ofFn]
      congr 1
      funext a
      simp [sq]
    rw [h6, h1]
    simp

/-- Non-vacuity of C90: the group 23 with the default tolerance has four complex irreps and three real ones. -/
example : ∃ (o : Oracles) (l : List (AnyReal 12 × ℤ)), PointgroupContract o.pointgroup rots23 ∧ EigContract o.eig ∧
    EnumeratesGroup rots23 ∧
    (∀ L w, rawIrreps o rots23 (fun _ _ => 1) .neto 1e-5 1e-8 9 = .ok (L, w) → ∀ D ∈ L, frobeniusSchur D.2 = .ok 1 →
      (getIntertwiner (o.random D.1) D.2 (fun g => (D.2 g).map star) 1e-8 9).2 = false) ∧
    pointgroupIrreps o rots23 true .neto 1e-5 1e-8 9 = .ok (.real l, false) ∧ l.length = 3 := by
  obtain ⟨T, hT, hs, hTg⟩ := c01_cayley_table_ordinary rots23_group
  obtain ⟨random, hr⟩ := exists_richDraws 1e-8 12 9 fun d hd => by
    have : d ≤ 3 := by by_contra h; push Not at h; nlinarith
    nlinarith
  obtain ⟨eig, heig⟩ := exists_eigContract
  let o : Oracles := { random := random, eig := eig, eigh := fun d _ => (fun _ => 0, 0),
                       qr := fun _ _ _ => 0,
                       pointgroup := (PgSymbol.pg_23, (1 : M3).map fun x : ℤ => (x : ℝ)) }
  obtain ⟨L, w, h0, h1, h2⟩ := c69_real_irreps rots23_group hT o pointgroup_23 heig 1e-5 (atol := 1e-8) (by norm_num)
    (by norm_num) 9
  obtain ⟨h3, h4⟩ := h1 hr
  obtain ⟨l, h5, -, -⟩ := h2 h3 h4
  have hse : ∀ L w, rawIrreps o rots23 (fun _ _ => 1) .neto 1e-5 1e-8 9 = .ok (L, w) → ∀ D ∈ L, frobeniusSchur D.2 = .ok 1 →
      (getIntertwiner (o.random D.1) D.2 (fun g => (D.2 g).map star) 1e-8 9).2 = false := by
    intro L' w' h'
    rw [h0] at h'
    obtain ⟨rfl, -⟩ := Prod.mk.inj (Except.ok.inj h')
    exact h4
  have hrun : pointgroupIrreps o rots23 true .neto 1e-5 1e-8 9 = .ok (.real l, false) := h5
  obtain ⟨l', hl', -, -, -, h6, -⟩ := c90_real_characters rots23_group (o := o) pointgroup_23 heig (rtol := 1e-5)
    (atol := 1e-8) (by norm_num) (by norm_num) hse hrun
  obtain rfl : l = l' := by injection hl'
  have h7 : (Finset.univ.filter fun p : Fin 12 × Fin 12 => rots23 p.1 * rots23 p.2 = rots23 p.2 * rots23 p.1).card = 48 := by
    decide +kernel
  have h8 : (Finset.univ.filter fun p : Fin 12 × Fin 12 => rots23 p.1 * rots23 p.2 * rots23 p.1 = rots23 p.2).card = 24 := by
    decide +kernel
  rw [h7, h8] at h6
  exact ⟨o, l, pointgroup_23, heig, rots23_group, hse, hrun, by omega⟩

end Spgrep
