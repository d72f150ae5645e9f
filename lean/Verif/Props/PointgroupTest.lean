/-
C103: the irreps of crystallographic point groups pass the checks of the test suite with all tolerances.
-/
import Verif.Props.SelfCheck
import Verif.Props.PointgroupApi
import Verif.Props.RealCharacters
import Verif.Props.SmallReal

namespace Spgrep

open Spec

variable {n : ℕ} {T : Fin n → Fin n → Fin n}

/-- **C103.** For every crystallographic point group, every tolerance up to one half and all random draws, the irreps that
`get_crystallographic_pointgroup_irreps_from_symmetry` returns without a warning by the default method pass the checks of
tests/test_irreps.py:67-77 and `is_unitary`. -/
theorem c103_pointgroup {rots : Fin n → M3} (h : EnumeratesGroup rots) (hT : getCayleyTable rots = .ok T) {o : Oracles}
    (ho : PointgroupContract o.pointgroup rots) {rtol atol : ℝ} (ha : 0 ≤ atol) (ha2 : atol ≤ 1 / 2) {maxGen : ℕ}
    {out : IrrepsOut n} (hrun : pointgroupIrreps o rots false .neto rtol atol maxGen = .ok (out, false)) :
    ∃ l : List (AnyRep n × ℤ), out = .complex l ∧ (∀ x ∈ l, IsRepresentationTest x.1.2 T none 1e-5 1e-8 ∧ IsUnitaryTest x.1.2) ∧
      IsUniqueIrreps (l.map Prod.fst) ∧ (l.map fun x => x.1.1 ^ 2).sum = n := by
  obtain ⟨T', hT', -, hTg⟩ := c01_cayley_table_ordinary h
  rw [hT] at hT'
  obtain rfl := Except.ok.inj hT'
  obtain ⟨l, rfl, hc, hs, -⟩ := c80_pointgroup_irreps h hT ho ha ha2 hrun
  have hn : n ≤ 48 := contract_order ho
  have hs' : ((l.map Prod.fst).map fun X => X.1 ^ 2).sum = n := by rwa [List.map_map]
  have hd : ∀ X ∈ l.map Prod.fst, n * X.1 ^ 3 ≤ 15000 := fun X hX => (dim_bounds hn (dim_sq_le hs' hX)).2
  obtain ⟨-, h1, h2, h3, -⟩ := c99_converse (ε := 0) hTg (fun _ _ _ => by simp) (fun _ _ => by simp) hc hd
    (fun _ _ => by norm_num) le_rfl (List.forall₂_same.2 fun X _ => ⟨X.2, rfl, fun _ _ _ => by simp⟩)
  exact ⟨l, rfl, fun x hx => ⟨h2 _ (List.mem_map_of_mem hx), h1 _ (List.mem_map_of_mem hx)⟩, h3, hs⟩

/-- A real array seen as a complex one. -/
def AnyReal.toComplex (X : AnyReal n) : AnyRep n := ⟨X.1, fun g => (X.2 g).map Complex.ofReal⟩

/-- **C103, real irreps.** With `real=True` the arrays pass `is_representation` and `is_unitary`.  The check of uniqueness fails
as soon as some indicator is zero: `is_equivalent_irrep` then does not recognise a real irrep as equivalent to itself.  For
different arrays it always returns `False`, as it should. -/
theorem c103_real {rots : Fin n → M3} (h : EnumeratesGroup rots) (hT : getCayleyTable rots = .ok T) {o : Oracles}
    (ho : PointgroupContract o.pointgroup rots) (heig : EigContract o.eig) {rtol atol : ℝ} (ha : 0 ≤ atol)
    (ha2 : atol ≤ 1 / 10) {maxGen : ℕ} {out : IrrepsOut n}
    (hsearch : ∀ L w, rawIrreps o rots (fun _ _ => 1) .neto rtol atol maxGen = .ok (L, w) → ∀ D ∈ L,
      frobeniusSchur D.2 = .ok 1 → (getIntertwiner (o.random D.1) D.2 (fun g => (D.2 g).map star) atol maxGen).2 = false)
    (hrun : pointgroupIrreps o rots true .neto rtol atol maxGen = .ok (out, false)) :
    ∃ l : List (AnyReal n × ℤ), out = .real l ∧
      (∀ x ∈ l, IsRepresentationTest x.1.toComplex.2 T none 1e-5 1e-8 ∧ IsUnitaryTest x.1.toComplex.2) ∧
      (∀ a b : Fin l.length, IsEquivalentIrrep (List.ofFn (getCharacter (l.get a).1.toComplex.2))
        (List.ofFn (getCharacter (l.get b).1.toComplex.2)) ↔ a = b ∧ (l.get a).2 = 1) := by
  obtain ⟨l, rfl, hc, -⟩ := c80_pointgroup_real_irreps h hT ho heig ha ha2 hsearch hrun
  obtain ⟨m, hm, hi, horth, -⟩ := c90_real_characters h ho heig ha ha2 hsearch hrun
  obtain rfl := IrrepsOut.real.inj hm
  have hn : (n : ℝ) ≠ 0 := by
    obtain ⟨_, H, hH⟩ := h
    have : (1 : M3) ∈ Set.range rots := by rw [hH]; exact ⟨1, H.one_mem, rfl⟩
    obtain ⟨i, -⟩ := this
    have := i.pos
    positivity
  refine ⟨l, rfl, fun x hx => ⟨?_, ?_⟩, fun a b => ?_⟩
  · intro i j a b
    have h1 := hc.rep _ (List.mem_map_of_mem hx) i j
    have h2 : (x.1.toComplex.2 i * x.1.toComplex.2 j) = x.1.toComplex.2 (T i j) := by
      change (x.1.2 i).map Complex.ofRealHom * (x.1.2 j).map Complex.ofRealHom = (x.1.2 (T i j)).map Complex.ofRealHom
      rw [← Matrix.map_mul, h1, one_smul]
    rw [h2, IsCloseC]
    simp
    positivity
  · intro g i j
    have h1 := hc.orthogonal _ (List.mem_map_of_mem hx) g
    have h2 : x.1.toComplex.2 g * (x.1.toComplex.2 g).conjTranspose = 1 := by
      have h3 : (x.1.toComplex.2 g).conjTranspose = (x.1.2 g).transpose.map Complex.ofRealHom := by
        ext a b
        exact Complex.conj_ofReal _
      rw [h3]
      change (x.1.2 g).map Complex.ofRealHom * (x.1.2 g).transpose.map Complex.ofRealHom = (1 : Matrix (Fin x.1.1) (Fin x.1.1) ℂ)
      rw [← Matrix.map_mul, h1]
      ext a b
      simp [Matrix.one_apply, apply_ite]
    rw [h2, IsCloseC]
    simp
    positivity
  · have h1 : ∀ a g, getCharacter (l.get a).1.toComplex.2 g = (((l.get a).1.2 g).trace : ℂ) := by
      intro a g
      show ∑ i, _ = _
      rw [Matrix.trace, Complex.ofReal_sum]
      rfl
    rw [isEquivalentIrrep_ofFn]
    have h2 : ∑ g, star (getCharacter (l.get a).1.toComplex.2 g) * getCharacter (l.get b).1.toComplex.2 g =
        ((if a = b then n * (2 - ((l.get a).2 : ℝ)) else 0 : ℝ) : ℂ) := by
      rw [← horth a b, Complex.ofReal_sum]
      refine Finset.sum_congr rfl fun g _ => ?_
      rw [h1, h1, Complex.star_def, Complex.conj_ofReal, Complex.ofReal_mul]
    rw [h2]
    have hn' : (n : ℂ) ≠ 0 := by exact_mod_cast hn
    by_cases hab : a = b
    · rw [if_pos hab]
      rcases hi _ (List.get_mem l a) with h3 | h3
      · rw [h3]
        norm_num [hab, rintC_natCast]
      · rw [h3]
        have h4 : (((n : ℝ) * (2 - ((0 : ℤ) : ℝ)) : ℝ) : ℂ) = ((n * 2 : ℕ) : ℂ) := by push_cast; ring
        rw [h4, rintC_natCast]
        constructor
        · intro h5
          exfalso
          apply hn'
          push_cast at h5
          linear_combination h5
        · rintro ⟨-, h5⟩
          exact absurd h5 (by norm_num)
    · rw [if_neg hab, Complex.ofReal_zero, rintC_zero]
      simp [hab, eq_comm]
      exact fun h => hn (by exact_mod_cast h)

/-- The group 3 with the default tolerance: the complex irreps pass all checks, the real ones (dimensions 1, 2) all but the
uniqueness. -/
example : ∃ (o : Oracles) (l : List (AnyRep 3 × ℤ)) (l' : List (AnyReal 3 × ℤ)),
    pointgroupIrreps o rotsP3 false .neto 1e-5 1e-8 4 = .ok (.complex l, false) ∧ IsUniqueIrreps (l.map Prod.fst) ∧
    pointgroupIrreps o rotsP3 true .neto 1e-5 1e-8 4 = .ok (.real l', false) ∧
    ¬ IsUniqueIrreps (l'.map fun x => x.1.toComplex) := by
  obtain ⟨T, hT, hs, hTg⟩ := c01_cayley_table_ordinary rotsP3_group
  obtain ⟨random, hr⟩ := exists_richDraws 1e-8 3 4 fun d hd => by omega
  obtain ⟨eig, heig⟩ := exists_eigContract
  let o : Oracles := { random := random, eig := eig, eigh := fun d _ => (fun _ => 0, 0),
                       qr := fun _ _ _ => 0,
                       pointgroup := (PgSymbol.pg_3, (1 : M3).map fun x : ℤ => (x : ℝ)) }
  obtain ⟨L, w, h0, h1, h2⟩ := c69_real_irreps rotsP3_group hT o pointgroup_C3 heig 1e-5 (atol := 1e-8) (by norm_num)
    (by norm_num) 4
  obtain ⟨h3, h4⟩ := h1 hr
  obtain ⟨l', h5, -, -⟩ := h2 h3 h4
  obtain ⟨L', w', -, h6, h7⟩ := c64_exact_entries rotsP3_group hT o pointgroup_C3 1e-5 (atol := 1e-8) (by norm_num)
    (by norm_num) 4
  obtain ⟨l, h8, -⟩ := h7 (h6 hr)
  have hrun : pointgroupIrreps o rotsP3 false .neto 1e-5 1e-8 4 = .ok (.complex l, false) := h8
  have hrun' : pointgroupIrreps o rotsP3 true .neto 1e-5 1e-8 4 = .ok (.real l', false) := h5
  have hse : ∀ L w, rawIrreps o rotsP3 (fun _ _ => 1) .neto 1e-5 1e-8 4 = .ok (L, w) → ∀ D ∈ L, frobeniusSchur D.2 = .ok 1 →
      (getIntertwiner (o.random D.1) D.2 (fun g => (D.2 g).map star) 1e-8 4).2 = false := by
    intro L' w' h'
    rw [h0] at h'
    obtain ⟨rfl, -⟩ := Prod.mk.inj (Except.ok.inj h')
    exact h4
  obtain ⟨m, hm, -, hu, -⟩ := c103_pointgroup rotsP3_group hT (o := o) pointgroup_C3 (by norm_num) (by norm_num) hrun
  obtain rfl := IrrepsOut.complex.inj hm
  refine ⟨o, l, l', hrun, hu, hrun', fun huniq => ?_⟩
  obtain ⟨m', hm', -, heq⟩ := c103_real rotsP3_group hT (o := o) pointgroup_C3 heig (by norm_num) (by norm_num) hse hrun'
  obtain rfl := IrrepsOut.real.inj hm'
  obtain ⟨m', hm', hi, hchar, hclass, hlen, hsum⟩ := c90_real_characters rotsP3_group (o := o) pointgroup_C3 heig (rtol := 1e-5)
    (atol := 1e-8) (by norm_num) (by norm_num) hse hrun'
  obtain rfl := IrrepsOut.real.inj hm'
  have hall : ∀ x ∈ l', x.2 = 1 := by
    intro x hx
    obtain ⟨a, rfl⟩ := List.get_of_mem hx
    have h9 := (huniq (a.cast (by simp)) (a.cast (by simp))).2 rfl
    have h10 : (l'.map fun x => x.1.toComplex).get (a.cast (by simp)) = (l'.get a).1.toComplex := by simp
    rw [h10] at h9
    exact ((heq a a).1 h9).2
  have h10 : (Finset.univ.filter fun p : Fin 3 × Fin 3 => rotsP3 p.1 * rotsP3 p.2 = rotsP3 p.2 * rotsP3 p.1).card = 9 := by
    decide +kernel
  have h11 : (Finset.univ.filter fun p : Fin 3 × Fin 3 => rotsP3 p.1 * rotsP3 p.2 * rotsP3 p.1 = rotsP3 p.2).card = 3 := by
    decide +kernel
  rw [h10, h11] at hlen
  obtain ⟨x, y, rfl⟩ := List.length_eq_two.1 (show l'.length = 2 by omega)
  have hx := hall x (by simp)
  have hy := hall y (by simp)
  simp only [List.map_cons, List.map_nil, List.sum_cons, List.sum_nil, hx, hy] at hsum
  norm_num at hsum
  have h12 : x.1.1 ^ 2 + y.1.1 ^ 2 = 3 := by exact_mod_cast hsum
  have h13 : x.1.1 < 2 := by nlinarith
  have h14 : y.1.1 < 2 := by nlinarith
  interval_cases x.1.1 <;> interval_cases y.1.1 <;> omega

end Spgrep
