/-
C80: the irreps returned by get_crystallographic_pointgroup_irreps_from_symmetry.
C81: the co-representations returned by get_crystallographic_pointgroup_spinor_irreps_from_symmetry with time reversals.
-/
import Verif.Proofs.PointgroupApi
import Verif.Props.Random
import Verif.Props.CorepClass
import Verif.Props.CoreSpinor

namespace Spgrep

open Spec

variable {n : ℕ} {T : Fin n → Fin n → Fin n}

/-- **C80, complex irreps.** For every list of rotations that is a group, every answer of `get_pointgroup` within its contract
and every tolerance up to one half: what `get_crystallographic_pointgroup_irreps_from_symmetry` returns by the default method
without a warning is a complete list of irreps, exactly, with entries zero or roots of unity of order 1, 2, 3, 4 or 6. -/
theorem c80_pointgroup_irreps {rots : Fin n → M3} (h : EnumeratesGroup rots) (hT : getCayleyTable rots = .ok T)
    {o : Oracles} (ho : PointgroupContract o.pointgroup rots) {rtol atol : ℝ} (ha : 0 ≤ atol) (ha2 : atol ≤ 1 / 2)
    {maxGen : ℕ} {out : IrrepsOut n} (hrun : pointgroupIrreps o rots false .neto rtol atol maxGen = .ok (out, false)) :
    ∃ l : List (AnyRep n × ℤ), out = .complex l ∧ IsCompleteIrreps T (fun _ _ => 1) (l.map Prod.fst) ∧
      (l.map fun x => x.1.1 ^ 2).sum = n ∧
      ∀ x ∈ l, ∀ g i j, x.1.2 g i j = 0 ∨ ∃ p ∈ [1, 2, 3, 4, 6], x.1.2 g i j ^ p = 1 := by
  obtain ⟨T', hT', -, hTg⟩ := c01_cayley_table_ordinary h
  rw [hT] at hT'
  obtain rfl := Except.ok.inj hT'
  obtain ⟨L, w, hraw, -, hok⟩ := c64_exact_entries h hT o ho rtol ha ha2 maxGen
  unfold pointgroupIrreps at hrun
  have hw : w = false := by
    unfold enumerateUnitaryIrreps at hrun
    simp only [Option.getD_none, hraw, bind, Except.bind, pure, Except.pure, Bool.false_eq_true, if_false] at hrun
    split at hrun
    · cases hrun
    · exact (Prod.mk.inj (Except.ok.inj hrun)).2
  obtain ⟨l, hl, -, hc, hx⟩ := hok hw
  rw [hl] at hrun
  obtain ⟨rfl, -⟩ := Prod.mk.inj (Except.ok.inj hrun)
  refine ⟨l, rfl, hc, ?_, fun x hx' => (hx x hx').1⟩
  have := IsCompleteIrreps.sum_sq hTg (fun _ _ => one_ne_zero) (fun _ _ _ => by simp) hc
  rwa [List.map_map] at this

/-- **C80, real irreps.** The same for `real=True`: a complete list of the irreps over the real numbers, exactly, provided that
the searches for the intertwiners with the conjugate irreps succeed too. -/
theorem c80_pointgroup_real_irreps {rots : Fin n → M3} (h : EnumeratesGroup rots) (hT : getCayleyTable rots = .ok T)
    {o : Oracles} (ho : PointgroupContract o.pointgroup rots) (heig : EigContract o.eig) {rtol atol : ℝ} (ha : 0 ≤ atol)
    (ha2 : atol ≤ 1 / 10) {maxGen : ℕ} {out : IrrepsOut n}
    (hsearch : ∀ L w, rawIrreps o rots (fun _ _ => 1) .neto rtol atol maxGen = .ok (L, w) → ∀ D ∈ L,
      frobeniusSchur D.2 = .ok 1 → (getIntertwiner (o.random D.1) D.2 (fun g => (D.2 g).map star) atol maxGen).2 = false)
    (hrun : pointgroupIrreps o rots true .neto rtol atol maxGen = .ok (out, false)) :
    ∃ l : List (AnyReal n × ℤ), out = .real l ∧ IsCompleteRealIrreps T (fun _ _ => 1) (l.map Prod.fst) ∧
      ∀ x ∈ l, (∀ g i j, SpecialReal (x.1.2 g i j)) ∧ (x.2 = 1 ∨ (x.2 = 0 ∧ x.1.1 = 2)) := by
  obtain ⟨L, w, hraw, -, hok⟩ := c69_real_irreps h hT o ho heig rtol ha ha2 maxGen
  unfold pointgroupIrreps at hrun
  have hw : w = false := by
    unfold enumerateUnitaryIrreps at hrun
    simp only [Option.getD_none, hraw, bind, Except.bind, pure, Except.pure, if_true] at hrun
    split at hrun
    · cases hrun
    · exact (Prod.mk.inj (Except.ok.inj hrun)).2
  obtain ⟨l, hl, hc, hx⟩ := hok hw (hsearch L w hraw)
  rw [hl] at hrun
  obtain ⟨rfl, -⟩ := Prod.mk.inj (Except.ok.inj hrun)
  exact ⟨l, rfl, hc, fun x hx' => ⟨(hx x hx').1, (hx x hx').2.1⟩⟩

/-- First draws with which no search of a run for a point group gives up, and none for the intertwiners with the conjugates of
the irreps. -/
theorem pointgroup_draws {rots : Fin n → M3} (h : EnumeratesGroup rots) (hT : getCayleyTable rots = .ok T)
    {pg : PgSymbol × Matrix (Fin 3) (Fin 3) ℝ} (ho : PointgroupContract pg rots) :
    ∃ X : ∀ d, Matrix (Fin d) (Fin d) ℂ, (∀ d i j, ∃ x : ℝ, 0 < x ∧ x < 1 ∧ X d i j = x) ∧ ∃ atol0 : ℝ, 0 < atol0 ∧
      atol0 ≤ 1 / 10 ∧ ∀ (o : Oracles) (rtol atol : ℝ) (maxGen : ℕ), o.pointgroup = pg → (∀ d, o.random d 0 = X d) →
        0 ≤ atol → atol ≤ atol0 → 0 < maxGen →
        ∃ L, rawIrreps o rots (fun _ _ => 1) .neto rtol atol maxGen = .ok (L, false) ∧ ∀ D ∈ L, frobeniusSchur D.2 = .ok 1 →
          (getIntertwiner (o.random D.1) D.2 (fun g => (D.2 g).map star) atol maxGen).2 = false := by
  obtain ⟨T', hT', -, hTg⟩ := c01_cayley_table_ordinary h
  rw [hT] at hT'
  obtain rfl := Except.ok.inj hT'
  obtain ⟨e, he⟩ : ∃ e, rots e = 1 := by
    obtain ⟨_, H, hH⟩ := h
    have : (1 : M3) ∈ Set.range rots := by rw [hH]; exact ⟨1, H.one_mem, rfl⟩
    exact this
  obtain ⟨V, P, hVf, hPf, hV0, hPc, hraw⟩ := raw_forms (μ := fun _ _ => 1) h hT (fun _ _ _ => by simp) (fun _ _ => by simp) he
    rfl ho
  obtain ⟨V', hVf', hV0', hconj⟩ := conj_forms hTg hPf hPc
  obtain ⟨X, hX, a, ha0, hav⟩ := first_draws (hVf.union hVf') (fun v hv => hv.elim (hV0 v) (hV0' v))
  refine ⟨X, hX, min a (1 / 10), by positivity, min_le_right _ _, fun o rtol atol maxGen hpg hr h0 hle hm => ?_⟩
  have hD := hav o.random atol maxGen hr (hle.trans (min_le_left _ _)) hm
  obtain ⟨L, w, hL, hLP, hw⟩ := hraw o rtol atol maxGen hpg h0
  obtain rfl := hw fun v hv => hD v (.inl hv)
  exact ⟨L, hL, fun D hDL hs => hconj L (hLP rfl) D hDL hs o.random atol maxGen h0 fun v hv => hD v (.inr hv)⟩

/-- **C80, the runs succeed.** For every list of rotations that is a group and every answer of `get_pointgroup` within its
contract there are matrices with entries in `(0, 1)` and a positive tolerance such that, if the first draws are these and the
tolerance is not larger, then the default method returns a complete list of irreps without a warning, and with `real=True` a
complete list of irreps over the real numbers, whatever the remaining draws and the answers of the eigen-solver within its
contract. -/
theorem c80_runs {rots : Fin n → M3} (h : EnumeratesGroup rots) (hT : getCayleyTable rots = .ok T)
    {pg : PgSymbol × Matrix (Fin 3) (Fin 3) ℝ} (ho : PointgroupContract pg rots) :
    ∃ X : ∀ d, Matrix (Fin d) (Fin d) ℂ, (∀ d i j, ∃ x : ℝ, 0 < x ∧ x < 1 ∧ X d i j = x) ∧ ∃ atol0 : ℝ, 0 < atol0 ∧
      ∀ (o : Oracles) (rtol atol : ℝ) (maxGen : ℕ), o.pointgroup = pg → (∀ d, o.random d 0 = X d) → EigContract o.eig →
        0 ≤ atol → atol ≤ atol0 → 0 < maxGen →
        (∃ l, pointgroupIrreps o rots false .neto rtol atol maxGen = .ok (.complex l, false) ∧
          IsCompleteIrreps T (fun _ _ => 1) (l.map Prod.fst)) ∧
        ∃ l, pointgroupIrreps o rots true .neto rtol atol maxGen = .ok (.real l, false) ∧
          IsCompleteRealIrreps T (fun _ _ => 1) (l.map Prod.fst) := by
  obtain ⟨X, hX, a, ha0, ha1, hav⟩ := pointgroup_draws h hT ho
  refine ⟨X, hX, a, ha0, fun o rtol atol maxGen hpg hr heig h0 hle hm => ?_⟩
  have hle2 := hle.trans ha1
  obtain ⟨L, hL, hs⟩ := hav o rtol atol maxGen hpg hr h0 hle hm
  have ho' : PointgroupContract o.pointgroup rots := hpg ▸ ho
  constructor
  · obtain ⟨L', w', hL', -, hok⟩ := c64_exact_entries h hT o ho' rtol h0 (hle2.trans (by norm_num)) maxGen
    obtain ⟨rfl, rfl⟩ := Prod.mk.inj (Except.ok.inj (hL.symm.trans hL'))
    obtain ⟨l, hl, -, hc, -⟩ := hok rfl
    exact ⟨l, hl, hc⟩
  · obtain ⟨L', w', hL', -, hok⟩ := c69_real_irreps h hT o ho' heig rtol h0 hle2 maxGen
    obtain ⟨rfl, rfl⟩ := Prod.mk.inj (Except.ok.inj (hL.symm.trans hL'))
    obtain ⟨l, hl, hc, -⟩ := hok rfl hs
    exact ⟨l, hl, hc⟩

theorem contract_432 : PointgroupContract (PgSymbol.pg_432, (1 : M3).map fun x : ℤ => (x : ℝ)) rots432 :=
  contract_of_int (std := pgData_432.head!) (by decide +kernel) (List.mem_singleton.2 rfl) (Equiv.refl (Fin 24))
    (by decide +kernel)

/-- Non-vacuity of C80: the group 432 with one allowed draw, both over the complex and the real numbers. -/
example : ∃ o : Oracles, PointgroupContract o.pointgroup rots432 ∧ EigContract o.eig ∧
    (∃ l, pointgroupIrreps o rots432 false .neto 1e-5 0 1 = .ok (.complex l, false) ∧ (l.map fun x => x.1.1 ^ 2).sum = 24) ∧
    ∃ l, pointgroupIrreps o rots432 true .neto 1e-5 0 1 = .ok (.real l, false) := by
  obtain ⟨T, hT, -, hTg⟩ := c01_cayley_table_ordinary rots432_group
  obtain ⟨X, -, a, ha, hall⟩ := c80_runs rots432_group hT contract_432
  obtain ⟨eig, heig⟩ := exists_eigContract
  obtain ⟨o, hpg, hX, he⟩ : ∃ o : Oracles, o.pointgroup = (PgSymbol.pg_432, (1 : M3).map fun x : ℤ => (x : ℝ)) ∧
      (∀ d, o.random d 0 = X d) ∧ EigContract o.eig :=
    ⟨⟨fun d _ => X d, eig, fun _ _ => (0, 0), fun _ _ _ => 0, _⟩, rfl, fun _ => rfl, heig⟩
  obtain ⟨⟨l, hl, -⟩, l', hl', -⟩ := hall o 1e-5 0 1 hpg hX he le_rfl ha.le one_pos
  have ho : PointgroupContract o.pointgroup rots432 := hpg ▸ contract_432
  refine ⟨o, ho, he, ⟨l, hl, ?_⟩, l', hl'⟩
  obtain ⟨l2, h2, -, hs, -⟩ := c80_pointgroup_irreps rots432_group hT ho le_rfl (by norm_num) hl
  obtain rfl := IrrepsOut.complex.inj h2
  exact hs

/-- **C80, random method.** What the method 'random' returns without a warning agrees within the tolerance with a complete list
of irreps. -/
theorem c80_pointgroup_irreps_random {rots : Fin n → M3} (h : EnumeratesGroup rots) (hT : getCayleyTable rots = .ok T)
    {o : Oracles} (ho : EigenContract o.eigh o.qr) {rtol atol : ℝ} (hr : 0 ≤ rtol) (hr' : rtol ≤ 1 / 2) (ha : 0 < atol)
    (ha2 : atol ≤ 1 / 5) {maxGen : ℕ} {out : IrrepsOut n}
    (hrun : pointgroupIrreps o rots false .random rtol atol maxGen = .ok (out, false)) :
    ∃ (l : List (AnyRep n × ℤ)) (L : List (AnyRep n)), out = .complex l ∧ IsCompleteIrreps T (fun _ _ => 1) L ∧
      List.Forall₂ (fun D x => ∃ A : RepArr n D.1, x.1 = ⟨D.1, A⟩ ∧ ∀ g i j, ‖D.2 g i j - A g i j‖ ≤ atol) L l := by
  obtain ⟨reg, lookup, q1, -, -, L, w, q3, q4, -⟩ := c35_random_enumeration (μ := fun _ _ => 1) h hT (fun _ _ => by simp)
    (fun _ _ _ => by simp) ho (o.random n) hr hr' maxGen
  unfold pointgroupIrreps enumerateUnitaryIrreps rawIrreps at hrun
  simp only [Option.getD_none, q1, q3, bind, Except.bind, pure, Except.pure, Bool.false_eq_true, if_false] at hrun
  split at hrun
  · cases hrun
  · rename_i l hl
    obtain ⟨rfl, rfl⟩ := Prod.mk.inj (Except.ok.inj hrun)
    refine ⟨l, L, rfl, (q4 rfl).1, ?_⟩
    have h1 := withIndicators_fst hl
    have h2 : List.Forall₂ (fun D (y : AnyRep n) => ∃ A : RepArr n D.1, y = ⟨D.1, A⟩ ∧ ∀ g i j, ‖D.2 g i j - A g i j‖ ≤ atol) L
        (l.map Prod.fst) := by
      rw [h1, List.forall₂_map_right_iff, List.forall₂_same]
      exact fun D _ => ⟨_, rfl, near_purify D.2 ha ha2⟩
    rwa [List.forall₂_map_right_iff] at h2

/-- C80, random method, there are draws for which no warning is given, whatever the answers of `eigh` and `qr` within their
contract. -/
theorem c80_random_runs {rots : Fin n → M3} (h : EnumeratesGroup rots) (hT : getCayleyTable rots = .ok T)
    {pg : PgSymbol × Matrix (Fin 3) (Fin 3) ℝ} (hpg : PointgroupContract pg rots) {rtol atol : ℝ} (hr : 0 ≤ rtol)
    (hrn : rtol * n ≤ 1 / 2) (ha : 0 < atol) (hna : n * atol ≤ 1 / 5) {maxGen : ℕ} (hg : 0 < maxGen) :
    ∃ draws : ℕ → Matrix (Fin n) (Fin n) ℂ, ∀ o : Oracles, EigenContract o.eigh o.qr → o.random n = draws →
      ∃ out, pointgroupIrreps o rots false .random rtol atol maxGen = .ok (out, false) := by
  obtain ⟨T', hT', -, hTg⟩ := c01_cayley_table_ordinary h
  rw [hT] at hT'
  obtain rfl := Except.ok.inj hT'
  have hn1 : (1 : ℝ) ≤ n := by exact_mod_cast table_pos hTg
  have hc : IsCocycle T (fun _ _ => (1 : ℂ)) := fun _ _ _ => by simp
  have hn : ∀ g h : Fin n, ‖(fun _ _ => (1 : ℂ)) g h‖ = 1 := fun _ _ => by simp
  -- some complete list, from the other method
  obtain ⟨X, -, a, ha0, hall⟩ := c80_runs h hT hpg
  obtain ⟨eig, heig⟩ := exists_eigContract
  obtain ⟨⟨l, -, hL₀⟩, -⟩ := hall ⟨fun d _ => X d, eig, fun _ _ => (0, 0), fun _ _ _ => 0, pg⟩ 1e-5 0 1 rfl (fun _ => rfl) heig
    le_rfl ha0.le one_pos
  obtain ⟨draws, hd⟩ := c35_draws_exist h hT hn hc hr hrn hL₀ hg
  refine ⟨draws, fun o ho hdraw => ?_⟩
  obtain ⟨reg, L, q1, q2⟩ := hd o.eigh o.qr ho
  obtain ⟨reg', lookup, p1, -, -, L', w, p3, p4, -⟩ := c35_random_enumeration h hT hn hc ho draws hr (by nlinarith) maxGen
  rw [q1] at p1
  obtain rfl := Except.ok.inj p1
  rw [q2] at p3
  obtain ⟨rfl, rfl⟩ := Prod.mk.inj (Except.ok.inj p3)
  have hL := (p4 rfl).1
  have hf : ∀ D ∈ L.map fun D => (⟨D.1, purifyIrrepValue D.2 atol⟩ : AnyRep n),
      ∃ c : ℤ, (c = 1 ∨ c = -1 ∨ c = 0) ∧ frobeniusSchur D.2 = .ok c := by
    intro D' hD'
    obtain ⟨D, hD, rfl⟩ := List.mem_map.1 hD'
    have hd := IsCompleteIrreps.dim_le hTg (ne_zero_of_norm_one hn) hc hL hD
    exact fs_ok hTg (hL.rep D hD) (hL.unitary D hD) (hL.irred D hD) (Or.inr fun i j => .inl rfl)
      hd ha.le hna (near_purify D.2 ha (by nlinarith))
  obtain ⟨l, hl, -⟩ := withIndicators_ok hf
  refine ⟨.complex l, ?_⟩
  unfold pointgroupIrreps enumerateUnitaryIrreps rawIrreps
  simp only [Option.getD_none, q1, hdraw, q2, bind, Except.bind, pure, Except.pure, Bool.false_eq_true, if_false, hl]

/-- Non-vacuity of C80 for the random method: the group 432. -/
example : ∃ (o : Oracles) (out : IrrepsOut 24), EigenContract o.eigh o.qr ∧
    pointgroupIrreps o rots432 false .random 1e-5 1e-8 4 = .ok (out, false) := by
  obtain ⟨T, hT, -, hTg⟩ := c01_cayley_table_ordinary rots432_group
  obtain ⟨eigh, qr, ho⟩ := eigenContract_exists
  obtain ⟨draws, hd⟩ := c80_random_runs (rtol := 1e-5) (atol := 1e-8) (maxGen := 4) rots432_group hT contract_432 (by norm_num)
    (by norm_num) (by norm_num) (by norm_num) (by norm_num)
  obtain ⟨o, h1, h2⟩ : ∃ o : Oracles, EigenContract o.eigh o.qr ∧ o.random 24 = draws :=
    ⟨⟨fun d => if h : d = 24 then h ▸ draws else fun _ => 0, fun _ _ => (0, 0), eigh, qr, (PgSymbol.pg_432, 1)⟩, ho, rfl⟩
  obtain ⟨out, hout⟩ := hd o h1 h2
  exact ⟨o, out, h1, hout⟩

/-! ### C81 -/

/-- **C81.** For every magnetic point group (a group of rotations with time-reversal flags, at least one of them one), every
lattice it preserves and every answer of the oracles within their contracts:
`get_crystallographic_pointgroup_spinor_irreps_from_symmetry` with time reversals returns.  There is a complete list of
irreducible co-representations of the group with the returned factor system, where exactly the operations with time reversal
are anti-linear; the returned list has one entry for each, in the same order and of the same dimension, whose matrices for the
operations without time reversal agree with it within the tolerance. -/
theorem c81_pointgroup_coreps {rots : Fin n → M3} {trs : Fin n → ℤ} (h : EnumeratesMagneticGroup rots trs)
    (htr : ∃ i, trs i = 1) (hb : ∀ i a b, |rots i a b| ≤ 99999)
    {o : Oracles} (he : SymmEigContract o.eig) {L : R3} (hL : L.det ≠ 0) (hm : ∀ i, PreservesMetric L (rots i))
    (ho : ∀ xsg : List (Fin n), xsg.Nodup → (∀ i, i ∈ xsg ↔ trs i = 0) →
      PointgroupContract o.pointgroup fun u => rots (xsg.get u))
    (rtol : ℝ) {atol : ℝ} (hat : 0 < atol) (hna : (n : ℝ) ^ 2 * atol ≤ 1 / 5) {maxGen : ℕ}
    (randomI : ∀ d, ℕ → Matrix (Fin d) (Fin d) ℂ)
    (hr : RichDraws n o.random atol maxGen ∨ UnitaryPartRuns o rots trs rtol atol maxGen ∨
      ∃ out, pointgroupSpinorCoreps o randomI L rots trs .neto rtol atol maxGen = .ok (out, false)) :
    ∃ (out : CorepOut n) (w : Bool) (T : Fin n → Fin n → Fin n) (K : List (AnyRep n)),
      pointgroupSpinorCoreps o randomI L rots trs .neto rtol atol maxGen = .ok (out, w) ∧
      (∀ i j, IsProduct rots trs i j (T i j)) ∧ (∀ i, out.antiLinear i = true ↔ trs i = 1) ∧
      IsCompleteCoreps T out.antiLinear out.spinorFactor K ∧
      List.Forall₂ (fun x E => ∃ A : RepArr n E.1, x = ⟨E.1, A⟩ ∧ ∀ i, trs i = 0 → ∀ r q,
        ‖E.2 i r q - A i r q‖ ≤ atol) out.coreps K := by
  have hμ : ∀ i j, getFactorSystem rots (fun _ _ => 0) 0 i j = 1 := factor_gamma rots
  obtain ⟨out, w, T, K, hrun, hT, haf, hK, hF, -⟩ := c67_corep_classification (trans := fun _ _ => 0) (k := 0)
    ⟨h, fun _ _ _ _ _ => ⟨0, by simp⟩⟩ htr hb (fun i a => ⟨0, by simp⟩) (fun i j => .inl (hμ i j)) he hL hm ho rtol hat hna
    randomI hr
  refine ⟨out, w, T, K, hrun, hT, haf, ?_, hF.imp ?_⟩
  · simpa only [hμ, mul_one] using hK
  · rintro x E ⟨A, rfl, hA⟩
    refine ⟨A, rfl, fun i hi r q => ?_⟩
    have h1 := hA i hi r q
    have h2 : dot3 (0 : V3) (fun _ => 0) = 0 := by unfold dot3; simp
    rwa [h2, expPhase_zero, one_mul] at h1

/-- Non-vacuity of C81: the grey group 21'. -/
example : ∃ (o : Oracles) (out : CorepOut 4) (w : Bool), EnumeratesMagneticGroup rotsGrey2 trsGrey2 ∧
    (∃ i, trsGrey2 i = 1) ∧ SymmEigContract o.eig ∧ (∀ i, PreservesMetric 1 (rotsGrey2 i)) ∧
    pointgroupSpinorCoreps o (fun _ _ => 0) 1 rotsGrey2 trsGrey2 .neto 1e-5 1e-8 4 = .ok (out, w) := by
  obtain ⟨o, he, ho, hr⟩ := grey2_oracles
  obtain ⟨out, w, -, -, hrun, -⟩ := c81_pointgroup_coreps grey2_group ⟨2, rfl⟩ (by decide +kernel) he
    (by rw [Matrix.det_one]; exact one_ne_zero) grey2_metric (fun xsg h1 h2 => by rw [ho]; exact grey2_contract xsg h1 h2) 1e-5
    (atol := 1e-8) (by norm_num) (by norm_num) (fun _ _ => 0) (.inl hr)
  exact ⟨o, out, w, grey2_group, ⟨2, rfl⟩, he, grey2_metric, hrun⟩

end Spgrep
