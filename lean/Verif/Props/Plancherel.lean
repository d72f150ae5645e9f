/-
C85: the matrix entries of the enumerated irreps are an orthogonal basis of the functions on the group.
C86: the returned Frobenius-Schur indicators count the square roots of the identity.
-/
import Verif.Proofs.Plancherel

set_option linter.unusedSectionVars false

namespace Spgrep

open Spec

variable {n : ℕ} {T : Fin n → Fin n → Fin n} {μ : Fin n → Fin n → ℂ}

/-- The setup shared by C85 and C86. -/
theorem unitary_run {rots : Fin n → M3} (h : EnumeratesGroup rots) (hT : getCayleyTable rots = .ok T)
    {μ? : Option (Fin n → Fin n → ℂ)} (hμ : μ = μ?.getD fun _ _ => 1) (hc : IsCocycle T μ) (hn : ∀ g h, ‖μ g h‖ = 1)
    {e : Fin n} (he : rots e = 1) (h1 : μ e e = 1) {o : Oracles} {method : IrrepMethod} {rtol : ℝ}
    (ho : MethodContract o method rtol rots) {atol : ℝ} (ha : 0 < atol) (ha5 : atol ≤ 1 / 5) {maxGen : ℕ}
    {out : IrrepsOut n} (hrun : enumerateUnitaryIrreps o rots μ? false method rtol atol maxGen = .ok (out, false)) :
    ∃ L l, out = .complex l ∧ IsGroupTable T ∧ IsCompleteIrreps T μ L ∧ (∀ g, T e g = g) ∧ (∀ g, T g e = g) ∧
      withIndicators (L.map fun D => (⟨D.1, purifyIrrepValue D.2 atol⟩ : AnyRep n)) = .ok l ∧
      List.Forall₂ (fun Γ x => ∃ A : RepArr n Γ.1, x.1 = ⟨Γ.1, A⟩ ∧ (∀ g i j, ‖Γ.2 g i j - A g i j‖ ≤ atol) ∧
        frobeniusSchur A = .ok x.2) L l := by
  obtain ⟨T', hT', -, hTg⟩ := c01_cayley_table_ordinary h
  obtain rfl : T' = T := by rw [hT] at hT'; exact (Except.ok.inj hT').symm
  unfold enumerateUnitaryIrreps at hrun
  simp only [bind, Except.bind, pure, Except.pure] at hrun
  cases hraw : rawIrreps o rots (μ?.getD fun _ _ => 1) method rtol atol maxGen with
  | error e => rw [hraw] at hrun; cases hrun
  | ok Lw =>
    obtain ⟨L, w'⟩ := Lw
    rw [hraw] at hrun
    simp only [Bool.false_eq_true, if_false] at hrun
    cases hl : withIndicators (L.map fun D => (⟨D.1, purifyIrrepValue D.2 atol⟩ : AnyRep n)) with
    | error e => rw [hl] at hrun; cases hrun
    | ok l =>
      rw [hl] at hrun
      obtain ⟨h2, rfl⟩ := Prod.mk.inj (Except.ok.inj hrun)
      rw [← hμ] at hraw
      refine ⟨L, l, h2.symm, hTg, raw_complete h hT hc hn he h1 ho ha.le hraw, fun g => h.1 ?_, fun g => h.1 ?_, hl, ?_⟩
      · rw [(cayley_none_spec hT e g).1, he, Matrix.one_mul]
      · rw [(cayley_none_spec hT g e).1, he, Matrix.mul_one]
      · have h3 := withIndicators_forall₂ hl
        rw [List.forall₂_map_left_iff] at h3
        exact h3.imp fun D x hx => ⟨_, hx.1, near_purify D.2 ha ha5, hx.2⟩

/-- **C85.** For every group of rotations, every unit-modulus cocycle `μ` (none: all ones), both methods and all random
draws: if `enumerate_unitary_irreps` returns without warning, the returned arrays are within `atol` of unitary families
`S` with this multiplication law whose matrix entries are orthogonal over the group (square norm `n / d`), complete, and
expand every function on the group. -/
theorem c85_fourier {rots : Fin n → M3} (h : EnumeratesGroup rots) (hT : getCayleyTable rots = .ok T)
    {μ? : Option (Fin n → Fin n → ℂ)} (hμ : μ = μ?.getD fun _ _ => 1) (hc : IsCocycle T μ) (hn : ∀ g h, ‖μ g h‖ = 1)
    {e : Fin n} (he : rots e = 1) (h1 : μ e e = 1) {o : Oracles} {method : IrrepMethod} {rtol : ℝ}
    (ho : MethodContract o method rtol rots) {atol : ℝ} (ha : 0 < atol) (ha5 : atol ≤ 1 / 5) {maxGen : ℕ}
    {out : IrrepsOut n} (hrun : enumerateUnitaryIrreps o rots μ? false method rtol atol maxGen = .ok (out, false)) :
    ∃ l, out = .complex l ∧ ∃ S : List (AnyRep n),
      List.Forall₂ (fun Γ x => ∃ A : RepArr n Γ.1, x.1 = ⟨Γ.1, A⟩ ∧ ∀ g i j, ‖Γ.2 g i j - A g i j‖ ≤ atol) S l ∧
      (∀ Γ ∈ S, IsUnitaryRep Γ.2 ∧ ∀ i j k, rots i * rots j = rots k → Γ.2 i * Γ.2 j = μ i j • Γ.2 k) ∧
      (∀ (a b : Fin S.length) i j k m, ∑ g, (S.get a).2 g i j * star ((S.get b).2 g k m) =
        if a = b ∧ (i : ℕ) = k ∧ (j : ℕ) = m then (n : ℂ) / (S.get a).1 else 0) ∧
      (∀ g h, ∑ a : Fin S.length, ((S.get a).1 : ℂ) * ∑ i, ∑ j, (S.get a).2 g i j * star ((S.get a).2 h i j) =
        if g = h then (n : ℂ) else 0) ∧
      ∀ (f : Fin n → ℂ) g, f g = ∑ a : Fin S.length, ∑ i, ∑ j,
        ((S.get a).1 / n * ∑ h, f h * star ((S.get a).2 h i j)) * (S.get a).2 g i j := by
  obtain ⟨L, l, rfl, hTg, hL, heT, heT', -, hF⟩ := unitary_run h hT hμ hc hn he h1 ho ha ha5 hrun
  have hμ0 := ne_zero_of_norm_one hn
  have hm : ∀ a : Fin L.length, L.get a ∈ L := fun a => List.get_mem L a
  have hcomp := entries_complete hTg hμ0 hc hL heT heT' h1
  refine ⟨l, rfl, L, hF.imp fun Γ x ⟨A, h2, h3, _⟩ => ⟨A, h2, h3⟩, fun Γ hΓ => ⟨hL.unitary Γ hΓ, fun i j k hk => ?_⟩,
    fun a b i j k m => ?_, hcomp, fun f g => ?_⟩
  · rw [hL.rep Γ hΓ i j, show T i j = k from h.1 (((cayley_none_spec hT i j).1).trans hk)]
  · by_cases hab : a = b
    · subst hab
      rw [table_schur_orthogonality_self hTg hμ0 (hL.rep _ (hm a)) (hL.irred _ (hm a)) (hL.unitary _ (hm a)) i j m k,
        Fintype.card_fin]
      simp only [true_and, Fin.val_inj]
    · rw [if_neg fun h => hab h.1]
      refine table_schur_orthogonality_ne hTg hμ0 (hL.rep _ (hm a)) (hL.rep _ (hm b)) (hL.irred _ (hm a))
        (hL.irred _ (hm b)) (hL.unitary _ (hm b)) (fun heq => ?_) i j m k
      have hd := List.pairwise_iff_get.1 hL.inequiv
      rcases lt_or_gt_of_ne hab with h2 | h2
      · exact hd a b h2 heq
      · exact hd b a h2 (AreEquivalent.symm heq)
  · have hn0 : (n : ℂ) ≠ 0 := by exact_mod_cast (table_pos hTg).ne'
    have h2 : ∑ h, f h * (if g = h then (n : ℂ) else 0) = f g * n := by
      simp
    have h3 : f g = (n : ℂ)⁻¹ * ∑ h, f h * (if g = h then (n : ℂ) else 0) := by
      rw [h2]; field_simp
    rw [h3]
    simp only [← hcomp]
    simp only [Finset.mul_sum, Finset.sum_mul]
    rw [Finset.sum_comm]
    refine Finset.sum_congr rfl fun a _ => ?_
    rw [Finset.sum_comm]
    refine Finset.sum_congr rfl fun i _ => ?_
    rw [Finset.sum_comm]
    refine Finset.sum_congr rfl fun j _ => ?_
    refine Finset.sum_congr rfl fun h _ => ?_
    ring

theorem forall₂_sum {L : List (AnyRep n)} {l : List (AnyRep n × ℤ)} {Q : AnyRep n → AnyRep n × ℤ → Prop} {F : AnyRep n → ℂ}
    {F' : AnyRep n × ℤ → ℂ} (h : List.Forall₂ Q L l) (hQ : ∀ Γ x, Γ ∈ L → Q Γ x → F Γ = F' x) :
    ∑ a : Fin L.length, F (L.get a) = (l.map F').sum := by
  have h1 : ∑ a : Fin L.length, F (L.get a) = (L.map F).sum := by
    rw [← List.sum_ofFn]
    congr 1
    conv_rhs => rw [← List.ofFn_get L, List.map_ofFn]
    rfl
  rw [h1]
  congr 1
  have h2 : List.Forall₂ (fun Γ x => F Γ = F' x) L l := by
    clear h1
    induction h with
    | nil => exact .nil
    | cons h3 _ ih => exact .cons (hQ _ _ (by simp) h3) (ih fun Γ x hΓ => hQ Γ x (by simp [hΓ]))
  clear hQ h h1
  induction h2 with
  | nil => rfl
  | cons h3 _ ih => rw [List.map_cons, List.map_cons, h3, ih]

/-- **C86.** For every group of rotations, every cocycle `μ` of signs (none: all ones), both methods and all random draws,
with `n * atol ≤ 1/5`: if `enumerate_unitary_irreps` returns without warning, the returned indicators weighted with the
dimensions add up to the sum of `μ(g, g)` over the `g` with `g² = 1`.  Without factor system this is the number of these
`g`, and the number of nonzero indicators times the group order is the number of pairs with `g x g = x`. -/
theorem c86_indicator_count {rots : Fin n → M3} (h : EnumeratesGroup rots) (hT : getCayleyTable rots = .ok T)
    {μ? : Option (Fin n → Fin n → ℂ)} (hμ : μ = μ?.getD fun _ _ => 1) (hc : IsCocycle T μ)
    (hs : ∀ g h, μ g h = 1 ∨ μ g h = -1) {e : Fin n} (he : rots e = 1) (h1 : μ e e = 1) {o : Oracles}
    {method : IrrepMethod} {rtol : ℝ} (ho : MethodContract o method rtol rots) {atol : ℝ} (ha : 0 < atol)
    (hna : n * atol ≤ 1 / 5) {maxGen : ℕ} {out : IrrepsOut n}
    (hrun : enumerateUnitaryIrreps o rots μ? false method rtol atol maxGen = .ok (out, false)) :
    ∃ l, out = .complex l ∧
      (l.map fun x => (x.2 : ℂ) * x.1.1).sum = ∑ g, (if rots g * rots g = 1 then μ g g else 0) ∧
      (μ? = none →
        (l.map fun x => x.2 * (x.1.1 : ℤ)).sum = (Finset.univ.filter fun g => rots g * rots g = 1).card ∧
        n * l.countP (fun x => x.2 ≠ 0) =
          (Finset.univ.filter fun p : Fin n × Fin n => rots p.1 * rots p.2 * rots p.1 = rots p.2).card) := by
  have hn : ∀ g h, ‖μ g h‖ = 1 := fun g h => by rcases hs g h with h | h <;> rw [h] <;> simp
  have hn0 : 0 < n := lt_of_le_of_lt (Nat.zero_le _) e.2
  have hn1 : (1 : ℝ) ≤ n := by exact_mod_cast hn0
  have ha5 : atol ≤ 1 / 5 := by nlinarith
  obtain ⟨L, l, rfl, hTg, hL, heT, heT', -, hF⟩ := unitary_run h hT hμ hc hn he h1 ho ha ha5 hrun
  have hμ0 := ne_zero_of_norm_one hn
  have hnC : (n : ℂ) ≠ 0 := by exact_mod_cast hn0.ne'
  have hval : ∀ (Γ : AnyRep n) (x : AnyRep n × ℤ), Γ ∈ L → (∃ A : RepArr n Γ.1, x.1 = ⟨Γ.1, A⟩ ∧ (∀ g i j, ‖Γ.2 g i j - A g i j‖ ≤ atol) ∧
      frobeniusSchur A = .ok x.2) → x.1.1 = Γ.1 ∧ ∑ k, ∑ i, ∑ j, Γ.2 k i j * Γ.2 k j i = (n : ℂ) * x.2 ∧
        (x.2 = 0 ↔ ¬ AreEquivalent Γ.2 fun g => (Γ.2 g).map star) := by
    rintro Γ x hΓ ⟨A, hA, hnear, hfs⟩
    obtain ⟨h2, -, h3⟩ := fs_value hTg (hL.rep Γ hΓ) (hL.unitary Γ hΓ) (hL.irred Γ hΓ) hs
      (IsCompleteIrreps.dim_le hTg hμ0 hc hL hΓ) ha.le hna hnear hfs
    exact ⟨by rw [hA], h2, h3⟩
  have hmain : (l.map fun x => (x.2 : ℂ) * x.1.1).sum = ∑ g, (if rots g * rots g = 1 then μ g g else 0) := by
    have h2 := fs_weighted hTg hμ0 hc hL heT heT' h1
    have h3 := forall₂_sum (F := fun Γ => (∑ k, ∑ i, ∑ j, Γ.2 k i j * Γ.2 k j i) * (Γ.1 : ℂ))
      (F' := fun x => (n : ℂ) * ((x.2 : ℂ) * x.1.1)) hF fun Γ x hΓ hx => by
        obtain ⟨h4, h5, -⟩ := hval Γ x hΓ hx
        rw [h5, h4]; ring
    rw [h3, List.sum_map_mul_left] at h2
    rw [mul_left_cancel₀ hnC h2]
    refine Finset.sum_congr rfl fun g _ => if_congr ?_ rfl rfl
    rw [← (cayley_none_spec hT g g).1, ← he]
    exact h.1.eq_iff.symm
  refine ⟨l, rfl, hmain, ?_⟩
  rintro rfl
  obtain rfl : μ = fun _ _ => 1 := hμ
  constructor
  · have h2 : (((l.map fun x => x.2 * (x.1.1 : ℤ)).sum : ℤ) : ℂ) = (l.map fun x => (x.2 : ℂ) * x.1.1).sum := by
      clear hF hval hmain hrun
      induction l with
      | nil => simp
      | cons x l ih =>
        rw [List.map_cons, List.sum_cons, List.map_cons, List.sum_cons, ← ih]
        push_cast
        rfl
    have h3 : ((l.map fun x => x.2 * (x.1.1 : ℤ)).sum : ℂ) =
        (((Finset.univ.filter fun g => rots g * rots g = 1).card : ℤ) : ℂ) := by
      rw [h2, hmain, ← Finset.sum_filter, Finset.sum_const]; simp
    exact_mod_cast h3
  · classical
    have h2 := selfconj_count hTg hL
    rw [forall₂_sum (F := fun Γ => if AreEquivalent Γ.2 fun g => (Γ.2 g).map star then (1 : ℂ) else 0)
      (F' := fun x => if x.2 ≠ 0 then (1 : ℂ) else 0) hF fun Γ x hΓ hx => by
        have h5 := (hval Γ x hΓ hx).2.2
        by_cases h6 : AreEquivalent Γ.2 fun g => (Γ.2 g).map star
        · rw [if_pos h6, if_pos fun h7 => h5.1 h7 h6]
        · rw [if_neg h6, if_neg (not_not.2 (h5.2 h6))]] at h2
    have h3 : (l.map fun x => if x.2 ≠ 0 then (1 : ℂ) else 0).sum = l.countP fun x => x.2 ≠ 0 := by
      clear h2 hF hval hmain hrun
      induction l with
      | nil => simp
      | cons x l ih =>
        rw [List.map_cons, List.sum_cons, ih, List.countP_cons]
        by_cases hx : x.2 = 0 <;> simp [hx, add_comm]
    rw [h3] at h2
    have h4 : n * l.countP (fun x => x.2 ≠ 0) =
        (Finset.univ.filter fun p : Fin n × Fin n => T (T p.1 p.2) p.1 = p.2).card := by exact_mod_cast h2
    rw [h4]
    congr 1
    refine Finset.filter_congr fun p _ => ?_
    rw [← (cayley_none_spec hT p.1 p.2).1, ← (cayley_none_spec hT (T p.1 p.2) p.1).1]
    exact h.1.eq_iff.symm

/-- Non-vacuity of C85 and C86: the group 23 without factor system and the default tolerance.  Four of its elements are
square roots of the identity and two of its four irreps are equivalent to their conjugates. -/
example : ∃ (o : Oracles) (T : Fin 12 → Fin 12 → Fin 12) (e : Fin 12) (l : List (AnyRep 12 × ℤ)),
    MethodContract o .neto 1e-5 rots23 ∧ EnumeratesGroup rots23 ∧ getCayleyTable rots23 = .ok T ∧ rots23 e = 1 ∧
    IsCocycle T (fun _ _ => 1) ∧
    enumerateUnitaryIrreps o rots23 none false .neto 1e-5 1e-8 9 = .ok (.complex l, false) ∧
    (l.map fun x => x.2 * (x.1.1 : ℤ)).sum = 4 ∧ l.countP (fun x => x.2 ≠ 0) = 2 := by
  obtain ⟨T, hT, hs, hTg⟩ := c01_cayley_table_ordinary rots23_group
  obtain ⟨random, hr⟩ := exists_richDraws 1e-8 12 9 fun d hd => by
    have : d ≤ 3 := by by_contra h; push Not at h; nlinarith
    nlinarith
  let o : Oracles := { random := random, eig := fun d _ => (fun _ => 0, 0), eigh := fun d _ => (fun _ => 0, 0),
                       qr := fun _ _ _ => 0,
                       pointgroup := (PgSymbol.pg_23, (1 : M3).map fun x : ℤ => (x : ℝ)) }
  obtain ⟨L, w, -, h1, h2⟩ := c64_exact_entries rots23_group hT o pointgroup_23 1e-5 (atol := 1e-8) (by norm_num)
    (by norm_num) 9
  obtain ⟨l, h3, -, h4, h5⟩ := h2 (h1 hr)
  have ho : MethodContract o .neto 1e-5 rots23 := pointgroup_23
  have he : rots23 0 = 1 := by decide +kernel
  obtain ⟨l', hl', -, h6⟩ := c86_indicator_count rots23_group hT (μ? := none) rfl (fun _ _ _ => by simp)
    (fun _ _ => .inl rfl) he rfl ho (by norm_num) (by norm_num) h3
  obtain rfl : l = l' := by injection hl'
  obtain ⟨h7, h8⟩ := h6 rfl
  have h9 : (Finset.univ.filter fun g => rots23 g * rots23 g = 1).card = 4 := by decide +kernel
  have h10 : (Finset.univ.filter fun p : Fin 12 × Fin 12 => rots23 p.1 * rots23 p.2 * rots23 p.1 = rots23 p.2).card = 24 := by
    decide +kernel
  rw [h9] at h7
  rw [h10] at h8
  exact ⟨o, T, 0, l, ho, rots23_group, hT, he, fun _ _ _ => by simp, h3, h7, by omega⟩

/-- Non-vacuity of C85 and C86 with a nontrivial factor system of signs. -/
example : ∃ (o : Oracles) (l : List (AnyRep 4 × ℤ)),
    MethodContract o .neto 1e-5 rotsI24 ∧ EnumeratesGroup rotsI24 ∧ getCayleyTable rotsI24 = .ok tblV4 ∧
    rotsI24 0 = 1 ∧ IsCocycle tblV4 μV4 ∧ (∀ g h, μV4 g h = 1 ∨ μV4 g h = -1) ∧ μV4 0 0 = 1 ∧ (∃ g h, μV4 g h = -1) ∧
    enumerateUnitaryIrreps o rotsI24 (some μV4) false .neto 1e-5 1e-8 4 = .ok (.complex l, false) := by
  obtain ⟨random, hr⟩ := exists_richDraws 1e-8 4 4 fun d hd => hd
  let o : Oracles := { random := random, eig := fun d _ => (fun _ => 0, 0), eigh := fun d _ => (fun _ => 0, 0),
                       qr := fun _ _ _ => 0, pointgroup := (PgSymbol.pg_222, trafoI24.map fun x : ℤ => (x : ℝ)) }
  have he : rotsI24 0 = 1 := by decide +kernel
  have hs := μV4_real
  have h00 : μV4 0 0 = 1 := by
    have : sgnV4 0 0 = 1 := by decide +kernel
    unfold μV4; rw [this]; simp
  obtain ⟨g, h, hgh⟩ : ∃ g h, sgnV4 g h = -1 := by decide +kernel
  obtain ⟨R, w, hraw, hw, hr'⟩ := neto_raw rotsI24_group cayley_I24 tblV4_group μV4_cocycle μV4_norm he h00 o
    pointgroup_I24 1e-5 (atol := 1e-8) (by norm_num) 4
  obtain rfl := hr' hr
  have hR := hw rfl
  have hf : ∀ D ∈ R.map fun D => (⟨D.1, purifyIrrepValue D.2 1e-8⟩ : AnyRep 4),
      ∃ c : ℤ, (c = 1 ∨ c = -1 ∨ c = 0) ∧ frobeniusSchur D.2 = .ok c := by
    intro D' hD'
    obtain ⟨D, hD, rfl⟩ := List.mem_map.1 hD'
    have hd := IsCompleteIrreps.dim_le tblV4_group (ne_zero_of_norm_one μV4_norm) μV4_cocycle hR hD
    exact fs_ok tblV4_group (hR.rep D hD) (hR.unitary D hD) (hR.irred D hD) (Or.inr hs) hd (by norm_num) (by norm_num)
      (near_purify D.2 (by norm_num) (by norm_num))
  obtain ⟨l, hl, -⟩ := withIndicators_ok hf
  refine ⟨o, l, pointgroup_I24, rotsI24_group, cayley_I24, he, μV4_cocycle, hs, h00, ⟨g, h, ?_⟩, ?_⟩
  · unfold μV4; rw [hgh]; simp
  · unfold enumerateUnitaryIrreps
    simp only [Option.getD_some, bind, Except.bind, pure, Except.pure, hraw, Bool.false_eq_true, if_false, hl]

end Spgrep
