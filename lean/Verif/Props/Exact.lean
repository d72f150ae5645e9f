/-
C64: the ordinary irreps of a point group found along the chain have entries zero or roots of unity of order 1, 2, 3,
4 or 6 (the comment in `purify_irrep_value`, irreps.py:636-652), so purification changes nothing and the irreps
returned by `enumerate_unitary_irreps` are exact.
-/
import Verif.Proofs.ExactLoop
import Verif.Props.SmallReps

namespace Spgrep

open Spec Matrix

variable {n : ℕ} {T : Fin n → Fin n → Fin n}

/-- The listed values are zero and the fourth and sixth roots of unity. -/
theorem listed_mem {z : ℂ} (h : Listed z) : z ∈ purifyValues := by
  have hpi : ∀ (a b : ℂ), a = b → Complex.exp a = Complex.exp b := fun a b h => by rw [h]
  rcases h with rfl | h | h
  · simp [purifyValues]
  · have h1 : (z - 1) * (z + 1) * ((z - Complex.I) * (z + Complex.I)) = 0 := by
      have := Complex.I_sq
      linear_combination h - (z ^ 2 - 1) * this
    simp only [mul_eq_zero, sub_eq_zero, add_eq_zero_iff_eq_neg] at h1
    rcases h1 with (rfl | rfl) | (rfl | rfl) <;> simp [purifyValues]
  · have hprim := Complex.isPrimitiveRoot_exp 6 (by norm_num)
    obtain ⟨i, hi, rfl⟩ := hprim.eq_pow_of_pow_eq_one h
    rw [← Complex.exp_nat_mul]
    interval_cases i
    · simp [purifyValues]
    · rw [hpi _ (Complex.I * Real.pi / 3) (by push_cast; ring)]; simp [purifyValues]
    · rw [hpi _ (Complex.I * Real.pi * 2 / 3) (by push_cast; ring)]; simp [purifyValues]
    · rw [hpi _ (Real.pi * Complex.I) (by push_cast; ring), Complex.exp_pi_mul_I]; simp [purifyValues]
    · rw [hpi _ (Complex.I * Real.pi * 4 / 3) (by push_cast; ring)]; simp [purifyValues]
    · rw [hpi _ (Complex.I * Real.pi * 5 / 3) (by push_cast; ring)]; simp [purifyValues]

/-- Purification leaves arrays with listed entries alone. -/
theorem purify_of_listed {d : ℕ} {D : RepArr n d} {atol : ℝ} (h0 : 0 ≤ atol) (h1 : atol ≤ 1 / 2)
    (hD : ∀ g i j, Listed (D g i j)) : purifyIrrepValue D atol = D := by
  have h3 : atol ^ 2 ≤ 2 - Real.sqrt 3 := by
    have : Real.sqrt 3 ≤ 1.74 := by
      rw [Real.sqrt_le_left (by norm_num)]; norm_num
    nlinarith
  funext g
  ext i j
  have := listed_mem (hD g i j)
  rw [purifyIrrepValue, Matrix.map_apply, purifyEntry_eq]
  exact snap_of_sep fun w hw => purify_sep h0 h3 _ this w hw

/-- One-dimensional, or with real entries, or of dimension two and conjugated by exchanging the two basis vectors. -/
def ArrShape {d : ℕ} (D : RepArr n d) : Prop :=
  d = 1 ∨ (∀ g i j, star (D g i j) = D g i j) ∨ (d = 2 ∧ ∀ g i j, D g i.rev j.rev = star (D g i j))

/-- The raw irreps of the Neto method with trivial factor system. -/
theorem neto_nice {rots : Fin n → M3} (h : EnumeratesGroup rots) (hT : getCayleyTable rots = .ok T)
    (hTg : IsGroupTable T) {e : Fin n} (he : rots e = 1) (o : Oracles) (ho : PointgroupContract o.pointgroup rots)
    (rtol : ℝ) {atol : ℝ} (ha : 0 ≤ atol) (maxGen : ℕ) {L : List (AnyRep n)}
    (hrun : rawIrreps o rots (fun _ _ => 1) .neto rtol atol maxGen = .ok (L, false)) :
    ∀ E ∈ L, (∀ g i j, Listed (E.2 g i j)) ∧ ArrShape E.2 := by
  classical
  obtain ⟨hP, std, hstd, σ, hσ⟩ := ho
  obtain ⟨gens, h2, -, h3⟩ := (chain_generators_core o.pointgroup.1 o.pointgroup.2 hP rots).1 std hstd σ hσ
  have hrot : ∀ i j, rots (T i j) = rots i * rots j := fun i j => (cayley_none_spec hT i j).1
  have hT1 : ∀ g, T e g = g := fun g => h.1 (by rw [hrot, he, Matrix.one_mul])
  obtain ⟨hchain, hnice, hord⟩ := h3 T hrot e he
  let _ := TG.group hTg
  let f : Fin n ≃ TG T := Equiv.refl _
  have hf : ∀ i j, f (T i j) = f i * f j := fun _ _ => rfl
  have hef : f.symm 1 = e := by
    apply f.injective
    have h4 : f (T e e) = f e * f e := hf e e
    rw [hT1] at h4
    rw [f.apply_symm_apply]
    exact (mul_eq_left.1 h4.symm).symm
  have hord' : ∀ g : TG T, g ^ 4 = 1 ∨ g ^ 6 = 1 := by
    intro g
    have hp : ∀ m, power T e g m = f.symm (g ^ m) := by
      intro m
      rw [← hef]
      exact power_eq f hf g m
    have h5 : ∀ m, power T e g m = e → g ^ m = 1 := fun m hm => by
      rw [hp, ← hef] at hm
      exact f.symm.injective hm
    exact (hord g).imp (h5 4) (h5 6)
  have hnice' : Nice (· * ·) (1 : TG T) (gens.map f) :=
    (nice_map (mul := T) (one := e) f.injective hf (by rw [← hef, f.apply_symm_apply]) gens).2 hnice
  rw [← hef] at hchain
  obtain ⟨H, st, hH, hst, -, hmem, -, -, hinv⟩ := chainLoop_nice f hf hord' o.random ha maxGen hchain hnice'
  have h2' : getPointgroupChainGenerators o.pointgroup rots = .ok (gens.map fun j : Fin n => ((j : ℕ) : ℤ)) := h2
  have hstep : List.foldlM (chainStep o.random T (fun _ _ => 1) (f.symm 1) atol maxGen)
      { grp := [f.symm 1], irreps := [⟨1, fun g => if g = f.symm 1 then 1 else 0⟩], warned := false }
      gens.reverse = .ok st := hst
  unfold rawIrreps at hrun
  simp only [hT, h2', bind, Except.bind, mapM_toIndex] at hrun
  unfold enumerateFromChain at hrun
  rw [getIdentityIndex_eq f hf] at hrun
  simp only [bind, Except.bind, hstep] at hrun
  have hfin : ∀ E ∈ L, E ∈ st.irreps ∧ st.warned = false := by
    by_cases hg : st.grp = List.finRange n
    · simp only [hg, if_true, pure, Except.pure, Bool.or_false] at hrun
      obtain ⟨h6, h7⟩ := Prod.mk.inj (Except.ok.inj hrun)
      intro E hE
      rw [h6]
      exact ⟨hE, h7⟩
    · simp only [hg, if_false, pure, Except.pure, Bool.or_true] at hrun
      cases (Prod.mk.inj (Except.ok.inj hrun)).2
  intro E hE
  obtain ⟨h6, h7⟩ := hfin E hE
  refine ⟨fun g i j => (hinv h7).2.1 E h6 (f g) ((hH _).2 (Set.mem_univ _)) i j, ?_⟩
  rcases (hinv h7).2.2.1 E h6 with h8 | h8 | ⟨h8, h9⟩
  · exact Or.inl h8
  · exact Or.inr (Or.inl fun g i j => h8 (f g) ((hH _).2 (Set.mem_univ _)) i j)
  · exact Or.inr (Or.inr ⟨h8, fun g i j => h9 (f g) ((hH _).2 (Set.mem_univ _)) i j⟩)

theorem neto_listed {rots : Fin n → M3} (h : EnumeratesGroup rots) (hT : getCayleyTable rots = .ok T)
    (hTg : IsGroupTable T) {e : Fin n} (he : rots e = 1) (o : Oracles) (ho : PointgroupContract o.pointgroup rots)
    (rtol : ℝ) {atol : ℝ} (ha : 0 ≤ atol) (maxGen : ℕ) {L : List (AnyRep n)}
    (hrun : rawIrreps o rots (fun _ _ => 1) .neto rtol atol maxGen = .ok (L, false)) :
    ∀ E ∈ L, ∀ g i j, Listed (E.2 g i j) := fun E hE =>
  (neto_nice h hT hTg he o ho rtol ha maxGen hrun E hE).1

/-- **C64.** For every list of rotations that is a group, every answer of `get_pointgroup` within its contract, every
tolerance up to one half and all random draws: the Neto method with trivial factor system does not fail, and unless an
intertwiner search gave up on all its draws, `enumerate_unitary_irreps` returns a complete list of exact unitary irreps
whose entries are zero or `p`-th roots of unity with `p` among 1, 2, 3, 4, 6. -/
theorem c64_exact_entries {rots : Fin n → M3} (h : EnumeratesGroup rots) (hT : getCayleyTable rots = .ok T) (o : Oracles)
    (ho : PointgroupContract o.pointgroup rots) (rtol : ℝ) {atol : ℝ} (ha : 0 ≤ atol) (ha2 : atol ≤ 1 / 2) (maxGen : ℕ) :
    ∃ L w, rawIrreps o rots (fun _ _ => 1) .neto rtol atol maxGen = .ok (L, w) ∧
      (RichDraws n o.random atol maxGen → w = false) ∧
      (w = false → ∃ l, enumerateUnitaryIrreps o rots none false .neto rtol atol maxGen = .ok (.complex l, false) ∧
        l.map Prod.fst = L ∧ IsCompleteIrreps T (fun _ _ => 1) (l.map Prod.fst) ∧
        ∀ x ∈ l, (∀ g i j, x.1.2 g i j = 0 ∨ ∃ p ∈ [1, 2, 3, 4, 6], x.1.2 g i j ^ p = 1) ∧
          purifyIrrepValue x.1.2 atol = x.1.2) := by
  obtain ⟨T', hT', -, hTg⟩ := c01_cayley_table_ordinary h
  rw [hT] at hT'
  obtain rfl := Except.ok.inj hT'
  obtain ⟨e, he⟩ : ∃ e, rots e = 1 := by
    obtain ⟨_, H, hH⟩ := h
    have : (1 : M3) ∈ Set.range rots := by rw [hH]; exact ⟨1, H.one_mem, rfl⟩
    exact this
  obtain ⟨L, w, hraw, hw, hr⟩ := neto_raw (μ := fun _ _ => 1) h hT hTg (fun _ _ _ => by simp) (fun _ _ => by simp) he rfl o
    ho rtol ha maxGen
  refine ⟨L, w, hraw, hr, ?_⟩
  rintro rfl
  have hL := hw rfl
  have hlist := neto_listed h hT hTg he o ho rtol ha maxGen hraw
  have hpur : ∀ E ∈ L, purifyIrrepValue E.2 atol = E.2 := fun E hE => purify_of_listed ha ha2 (hlist E hE)
  have hmap : L.map (fun D => (⟨D.1, purifyIrrepValue D.2 atol⟩ : AnyRep n)) = L := by
    conv_rhs => rw [← List.map_id L]
    refine List.map_congr_left fun E hE => ?_
    rw [hpur E hE]
    rfl
  obtain ⟨l, hl, hfst, -⟩ := withIndicators_ok (L := L) fun D hD => by
    obtain ⟨s, h1, h2, -⟩ := c17_frobenius_schur hTg (μ := fun _ _ => 1) (fun _ _ => .inl rfl) (hL.rep D hD)
      (hL.unitary D hD) (hL.irred D hD)
    exact ⟨s, h2, h1⟩
  refine ⟨l, ?_, hfst, by rw [hfst]; exact hL, fun x hx => ?_⟩
  · unfold enumerateUnitaryIrreps
    simp only [Option.getD_none, hraw, bind, Except.bind, pure, Except.pure, hmap, hl, Bool.false_eq_true, if_false]
  · have hxL : x.1 ∈ L := by rw [← hfst]; exact List.mem_map_of_mem hx
    refine ⟨fun g i j => ?_, hpur _ hxL⟩
    rcases hlist _ hxL g i j with h | h | h
    · exact Or.inl h
    · exact Or.inr ⟨4, by simp, h⟩
    · exact Or.inr ⟨6, by simp, h⟩

/-! ### An instance -/

/-- The twelve rotations of the point group 23, as tabulated. -/
def rots23 : Fin 12 → M3 := fun i => (pgData_23.head!.get i).toM3

theorem rots23_group : EnumeratesGroup rots23 := by
  apply enumerates_of_isMatrixGroup (by norm_num)
  · decide +kernel
  · decide +kernel

theorem pointgroup_23 : PointgroupContract (PgSymbol.pg_23, (1 : M3).map fun x : ℤ => (x : ℝ)) rots23 :=
  contract_of_int (std := pgData_23.head!) (by decide +kernel) (List.mem_singleton.2 rfl) (Equiv.refl (Fin 12))
    (by decide +kernel)

/-- Non-vacuity of C64: the noncommutative group 23, the default tolerance, and suitable draws. -/
example : ∃ (o : Oracles) (T : Fin 12 → Fin 12 → Fin 12) (l : List (AnyRep 12 × ℤ)),
    PointgroupContract o.pointgroup rots23 ∧ EnumeratesGroup rots23 ∧ getCayleyTable rots23 = .ok T ∧
    (∃ i j, T i j ≠ T j i) ∧
    enumerateUnitaryIrreps o rots23 none false .neto 1e-5 1e-8 9 = .ok (.complex l, false) ∧
    (l.map fun x => x.1.1 ^ 2).sum = 12 ∧
    ∀ x ∈ l, ∀ g i j, x.1.2 g i j = 0 ∨ ∃ p ∈ [1, 2, 3, 4, 6], x.1.2 g i j ^ p = 1 := by
  obtain ⟨T, hT, hs, hTg⟩ := c01_cayley_table_ordinary rots23_group
  obtain ⟨random, hr⟩ := exists_richDraws 1e-8 12 9 fun d hd => by
    have : d ≤ 3 := by by_contra h; push Not at h; nlinarith
    nlinarith
  let o : Oracles := { random := random, eig := fun d _ => (fun _ => 0, 0), eigh := fun d _ => (fun _ => 0, 0),
                       qr := fun _ _ _ => 0,
                       pointgroup := (PgSymbol.pg_23, (1 : M3).map fun x : ℤ => (x : ℝ)) }
  obtain ⟨L, w, -, h1, h2⟩ := c64_exact_entries rots23_group hT o pointgroup_23 1e-5 (atol := 1e-8) (by norm_num)
    (by norm_num) 9
  obtain ⟨l, h3, -, h4, h5⟩ := h2 (h1 hr)
  refine ⟨o, T, l, pointgroup_23, rots23_group, hT, ⟨1, 4, fun h => ?_⟩, h3, ?_, fun x hx => (h5 x hx).1⟩
  · have h6 : rots23 (T 1 4) = rots23 (T 4 1) := by rw [h]
    rw [(cayley_none_spec hT _ _).1, (cayley_none_spec hT _ _).1] at h6
    exact absurd h6 (by decide +kernel)
  · have := IsCompleteIrreps.sum_sq hTg (fun _ _ => one_ne_zero) (fun _ _ _ => by simp) h4
    simpa [List.map_map, Function.comp_def] using this

end Spgrep
