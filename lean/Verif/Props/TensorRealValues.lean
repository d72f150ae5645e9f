/-
`get_symmetry_adapted_tensors` with `real=True` (C83, C84).
-/
import Verif.Proofs.TensorRealValues
import Verif.Props.TensorRun
import Verif.Props.PointgroupApi

namespace Spgrep

open Spec

variable {n D : ℕ} {T : Fin n → Fin n → Fin n}

/-- **C83.** If the given matrices are real, `get_symmetry_adapted_tensors` with `real=True` returns real tensors, and
`apply_intrinsic_symmetry` of them is real, whatever the matrices, the rotations, the rank, the tolerances, the warnings and the
answers of all oracles. -/
theorem c83_real_tensors (o : Oracles) (la : LinAlg) {rep : RepArr n D} (hrep : ∀ g i j, (rep g i j).im = 0)
    (rots : Fin n → M3) (rank : ℕ) (atol : ℝ) {ts : List (Tensor D (rank - 1 + 1))} {w : Bool}
    (h : getSymmetryAdaptedTensors o la rep rots rank true atol = .ok (ts, w)) :
    (∀ t ∈ ts, ∀ a, (t a).im = 0) ∧
    ∀ atol' us, applyIntrinsicSymmetry la ts atol' = .ok us → ∀ u ∈ us, ∀ a, (u a).im = 0 := by
  obtain ⟨out, w1, w2, h1, h2, -⟩ := tensors_run h
  have hL : ∀ E ∈ out.irreps, ∀ g, RealEntries (E.2 g) := by
    unfold enumerateUnitaryIrreps at h1
    simp only [bind, Except.bind, pure, Except.pure, if_true] at h1
    split at h1
    · cases h1
    · split at h1
      · cases h1
      · cases h1
        intro E hE
        obtain ⟨x, -, rfl⟩ := List.mem_map.1 hE
        exact fun g => realEntries_ofReal _
  have hts := tensorsFrom_real (fun g i j => Complex.conj_eq_iff_im.2 (hrep g i j)) hL h2
  exact ⟨fun t ht a => Complex.conj_eq_iff_im.1 (hts t ht a), fun atol' us hus u hu a =>
    Complex.conj_eq_iff_im.1 (intrinsic_real hts (by simp) hus u hu a)⟩

/-- In dimension at most three no projection warns. -/
theorem tensorsFrom_dim3 (hTg : IsGroupTable T) {L : List (AnyRep n)} (hL : IsCompleteIrreps T (fun _ _ => 1) L) (hn : n ≤ 48)
    {rep : RepArr n D} (hrep : IsProjRep T (fun _ _ => 1) rep) (hru : IsUnitaryRep rep) {la : LinAlg} (hla : la.Contract)
    (hD : D ≤ 3) (rank : ℕ) (atol : ℝ) : ∃ ts, tensorsFrom la rep L rank atol = .ok (ts, false) := by
  have hpos : ∀ E ∈ L, 0 < E.1 := fun E hE => by
    obtain ⟨i⟩ := (hL.irred _ hE).1
    exact lt_of_le_of_lt (Nat.zero_le _) i.2
  refine tensorsFrom_small hTg hL hn hrep hru hla rank atol (fun E hE => ?_) fun E hE h0 => ?_
  · have hm : Module.finrank ℂ (homSub rep E.2) ≤ 3 := by
      have h3 := mult_dim_le hTg hL hrep hru hE
      have h4 := hpos E hE
      nlinarith
    have hDr : (D : ℝ) ≤ 3 := by exact_mod_cast hD
    obtain ⟨bs, hbs, _⟩ := c75_all_blocks_found_partial hTg (fun _ _ => one_ne_zero) hrep hru (hL.rep E hE) (hL.unitary E hE)
      (hL.irred E hE) la hla atol 10 (by norm_num) (.inl ⟨hm, by
        calc (D : ℝ) * min (max atol 1e-10) 1e-2 ≤ D * 1e-2 := by gcongr; exact min_le_right _ _
          _ ≤ 3 * 1e-2 := by gcongr
          _ < 1 / 2 := by norm_num⟩)
    exact ⟨bs, hbs⟩
  · have h3 := mult_dim_le hTg hL hrep hru hE
    nlinarith

/-- Real tensors that are independent over the complex numbers and span the invariant ones are a basis over the reals. -/
theorem real_combination {p k : ℕ} {ts : Fin k → Tensor D p} (hts : ∀ i a, (ts i a).im = 0) {t : Tensor D p}
    (ht : ∀ a, (t a).im = 0) (h : t ∈ Submodule.span ℂ (Set.range ts)) :
    ∃ c : Fin k → ℝ, ∀ a, t a = ∑ i, (c i : ℂ) * ts i a := by
  obtain ⟨c, rfl⟩ := (Submodule.mem_span_range_iff_exists_fun ℂ).1 h
  refine ⟨fun i => (c i).re, fun a => ?_⟩
  apply Complex.ext
  · rw [Finset.sum_apply, Complex.re_sum, Complex.re_sum]
    refine Finset.sum_congr rfl fun i _ => ?_
    rw [Pi.smul_apply, smul_eq_mul, Complex.mul_re, Complex.mul_re, hts]
    simp
  · rw [ht a, Complex.im_sum]
    refine (Finset.sum_eq_zero fun i _ => ?_).symm
    rw [Complex.mul_im, hts]
    simp

/-- **C84.** Let every rotation of a point group be conjugate to its inverse (as in 222, mm2, 422, 4mm, 4/mmm, 32, 3m, -3m,
622, 6mm, 6/mmm, 432, -43m, m-3m) and let the group act by real orthogonal matrices of dimension at most three.  There are
matrices with entries in `(0, 1)` and a positive tolerance such that, if the first draws are these and the tolerance is not
larger, `get_symmetry_adapted_tensors` with `real=True` returns real tensors without any warning.  They are invariant, linearly
independent, every real invariant tensor is a combination of them with real coefficients, and their number is the mean of the
powers of the character. -/
theorem c84_real_tensor_basis {rots : Fin n → M3} (h : EnumeratesGroup rots) (hT : getCayleyTable rots = .ok T)
    (hamb : ∀ g, ∃ g' k, rots g' * rots g = 1 ∧ rots k * rots g = rots g' * rots k)
    {pg : PgSymbol × Matrix (Fin 3) (Fin 3) ℝ} (hpg : PointgroupContract pg rots)
    {rep : RepArr n D} (hrep : IsProjRep T (fun _ _ => 1) rep) (hru : IsUnitaryRep rep)
    (hreal : ∀ g i j, (rep g i j).im = 0) (hD : D ≤ 3) :
    ∃ X : ∀ d, Matrix (Fin d) (Fin d) ℂ, (∀ d i j, ∃ x : ℝ, 0 < x ∧ x < 1 ∧ X d i j = x) ∧ ∃ atol0 : ℝ, 0 < atol0 ∧
      ∀ (o : Oracles) (la : LinAlg) (rank : ℕ) (atol : ℝ), o.pointgroup = pg → (∀ d, o.random d 0 = X d) →
        EigContract o.eig → la.Contract → 0 ≤ atol → atol ≤ atol0 →
        ∃ ts : List (Tensor D (rank - 1 + 1)), getSymmetryAdaptedTensors o la rep rots rank true atol = .ok (ts, false) ∧
          (∀ t ∈ ts, (∀ a, (t a).im = 0) ∧ ∀ g, actTensor (rep g) t = t) ∧ LinearIndependent ℂ ts.get ∧
          (∀ t : Tensor D (rank - 1 + 1), (∀ a, (t a).im = 0) → (∀ g, actTensor (rep g) t = t) →
            ∃ c : Fin ts.length → ℝ, ∀ a, t a = ∑ i, (c i : ℂ) * ts.get i a) ∧
          (n : ℂ) * ts.length = ∑ g, (rep g).trace ^ (rank - 1 + 1) := by
  obtain ⟨T', hT', -, hTg⟩ := c01_cayley_table_ordinary h
  rw [hT] at hT'
  obtain rfl := Except.ok.inj hT'
  obtain ⟨X, hX, a, ha0, ha1, hav⟩ := pointgroup_draws h hT hpg
  refine ⟨X, hX, a, ha0, fun o la rank atol hop hr heig hla h0 hle => ?_⟩
  obtain ⟨L, hL, hs⟩ := hav o 1e-5 atol 4 hop hr h0 hle (by norm_num)
  have ho : PointgroupContract o.pointgroup rots := hop ▸ hpg
  have hle2 := hle.trans ha1
  obtain ⟨L', w', hL', -, hok⟩ := c69_real_irreps h hT o ho heig 1e-5 h0 hle2 4
  obtain ⟨rfl, rfl⟩ := Prod.mk.inj (Except.ok.inj (hL.symm.trans hL'))
  obtain ⟨l, hl, -⟩ := hok rfl hs
  have hc := tensors_real_irreps_complete h hT o ho heig hamb h0 hle2 (.inl ⟨rfl, fun L2 w2 h2 => by
    obtain ⟨rfl, -⟩ := Prod.mk.inj (Except.ok.inj (hL.symm.trans h2))
    exact hs⟩) hl
  obtain ⟨ts, hts⟩ := tensorsFrom_dim3 hTg hc (contract_order ho) hrep hru hla hD rank atol
  obtain ⟨b1, b2, b3⟩ := tensorsFrom_basis hTg hc hrep hru hla hts
  have hrun : getSymmetryAdaptedTensors o la rep rots rank true atol = .ok (ts, false) := by
    unfold getSymmetryAdaptedTensors
    simp only [hl, bind, Except.bind, hts]
    rfl
  have hre := (c83_real_tensors o la hreal rots rank atol hrun).1
  exact ⟨ts, hrun, fun t ht => ⟨hre t ht, b1 t ht⟩, b2,
    fun t ht1 ht2 => real_combination (fun i a => hre _ (List.get_mem ts i) a) ht1 (b3 t ht2), basis_count hTg hrep b1 b2 b3⟩

/-- Non-vacuity: the rotations of the cube acting on vectors; there are four real tensors of rank four. -/
example : ∃ (o : Oracles) (la : LinAlg) (atol : ℝ) (ts : List (Tensor 3 4)), PointgroupContract o.pointgroup rots432 ∧
    EigContract o.eig ∧ la.Contract ∧ getSymmetryAdaptedTensors o la (repOfRots rots432) rots432 4 true atol = .ok (ts, false) ∧
    ts.length = 4 ∧ ∀ t ∈ ts, ∀ a, (t a).im = 0 := by
  obtain ⟨T, hT, -, hTg⟩ := c01_cayley_table_ordinary rots432_group
  obtain ⟨X, -, a, ha, hall⟩ := c84_real_tensor_basis rots432_group hT (by decide +kernel) contract_432 (repOfRots_proj hT)
    (repOfRots_unitary (by decide +kernel)) (fun g i j => by simp [repOfRots]) le_rfl
  obtain ⟨eig, heig⟩ := exists_eigContract
  obtain ⟨la, hla⟩ := exists_linAlg_contract
  obtain ⟨o, hpg, hX, he⟩ : ∃ o : Oracles, o.pointgroup = (PgSymbol.pg_432, (1 : M3).map fun x : ℤ => (x : ℝ)) ∧
      (∀ d, o.random d 0 = X d) ∧ EigContract o.eig :=
    ⟨⟨fun d _ => X d, eig, fun _ _ => (0, 0), fun _ _ _ => 0, _⟩, rfl, fun _ => rfl, heig⟩
  obtain ⟨ts, h1, h2, -, -, h3⟩ := hall o la 4 a hpg hX he hla ha.le le_rfl
  refine ⟨o, la, a, ts, hpg ▸ contract_432, he, hla, h1, ?_, fun t ht => (h2 t ht).1⟩
  have h4 : ∀ g, (repOfRots rots432 g).trace = (((rots432 g).trace : ℤ) : ℂ) := fun g => by simp [repOfRots, Matrix.trace]
  have h5 : ∑ g, (rots432 g).trace ^ 4 = 96 := by decide +kernel
  have h6 : ∑ g, (repOfRots rots432 g).trace ^ 4 = ((96 : ℤ) : ℂ) := by
    rw [← h5, Int.cast_sum]
    exact Finset.sum_congr rfl fun g _ => by rw [h4, Int.cast_pow]
  have h7 : ((24 : ℕ) : ℂ) * ts.length = ((96 : ℤ) : ℂ) := h3.trans h6
  have h8 : 24 * ts.length = 96 := by exact_mod_cast h7
  omega

end Spgrep
