/-
C77: `get_symmetry_adapted_tensors` does not warn for small representations, and the number of tensors it returns.
-/
import Verif.Proofs.TensorRun
import Verif.Props.TensorReal

namespace Spgrep

open Spec

variable {n D : ℕ} {T : Fin n → Fin n → Fin n}

/-- **C77.** For every list of rotations that is a group, every answer of `get_pointgroup` within its contract, every tolerance
up to one half, all draws for which the enumeration of the irreps gives no warning, every rank, and every unitary ordinary
representation of it whose own projections give no warning and whose irreps have dimension at most three:
`get_symmetry_adapted_tensors` succeeds without any warning.  The result is a basis of the invariant tensors, and their
number is the average of the `rank`-th power of the character.  The conditions on the projections and the dimensions
hold for all representations of dimension at most three. -/
theorem c77_tensor_count {rots : Fin n → M3} (h : EnumeratesGroup rots) (hT : getCayleyTable rots = .ok T)
    {rep : RepArr n D} (hrep : IsProjRep T (fun _ _ => 1) rep) (hru : IsUnitaryRep rep) (o : Oracles)
    (ho : PointgroupContract o.pointgroup rots) (la : LinAlg) (hla : la.Contract) (rank : ℕ) {atol : ℝ} (ha : 0 ≤ atol)
    (ha2 : atol ≤ 1 / 2) (hr : ∃ out, enumerateUnitaryIrreps o rots none false .neto 1e-5 atol = .ok (out, false))
    (hD : D ≤ 3 ∨ ∀ (d : ℕ) (E : RepArr n d), IsProjRep T (fun _ _ => 1) E → IsUnitaryRep E → Spec.IsIrreducible E →
      (∃ bs, projectToIrrep la rep E atol = .ok (bs, false)) ∧ (3 < d → ∀ S : Matrix (Fin D) (Fin d) ℂ, (∀ g, rep g * S = S * E g) → S = 0)) :
    ∃ ts : List (Tensor D (rank - 1 + 1)), getSymmetryAdaptedTensors o la rep rots rank false atol = .ok (ts, false) ∧
      (∀ t ∈ ts, ∀ g, actTensor (rep g) t = t) ∧ LinearIndependent ℂ ts.get ∧
      (∀ t : Tensor D (rank - 1 + 1), (∀ g, actTensor (rep g) t = t) → t ∈ Submodule.span ℂ (Set.range ts.get)) ∧
      (n : ℂ) * ts.length = ∑ g, (rep g).trace ^ (rank - 1 + 1) := by
  have hμ : ∀ g h : Fin n, (fun _ _ => (1 : ℂ) : Fin n → Fin n → ℂ) g h ≠ 0 := fun _ _ => one_ne_zero
  obtain ⟨T', hT', -, hTg⟩ := c01_cayley_table_ordinary h
  rw [hT] at hT'
  obtain rfl := Except.ok.inj hT'
  obtain ⟨L, w, hraw, hw2, hw⟩ := c64_exact_entries h hT o ho 1e-5 ha ha2 4
  have hwf : w = false := by
    obtain ⟨out, hout⟩ := hr
    unfold enumerateUnitaryIrreps at hout
    simp only [Option.getD_none, hraw, bind, Except.bind, pure, Except.pure, Bool.false_eq_true, if_false] at hout
    split at hout
    · cases hout
    · exact (Prod.mk.inj (Except.ok.inj hout)).2
  obtain ⟨l, henum, hlfst, hL, -⟩ := hw hwf
  rw [hlfst] at hL
  have hlist : (∀ E ∈ L, ∃ bs, projectToIrrep la rep E.2 atol = .ok (bs, false)) ∧
      ∀ E ∈ L, 0 < Module.finrank ℂ (homSub rep E.2) → E.1 ≤ 3 := by
    rcases hD with hD | hD
    · have hpos : ∀ E ∈ L, 0 < E.1 := fun E hE => by
        obtain ⟨i⟩ := (hL.irred _ hE).1
        exact lt_of_le_of_lt (Nat.zero_le _) i.2
      constructor
      · intro E hE
        have hm : Module.finrank ℂ (homSub rep E.2) ≤ 3 := by
          have h3 := mult_dim_le hTg hL hrep hru hE
          have h4 := hpos E hE
          nlinarith
        have hDr : (D : ℝ) ≤ 3 := by exact_mod_cast hD
        obtain ⟨bs, hbs, _⟩ := c75_all_blocks_found_partial hTg hμ hrep hru (hL.rep E hE) (hL.unitary E hE)
          (hL.irred E hE) la hla atol 10 (by norm_num) (.inl ⟨hm, by
            calc (D : ℝ) * min (max atol 1e-10) 1e-2 ≤ D * 1e-2 := by gcongr; exact min_le_right _ _
              _ ≤ 3 * 1e-2 := by gcongr
              _ < 1 / 2 := by norm_num⟩)
        exact ⟨bs, hbs⟩
      · intro E hE h0
        have h3 := mult_dim_le hTg hL hrep hru hE
        nlinarith
    · refine ⟨fun E hE => (hD _ _ (hL.rep E hE) (hL.unitary E hE) (hL.irred E hE)).1, fun E hE h0 => ?_⟩
      by_contra h3
      push Not at h3
      have h4 := (hD _ _ (hL.rep E hE) (hL.unitary E hE) (hL.irred E hE)).2 h3
      have h5 : homSub rep E.2 = ⊥ := by
        rw [eq_bot_iff]
        intro S hS
        exact (Submodule.mem_bot ℂ).2 (h4 S hS)
      rw [h5, finrank_bot] at h0
      exact lt_irrefl _ h0
  obtain ⟨ts, hts⟩ := tensorsFrom_small hTg hL (contract_order ho) hrep hru hla rank atol hlist.1 hlist.2
  have hb := tensorsFrom_basis hTg hL hrep hru hla hts
  refine ⟨ts, ?_, hb.1, hb.2.1, hb.2.2, basis_count hTg hrep hb.1 hb.2.1 hb.2.2⟩
  unfold getSymmetryAdaptedTensors
  have h1 : (IrrepsOut.complex l).irreps = L := hlfst
  simp only [henum, bind, Except.bind, h1, hts]
  rfl

/-- The rotations acting on vectors. -/
noncomputable def repOfRots (rots : Fin n → M3) : RepArr n 3 := fun g => (rots g).map fun x : ℤ => (x : ℂ)

theorem repOfRots_proj {rots : Fin n → M3} (hT : getCayleyTable rots = .ok T) :
    IsProjRep T (fun _ _ => 1) (repOfRots rots) := by
  intro g h
  rw [one_smul]
  unfold repOfRots
  rw [(cayley_none_spec hT g h).1]
  exact (Matrix.map_mul (f := Int.castRingHom ℂ)).symm

theorem repOfRots_unitary {rots : Fin n → M3} (h : ∀ g, rots g * (rots g).transpose = 1) :
    IsUnitaryRep (repOfRots rots) := by
  intro g
  have h1 := congrArg (fun M : M3 => M.map (Int.castRingHom ℂ)) (h g)
  simp only [Matrix.map_mul] at h1
  rw [Matrix.map_one _ (map_zero _) (map_one _)] at h1
  refine Eq.trans (congrArg _ ?_) h1
  ext i j
  simp [repOfRots]

/-- Non-vacuity: the rotations of 4/m acting on vectors; there are three tensors of rank two. -/
example : ∃ (o : Oracles) (la : LinAlg) (ts : List (Tensor 3 2)), EnumeratesGroup rots4m ∧
    PointgroupContract o.pointgroup rots4m ∧ la.Contract ∧ getCayleyTable rots4m = .ok tbl4m ∧
    (∃ out, enumerateUnitaryIrreps o rots4m none false .neto 1e-5 1e-8 = .ok (out, false)) ∧
    getSymmetryAdaptedTensors o la (repOfRots rots4m) rots4m 2 = .ok (ts, false) ∧ ts.length = 3 := by
  obtain ⟨random, hr⟩ := exists_richDraws 1e-8 8 4 fun d hd => by
    have : d ≤ 2 := by by_contra h; push Not at h; nlinarith
    nlinarith
  obtain ⟨la, hla⟩ := exists_linAlg_contract
  let o : Oracles := { random := random, eig := fun d _ => (fun _ => 0, 0), eigh := fun d _ => (fun _ => 0, 0),
                       qr := fun _ _ _ => 0,
                       pointgroup := (PgSymbol.pg_4_m, (1 : M3).map fun x : ℤ => (x : ℝ)) }
  have ho : PointgroupContract o.pointgroup rots4m := pointgroup_4m
  obtain ⟨L, w, hraw, hw2, hw⟩ := c64_exact_entries rots4m_group cayley_4m.1 o ho 1e-5 (atol := 1e-8) (by norm_num)
    (by norm_num) 4
  obtain ⟨l, henum, -⟩ := hw (hw2 hr)
  obtain ⟨ts, h1, -, -, -, h2⟩ := c77_tensor_count rots4m_group cayley_4m.1 (repOfRots_proj cayley_4m.1)
    (repOfRots_unitary (by decide +kernel)) o ho la hla 2 (atol := 1e-8) (by norm_num) (by norm_num) ⟨_, henum⟩
    (.inl le_rfl)
  refine ⟨o, la, ts, rots4m_group, ho, hla, cayley_4m.1, ⟨_, henum⟩, h1, ?_⟩
  have h3 : ∑ g : Fin 8, (repOfRots rots4m g).trace ^ (2 - 1 + 1) = ((∑ g, (rots4m g).trace ^ 2 : ℤ) : ℂ) := by
    push_cast
    refine Finset.sum_congr rfl fun g _ => ?_
    simp [repOfRots, Matrix.trace, Fin.sum_univ_succ]
  have h4 : (∑ g, (rots4m g).trace ^ 2 : ℤ) = 24 := by decide +kernel
  rw [h3, h4] at h2
  have h5 : ((8 * ts.length : ℕ) : ℂ) = ((24 : ℕ) : ℂ) := by push_cast; exact_mod_cast h2
  have h6 : 8 * ts.length = 24 := by exact_mod_cast h5
  omega

end Spgrep
