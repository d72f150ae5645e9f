/-
`get_symmetry_adapted_tensors` for representations that are not unitary (C82).
-/
import Verif.Proofs.TensorHex
import Verif.Props.TensorRun
import Verif.Props.SmallReal

namespace Spgrep

open Spec

variable {n D : ℕ} {T : Fin n → Fin n → Fin n}

/-- C82, part.  `get_symmetry_adapted_tensors` asks for the matrices of a representation and does not say that they must
be unitary.  If the matrices commute with one another (and are invertible, as the matrices of a representation are) and
the complex irreps are used, unitarity is not needed: the call returns, every tensor it returns is invariant, and
without a warning the tensors are a basis of the invariant tensors, so that their number is the mean of the powers of
the character.

What is missing: matrices that do not commute, and `real=True`.  There the statement is false (`c82_refuted`). -/
theorem c82_tensors_nonunitary_partial {rots : Fin n → M3} (h : EnumeratesGroup rots) (hT : getCayleyTable rots = .ok T)
    {rep : RepArr n D} (hrep : IsProjRep T (fun _ _ => 1) rep) (hinv : ∀ g, IsUnit (rep g))
    (hcomm : ∀ g h, rep g * rep h = rep h * rep g) (o : Oracles) (ho : PointgroupContract o.pointgroup rots)
    (la : LinAlg) (hla : la.Contract) (rank : ℕ) {atol : ℝ} (ha : 0 ≤ atol) (ha2 : atol ≤ 1 / 2)
    (hr : ∃ out, enumerateUnitaryIrreps o rots none false .neto 1e-5 atol = .ok (out, false)) :
    ∃ (ts : List (Tensor D (rank - 1 + 1))) (w : Bool),
      getSymmetryAdaptedTensors o la rep rots rank false atol = .ok (ts, w) ∧
      (∀ t ∈ ts, ∀ g, actTensor (rep g) t = t) ∧
      (w = false → LinearIndependent ℂ ts.get ∧
        (∀ t : Tensor D (rank - 1 + 1), (∀ g, actTensor (rep g) t = t) → t ∈ Submodule.span ℂ (Set.range ts.get)) ∧
        (n : ℂ) * ts.length = ∑ g, (rep g).trace ^ (rank - 1 + 1)) := by
  obtain ⟨T', hT', -, hTg⟩ := c01_cayley_table_ordinary h
  rw [hT] at hT'
  obtain rfl := Except.ok.inj hT'
  obtain ⟨out, hout⟩ := hr
  have hL := tensors_irreps_exact h hT o ho ha ha2 (.inl rfl) hout
  have hE : ∀ E ∈ out.irreps, GoodIrrep T E.2 := fun E hE => ⟨hL.rep E hE, hL.unitary E hE, .inl (hL.irred E hE)⟩
  have hvg := commuting_vectors_good hTg hrep hcomm hL hla (atol := atol)
  obtain ⟨ls, hls, -⟩ := mapM_ok (L := out.irreps) (f := fun E : AnyRep n => do
      let (bs, w) ← projectToIrrep la rep E.2 atol
      return (bs.map fun b => ({ dim := E.1, irrep := E.2, basis := fun i a => b i (a 0) } : TensorBasis n D 1), w))
    (Q := fun (_ : AnyRep n) (_ : List (TensorBasis n D 1) × Bool) => True) (by
      intro E hEm
      obtain ⟨r, hr⟩ := (c78_nonunitary_partial hTg (fun _ _ => one_ne_zero) hrep (hL.rep E hEm) (hL.unitary E hEm)
        (hL.irred E hEm) la hla atol 10).1 (by norm_num)
      exact ⟨_, by dsimp only; rw [hr]; rfl, trivial⟩)
  have hv : vectorBasis la rep out.irreps atol = .ok ((ls.map Prod.fst).flatten, ls.any Prod.snd) := by
    unfold vectorBasis
    rw [hls]
    rfl
  obtain ⟨ts, hts⟩ := tensorsFrom_small_of hTg hL (contract_order ho) hla rank atol hv (hvg _ hv) fun v hvm => by
    rw [(commuting_vectors hTg hrep hcomm hL hla _ hv v hvm).2]
    norm_num
  refine ⟨ts, ls.any Prod.snd, ?_, tensorsFrom_invariant_of hTg hE hvg hts, fun hw => ?_⟩
  · unfold getSymmetryAdaptedTensors
    simp only [hout, bind, Except.bind, hts, Bool.false_or]
    rfl
  · rw [hw] at hts
    obtain ⟨h1, h2, h3⟩ := tensorsFrom_basis_of hTg hL hla hvg
      (fun x hx => commuting_vectors_full hTg hrep hinv hcomm hL hla x hx) hts
    exact ⟨h2, h3, basis_count hTg hrep h1 h2 h3⟩

theorem repP3_unit (g : Fin 3) : IsUnit (repP3 g) := by
  have h : ∀ g, planeP3 g * planeP3 (tblC3 g g) = 1 := by decide +kernel
  have h1 := congrArg (fun M : Matrix (Fin 2) (Fin 2) ℤ => M.map (Int.castRingHom ℂ)) (h g)
  simp only [Matrix.map_mul] at h1
  rw [Matrix.map_one _ (map_zero _) (map_one _)] at h1
  exact IsUnit.of_mul_eq_one _ h1

/-- Non-vacuity: the rotations of P3 in hexagonal coordinates, which are not unitary.  The call returns invariant
tensors. -/
example : ∃ (o : Oracles) (la : LinAlg) (ts : List (Tensor 2 2)) (w : Bool), ¬ IsUnitaryRep repP3 ∧
    getSymmetryAdaptedTensors o la repP3 rotsP3 2 = .ok (ts, w) ∧ (∀ t ∈ ts, ∀ g, actTensor (repP3 g) t = t) ∧
    (w = false → ts.length = 2) := by
  obtain ⟨random, hr⟩ := exists_richDraws 1e-8 3 4 fun d hd => by
    have : d ≤ 1 := by by_contra h; push Not at h; nlinarith
    nlinarith
  obtain ⟨la, hla⟩ := exists_linAlg_contract
  let o : Oracles := { random := random, eig := fun d _ => (fun _ => 0, 0), eigh := fun d _ => (fun _ => 0, 0),
                       qr := fun _ _ _ => 0,
                       pointgroup := (PgSymbol.pg_3, (1 : M3).map fun x : ℤ => (x : ℝ)) }
  obtain ⟨L, w', -, h1, h2⟩ := c64_exact_entries rotsP3_group cayley_C3 o pointgroup_C3 1e-5 (atol := 1e-8)
    (by norm_num) (by norm_num) 4
  obtain ⟨l, h3, -⟩ := h2 (h1 hr)
  have hcomm : ∀ g h : Fin 3, planeP3 g * planeP3 h = planeP3 h * planeP3 g := by decide +kernel
  obtain ⟨ts, w, hts, hi, hc⟩ := c82_tensors_nonunitary_partial rotsP3_group cayley_C3 repP3_proj repP3_unit
    (fun g h => by
      have h1 := congrArg (fun M : Matrix (Fin 2) (Fin 2) ℤ => M.map (Int.castRingHom ℂ)) (hcomm g h)
      simp only [Matrix.map_mul] at h1
      exact h1) o pointgroup_C3 la hla 2 (atol := 1e-8) (by norm_num)
    (by norm_num) ⟨_, h3⟩
  refine ⟨o, la, ts, w, fun hu => ?_, hts, hi, fun hw => ?_⟩
  · have h5 := congrFun (congrFun (hu 1) 0) 0
    have h6 := congrFun (congrFun (hu 1) 1) 1
    simp [repP3, planeP3, Matrix.mul_apply, Fin.sum_univ_two] at h5 h6
  · have h5 := (hc hw).2.2
    rw [Fin.sum_univ_three] at h5
    have h6 : ∀ g, (repP3 g).trace = ((planeP3 g).trace : ℤ) := fun g => by simp [repP3, Matrix.trace]
    have h7 : (planeP3 0).trace = 2 ∧ (planeP3 1).trace = -1 ∧ (planeP3 2).trace = -1 := by decide +kernel
    rw [h6, h6, h6, h7.1, h7.2.1, h7.2.2] at h5
    norm_num at h5
    have h8 : (3 : ℂ) * (ts.length : ℂ) = 3 * 2 := by rw [h5]; norm_num
    exact_mod_cast mul_left_cancel₀ (by norm_num) h8

/-- C82 is false without these restrictions.  With `real=True` and the rotations of P3 in hexagonal coordinates, the
setting that the test suite of the project uses for its hexagonal example, every choice of random draws and of
eigenvectors within the contracts makes the call return a tensor of rank two that is not invariant.  The cause is
that the rows of a block are normalised one by one (representation.py:188-189), which is harmless only if they already
have the same length, as they do for unitary matrices. -/
theorem c82_refuted (o : Oracles) (ho : PointgroupContract o.pointgroup rotsP3) (heig : EigContract o.eig)
    (la : LinAlg) (hla : la.Contract) {atol : ℝ} (ha : 0 ≤ atol) (ha2 : atol ≤ 1 / 10)
    (hr : RichDraws 3 o.random atol 4) :
    EnumeratesGroup rotsP3 ∧ IsProjRep tblC3 (fun _ _ => 1) repP3 ∧ (∀ g, IsUnit (repP3 g)) ∧
    ∃ (ts : List (Tensor 2 2)) (w : Bool), getSymmetryAdaptedTensors o la repP3 rotsP3 2 true atol = .ok (ts, w) ∧
      ∃ t ∈ ts, actTensor (repP3 1) t ≠ t := by
  refine ⟨rotsP3_group, repP3_proj, repP3_unit, ?_⟩
  obtain ⟨L, w, h0, h1, h2⟩ := c69_real_irreps rotsP3_group cayley_C3 o ho heig 1e-5 ha ha2 4
  obtain ⟨h3, h4⟩ := h1 hr
  obtain ⟨l, h5, h6, h7⟩ := h2 h3 h4
  have hirr : (IrrepsOut.real l).irreps =
      (l.map Prod.fst).map fun R => (⟨R.1, fun g => (R.2 g).map Complex.ofReal⟩ : AnyRep 3) := by
    rw [List.map_map]
    rfl
  obtain ⟨⟨ts, w'⟩, hts⟩ := tensors_P3_total hla h6 (fun R hR => by
    obtain ⟨x, hx, rfl⟩ := List.mem_map.1 hR
    exact (h7 x hx).2.1.symm.imp (fun h => h.2) (h7 x hx).2.2) atol
  obtain ⟨hA, s, hs, hB⟩ := irreps_P3 h6
  refine ⟨ts, w', ?_, tensors_P3_bad hla hs (List.mem_map.2 ⟨_, hA, ?_⟩) (List.mem_map.2 ⟨_, hB, rfl⟩) hts⟩
  · unfold getSymmetryAdaptedTensors
    simp only [h5, bind, Except.bind, hirr, hts, Bool.false_or]
    rfl
  · refine congrArg (Sigma.mk 1) (funext fun g => ?_)
    exact Matrix.map_one _ Complex.ofReal_zero Complex.ofReal_one

/-- Non-vacuity: there are such oracles. -/
example : ∃ (o : Oracles) (la : LinAlg), PointgroupContract o.pointgroup rotsP3 ∧ EigContract o.eig ∧ la.Contract ∧
    RichDraws 3 o.random 1e-8 4 := by
  obtain ⟨random, hr⟩ := exists_richDraws 1e-8 3 4 fun d hd => by
    have : d ≤ 1 := by by_contra h; push Not at h; nlinarith
    nlinarith
  obtain ⟨eig, heig⟩ := exists_eigContract
  obtain ⟨la, hla⟩ := exists_linAlg_contract
  exact ⟨{ random := random, eig := eig, eigh := fun d _ => (fun _ => 0, 0), qr := fun _ _ _ => 0,
           pointgroup := (PgSymbol.pg_3, (1 : M3).map fun x : ℤ => (x : ℝ)) }, la, pointgroup_C3, heig, hla, hr⟩

end Spgrep
