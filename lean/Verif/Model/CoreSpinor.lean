/-
Model of the spinor part of /repo/src/spgrep/core.py.
-/
import Verif.Model.Core
import Verif.Model.Corep

namespace Spgrep

variable {n : ℕ}

/-- Entries of `spglib.get_magnetic_symmetry_dataset` that are used (core.py:370-382, 410). -/
structure MagneticDataset (n : ℕ) extends Dataset n where
  timeReversals : Fin n → ℤ

/-- `get_spacegroup_spinor_irreps_from_primitive_symmetry` without time reversals (core.py:535-565): the mapping of the
little group, the irreps, the spinor factor system, the SU(2) matrices and the warning flag. -/
noncomputable def spinorIrrepsFromPrimitive (o : Oracles) (lattice : R3) (rots : Fin n → M3) (trans : Fin n → V3) (k : V3)
    (method : IrrepMethod := .neto) (rtol : ℝ := 1e-5) (atol : ℝ := 1e-8) (maxGen : ℕ := 4) :
    Except PyErr ((mapping : List (Fin n)) × (List (AnyRep mapping.length) ×
      (Fin mapping.length → Fin mapping.length → ℂ) × (Fin mapping.length → Matrix (Fin 2) (Fin 2) ℂ)) × Bool) := do
  primitiveCheck rots trans rtol atol
  let mapping := littleMapping rots k atol
  let out ← enumerateSpinorSmallReps o lattice (fun i => rots (mapping.get i)) (fun i => trans (mapping.get i)) k method
    rtol atol maxGen
  return ⟨mapping, out⟩

/-- `time_reversals[mapping_little_group]` (core.py:568): `trs` may be longer than the list of operations; a position beyond
its end is an `IndexError`. -/
def takeAt {N u : ℕ} (trs : Fin N → ℤ) (mapping : List (Fin u)) : Except PyErr (Fin mapping.length → ℤ) :=
  arrayM (fun l => if h : (mapping.get l : ℕ) < N then .ok (trs ⟨_, h⟩) else .error .indexError) 0

/-- `get_spacegroup_spinor_irreps_from_primitive_symmetry` with time reversals (core.py:535-547, 566-593). -/
noncomputable def corepsFromPrimitive {N : ℕ} (o : Oracles) (randomI : ∀ d, ℕ → Matrix (Fin d) (Fin d) ℂ) (lattice : R3)
    (rots : Fin n → M3) (trans : Fin n → V3) (trs : Fin N → ℤ) (k : V3) (method : IrrepMethod := .neto) (rtol : ℝ := 1e-5)
    (atol : ℝ := 1e-8) (maxGen : ℕ := 4) :
    Except PyErr ((mapping : List (Fin n)) × CorepOut mapping.length × Bool) := do
  primitiveCheck rots trans rtol atol
  let mapping := littleMapping rots k atol
  let littleTrs ← takeAt trs mapping
  let out ← enumerateSpinorSmallCoreps o randomI lattice (fun i => rots (mapping.get i)) (fun i => trans (mapping.get i))
    littleTrs k method rtol atol maxGen
  return ⟨mapping, out⟩

/-- What `get_spacegroup_spinor_irreps` returns besides the operations of the dataset: `mapping_little_group` and `irreps`, then
the spinor factor system, the SU(2) matrices and, for a magnetic structure, the flags `anti_linear`. -/
structure SpinorOut (n : ℕ) where
  /-- `little_group_order` -/
  order : ℕ
  /-- `mapping_little_group` -/
  mapping : Fin order → Fin n
  /-- `irreps` -/
  irreps : List (AnyRep order)
  /-- length of `little_spinor_factor_system` -/
  primOrder : ℕ
  /-- `little_spinor_factor_system` -/
  spinorFactor : Fin primOrder → Fin primOrder → ℂ
  /-- `little_unitary_rotations` -/
  unitary : Fin primOrder → Matrix (Fin 2) (Fin 2) ℂ
  /-- `anti_linear`; not returned (here: all false) for a structure without magnetic moments -/
  antiLinear : Fin primOrder → Bool

/-- `get_spacegroup_spinor_irreps` (core.py:268-460) with `magmoms = None`, for the dataset found by spglib. -/
noncomputable def getSpacegroupSpinorIrreps (o : Oracles) (hallType : ℤ → SpacegroupType) (lattice : R3)
    (dataset : Dataset n) (k : V3) (method : IrrepMethod := .neto) (reciprocal : Option R3 := none)
    (rtol : ℝ := 1e-5) (atol : ℝ := 1e-8) (maxGen : ℕ := 4) : Except PyErr (SpinorOut n × Bool) := do
  let kc ← kpointConv lattice reciprocal k
  let P ← getPrimitiveTransformationMatrix hallType dataset.hallNumber
  let (primRots, primTrans, primK) ← transformSymmetryAndKpoint P dataset.rotations dataset.translations kc
  let primLattice := P.transpose * lattice
  let (uRots, uTrans, mapTo) := uniquePrimitiveSymmetry primRots primTrans
  let ⟨mapping, (irreps, z, U), warned⟩ ← spinorIrrepsFromPrimitive o primLattice uRots.get (fun i => uTrans.getD i 0) primK
    method rtol atol maxGen
  let ⟨m, conv, adjusted⟩ := adjustPhase primTrans primK (fun i => uTrans.getD i 0) mapTo mapping irreps
  return (⟨m, conv, adjusted, mapping.length, z, U, fun _ => false⟩, warned)

/-- `get_spacegroup_spinor_irreps` (core.py:268-460) with magnetic moments, for the dataset found by spglib.
`time_reversals[mapping_to_prim]` (line 411) has the length of the dataset. -/
noncomputable def getSpacegroupSpinorCoreps (o : Oracles) (randomI : ∀ d, ℕ → Matrix (Fin d) (Fin d) ℂ)
    (hallType : ℤ → SpacegroupType) (lattice : R3) (dataset : MagneticDataset n) (k : V3) (method : IrrepMethod := .neto)
    (reciprocal : Option R3 := none) (rtol : ℝ := 1e-5) (atol : ℝ := 1e-8) (maxGen : ℕ := 4) :
    Except PyErr (SpinorOut n × Bool) := do
  let kc ← kpointConv lattice reciprocal k
  let P ← getPrimitiveTransformationMatrix hallType dataset.hallNumber
  let (primRots, primTrans, primK) ← transformSymmetryAndKpoint P dataset.rotations dataset.translations kc
  let primLattice := P.transpose * lattice
  let (uRots, uTrans, mapTo) := uniquePrimitiveSymmetry primRots primTrans
  let primTrs ← arrayM (fun i => do return dataset.timeReversals (← toIndex n (mapTo i))) 0
  let ⟨mapping, out, warned⟩ ← corepsFromPrimitive o randomI primLattice uRots.get (fun i => uTrans.getD i 0) primTrs primK
    method rtol atol maxGen
  let ⟨m, conv, adjusted⟩ := adjustPhase primTrans primK (fun i => uTrans.getD i 0) mapTo mapping out.coreps
  return (⟨m, conv, adjusted, mapping.length, out.spinorFactor, out.unitary, out.antiLinear⟩, warned)

/-- `get_crystallographic_pointgroup_spinor_irreps_from_symmetry` without time reversals (core.py:653-667): the irreps, the
factor system, the SU(2) matrices and the warning flag. -/
noncomputable def pointgroupSpinorIrreps (o : Oracles) (lattice : R3) (rots : Fin n → M3) (method : IrrepMethod := .neto)
    (rtol : ℝ := 1e-5) (atol : ℝ := 1e-8) (maxGen : ℕ := 4) :
    Except PyErr ((List (AnyRep n) × (Fin n → Fin n → ℂ) × (Fin n → Matrix (Fin 2) (Fin 2) ℂ)) × Bool) := do
  let (z, U) ← getSpinorFactorSystem o.eig lattice rots
  match ← enumerateUnitaryIrreps o rots (some z) false method rtol atol maxGen with
  | (.real _, _) => .error .typeError -- not reachable: called with `real = false`
  | (.complex l, warned) => return ((l.map Prod.fst, z, U), warned)

/-- `get_crystallographic_pointgroup_spinor_irreps_from_symmetry` with time reversals (core.py:668-687). -/
noncomputable def pointgroupSpinorCoreps (o : Oracles) (randomI : ∀ d, ℕ → Matrix (Fin d) (Fin d) ℂ) (lattice : R3)
    (rots : Fin n → M3) (trs : Fin n → ℤ) (method : IrrepMethod := .neto) (rtol : ℝ := 1e-5) (atol : ℝ := 1e-8)
    (maxGen : ℕ := 4) : Except PyErr (CorepOut n × Bool) :=
  enumerateSpinorSmallCoreps o randomI lattice rots (fun _ _ => 0) trs 0 method rtol atol maxGen

end Spgrep
