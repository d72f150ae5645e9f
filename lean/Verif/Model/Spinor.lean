/-
Model of /repo/src/spgrep/spinor.py.
-/
import Verif.Model.Transform
import Verif.Model.Enumerate

namespace Spgrep

variable {n : ℕ}

open Classical in
/-- Direction of the axis (spinor.py:198-203): the first component that is not (almost) zero is made positive. -/
noncomputable def fixDirection (v : V3) : V3 :=
  match (List.finRange 3).find? fun j => decide (¬ IsClose 1e-5 1e-8 (v j) 0) with
  | some j => if v j < 0 then fun a => -v a else v
  | none => v

open Classical in
/-- Axis of a rotation by π (spinor.py:190-203): the loop does not stop at the first eigenvalue 1, so that the last one
counts; without any, the axis is `None`.  A real part of norm zero gives NaN. -/
noncomputable def halfTurnAxis (eig : EigOracle) (R : R3) : Except PyErr (Option V3) :=
  let (w, V) := eig 3 (R.map Complex.ofReal)
  (List.finRange 3).foldlM (fun axis i =>
    if ¬ IsCloseC 1e-5 1e-8 (w i) 1 then .ok axis
    else
      let v : V3 := fun a => (V a i).re
      let norm := Real.sqrt (∑ a, v a ^ 2)
      if norm = 0 then .error .nan else .ok (some (fixDirection fun a => v a / norm))) none

open Classical in
/-- `get_rotation_angle_and_axis` (spinor.py:176-218).  `np.arctan2(y, x)` is the argument of `x + iy`; a vanishing
`sin_theta` gives NaN. -/
noncomputable def getRotationAngleAndAxis (eig : EigOracle) (R : R3) : Except PyErr (ℝ × Option V3) :=
  if AllClose (ι := Fin 3 × Fin 3) 1e-5 1e-8 (fun p => R p.1 p.2) (fun p => if p.1 = p.2 then 1 else 0) then
    .ok (0, some ![0, 0, 1])
  else
    let cosTheta := (R.trace - 1) / 2
    if IsClose 1e-5 1e-8 cosTheta (-1) then do
      let axis ← halfTurnAxis eig R
      return (Real.pi, axis)
    else
      let nondiag : V3 := ![R 1 2 - R 2 1, R 2 0 - R 0 2, R 0 1 - R 1 0]
      let sinTheta := Real.sqrt (∑ a, nondiag a ^ 2) / 2
      if sinTheta = 0 then .error .nan
      else .ok (Complex.arg ⟨cosTheta, sinTheta⟩, some fun a => nondiag a / (-2 * sinTheta))

/-- The SU(2) matrix of a rotation by `theta` around `axis` (spinor.py:159-172). -/
noncomputable def spinorMatrix (theta : ℝ) (axis : V3) : Matrix (Fin 2) (Fin 2) ℂ :=
  let c : ℂ := Real.cos (0.5 * theta)
  let s : ℂ := Real.sin (0.5 * theta)
  !![c - Complex.I * axis 2 * s, s * (-Complex.I * axis 0 - axis 1);
    s * (-Complex.I * axis 0 + axis 1), c + Complex.I * axis 2 * s]

/-- `get_spinor_unitary_rotation` (spinor.py:148-173).  Indexing the axis `None` is a `TypeError`. -/
noncomputable def getSpinorUnitaryRotation (eig : EigOracle) (lattice : R3) (rotation : M3) :
    Except PyErr (Matrix (Fin 2) (Fin 2) ℂ) := do
  let sign : ℤ := if 0 < rotation.det then 1 else -1
  let proper : M3 := sign • rotation
  let inv ← linInv lattice.transpose
  let cart := lattice.transpose * realMat proper * inv
  match ← getRotationAngleAndAxis eig cart with
  | (_, none) => .error .typeError
  | (theta, some axis) => return spinorMatrix theta axis

/-- `mapM` over `range(n)`: fills an array of length `n`. -/
def arrayM {α : Type*} (f : Fin n → Except PyErr α) (fallback : α) : Except PyErr (Fin n → α) := do
  let l ← (List.finRange n).mapM f
  return fun i => l.getD i fallback

open Classical in
/-- The loop over the multiplier (spinor.py:138-143): entries that match neither sign stay 0. -/
noncomputable def multiplierOf (uiuj uk : Matrix (Fin 2) (Fin 2) ℂ) : ℂ :=
  if ∀ a b, IsCloseC 1e-5 1e-8 (uiuj a b) (-1 * uk a b) then -1
  else if ∀ a b, IsCloseC 1e-5 1e-8 (uiuj a b) (1 * uk a b) then 1
  else 0

/-- `get_spinor_factor_system` (spinor.py:97-145). -/
noncomputable def getSpinorFactorSystem (eig : EigOracle) (lattice : R3) (rots : Fin n → M3) :
    Except PyErr ((Fin n → Fin n → ℂ) × (Fin n → Matrix (Fin 2) (Fin 2) ℂ)) := do
  let U ← arrayM (fun i => getSpinorUnitaryRotation eig lattice (rots i)) 0
  let T ← getCayleyTable rots
  return (fun i j => multiplierOf (U i * U j) (U (T i j)), U)

/-- `enumerate_spinor_small_representations` (spinor.py:16-94): the small representations, the spinor factor system, the
SU(2) matrices, and whether a warning was given.  The defaults of `little_translations` and `kpoint` are zero arrays, which the caller of
the model passes. -/
noncomputable def enumerateSpinorSmallReps (o : Oracles) (lattice : R3) (rots : Fin n → M3) (trans : Fin n → V3)
    (k : V3) (method : IrrepMethod := .neto) (rtol : ℝ := 1e-5) (atol : ℝ := 1e-8) (maxGen : ℕ := 4) :
    Except PyErr ((List (AnyRep n) × (Fin n → Fin n → ℂ) × (Fin n → Matrix (Fin 2) (Fin 2) ℂ)) × Bool) := do
  let (z, U) ← getSpinorFactorSystem o.eig lattice rots
  let μ := fun i j => z i j * getFactorSystem rots trans k i j
  match ← enumerateUnitaryIrreps o rots (some μ) false method rtol atol maxGen with
  | (.real _, _) => .error .typeError -- not reachable: called with `real = false`
  | (.complex l, warned) => return ((l.map fun D => ⟨D.1.1, phaseMul trans k D.1.2⟩, z, U), warned)

end Spgrep
