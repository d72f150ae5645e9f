/-
Model of `enumerate_small_representations` and `enumerate_unitary_irreps` of /repo/src/spgrep/irreps.py.
-/
import Verif.Model.Irreps
import Verif.Model.Pointgroup

namespace Spgrep

variable {n : ℕ}

/-- The argument `method` (irreps.py:33, 147); `other` is any other string. -/
inductive IrrepMethod where
  | neto
  | random
  | other
  deriving DecidableEq

/-- External routines: the random generator, the linear algebra routines and the answer of
`spglib.get_pointgroup` for the rotations at hand. -/
structure Oracles where
  random : ∀ d, ℕ → Matrix (Fin d) (Fin d) ℂ
  eig : EigOracle
  eigh : EighOracle
  qr : QROracle
  pointgroup : PgSymbol × Matrix (Fin 3) (Fin 3) ℝ

/-- A real representation of unknown dimension. -/
abbrev AnyReal (n : ℕ) := Σ d : ℕ, Fin n → Matrix (Fin d) (Fin d) ℝ

/-- The value returned by the two functions: each irrep with its indicator (Python returns two lists of
equal length). -/
inductive IrrepsOut (n : ℕ) where
  | complex (l : List (AnyRep n × ℤ))
  | real (l : List (AnyReal n × ℤ))

/-- An integer index into an array of length `n`.  Simplification: numpy would accept negative indices
too; they do not occur here (C32), an index out of range is an `IndexError`. -/
def toIndex (n : ℕ) (g : ℤ) : Except PyErr (Fin n) :=
  if h : 0 ≤ g ∧ g < n then .ok ⟨g.toNat, by omega⟩ else .error .indexError

/-- Indicators of a list of irreps (irreps.py:97-98, 203-204). -/
noncomputable def withIndicators (irreps : List (AnyRep n)) : Except PyErr (List (AnyRep n × ℤ)) :=
  irreps.mapM fun D => do
    let i ← frobeniusSchur D.2
    return (D, i)

/-- The branch `real=True` (irreps.py:101-140 and 207-240).  `force` says whether the indicator is
overwritten by zero (lines 129-132, only in `enumerate_small_representations`). -/
noncomputable def realIrreps (o : Oracles) (irreps : List (AnyRep n)) (force : Bool) (atol : ℝ) (maxGen : ℕ) :
    Except PyErr (List (AnyReal n × ℤ)) :=
  (pairsOf irreps).mapM fun p => do
    let irrep := irreps.get p.1
    let indicator ← frobeniusSchur irrep.2
    let indicator := if force then 0 else indicator
    let r ← getPhysicallyIrrep o.eig (o.random irrep.1) irrep.2 indicator atol maxGen
    return (⟨r.1, purifyRealIrrepValue r.2 atol⟩, indicator)

/-- Lines 178-198 of irreps.py: the irreps of the chosen method, not yet purified, and whether a warning was
given. -/
noncomputable def rawIrreps (o : Oracles) (rots : Fin n → M3) (μ : Fin n → Fin n → ℂ) (method : IrrepMethod)
    (rtol atol : ℝ) (maxGen : ℕ) : Except PyErr (List (AnyRep n) × Bool) :=
  match method with
  | .neto => do
    let T ← getCayleyTable rots
    let gens ← getPointgroupChainGenerators o.pointgroup rots
    let gens ← gens.mapM (toIndex n)
    let (L, w, insufficient) ← enumerateFromChain o.random T μ gens atol maxGen
    return (L, w || insufficient)
  | .random => do
    let reg ← getProjectiveRegularRepresentation rots μ
    enumerateFromRegular o.eigh o.qr (o.random n) reg rtol maxGen
  | .other => .error .valueError

/-- `enumerate_unitary_irreps` (irreps.py:143-240).  `purify_irrep_value` works in place, so the loop of
lines 200-201 takes effect. -/
noncomputable def enumerateUnitaryIrreps (o : Oracles) (rots : Fin n → M3)
    (μ : Option (Fin n → Fin n → ℂ) := none) (real : Bool := false) (method : IrrepMethod := .neto)
    (rtol : ℝ := 1e-5) (atol : ℝ := 1e-8) (maxGen : ℕ := 4) : Except PyErr (IrrepsOut n × Bool) := do
  let (irreps, warned) ← rawIrreps o rots (μ.getD fun _ _ => 1) method rtol atol maxGen
  let irreps := irreps.map fun D => (⟨D.1, purifyIrrepValue D.2 atol⟩ : AnyRep n)
  if real then return (.real (← realIrreps o irreps false atol maxGen), warned)
  else return (.complex (← withIndicators irreps), warned)

open Classical in
/-- `enumerate_small_representations` (irreps.py:28-140).  The test of lines 129-132 is
`np.allclose(2*k - rint(2*k), 0)`. -/
noncomputable def enumerateSmallReps (o : Oracles) (rots : Fin n → M3) (trans : Fin n → V3) (k : V3)
    (real : Bool := false) (method : IrrepMethod := .neto) (rtol : ℝ := 1e-5) (atol : ℝ := 1e-8)
    (maxGen : ℕ := 4) : Except PyErr (IrrepsOut n × Bool) := do
  let μ := getFactorSystem rots trans k
  match ← enumerateUnitaryIrreps o rots (some μ) false method rtol atol maxGen with
  | (.real _, _) => .error .typeError -- not reachable: called with `real = false`
  | (.complex l, warned) =>
    let irreps := l.map fun D => (⟨D.1.1, phaseMul trans k D.1.2⟩ : AnyRep n)
    if real then
      let force := decide (¬ AllClose 1e-5 1e-8 (fun a => 2 * k a - rint (2 * k a)) fun _ => 0)
      return (.real (← realIrreps o irreps force atol maxGen), warned)
    else return (.complex (← withIndicators irreps), warned)

end Spgrep
