/-
Model of /repo/src/spgrep/corep.py.
-/
import Verif.Model.Spinor

namespace Spgrep

variable {n : ℕ}

/-- `time_reversal_matrix` (corep.py:274-281), `-i σ_y`. -/
def timeReversalMatrix : Matrix (Fin 2) (Fin 2) ℂ := !![0, -1; 1, 0]

/-- `get_corep_spinor_factor_system` (corep.py:245-316). -/
noncomputable def getCorepSpinorFactorSystem (eig : EigOracle) (lattice : R3) (rots : Fin n → M3) (trs : Fin n → ℤ) :
    Except PyErr ((Fin n → Fin n → ℂ) × (Fin n → Matrix (Fin 2) (Fin 2) ℂ) × (Fin n → Bool)) := do
  let U ← arrayM (fun i => do
    let u ← getSpinorUnitaryRotation eig lattice (rots i)
    return if trs i = 1 then u * timeReversalMatrix else u) 0
  let antiLinear : Fin n → Bool := fun i => decide (trs i = 1)
  let T ← getCayleyTable rots (some trs)
  return (fun i j => multiplierOf (if antiLinear i then U i * (U j).map star else U i * U j) (U (T i j)), U, antiLinear)

/-- The dictionary `xsg_indices_mapping` (corep.py:98-100): position in `xsg_indices`, whose entries are distinct.  A missing
key is a `KeyError`. -/
def xsgPosition (xsg : List (Fin n)) (idx : Fin n) : Except PyErr (Fin xsg.length) :=
  match indexOf? (fun i => xsg.get i) idx with
  | some i => .ok i
  | none => .error .keyError

open Classical in
/-- `[xsg_indices_mapping[idx] for idx in ...]` (corep.py:133, 147): fails when one of the keys is missing. -/
noncomputable def xsgPositions (xsg : List (Fin n)) (f : Fin xsg.length → Fin n) :
    Except PyErr (Fin xsg.length → Fin xsg.length) :=
  if h : ∀ u, ∃ v, xsgPosition xsg (f u) = .ok v then .ok fun u => (h u).choose else .error .keyError

/-- The "conjugated" irrep (corep.py:134-138): `conjIdx u` is the index of `a0⁻¹ u a0`, `conjMap u` its position in
`xsg_indices`. -/
noncomputable def conjIrrep {m d : ℕ} (F : Fin n → Fin n → ℂ) (a0 : Fin n) (xsg conjIdx : Fin m → Fin n)
    (conjMap : Fin m → Fin m) (irrep : RepArr m d) : RepArr m d :=
  fun u => (F (xsg u) a0 / F a0 (conjIdx u)) • (irrep (conjMap u)).map star

/-- The rounded sum of lines 156-158 of corep.py: `a0u u` is the index of `a0 u`, `sq u` the position of `(a0 u)²`. -/
noncomputable def corepIndicatorSum {m d : ℕ} (F : Fin n → Fin n → ℂ) (a0u : Fin m → Fin n) (sq : Fin m → Fin m)
    (irrep : RepArr m d) : ℤ :=
  rint (∑ u, F (a0u u) (a0u u) * getCharacter irrep (sq u)).re

open Classical in
/-- One pass of the loop over irreps (corep.py:148-177).  State: which irreps are done, and the pairs (indicator, irrep)
found so far. -/
noncomputable def corepPairStep {m l : ℕ} (sum : Fin l → ℤ) (chars conjChars : Fin l → Fin m → ℂ)
    (state : (Fin l → Bool) × List (ℤ × Fin l)) (i : Fin l) : Except PyErr ((Fin l → Bool) × List (ℤ × Fin l)) :=
  if state.1 i then .ok state
  else
    let visited := Function.update state.1 i true
    if sum i % (m : ℤ) ≠ 0 then .error .assertionError
    else
      let indicator := sum i / (m : ℤ)
      let pairs := state.2 ++ [(indicator, i)]
      if indicator ≠ 0 then .ok (visited, pairs)
      else
        match (List.finRange l).find? fun j =>
          !visited j && decide (IsEquivalentIrrep (List.ofFn (conjChars i)) (List.ofFn (chars j))) with
        | some j => .ok (Function.update visited j true, pairs)
        | none => .error .assertionError

/-- Assignments `corep[xsg_indices] = A; corep[a0u] = B` to an array of zeros (corep.py:189-193 and others). -/
def assemble {m d : ℕ} (xsg a0u : Fin m → Fin n) (A B : Fin m → Matrix (Fin d) (Fin d) ℂ) : RepArr n d :=
  fun g => match indexOf? a0u g with
    | some u => B u
    | none => match indexOf? xsg g with
      | some u => A u
      | none => 0

/-- Two by two blocks of `dim × dim` matrices as one `2 dim × 2 dim` matrix. -/
def blocks {d : ℕ} (A B C D : Matrix (Fin d) (Fin d) ℂ) : Matrix (Fin (d + d)) (Fin (d + d)) ℂ :=
  (Matrix.fromBlocks A B C D).reindex finSumFinEquiv finSumFinEquiv

/-- Construction of one co-representation (corep.py:184-236), before multiplication by the phases.  `sqA0` is the position of `a0²` in
`xsg_indices`.  Second component: whether the intertwiner search gave up with a warning. -/
noncomputable def buildCorep {m d : ℕ} (random : ℕ → Matrix (Fin d) (Fin d) ℂ) (F : Fin n → Fin n → ℂ) (a0 : Fin n)
    (xsg a0u : Fin m → Fin n) (sqA0 : Fin m) (indicator : ℤ) (irrep conj : RepArr m d) (atol : ℝ) (maxGen : ℕ) :
    Except PyErr (AnyRep n × Bool) :=
  if indicator = 1 then
    let (U, w) := getIntertwiner random irrep conj atol maxGen
    .ok (⟨d, assemble xsg a0u irrep fun u => star (F a0 (xsg u)) • (U * irrep u)⟩, w)
  else if indicator = -1 then
    let (U, w) := getIntertwiner random irrep conj atol maxGen
    let A := fun u => blocks (irrep u) 0 0 (conj u)
    .ok (⟨d + d, assemble xsg a0u A fun u => star (F a0 (xsg u)) • (blocks 0 (-U) U 0 * A u)⟩, w)
  else if indicator = 0 then
    let A := fun u => blocks (irrep u) 0 0 (conj u)
    .ok (⟨d + d, assemble xsg a0u A fun u =>
      star (F a0 (xsg u)) • (blocks 0 (F a0 a0 • irrep sqA0) 1 0 * A u)⟩, false)
  else .error .valueError

/-- What `enumerate_spinor_small_corepresentations` returns. -/
structure CorepOut (n : ℕ) where
  /-- `small_coreps` -/
  coreps : List (AnyRep n)
  /-- `indicators` -/
  indicators : List ℤ
  /-- `corep_spinor_factor_system` -/
  spinorFactor : Fin n → Fin n → ℂ
  /-- `unitary_rotations` -/
  unitary : Fin n → Matrix (Fin 2) (Fin 2) ℂ
  /-- `anti_linear` -/
  antiLinear : Fin n → Bool

open Classical in
/-- Lines 126-240 of corep.py: from the irreps of the unitary part to the small co-representations. -/
noncomputable def corepsFromIrreps (random : ∀ d, ℕ → Matrix (Fin d) (Fin d) ℂ) (F : Fin n → Fin n → ℂ)
    (T : Fin n → Fin n → Fin n) (trans : Fin n → V3) (k : V3) (xsg : List (Fin n)) (a0 : Fin n)
    (irreps : List (AnyRep xsg.length)) (atol : ℝ) (maxGen : ℕ) : Except PyErr (List (AnyRep n) × List ℤ × Bool) := do
  let inv ← getInverseIndex T a0
  let conjIdx : Fin xsg.length → Fin n := fun u => T inv (T (xsg.get u) a0)
  let conjMap ← xsgPositions xsg conjIdx
  -- numpy divides by zero
  if ∃ u, F a0 (conjIdx u) = 0 then .error .nan
  let conjs : Fin irreps.length → AnyRep xsg.length := fun i =>
    ⟨(irreps.get i).1, conjIrrep F a0 (fun u => xsg.get u) conjIdx conjMap (irreps.get i).2⟩
  let a0u : Fin xsg.length → Fin n := fun u => T a0 (xsg.get u)
  let sq ← xsgPositions xsg fun u => T (a0u u) (a0u u)
  let (_, pairs) ← (List.finRange irreps.length).foldlM
    (corepPairStep (fun i => corepIndicatorSum F a0u sq (irreps.get i).2) (fun i => getCharacter (irreps.get i).2)
      fun i => getCharacter (conjs i).2) (fun _ => false, [])
  let out ← pairs.mapM fun p => do
    let sqA0 ← xsgPosition xsg (T a0 a0)
    buildCorep (random _) F a0 (fun u => xsg.get u) a0u sqA0 p.1 (irreps.get p.2).2
      (conjIrrep F a0 (fun u => xsg.get u) conjIdx conjMap (irreps.get p.2).2) atol maxGen
  return (out.map fun D => ⟨D.1.1, phaseMul trans k D.1.2⟩, pairs.map Prod.fst, out.any fun D => D.2)

open Classical in
/-- `enumerate_spinor_small_corepresentations` (corep.py:24-242).  `randomI` is the random number generator of the intertwiner
search.  Second component: whether a warning was given. -/
noncomputable def enumerateSpinorSmallCoreps (o : Oracles) (randomI : ∀ d, ℕ → Matrix (Fin d) (Fin d) ℂ) (lattice : R3)
    (rots : Fin n → M3) (trans : Fin n → V3) (trs : Fin n → ℤ) (k : V3) (method : IrrepMethod := .neto) (rtol : ℝ := 1e-5)
    (atol : ℝ := 1e-8) (maxGen : ℕ := 4) : Except PyErr (CorepOut n × Bool) :=
  if ∀ i, trs i = 0 then do
    let ((irreps, z, U), warned) ← enumerateSpinorSmallReps o lattice rots trans k method rtol atol maxGen
    return (⟨irreps, [], z, U, fun _ => false⟩, warned)
  else do
    match ← decomposeByXSG rots trans trs with
    | none => .error .typeError -- unpacking `None`
    | some (xsg, _, a0) =>
      let (ω, U, antiLinear) ← getCorepSpinorFactorSystem o.eig lattice rots trs
      let F := fun i j => ω i j * getFactorSystem rots trans k i j
      match ← enumerateUnitaryIrreps o (fun u => rots (xsg.get u)) (some fun u v => F (xsg.get u) (xsg.get v)) false method
        rtol atol maxGen with
      | (.real _, _) => .error .typeError -- not reachable: called with `real = false`
      | (.complex l, warned) =>
        let T ← getCayleyTable rots (some trs)
        let (coreps, indicators, warned') ← corepsFromIrreps randomI F T trans k xsg a0 (l.map fun D => D.1) atol maxGen
        return (⟨coreps, indicators, ω, U, antiLinear⟩, warned || warned')

end Spgrep
