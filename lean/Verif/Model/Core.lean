/-
Model of the spinless part of /repo/src/spgrep/core.py.
-/
import Verif.Model.Transform
import Verif.Model.Enumerate

namespace Spgrep

variable {n : ℕ}

/-- Entries of `spglib.get_symmetry_dataset` that are used (core.py:96-101). -/
structure Dataset (n : ℕ) where
  rotations : Fin n → M3
  translations : Fin n → V3
  hallNumber : ℤ

/-- Transformation of the k-point into the dual of `lattice` (core.py:89-94, 360-366). -/
noncomputable def kpointConv (lattice : R3) (reciprocal : Option R3) (k : V3) : Except PyErr V3 := do
  let inv ← linInv lattice
  let dual := inv.transpose
  let recip := reciprocal.getD dual
  let dualInv ← linInv dual
  return vecMat (vecMat k recip) dualInv

open Classical in
/-- The sanity check at the head of `get_spacegroup_irreps_from_primitive_symmetry` (core.py:192-197) and
of its spinor version (core.py:538-543). -/
noncomputable def primitiveCheck (rots : Fin n → M3) (trans : Fin n → V3) (rtol atol : ℝ) : Except PyErr Unit :=
  if ∃ i, AllClose (ι := Fin 3 × Fin 3) rtol atol (fun p => (rots i p.1 p.2 : ℝ))
        (fun p => if p.1 = p.2 then 1 else 0) ∧
      ¬ AllClose 1e-5 atol (trans i) (fun _ => 0)
  then .error .valueError else .ok ()

/-- `get_spacegroup_irreps_from_primitive_symmetry` (core.py:134-215): the mapping of the little group and
the irreps (with the indicators, which Python drops) together with the warning flag. -/
noncomputable def irrepsFromPrimitive (o : Oracles) (rots : Fin n → M3) (trans : Fin n → V3) (k : V3)
    (real : Bool := false) (method : IrrepMethod := .neto) (rtol : ℝ := 1e-5) (atol : ℝ := 1e-8)
    (maxGen : ℕ := 4) : Except PyErr ((mapping : List (Fin n)) × IrrepsOut mapping.length × Bool) := do
  primitiveCheck rots trans rtol atol
  let mapping := littleMapping rots k atol
  let out ← enumerateSmallReps o (fun i => rots (mapping.get i)) (fun i => trans (mapping.get i)) k real method
    rtol atol maxGen
  return ⟨mapping, out⟩

/-- `remapping_prim_little_group.get(q)` (core.py:702-704, 713-715): later entries of the dictionary overwrite
earlier ones. -/
def remap {u : ℕ} (mapping : List (Fin u)) (q : ℤ) : Option (Fin mapping.length) :=
  (List.finRange mapping.length).reverse.find? fun l => decide ((((mapping.get l).1 : ℕ) : ℤ) = q)

/-- The lists `mapping_little_group` and `mapping_conv_to_prim_little_group` built by the loop of
core.py:711-721, entry by entry. -/
def keptOps {u : ℕ} (mapTo : Fin n → ℤ) (mapping : List (Fin u)) : List (Fin n × Fin mapping.length) :=
  (List.finRange n).filterMap fun i => (remap mapping (mapTo i)).map fun l => (i, l)

/-- `_adjust_phase_for_centering_translations` (core.py:694-732): the number of little group operations, their
positions in the conventional list, and the irreps.  `uniq_prim_translations[idx_prim]` (line 721) is written
with `mapping_prim_little_group[idx_prim_little]`, which is `idx_prim` (the dictionary was just asked for it). -/
noncomputable def adjustPhase {u : ℕ} (primTrans : Fin n → V3) (k : V3) (uniqTrans : Fin u → V3)
    (mapTo : Fin n → ℤ) (mapping : List (Fin u)) (irreps : List (AnyRep mapping.length)) :
    (m : ℕ) × (Fin m → Fin n) × List (AnyRep m) :=
  let kept := keptOps mapTo mapping
  ⟨kept.length, fun q => (kept.get q).1, irreps.map fun D =>
    ⟨D.1, purifyIrrepValue fun q =>
      expPhase (dot3 k (fun a => primTrans (kept.get q).1 a - uniqTrans (mapping.get (kept.get q).2) a)) •
        D.2 (kept.get q).2⟩⟩

/-- `get_spacegroup_irreps` (core.py:33-131) for the dataset found by spglib: the mapping of the little group
and the irreps, with the warning flag.  The rotations and translations of the dataset are returned as they are.
`uTrans` has the length of `uRots` (both lists are extended together), so the default of `getD` is not used. -/
noncomputable def getSpacegroupIrreps (o : Oracles) (hallType : ℤ → SpacegroupType) (lattice : R3)
    (dataset : Dataset n) (k : V3) (method : IrrepMethod := .neto) (reciprocal : Option R3 := none)
    (rtol : ℝ := 1e-5) (atol : ℝ := 1e-8) (maxGen : ℕ := 4) :
    Except PyErr (((m : ℕ) × (Fin m → Fin n) × List (AnyRep m)) × Bool) := do
  let kc ← kpointConv lattice reciprocal k
  let P ← getPrimitiveTransformationMatrix hallType dataset.hallNumber
  let (primRots, primTrans, primK) ← transformSymmetryAndKpoint P dataset.rotations dataset.translations kc
  let (uRots, uTrans, mapTo) := uniquePrimitiveSymmetry primRots primTrans
  match ← irrepsFromPrimitive o uRots.get (fun i => uTrans.getD i 0) primK false method rtol atol maxGen with
  | ⟨_, .real _, _⟩ => .error .typeError -- not reachable: called with `real = false`
  | ⟨mapping, .complex l, warned⟩ =>
    return (adjustPhase primTrans primK (fun i => uTrans.getD i 0) mapTo mapping (l.map Prod.fst), warned)

/-- `get_crystallographic_pointgroup_irreps_from_symmetry` (core.py:218-260). -/
noncomputable def pointgroupIrreps (o : Oracles) (rots : Fin n → M3) (real : Bool := false)
    (method : IrrepMethod := .neto) (rtol : ℝ := 1e-5) (atol : ℝ := 1e-8) (maxGen : ℕ := 4) :
    Except PyErr (IrrepsOut n × Bool) :=
  enumerateUnitaryIrreps o rots none real method rtol atol maxGen

end Spgrep
