/-
Model of /repo/src/spgrep/tensor.py.
-/
import Verif.Model.Enumerate

namespace Spgrep

variable {n D p : ℕ}

/-- Arrays of shape `(D, ..., D)` with `p` axes.  Simplification: only arrays whose axes have equal length are
modelled (all tensors built by `get_symmetry_adapted_tensors` are of this kind). -/
abbrev Tensor (D p : ℕ) := (Fin p → Fin D) → ℂ

/-- `(basis, irrep)` of tensor.py:43, 66: an array of shape `(dim_irrep, D, ..., D)` and its irrep. -/
structure TensorBasis (n D p : ℕ) where
  dim : ℕ
  irrep : RepArr n dim
  basis : Fin dim → Tensor D p

/-- The list of irreps of either kind; real arrays are embedded into complex ones. -/
def IrrepsOut.irreps : IrrepsOut n → List (AnyRep n)
  | .complex l => l.map Prod.fst
  | .real l => l.map fun x => ⟨x.1.1, fun k => (x.1.2 k).map Complex.ofReal⟩

/-- Lines 38-43 of tensor.py.  The Boolean says whether a projection ended with the warning about an
inconsistent number of basis vectors (representation.py:221-230). -/
noncomputable def vectorBasis (la : LinAlg) (rep : RepArr n D) (irreps : List (AnyRep n)) (atol : ℝ) :
    Except PyErr (List (TensorBasis n D 1) × Bool) := do
  let ls ← irreps.mapM fun E => do
    let (bs, w) ← projectToIrrep la rep E.2 atol
    return (bs.map fun b => ({ dim := E.1, irrep := E.2, basis := fun i a => b i (a 0) } : TensorBasis n D 1), w)
  return ((ls.map Prod.fst).flatten, ls.any Prod.snd)

/-- The einsum `"ijk,j...,ka->i...a"` of tensor.py:63-65 after the row-major reshape of line 61. -/
noncomputable def contractBasis {dt dv d : ℕ} (coeff : Matrix (Fin d) (Fin (dt * dv)) ℂ)
    (tb : Fin dt → Tensor D p) (vb : Fin dv → Tensor D 1) : Fin d → Tensor D (p + 1) :=
  fun i a => ∑ j, ∑ k, coeff i (finProdFinEquiv (j, k)) * tb j (Fin.init a) * vb k fun _ => a (Fin.last p)

/-- The innermost loops of tensor.py:54-66 for one pair of bases. -/
noncomputable def tensorPair (la : LinAlg) (irreps : List (AnyRep n)) (atol : ℝ) (t : TensorBasis n D p)
    (v : TensorBasis n D 1) : Except PyErr (List (TensorBasis n D (p + 1)) × Bool) := do
  let direct ← getDirectProduct t.irrep v.irrep
  let ls ← irreps.mapM fun E => do
    let (cs, w) ← projectToIrrep la direct E.2 atol
    return (cs.map fun c =>
      ({ dim := E.1, irrep := E.2, basis := contractBasis c t.basis v.basis } : TensorBasis n D (p + 1)), w)
  return ((ls.map Prod.fst).flatten, ls.any Prod.snd)

/-- One iteration of the loop of tensor.py:47-68; `product` runs over the vector bases fastest. -/
noncomputable def tensorStep (la : LinAlg) (irreps : List (AnyRep n)) (atol : ℝ) (tbs : List (TensorBasis n D p))
    (vbs : List (TensorBasis n D 1)) : Except PyErr (List (TensorBasis n D (p + 1)) × Bool) := do
  let ls ← (tbs.flatMap fun t => vbs.map fun v => (t, v)).mapM fun tv => tensorPair la irreps atol tv.1 tv.2
  return ((ls.map Prod.fst).flatten, ls.any Prod.snd)

/-- The loop of tensor.py:46-68 after `q` iterations. -/
noncomputable def tensorLoop (la : LinAlg) (irreps : List (AnyRep n)) (atol : ℝ) (vbs : List (TensorBasis n D 1)) :
    (q : ℕ) → Except PyErr (List (TensorBasis n D (q + 1)) × Bool)
  | 0 => .ok (vbs, false)
  | q + 1 => do
    let (tbs, w) ← tensorLoop la irreps atol vbs q
    let (tbs', w') ← tensorStep la irreps atol tbs vbs
    return (tbs', w || w')

open Classical in
/-- One iteration of the loop of tensor.py:72-78. -/
noncomputable def invariantStep (acc : List (Tensor D p)) (t : TensorBasis n D p) : Except PyErr (List (Tensor D p)) :=
  if t.dim > 1 then .ok acc
  else if IsEquivalentIrrep (charList t.irrep) (List.replicate n 1) then
    if h : 0 < t.dim then .ok (acc ++ [t.basis ⟨0, h⟩]) else .error .indexError
  else .ok acc

/-- Lines 71-80 of tensor.py. -/
noncomputable def takeInvariant (tbs : List (TensorBasis n D p)) : Except PyErr (List (Tensor D p)) :=
  tbs.foldlM invariantStep []

/-- Lines 38-80 of tensor.py for given irreps.  `range(rank - 1)` is empty for `rank ≤ 1`, so tensors of rank
`max rank 1` are returned. -/
noncomputable def tensorsFrom (la : LinAlg) (rep : RepArr n D) (irreps : List (AnyRep n)) (rank : ℕ) (atol : ℝ) :
    Except PyErr (List (Tensor D (rank - 1 + 1)) × Bool) := do
  let (vbs, w) ← vectorBasis la rep irreps atol
  let (tbs, w') ← tensorLoop la irreps atol vbs (rank - 1)
  let ts ← takeInvariant tbs
  return (ts, w || w')

/-- `get_symmetry_adapted_tensors` (tensor.py:14-80).  `rep` and `rots` have the same length (otherwise
`project_to_irrep` raises). -/
noncomputable def getSymmetryAdaptedTensors (o : Oracles) (la : LinAlg) (rep : RepArr n D) (rots : Fin n → M3)
    (rank : ℕ) (real : Bool := false) (atol : ℝ := 1e-8) :
    Except PyErr (List (Tensor D (rank - 1 + 1)) × Bool) := do
  let (out, w) ← enumerateUnitaryIrreps o rots none real .neto 1e-5 atol
  let (ts, w') ← tensorsFrom la rep out.irreps rank atol
  return (ts, w || w')

/-! ### apply_intrinsic_symmetry -/

/-- `np.linalg.norm` of a tensor. -/
noncomputable def tensorNorm (t : Tensor D p) : ℝ := Real.sqrt (∑ a, ‖t a‖ ^ 2)

/-- Lines 98-101 of tensor.py: the sum of the normalised tensor over all permutations of its axes.
`np.transpose(c, axes=perm)[i] = c[j]` with `j[perm[k]] = i[k]`. -/
noncomputable def symmetrize (t : Tensor D p) : Tensor D p :=
  fun a => ∑ σ : Equiv.Perm (Fin p), t (fun k => a (σ.symm k)) / (tensorNorm t : ℂ)

/-- `reshape(1, -1)`.  The order of the flattened entries is irrelevant as long as it is always the same. -/
def flattenTensor (t : Tensor D p) : Matrix (Fin 1) (Fin (D ^ p)) ℂ :=
  Matrix.of fun _ x => t (finFunctionFinEquiv.symm x)

/-- `np.concatenate(list_sym_basis, axis=0)`. -/
def stackTensors (ts : List (Tensor D p)) : Matrix (Fin ts.length) (Fin (D ^ p)) ℂ :=
  Matrix.of fun i x => flattenTensor (ts.get i) 0 x

open Classical in
/-- One iteration of the loop of tensor.py:94-116.  The list holds the tensors before the final reshape.
A zero tensor is divided by its norm: numpy produces NaN and goes on; the model stops with `nan` (the second
division by zero needs a negative `atol`). -/
noncomputable def intrinsicStep (la : LinAlg) (atol : ℝ) (basis : List (Tensor D p)) (t : Tensor D p) :
    Except PyErr (List (Tensor D p)) :=
  if tensorNorm t = 0 then .error .nan
  else
    let s := symmetrize t
    if ∀ a, IsCloseC 1e-5 atol (s a) 0 then .ok basis
    else if tensorNorm s = 0 then .error .nan
    else
      let s' : Tensor D p := fun a => s a / (tensorNorm s : ℂ)
      if 0 < basis.length then do
        let dist ← grassmannDistance la (flattenTensor s') (stackTensors basis)
        if dist < 0.5 then .ok basis else .ok (basis ++ [s'])
      else .ok (basis ++ [s'])

/-- `apply_intrinsic_symmetry` (tensor.py:83-121). -/
noncomputable def applyIntrinsicSymmetry (la : LinAlg) (tensors : List (Tensor D p)) (atol : ℝ := 1e-6) :
    Except PyErr (List (Tensor D p)) :=
  tensors.foldlM (intrinsicStep la atol) []

end Spgrep
