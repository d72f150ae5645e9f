/-
Model of /repo/src/spgrep/transform.py.
-/
import Verif.Model.Group
import Mathlib.LinearAlgebra.Matrix.NonsingularInverse

namespace Spgrep

variable {n : ℕ}

/-- Real 3x3 matrices (numpy arrays of shape `(3, 3)`, dtype float, taken exact). -/
abbrev R3 := Matrix (Fin 3) (Fin 3) ℝ

open Classical in
/-- `np.linalg.inv` on a 3x3 matrix.  `LinAlgError` is a subclass of `ValueError`.  Simplification: numpy
detects a singular matrix by an exactly zero pivot, here by an exactly zero determinant. -/
noncomputable def linInv (A : R3) : Except PyErr R3 :=
  if A.det = 0 then .error .valueError else .ok A⁻¹

/-- An integer matrix used where floats are expected. -/
def realMat (R : M3) : R3 := R.map fun x => (x : ℝ)

/-- `matrix @ vector`. -/
def matVec (A : R3) (v : V3) : V3 := fun a => ∑ b, A a b * v b

/-- `vector @ matrix`. -/
def vecMat (v : V3) (A : R3) : V3 := fun a => ∑ b, v b * A b a

/-- `transform_symmetry_and_kpoint` (transform.py:13-52). -/
noncomputable def transformSymmetryAndKpoint (P : R3) (rots : Fin n → M3) (trans : Fin n → V3) (k : V3) :
    Except PyErr ((Fin n → M3) × (Fin n → V3) × V3) := do
  let pinv ← linInv P
  return (fun i => (pinv * realMat (rots i) * P).map rint, fun i => matVec pinv (trans i), matVec P.transpose k)

/-- Local variables of the loop in `unique_primitive_symmetry` (transform.py:72-76). -/
structure UniqueState (n : ℕ) where
  ints : List M3
  rots : List M3
  trans : List V3
  mapping : Fin n → ℤ

/-- Body of the loop (transform.py:77-88).  The rotations are integer arrays, so that
`ndarray2d_to_integer_tuple` only changes the type; `np.remainder(x, 1)` is the fractional part. -/
noncomputable def uniqueStep (rots : Fin n → M3) (trans : Fin n → V3) (s : UniqueState n) (i : Fin n) :
    UniqueState n :=
  match s.ints.idxOf? (rots i) with
  | some j => { s with mapping := Function.update s.mapping i j }
  | none =>
    { ints := s.ints ++ [rots i]
      rots := s.rots ++ [rots i]
      trans := s.trans ++ [fun a => Int.fract (trans i a)]
      mapping := Function.update s.mapping i (i : ℕ) }

/-- `unique_primitive_symmetry` (transform.py:55-90). -/
noncomputable def uniquePrimitiveSymmetry (rots : Fin n → M3) (trans : Fin n → V3) :
    List M3 × List V3 × (Fin n → ℤ) :=
  let s := (List.finRange n).foldl (uniqueStep rots trans) ⟨[], [], [], fun _ => -1⟩
  (s.rots, s.trans, s.mapping)

/-- The values returned by `get_crystal_system` (transform.py:168-170). -/
inductive CrystalSystem where
  | triclinic | monoclinic | orthorhombic | tetragonal | trigonal | hexagonal | cubic
  deriving DecidableEq, Repr

/-- `crystal_system_range` (transform.py:172-180), in the order of the dictionary. -/
def crystalSystemRange : List (CrystalSystem × ℤ × ℤ) :=
  [(.triclinic, 1, 2), (.monoclinic, 3, 107), (.orthorhombic, 108, 348), (.tetragonal, 349, 429),
    (.trigonal, 430, 461), (.hexagonal, 462, 488), (.cubic, 489, 530)]

/-- `get_crystal_system` (transform.py:166-186). -/
def getCrystalSystem (hall : ℤ) : Except PyErr CrystalSystem :=
  match crystalSystemRange.find? fun c => decide (c.2.1 ≤ hall ∧ hall ≤ c.2.2) with
  | some c => .ok c.1
  | none => .error .valueError

/-- `get_centering` (transform.py:189-195); a Hall symbol that is too short is an `IndexError`. -/
def getCentering (symbol : List Char) : Except PyErr Char :=
  match symbol with
  | [] => .error .indexError
  | '-' :: [] => .error .indexError
  | '-' :: c :: _ => .ok c
  | c :: _ => .ok c

/-- The two entries of `spglib.get_spacegroup_type` that are used (transform.py:101-118), as lists of
characters. -/
structure SpacegroupType where
  choice : List Char
  hallSymbol : List Char

/-- `get_primitive_transformation_matrix` (transform.py:93-163); `spglib.get_spacegroup_type` is the
parameter `hallType`. -/
noncomputable def getPrimitiveTransformationMatrix (hallType : ℤ → SpacegroupType) (hall : ℤ) :
    Except PyErr R3 := do
  let system ← getCrystalSystem hall
  let t := hallType hall
  if system = .trigonal then
    if t.choice = ['H'] then return !![2 / 3, -1 / 3, -1 / 3; 1 / 3, 1 / 3, -2 / 3; 1 / 3, 1 / 3, 1 / 3]
    else if t.choice = [] ∨ t.choice = ['R'] then return 1
    else throw .valueError
  else
    let c ← getCentering t.hallSymbol
    if c = 'P' then return 1
    else if c = 'A' then return !![1, 0, 0; 0, 1 / 2, -1 / 2; 0, 1 / 2, 1 / 2]
    else if c = 'B' then return !![1 / 2, 0, -1 / 2; 0, 1, 0; 1 / 2, 0, 1 / 2]
    else if c = 'C' then return !![1 / 2, 1 / 2, 0; -1 / 2, 1 / 2, 0; 0, 0, 1]
    else if c = 'I' then return !![-1 / 2, 1 / 2, 1 / 2; 1 / 2, -1 / 2, 1 / 2; 1 / 2, 1 / 2, -1 / 2]
    else if c = 'F' then return !![0, 1 / 2, 1 / 2; 1 / 2, 0, 1 / 2; 1 / 2, 1 / 2, 0]
    else throw .valueError

end Spgrep
