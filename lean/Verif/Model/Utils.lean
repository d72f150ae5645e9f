/-
Model of /repo/src/spgrep/utils.py.
-/
import Verif.Model.Common
import Mathlib.Analysis.SpecialFunctions.Pow.Complex
import Mathlib.Analysis.SpecialFunctions.Trigonometric.Inverse
import Mathlib.LinearAlgebra.Matrix.ConjTranspose

namespace Spgrep

/-- `is_integer_array` (utils.py:18-21), over an arbitrary finite index set (array shape). -/
def IsIntegerArray {ι : Type*} (a : ι → ℝ) (rtol : ℝ := 1e-5) (atol : ℝ := 1e-8) : Prop :=
  AllClose rtol atol (fun i => (rint (a i) : ℝ)) a

/-- `ndarray2d_to_integer_tuple` (utils.py:24-28).  Tuples of tuples are modelled by the matrix of
their entries (tuple equality is entrywise equality). -/
noncomputable def toIntegerTuple {m n : ℕ} (a : Matrix (Fin m) (Fin n) ℝ) :
    Matrix (Fin m) (Fin n) ℤ := Matrix.of fun i j => rint (a i j)

/-- `is_prime` (utils.py:49-54) on Python integers: `range(2, n)` is empty for `n ≤ 2`.
`none` in the fold means "no divisor found so far". -/
def isPrime (n : ℤ) : Bool :=
  ((List.range' 2 (n.toNat - 2)).find? fun i : ℕ => decide (n % (i : ℤ) = 0)).isNone

/-- `nroot` (utils.py:57-63).  `z ** (1/n)` is the principal complex power. -/
noncomputable def nroot (z : ℂ) (n : ℕ) : ℂ :=
  let root := z ^ ((1 : ℂ) / n)
  let r := ‖root‖
  let angle := Complex.arg root
  let angle' := angle - rint (angle * n / (2 * Real.pi)) * 2 * Real.pi / n
  r * Complex.exp (Complex.I * angle')

/-- The `ord` argument of `grassmann_distance`: the two supported strings or anything else. -/
inductive GrassmannOrd where
  | min
  | projection
  | other (s : String)

/-- Numerical linear algebra used as an oracle by `grassmann_distance`: the `Q` factor of the reduced
QR decomposition and the singular values.  No property is built in; theorems state the contract. -/
structure LinAlg where
  qr : ∀ {n k : ℕ}, Matrix (Fin n) (Fin k) ℂ → Matrix (Fin n) (Fin (Nat.min n k)) ℂ
  svdvals : ∀ {a b : ℕ}, Matrix (Fin a) (Fin b) ℂ → Fin (Nat.min a b) → ℝ

/-- Lines 107-121 of utils.py: distance from two matrices of orthonormal columns.
`dim1`, `dim2` are `basis1.shape[0]` and `basis2.shape[0]`.  `canonical_correlations[dim - 1]` out of
range is an `IndexError`, also for an empty basis: the array is empty and the index `-1` out of range, too. -/
noncomputable def grassmannCore (la : LinAlg) {n a b : ℕ} (dim1 dim2 : ℕ)
    (q1 : Matrix (Fin n) (Fin a) ℂ) (q2 : Matrix (Fin n) (Fin b) ℂ) (ord : GrassmannOrd) :
    Except PyErr ℝ :=
  let cc := la.svdvals (q1.conjTranspose * q2)
  let dim := min dim1 dim2
  match ord with
  | .min =>
    if h : dim - 1 < Nat.min a b ∧ 0 < dim then
      .ok (Real.sqrt (max (1 - cc ⟨dim - 1, h.1⟩ ^ 2) 0))
    else .error .indexError
  | .projection =>
    .ok (Real.sqrt ((∑ i ∈ Finset.univ.filter (fun i : Fin (Nat.min a b) => (i : ℕ) < dim),
        Real.arccos (min (max (cc i) (-1)) 1) ^ 2) / (min dim (Nat.min a b) : ℕ)))
  | .other _ => .error .valueError

/-- `grassmann_distance` (utils.py:66-121).  Bases are given row-wise, as in Python. -/
noncomputable def grassmannDistance (la : LinAlg) {n k l : ℕ} (basis1 : Matrix (Fin k) (Fin n) ℂ)
    (basis2 : Matrix (Fin l) (Fin n) ℂ) (ord : GrassmannOrd := .min) (skip : Bool := false) :
    Except PyErr ℝ :=
  if skip then grassmannCore la k l basis1.transpose basis2.transpose ord
  else grassmannCore la k l (la.qr basis1.transpose) (la.qr basis2.transpose) ord

/-! ### `mode_dot` on arrays of arbitrary rank -/

/-- A numpy array of arbitrary rank: its shape and its entries addressed by index lists (only index
lists inside the shape are meaningful). -/
structure NDArr (R : Type*) where
  shape : List ℕ
  val : List ℕ → R

namespace NDArr

variable {R : Type*}

/-- Row-major (C order) flat position of an index list. -/
def ravel : List ℕ → List ℕ → ℕ
  | _ :: ss, i :: is => i * ss.prod + ravel ss is
  | _, _ => 0

/-- Index list of a row-major flat position. -/
def unravel : List ℕ → ℕ → List ℕ
  | [], _ => []
  | _ :: ss, k => k / ss.prod :: unravel ss (k % ss.prod)

/-- `np.reshape` (row-major; sizes must agree). -/
def reshape (a : NDArr R) (shape : List ℕ) : Except PyErr (NDArr R) :=
  if a.shape.prod = shape.prod then
    .ok { shape := shape, val := fun idx => a.val (unravel a.shape (ravel shape idx)) }
  else .error .valueError

/-- Exchange positions `a` and `b` of a list. -/
def swapList (l : List ℕ) (a b : ℕ) : List ℕ :=
  (List.range l.length).map fun k => l.getD (if k = a then b else if k = b then a else k) 0

/-- `np.swapaxes` (axis out of range is an error). -/
def swapaxes (x : NDArr R) (a b : ℕ) : Except PyErr (NDArr R) :=
  if a < x.shape.length ∧ b < x.shape.length then
    .ok { shape := swapList x.shape a b, val := fun idx => x.val (swapList idx a b) }
  else .error .indexError

/-- Clamp an index list to a shape with broadcast axes. -/
def clampIdx (shape idx : List ℕ) : List ℕ := List.zipWith (fun s i => if s = 1 then 0 else i) shape idx

/-- `a * b` with numpy broadcasting, for two arrays of the same rank. -/
def mulBroadcast [Mul R] (a b : NDArr R) : Except PyErr (NDArr R) :=
  if a.shape.length = b.shape.length ∧
      ((a.shape.zip b.shape).all fun p => p.1 == p.2 || p.1 == 1 || p.2 == 1) then
    .ok { shape := List.zipWith (fun x y => if x = 1 then y else x) a.shape b.shape,
          val := fun idx => a.val (clampIdx a.shape idx) * b.val (clampIdx b.shape idx) }
  else .error .valueError

/-- `np.sum(..., axis=axis, keepdims=True)`. -/
def sumAxis [AddCommMonoid R] (a : NDArr R) (axis : ℕ) : Except PyErr (NDArr R) :=
  if axis < a.shape.length then
    .ok { shape := a.shape.set axis 1,
          val := fun idx => ∑ j ∈ Finset.range (a.shape.getD axis 0), a.val (idx.set axis j) }
  else .error .indexError

/-- `a[0]`. -/
def first (a : NDArr R) : NDArr R := { shape := a.shape.tail, val := fun idx => a.val (0 :: idx) }

end NDArr

open NDArr in
/-- The inner function `_mode_dot` of `mode_dot` (utils.py:140-163), step by step. -/
def modeDotStep {R : Type*} [CommSemiring R] (tensor mat : NDArr R) (axis : ℕ) :
    Except PyErr (NDArr R) := do
  let tensorReshaped ← tensor.reshape (1 :: tensor.shape)
  let m ← mat.reshape (mat.shape ++ List.replicate (tensor.shape.length - 1) 1)
  let m ← m.swapaxes 0 1
  let matReshaped ← m.swapaxes 1 (axis + 1)
  let prod ← mulBroadcast tensorReshaped matReshaped
  let sum ← prod.sumAxis (axis + 1)
  let ret ← sum.swapaxes 0 (axis + 1)
  return ret.first

/-- `mode_dot` (utils.py:124-168). -/
def modeDot {R : Type*} [CommSemiring R] (coeffs : NDArr R) (mats : List (NDArr R)) :
    Except PyErr (NDArr R) :=
  (List.range mats.length).foldlM (fun ret axis =>
    match mats[axis]? with
    | some m => modeDotStep ret m axis
    | none => .error .indexError) coeffs

end Spgrep
