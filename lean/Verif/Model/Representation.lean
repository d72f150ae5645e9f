/-
Model of /repo/src/spgrep/representation.py.
-/
import Verif.Model.Group
import Verif.Model.Utils
import Mathlib.LinearAlgebra.Matrix.Determinant.Basic
import Mathlib.Analysis.SpecialFunctions.Pow.Complex
import Mathlib.LinearAlgebra.Matrix.Trace
import Mathlib.Data.Matrix.Reflection

namespace Spgrep

variable {n : ℕ}

/-- Representation matrices, an array of shape `(order, dim, dim)`. -/
abbrev RepArr (n d : ℕ) := Fin n → Matrix (Fin d) (Fin d) ℂ

/-- `get_regular_representation` (representation.py:20-40).  The loop writes each position
`(k, table[k,j], j)` once into a zero array, so the result is given entrywise. -/
def getRegularRepresentation (rots : Fin n → M3) :
    Except PyErr (Fin n → Matrix (Fin n) (Fin n) ℤ) := do
  let T ← getCayleyTable rots
  return fun k => Matrix.of fun i j => if i = T k j then 1 else 0

/-- `get_projective_regular_representation` (representation.py:43-66), entrywise as above. -/
def getProjectiveRegularRepresentation (rots : Fin n → M3) (μ : Fin n → Fin n → ℂ) :
    Except PyErr (RepArr n n) := do
  let T ← getCayleyTable rots
  return fun k => Matrix.of fun i j => if i = T k j then μ k j else 0

/-- The einsum `"kil,lm,kjm->ij"` of `get_intertwiner` (representation.py:102). -/
noncomputable def intertwinerSum {d : ℕ} (rep1 rep2 : RepArr n d) (random : Matrix (Fin d) (Fin d) ℂ) :
    Matrix (Fin d) (Fin d) ℂ :=
  Matrix.of fun i j => ∑ k, ∑ l, ∑ m, rep1 k i l * random l m * star (rep2 k j m)

open Classical in
/-- The loop of `get_intertwiner` (representation.py:99-109) over the remaining random matrices.
The second component is the warning. -/
noncomputable def intertwinerLoop {d : ℕ} (rep1 rep2 : RepArr n d) (atol : ℝ) :
    List (Matrix (Fin d) (Fin d) ℂ) → Matrix (Fin d) (Fin d) ℂ × Bool
  | [] => (0, true)
  | random :: rest =>
    let matrix := intertwinerSum rep1 rep2 random
    if ¬ ∀ i j, IsCloseC 1e-5 atol (matrix i j) 0 then
      ((matrix.det ^ ((1 : ℂ) / d))⁻¹ • matrix, false)
    else intertwinerLoop rep1 rep2 atol rest

/-- `get_intertwiner` (representation.py:69-109).  `random t` is the `t`-th matrix drawn from the
generator: an arbitrary sequence.  The shape assertion holds by typing. -/
noncomputable def getIntertwiner {d : ℕ} (random : ℕ → Matrix (Fin d) (Fin d) ℂ) (rep1 rep2 : RepArr n d)
    (atol : ℝ := 1e-8) (maxGen : ℕ := 4) : Matrix (Fin d) (Fin d) ℂ × Bool :=
  intertwinerLoop rep1 rep2 atol ((List.range maxGen).map random)

/-- `get_character` (representation.py:112-124). -/
def getCharacter {d : ℕ} (rep : RepArr n d) : Fin n → ℂ := fun i => ∑ j, rep i j j

/-- `np.around` on complex numbers rounds both parts. -/
noncomputable def rintC (z : ℂ) : ℂ := ⟨rint z.re, rint z.im⟩

/-- `num_basis` of `project_to_irrep` (representation.py:156-163). -/
noncomputable def numBasis {d D : ℕ} (rep : RepArr n D) (irrep : RepArr n d) : ℤ :=
  let s := ∑ k, star (getCharacter irrep k) * getCharacter rep k
  rint (rintC s / n).re

/-- `basis_nj` (representation.py:172-183) before normalisation: row `i` is
`dim_irrep/order * Σ_k conj(irrep[k,i,j]) rep[k,:,n]`. -/
noncomputable def projBlock {d D : ℕ} (rep : RepArr n D) (irrep : RepArr n d) (c : Fin D) (j : Fin d) :
    Matrix (Fin d) (Fin D) ℂ :=
  Matrix.of fun i m => (d : ℂ) / n * ∑ k, star (irrep k i j) * rep k m c

/-- Row normalisation `basis_nj /= norm(basis_nj, axis=1)[:, None]` (representation.py:189). -/
noncomputable def normalizeRows {d D : ℕ} (b : Matrix (Fin d) (Fin D) ℂ) : Matrix (Fin d) (Fin D) ℂ :=
  Matrix.of fun i m => b i m / (Real.sqrt (∑ m', ‖b i m'‖ ^ 2) : ℝ)

/-- `np.concatenate(np.array(basis), axis=0)`: stack the blocks (row-major). -/
def stackBlocks {d D : ℕ} (bs : List (Matrix (Fin d) (Fin D) ℂ)) :
    Matrix (Fin (bs.length * d)) (Fin D) ℂ :=
  Matrix.of fun i m => bs.get (finProdFinEquiv.symm i).1 (finProdFinEquiv.symm i).2 m

open Classical in
/-- One iteration of the double loop of `_project_to_irrep` (representation.py:172-200). -/
noncomputable def projStep (la : LinAlg) {d D : ℕ} (rep : RepArr n D) (irrep : RepArr n d) (atol : ℝ)
    (basis : List (Matrix (Fin d) (Fin D) ℂ)) (p : Fin D × Fin d) :
    Except PyErr (List (Matrix (Fin d) (Fin D) ℂ)) :=
  let b := projBlock rep irrep p.1 p.2
  if ∀ i m, IsCloseC 1e-5 atol (b i m) 0 then .ok basis
  else
    let b' := normalizeRows b
    if 0 < basis.length then do
      let dist ← grassmannDistance la b' (stackBlocks basis)
      if dist < 0.5 then .ok basis else .ok (basis ++ [b'])
    else .ok (basis ++ [b'])

/-- `_project_to_irrep` (representation.py:167-202): `n` outer, `j` inner.  `count` is the length. -/
noncomputable def projInner (la : LinAlg) {d D : ℕ} (rep : RepArr n D) (irrep : RepArr n d) (atol : ℝ) :
    Except PyErr (List (Matrix (Fin d) (Fin D) ℂ)) :=
  ((List.finRange D).flatMap fun c => (List.finRange d).map fun j => (c, j)).foldlM
    (projStep la rep irrep atol) []

/-- The retry loop (representation.py:208-219), for an arbitrary inner projection that returns a value
and its count.  `last` is the value of `(basis, count)` from the previous iteration (`none`: unbound).
The result also carries the list of tolerances tried. -/
noncomputable def retryLoop {α : Type*} (inner : ℝ → Except PyErr (α × ℕ)) (num : ℤ) :
    ℕ → ℝ → Option (α × ℕ) → Except PyErr (Option (α × ℕ) × List ℝ)
  | 0, _, last => .ok (last, [])
  | trials + 1, atol, _ => do
    let (basis, count) ← inner atol
    if (count : ℤ) = num then .ok (some (basis, count), [atol])
    else
      let atol' := if (count : ℤ) < num then Real.sqrt (1e-10 * atol) else Real.sqrt (1e-2 * atol)
      let (r, ts) ← retryLoop inner num trials atol' (some (basis, count))
      return (r, atol :: ts)

/-- Lines 205-232 of representation.py, for an arbitrary inner projection: clip, search, final
warning.  Using `count` unbound (`max_num_trials = 0`) is an `UnboundLocalError`. -/
noncomputable def searchTolerance {α : Type*} (inner : ℝ → Except PyErr (α × ℕ)) (num : ℤ) (atol : ℝ)
    (maxTrials : ℕ) : Except PyErr (α × Bool × List ℝ) := do
  let a0 := min (max atol 1e-10) 1e-2
  match ← retryLoop inner num maxTrials a0 none with
  | (none, _) => .error .unboundLocalError
  | (some (basis, count), ts) => .ok (basis, decide ((count : ℤ) ≠ num), ts)

/-- `project_to_irrep` (representation.py:127-232): the returned bases and whether the last warning
was given.  Intermediate warnings (lines 160-161, 215, 219) are not recorded. -/
noncomputable def projectToIrrep (la : LinAlg) {d D : ℕ} (rep : RepArr n D) (irrep : RepArr n d)
    (atol : ℝ := 1e-6) (maxTrials : ℕ := 10) :
    Except PyErr (List (Matrix (Fin d) (Fin D) ℂ) × Bool) :=
  let num := numBasis rep irrep
  if num = 0 then .ok ([], false)
  else do
    let (basis, warned, _) ← searchTolerance
      (fun a => do let b ← projInner la rep irrep a; return (b, b.length)) num atol maxTrials
    return (basis, warned)

/-- `is_unitary` (representation.py:235-241). -/
def IsUnitaryTest {d : ℕ} (rep : RepArr n d) : Prop :=
  ∀ k i j, IsCloseC 1e-5 1e-8 ((rep k * (rep k).conjTranspose) i j) ((1 : Matrix (Fin d) (Fin d) ℂ) i j)

/-- `is_representation` (representation.py:244-263). -/
def IsRepresentationTest {d : ℕ} (rep : RepArr n d) (T : Fin n → Fin n → Fin n)
    (μ : Option (Fin n → Fin n → ℂ)) (rtol atol : ℝ) : Prop :=
  ∀ i j a b, IsCloseC rtol atol ((rep i * rep j) a b)
    (rep (T i j) a b * (μ.getD fun _ _ => 1) i j)

/-- `frobenius_schur_indicator` (representation.py:266-291). -/
noncomputable def frobeniusSchur {d : ℕ} (irrep : RepArr n d) : Except PyErr ℤ :=
  let s := (∑ k, ∑ i, ∑ j, irrep k i j * irrep k j i) / (n : ℂ)
  let indicator := rint s.re
  if indicator > 1 then .error .valueError else .ok indicator

open Classical in
/-- The body of the loop of `check_spacegroup_representation` (representation.py:311-323) for one pair of operations.
`.index` raises `ValueError` when the product is missing. -/
noncomputable def spacegroupPair {d : ℕ} (rots : Fin n → M3) (trans : Fin n → V3) (k : V3) (rep : RepArr n d)
    (z : Option (Fin n → Fin n → ℂ)) (rtol : ℝ) (p : Fin n × Fin n) : Except PyErr Bool :=
  match indexOf? rots (rots p.1 * rots p.2) with
  | none => .error .valueError
  | some l => .ok (decide (∀ a b, IsCloseC rtol 1e-8
      ((z.getD fun _ _ => 1) p.1 p.2 *
        expPhase (dot3 k fun x => rotVec (rots p.1) (trans p.2) x + trans p.1 x - trans l x) * rep l a b)
      ((rep p.1 * rep p.2) a b)))

/-- A loop that returns `False` at the first failing test (representation.py:310-325). -/
def allLoop {α : Type*} (test : α → Except PyErr Bool) : List α → Except PyErr Bool
  | [] => .ok true
  | p :: ps => do
    if ← test p then allLoop test ps else return false

/-- `check_spacegroup_representation` (representation.py:294-325).  Rotations are integer arrays. -/
noncomputable def checkSpacegroupRep {d : ℕ} (rots : Fin n → M3) (trans : Fin n → V3) (k : V3)
    (rep : RepArr n d) (z : Option (Fin n → Fin n → ℂ)) (rtol : ℝ := 1e-5) : Except PyErr Bool :=
  allLoop (spacegroupPair rots trans k rep z rtol)
    ((List.finRange n).flatMap fun i => (List.finRange n).map fun j => (i, j))

/-- `get_direct_product` (representation.py:328-352).  Array shapes `(n1,a,b)` and `(n2,c,e)` are
arbitrary; `reshape` is row-major. -/
def getDirectProduct {n1 n2 a b c e : ℕ} (rep1 : Fin n1 → Matrix (Fin a) (Fin b) ℂ)
    (rep2 : Fin n2 → Matrix (Fin c) (Fin e) ℂ) : Except PyErr (RepArr n1 (a * c)) :=
  if h : b = a ∧ n2 = n1 ∧ e = c then
    .ok fun k => Matrix.of fun x y =>
      rep1 k (finProdFinEquiv.symm x).1 (Fin.cast h.1.symm (finProdFinEquiv.symm y).1) *
      rep2 (Fin.cast h.2.1.symm k) (finProdFinEquiv.symm x).2
        (Fin.cast h.2.2.symm (finProdFinEquiv.symm y).2)
  else .error .valueError

end Spgrep
