/-
Model of /repo/src/spgrep/irreps.py.
-/
import Verif.Model.Representation
import Mathlib.LinearAlgebra.Matrix.Diagonal
import Mathlib.Data.List.Sort

namespace Spgrep

variable {n : ℕ}

/-- An irrep of unknown dimension: an array of shape `(order, dim, dim)`. -/
abbrev AnyRep (n : ℕ) := Σ d : ℕ, RepArr n d

/-- `is_equivalent_irrep` (irreps.py:627-633) on two one-dimensional arrays. -/
def IsEquivalentIrrep (c1 c2 : List ℂ) : Prop :=
  rintC (List.zipWith (fun a b => star a * b) c1 c2).sum = (c1.length : ℂ)

/-- A character (array of shape `(order,)`) as a list. -/
def charList {d : ℕ} (rep : RepArr n d) : List ℂ := List.ofFn (getCharacter rep)

/-- The phase factors of `enumerate_small_representations` (irreps.py:86-95): multiply the matrix of
operation `i` by `exp(-2πi k·w_i)`. -/
noncomputable def phaseMul {d : ℕ} (trans : Fin n → V3) (k : V3) (rep : RepArr n d) : RepArr n d :=
  fun i => expPhase (dot3 k (trans i)) • rep i

/-! ### Pairing of conjugate irreps -/

open Classical in
/-- The pairing loop (irreps.py:209-226, and identically 103-120).  `eqv i j` is the test
`is_equivalent_irrep(np.conj(characters[i]), characters[j])`; `visited` is the list of indices already
visited.  One iteration of the outer loop. -/
noncomputable def pairStep {m : ℕ} (eqv : Fin m → Fin m → Prop)
    (st : List (Fin m) × List (Fin m × Fin m)) (i : Fin m) : List (Fin m) × List (Fin m × Fin m) :=
  if i ∈ st.1 then st
  else
    let visited := i :: st.1
    match (List.finRange m).find? fun j => decide (j ∉ visited ∧ eqv i j) with
    | some j => (j :: visited, st.2 ++ [(i, j)])
    | none => (visited, st.2 ++ [(i, i)])

/-- `conjugated_pairs` (irreps.py:209-226, 103-120). -/
noncomputable def conjugatedPairs {m : ℕ} (eqv : Fin m → Fin m → Prop) : List (Fin m × Fin m) :=
  ((List.finRange m).foldl (pairStep eqv) ([], [])).2

/-- The pairs computed for a list of irreps. -/
noncomputable def pairsOf (irreps : List (AnyRep n)) : List (Fin irreps.length × Fin irreps.length) :=
  conjugatedPairs fun i j =>
    IsEquivalentIrrep ((charList (irreps.get i).2).map star) (charList (irreps.get j).2)

/-! ### Physically irreducible representations -/

/-- Output of `np.linalg.eig`: eigenvalues and the matrix whose columns are eigenvectors. -/
abbrev EigOracle := ∀ d : ℕ, Matrix (Fin d) (Fin d) ℂ → (Fin d → ℂ) × Matrix (Fin d) (Fin d) ℂ

open Classical in
/-- Lines 602-607 of irreps.py for one eigenvector: real part unless it is (almost) zero, else
imaginary part; normalised. -/
noncomputable def realEigvec {d : ℕ} (atol : ℝ) (v : Fin d → ℂ) : Fin d → ℝ :=
  let w : Fin d → ℝ :=
    if ¬ ∀ i, IsClose 1e-5 atol (v i).re 0 then fun i => (v i).re else fun i => (v i).im
  fun i => w i / Real.sqrt (∑ j, w j ^ 2)

/-- `S = np.transpose(real_eigvecs)` (irreps.py:600-608): columns are the real eigenvectors. -/
noncomputable def realEigMatrix {d : ℕ} (atol : ℝ) (V : Matrix (Fin d) (Fin d) ℂ) :
    Matrix (Fin d) (Fin d) ℝ :=
  Matrix.of fun i c => realEigvec atol (fun r => V r c) i

/-- `T = S.T @ diag(nroot(eigval, 2)) @ S` (irreps.py:611). -/
noncomputable def sqrtIntertwiner {d : ℕ} (S : Matrix (Fin d) (Fin d) ℝ) (w : Fin d → ℂ) :
    Matrix (Fin d) (Fin d) ℂ :=
  (S.map Complex.ofReal).transpose * Matrix.diagonal (fun i => nroot (w i) 2) * S.map Complex.ofReal

/-- Branch `indicator == 1` of `get_physically_irrep` (irreps.py:590-613) for a given intertwiner. -/
noncomputable def physRealFrom {d : ℕ} (eig : EigOracle) (atol : ℝ) (U : Matrix (Fin d) (Fin d) ℂ)
    (irrep : RepArr n d) : Fin n → Matrix (Fin d) (Fin d) ℝ :=
  let (w, V) := eig d U
  let T := sqrtIntertwiner (realEigMatrix atol V) w
  fun k => (T * irrep k * T.map star).map Complex.re

/-- Branch `indicator in [-1, 0]` (irreps.py:615-622): `[[Re, Im], [-Im, Re]]`. -/
def physDouble {d : ℕ} (irrep : RepArr n d) : Fin n → Matrix (Fin d ⊕ Fin d) (Fin d ⊕ Fin d) ℝ :=
  fun k => Matrix.fromBlocks ((irrep k).map Complex.re) ((irrep k).map Complex.im)
    (-(irrep k).map Complex.im) ((irrep k).map Complex.re)

/-- `get_physically_irrep` (irreps.py:562-624).  The `2*dim` rows of the doubled case are reindexed
from `Fin d ⊕ Fin d` in order.  Any other indicator leaves `real_irrep` unbound.  The warning that
`get_intertwiner` may give inside (its matrix is used all the same) is not recorded here, so it is not part of the
warning flag of the functions with `real = true`. -/
noncomputable def getPhysicallyIrrep {d : ℕ} (eig : EigOracle) (random : ℕ → Matrix (Fin d) (Fin d) ℂ)
    (irrep : RepArr n d) (indicator : ℤ) (atol : ℝ := 1e-5) (maxGen : ℕ := 4) :
    Except PyErr (Σ d', Fin n → Matrix (Fin d') (Fin d') ℝ) :=
  if indicator = 1 then
    let U := (getIntertwiner random irrep (fun k => (irrep k).map star) atol maxGen).1
    .ok ⟨d, physRealFrom eig atol U irrep⟩
  else if indicator = -1 ∨ indicator = 0 then
    .ok ⟨d + d, fun k => (physDouble irrep k).reindex finSumFinEquiv finSumFinEquiv⟩
  else .error .unboundLocalError

/-! ### Purification -/

/-- `possible_values` of `purify_irrep_value` (irreps.py:639-649), in order. -/
noncomputable def purifyValues : List ℂ :=
  [0, 1, Complex.exp (Complex.I * Real.pi / 3), Complex.I, Complex.exp (Complex.I * Real.pi * 2 / 3),
    -1, Complex.exp (Complex.I * Real.pi * 4 / 3), -Complex.I, Complex.exp (Complex.I * Real.pi * 5 / 3)]

open Classical in
/-- `purify_irrep_value` (irreps.py:636-652) on one entry: the values are tried in order and the
entry is overwritten each time it is closer than `atol`. -/
noncomputable def purifyEntry (atol : ℝ) (z : ℂ) : ℂ :=
  purifyValues.foldl (fun z v => if ‖z - v‖ < atol then v else z) z

/-- `purify_irrep_value` on an array. -/
noncomputable def purifyIrrepValue {d : ℕ} (irrep : RepArr n d) (atol : ℝ := 1e-8) : RepArr n d :=
  fun k => (irrep k).map (purifyEntry atol)

/-- `values` of `purify_real_irrep_value` (irreps.py:657-665). -/
noncomputable def purifyRealValues : List ℝ :=
  [0, 1, 1 / 2, Real.sqrt 3 / 2, -1 / 2, -Real.sqrt 3 / 2, -1]

open Classical in
/-- `purify_real_irrep_value` (irreps.py:655-668) on one entry. -/
noncomputable def purifyRealEntry (atol : ℝ) (x : ℝ) : ℝ :=
  purifyRealValues.foldl (fun x v => if |x - v| < atol then v else x) x

/-- `purify_real_irrep_value` on an array. -/
noncomputable def purifyRealIrrepValue {d : ℕ} (irrep : Fin n → Matrix (Fin d) (Fin d) ℝ)
    (atol : ℝ := 1e-8) : Fin n → Matrix (Fin d) (Fin d) ℝ :=
  fun k => (irrep k).map (purifyRealEntry atol)

/-! ### Random-matrix enumeration -/

/-- Output of `np.linalg.eigh`: eigenvalues and the matrix whose columns are eigenvectors. -/
abbrev EighOracle := ∀ d : ℕ, Matrix (Fin d) (Fin d) ℂ → (Fin d → ℝ) × Matrix (Fin d) (Fin d) ℂ

/-- The `Q` factor of `np.linalg.qr`. -/
abbrev QROracle := ∀ n k : ℕ, Matrix (Fin n) (Fin k) ℂ → Matrix (Fin n) (Fin (Nat.min n k)) ℂ

open Classical in
/-- Insert one eigenpair index into the list of eigenspaces (irreps.py:360-368): append to the first
eigenspace whose representative eigenvalue is close, else open a new one.  An eigenspace is
`(eigval, indices of its eigenvectors)`. -/
noncomputable def insertEig {D : ℕ} (rtol : ℝ) (w : Fin D → ℝ) :
    List (ℝ × List (Fin D)) → Fin D → List (ℝ × List (Fin D))
  | [], i => [(w i, [i])]
  | (v, l) :: rest, i =>
    if IsClose rtol 1e-8 (w i) v then (v, l ++ [i]) :: rest else (v, l) :: insertEig rtol w rest i

/-- Grouping of eigenvectors by eigenvalue (irreps.py:358-368). -/
noncomputable def groupEig {D : ℕ} (rtol : ℝ) (w : Fin D → ℝ) : List (ℝ × List (Fin D)) :=
  (List.finRange D).foldl (insertEig rtol w) []

/-- The einsum `"li,klm,mj->kij"` (irreps.py:396-398): restriction to the columns of `Q`. -/
noncomputable def restrictTo {D e : ℕ} (reg : RepArr n D) (Q : Matrix (Fin D) (Fin e) ℂ) : RepArr n e :=
  fun k => Q.conjTranspose * reg k * Q

open Classical in
/-- One iteration of the loop over eigenspaces (irreps.py:373-400).  The einsum
`"li,klm,mi->k"` computing the character is the character of the restriction. -/
noncomputable def irrepStep {D : ℕ} (qr : QROracle) (reg : RepArr n D) (V : Matrix (Fin D) (Fin D) ℂ)
    (rtol : ℝ) (irreps : List (AnyRep n)) (sp : ℝ × List (Fin D)) : List (AnyRep n) :=
  let A : Matrix (Fin D) (Fin sp.2.length) ℂ := Matrix.of fun r c => V r (sp.2.get c)
  let irrep := restrictTo reg (qr _ _ A)
  let character := getCharacter irrep
  if ¬ IsEquivalentIrrep (List.ofFn character) (List.ofFn character) then irreps
  else if irreps.any fun r =>
      decide (IsCloseC rtol 1e-8 (rintC (∑ k, star (character k) * getCharacter r.2 k)) n) then irreps
  else irreps ++ [⟨_, irrep⟩]

open Classical in
/-- Sort key comparison `(dim, -sum(character))` (irreps.py:403); numpy orders complex numbers
lexicographically. -/
noncomputable def irrepLe (a b : AnyRep n) : Bool :=
  let ca := -∑ k, getCharacter a.2 k
  let cb := -∑ k, getCharacter b.2 k
  decide (a.1 < b.1 ∨ a.1 = b.1 ∧ (ca.re < cb.re ∨ ca.re = cb.re ∧ ca.im ≤ cb.im))

/-- `_get_irreps_from_matrix` (irreps.py:352-405).  Python's stable `sorted` is `List.mergeSort`. -/
noncomputable def getIrrepsFromMatrix {D : ℕ} (eigh : EighOracle) (qr : QROracle) (reg : RepArr n D)
    (matrix : Matrix (Fin D) (Fin D) ℂ) (rtol : ℝ := 1e-5) : List (AnyRep n) :=
  let (w, V) := eigh D matrix
  ((groupEig rtol w).foldl (irrepStep qr reg V rtol) []).mergeSort irrepLe

/-- `hermite_random += np.conj(hermite_random.T)` (irreps.py:277-278, 330-331). -/
noncomputable def hermitize {D : ℕ} (X : Matrix (Fin D) (Fin D) ℂ) : Matrix (Fin D) (Fin D) ℂ :=
  X + X.conjTranspose

open Classical in
/-- `lookup[m, i]` (irreps.py:267-273): the only position of a non-zero entry of `reg[m, i, :]`.
`none` (no such entry, or several: assigning an array of length other than one to an element) is a
`ValueError`. -/
noncomputable def lookupNonzero (reg : RepArr n n) (m i : Fin n) : Option (Fin n) :=
  match (List.finRange n).filter fun j => decide (reg m i j ≠ 0) with
  | [j] => some j
  | _ => none

/-- The matrix of irreps.py:280-293.  `np.meshgrid` with its default `indexing="xy"` gives
`meshi[a,b] = b`, `meshj[a,b] = a`, so the entry is `H[lookup[m,j], lookup[m,i]]` (the comment in the
source says the transpose). -/
noncomputable def commutingMatrix (reg : RepArr n n) (lookup : Fin n → Fin n → Fin n)
    (H : Matrix (Fin n) (Fin n) ℂ) : Matrix (Fin n) (Fin n) ℂ :=
  Matrix.of fun i j => ∑ m, reg m i (lookup m i) * H (lookup m j) (lookup m i) *
    star (reg m j (lookup m j))

open Classical in
/-- The retry loop shared by irreps.py:276-302 and 328-349: first attempt whose dimensions pass
`accept`; `[]` and a warning otherwise. -/
noncomputable def retryRandom (attempt : ℕ → List (AnyRep n)) (accept : List (AnyRep n) → Prop) :
    List ℕ → List (AnyRep n) × Bool
  | [] => ([], true)
  | t :: rest =>
    if accept (attempt t) then (attempt t, false) else retryRandom attempt accept rest

open Classical in
/-- `enumerate_unitary_irreps_from_regular_representation` (irreps.py:243-302). -/
noncomputable def enumerateFromRegular (eigh : EighOracle) (qr : QROracle)
    (random : ℕ → Matrix (Fin n) (Fin n) ℂ) (reg : RepArr n n) (rtol : ℝ := 1e-5) (maxGen : ℕ := 4) :
    Except PyErr (List (AnyRep n) × Bool) :=
  if h : ∀ m i, (lookupNonzero reg m i).isSome then
    .ok (retryRandom
      (fun t => getIrrepsFromMatrix eigh qr reg
        (commutingMatrix reg (fun m i => (lookupNonzero reg m i).get (h m i)) (hermitize (random t))) rtol)
      (fun irreps => (irreps.map fun r => r.1 ^ 2).sum = n) (List.range maxGen))
  else .error .valueError

/-- The einsum `"mik,kl,mjl->ij"` of `decompose_representation` (irreps.py:334-340). -/
noncomputable def decomposeMatrix {D : ℕ} (rep : RepArr n D) (H : Matrix (Fin D) (Fin D) ℂ) :
    Matrix (Fin D) (Fin D) ℂ :=
  Matrix.of fun i j => ∑ m, ∑ k, ∑ l, rep m i k * H k l * star (rep m j l)

/-- `decompose_representation` (irreps.py:305-349). -/
noncomputable def decomposeRepresentation {D : ℕ} (eigh : EighOracle) (qr : QROracle)
    (random : ℕ → Matrix (Fin D) (Fin D) ℂ) (rep : RepArr n D) (rtol : ℝ := 1e-5) (maxGen : ℕ := 4) :
    List (AnyRep n) × Bool :=
  retryRandom (fun t => getIrrepsFromMatrix eigh qr rep (decomposeMatrix rep (hermitize (random t))) rtol)
    (fun irreps => (irreps.map fun r => r.1).sum = D) (List.range maxGen)

/-! ### Enumeration along a solvable chain -/

/-- `rm` (irreps.py:444-451): powers of `r`, `rm[0] = identity`, `rm[m] = table[rm[m-1], r]`.
Also used for `rinvm` with the inverse of `r`. -/
def powIdx (T : Fin n → Fin n → Fin n) (e r : Fin n) : ℕ → Fin n
  | 0 => e
  | m + 1 => T (powIdx T e r m) r

/-- `group` extended by `r` (irreps.py:453-458): `sorted(set({r^m s}))`. -/
def extendGroup (T : Fin n → Fin n → Fin n) (e r : Fin n) (p : ℕ) (sub : List (Fin n)) : List (Fin n) :=
  (List.finRange n).filter fun g =>
    decide (g ∈ (List.range p).flatMap fun m => sub.map fun s => T (powIdx T e r m) s)

/-- `sj = table[rinvm[j], table[s, rm[j]]]` (irreps.py:477, 531). -/
def conjElt (T : Fin n → Fin n → Fin n) (e r rinv : Fin n) (j : ℕ) (s : Fin n) : Fin n :=
  T (powIdx T e rinv j) (T s (powIdx T e r j))

/-- One matrix of `conj_sub_irreps[j]` (irreps.py:473-484).
Simplification used in the whole chain algorithm: the array `sub_irrep` together with the dictionary
`subgroup_remapping` is one map from group indices to matrices (zero outside the subgroup). -/
noncomputable def conjSub (T : Fin n → Fin n → Fin n) (μ : Fin n → Fin n → ℂ) (e r rinv : Fin n) {d : ℕ}
    (D : RepArr n d) (j : ℕ) : RepArr n d := fun s =>
  let sj := conjElt T e r rinv j s
  (μ s (powIdx T e r j) / μ (powIdx T e r j) sj) • D sj

/-- `get_intertwiner` applied to arrays over the subgroup (irreps.py:491-496): as
`intertwinerLoop`, with the sum over the elements of `sub`. -/
noncomputable def subIntertwiner {d : ℕ} (random : ℕ → Matrix (Fin d) (Fin d) ℂ) (sub : List (Fin n))
    (rep1 rep2 : RepArr n d) (atol : ℝ) (maxGen : ℕ) : Matrix (Fin d) (Fin d) ℂ × Bool :=
  getIntertwiner (n := sub.length) random (fun i => rep1 (sub.get i)) (fun i => rep2 (sub.get i)) atol maxGen

/-- Lines 497-500 of irreps.py: `scale = intertwiner^p` by repeated left multiplication, then
`intertwiner /= scale[0,0] ** (1/p)`.  `scale[0,0]` exists because `dim ≥ 1` (an `IndexError`
otherwise; modelled by taking no scaling). -/
noncomputable def scaleIntertwiner {d : ℕ} (U : Matrix (Fin d) (Fin d) ℂ) (p : ℕ) :
    Matrix (Fin d) (Fin d) ℂ :=
  let scale := (List.range (p - 1)).foldl (fun S _ => U * S) U
  if h : 0 < d then (scale ⟨0, h⟩ ⟨0, h⟩ ^ ((1 : ℂ) / p))⁻¹ • U else U

/-- `omega` (irreps.py:502). -/
noncomputable def chainOmega (T : Fin n → Fin n → Fin n) (μ : Fin n → Fin n → ℂ) (e r : Fin n) (p : ℕ) : ℂ :=
  1 / nroot ((List.range' 1 (p - 1)).map fun m => μ r (powIdx T e r m)).prod p

/-- `delta_rm` (irreps.py:506-511). -/
noncomputable def deltaRm (T : Fin n → Fin n → Fin n) (μ : Fin n → Fin n → ℂ) (e r : Fin n) {d : ℕ}
    (deltaR : Matrix (Fin d) (Fin d) ℂ) : ℕ → Matrix (Fin d) (Fin d) ℂ
  | 0 => 1
  | m + 1 => (μ r (powIdx T e r m))⁻¹ • (deltaR * deltaRm T μ e r deltaR m)

/-- The pairs `(m, s)` in loop order. -/
def chainPairs (p : ℕ) (sub : List (Fin n)) : List (ℕ × Fin n) :=
  (List.range p).flatMap fun m => sub.map fun s => (m, s)

/-- `next_irrep` in the self-conjugate case (irreps.py:503-522) for one `q`; assignments in loop
order into a zero array. -/
noncomputable def nextSelf (T : Fin n → Fin n → Fin n) (μ : Fin n → Fin n → ℂ) (e r : Fin n) (p : ℕ)
    (sub : List (Fin n)) {d : ℕ} (D : RepArr n d) (U : Matrix (Fin d) (Fin d) ℂ) (q : ℕ) : RepArr n d :=
  let omegaq := chainOmega T μ e r p * Complex.exp (2 * Complex.I * Real.pi * q / p)
  let deltaR := omegaq⁻¹ • U
  (chainPairs p sub).foldl (fun D' ms =>
    Function.update D' (T (powIdx T e r ms.1) ms.2)
      ((μ (powIdx T e r ms.1) ms.2)⁻¹ • (deltaRm T μ e r deltaR ms.1 * D ms.2))) (fun _ => 0)

/-- `next_irrep` in the induced case (irreps.py:524-541).  Row block `i`, column block `j`, row-major
`Fin p × Fin d`.  For each `(m, s)` the blocks `((j+m) % p, j)` of matrix `idx` are written. -/
noncomputable def nextInduced (T : Fin n → Fin n → Fin n) (μ : Fin n → Fin n → ℂ) (e r rinv : Fin n)
    (p : ℕ) (sub : List (Fin n)) {d : ℕ} (D : RepArr n d) : RepArr n (p * d) :=
  (chainPairs p sub).foldl (fun D' ms =>
    let idx := T (powIdx T e r ms.1) ms.2
    Function.update D' idx (Matrix.of fun x y =>
      let i := (finProdFinEquiv.symm x).1
      let j := (finProdFinEquiv.symm y).1
      if (i : ℕ) = (j + ms.1) % p then
        let sj := conjElt T e r rinv j ms.2
        μ idx (powIdx T e r j) / μ (powIdx T e r i) sj *
          D sj (finProdFinEquiv.symm x).2 (finProdFinEquiv.symm y).2
      else D' idx x y)) (fun _ => 0)

open Classical in
/-- The body of the loop over `irreps` (irreps.py:469-541): the list appended to `next_sub_irreps` and
whether `get_intertwiner` warned. -/
noncomputable def chainInner (random : ∀ d, ℕ → Matrix (Fin d) (Fin d) ℂ) (T : Fin n → Fin n → Fin n)
    (μ : Fin n → Fin n → ℂ) (e r rinv : Fin n) (p : ℕ) (sub : List (Fin n)) (atol : ℝ) (maxGen : ℕ)
    (D : AnyRep n) : List (AnyRep n) × Bool :=
  let c0 := conjSub T μ e r rinv D.2 0
  let c1 := conjSub T μ e r rinv D.2 1
  if IsEquivalentIrrep (sub.map (getCharacter c0)) (sub.map (getCharacter c1)) then
    let (U, warned) := subIntertwiner (random D.1) sub c0 c1 atol maxGen
    let U' := scaleIntertwiner U p
    ((List.range p).map fun q => ⟨D.1, nextSelf T μ e r p sub D.2 U' q⟩, warned)
  else ([⟨p * D.1, nextInduced T μ e r rinv p sub D.2⟩], false)

open Classical in
/-- Removal of duplicates (irreps.py:543-553). -/
noncomputable def dedupe (grp : List (Fin n)) (irreps : List (AnyRep n)) : List (AnyRep n) :=
  irreps.foldl (fun acc D =>
    if acc.any fun E => decide (IsEquivalentIrrep (grp.map (getCharacter D.2)) (grp.map (getCharacter E.2)))
    then acc else acc ++ [D]) []

/-- State of the chain loop: `group`, `irreps`, and whether an intertwiner search warned. -/
structure ChainState (n : ℕ) where
  grp : List (Fin n)
  irreps : List (AnyRep n)
  warned : Bool

/-- One iteration of the loop over generators (irreps.py:440-553).  `conj_characters[1]` is an
`IndexError` when `p = 1`.  `subgroup_remapping[sj]` is a `KeyError` when `sj` is not in the subgroup;
it is checked before the loop over irreps. -/
noncomputable def chainStep (random : ∀ d, ℕ → Matrix (Fin d) (Fin d) ℂ) (T : Fin n → Fin n → Fin n)
    (μ : Fin n → Fin n → ℂ) (e : Fin n) (atol : ℝ) (maxGen : ℕ) (st : ChainState n) (r : Fin n) :
    Except PyErr (ChainState n) := do
  let p ← getOrder T r
  let rinv ← getInverseIndex T r
  let sub := st.grp
  let grp := extendGroup T e r p sub
  if ¬ ∀ j < p, ∀ s ∈ sub, conjElt T e r rinv j s ∈ sub then .error .keyError
  else if p = 1 then .error .indexError
  else
    let res := st.irreps.map (chainInner random T μ e r rinv p sub atol maxGen)
    return { grp := grp, irreps := dedupe grp (res.flatMap Prod.fst),
             warned := st.warned || res.any Prod.snd }

/-- `enumerate_unitary_irreps_from_solvable_group_chain` (irreps.py:408-559): the irreps, whether an
intertwiner search warned, and whether the "not sufficient" warning was given. -/
noncomputable def enumerateFromChain (random : ∀ d, ℕ → Matrix (Fin d) (Fin d) ℂ)
    (T : Fin n → Fin n → Fin n) (μ : Fin n → Fin n → ℂ) (gens : List (Fin n)) (atol : ℝ := 1e-8)
    (maxGen : ℕ := 4) : Except PyErr (List (AnyRep n) × Bool × Bool) := do
  let e ← getIdentityIndex T
  let st ← gens.reverse.foldlM (chainStep random T μ e atol maxGen)
    { grp := [e], irreps := [⟨1, fun g => if g = e then 1 else 0⟩], warned := false }
  if st.grp = List.finRange n then return (st.irreps, st.warned, false)
  else return ([], st.warned, true)

end Spgrep
