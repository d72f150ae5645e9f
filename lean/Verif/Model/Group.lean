/-
Model of /repo/src/spgrep/group.py.
-/
import Verif.Model.Common
import Mathlib.Analysis.SpecialFunctions.Exp
import Mathlib.Analysis.SpecialFunctions.Trigonometric.Basic

namespace Spgrep

variable {n : ℕ}

/-- `time_reversals` with its default (group.py:33-34: all zeros when omitted). -/
def flagsOf (trs : Option (Fin n → ℤ)) : Fin n → ℤ := trs.getD fun _ => 0

/-- One iteration of the double loop of `get_cayley_table` (group.py:41-48): the index of
`(ri @ rj, tri != trj)` in `operations_list`.  In Python `True == 1` and `False == 0`, so the
Boolean `trk` is compared with the integer flags.  `none` is the `ValueError` of `list.index`.
The branch at group.py:46-47 is dead code (`ValueError(...)` without `raise`, and the entry is
always -1 there). -/
def cayleyEntry (rots : Fin n → M3) (trs : Fin n → ℤ) (i j : Fin n) : Option (Fin n) :=
  indexOf? (fun k => (rots k, trs k)) (rots i * rots j, if trs i ≠ trs j then 1 else 0)

/-- `get_cayley_table` (group.py:17-50).  Rotations are integer arrays, on which
`ndarray2d_to_integer_tuple` is the identity; `rotations` and `time_reversals` have equal length. -/
def getCayleyTable (rots : Fin n → M3) (trs : Option (Fin n → ℤ) := none) :
    Except PyErr (Fin n → Fin n → Fin n) :=
  if h : ∀ i j, (cayleyEntry rots (flagsOf trs) i j).isSome then
    .ok fun i j => (cayleyEntry rots (flagsOf trs) i j).get (h i j)
  else .error .valueError

/-- `get_identity_index` (group.py:53-60). -/
def getIdentityIndex (T : Fin n → Fin n → Fin n) : Except PyErr (Fin n) :=
  match (List.finRange n).find? fun i => decide (∀ j, T i j = j) with
  | some i => .ok i
  | none => .error .valueError

/-- `get_inverse_index` (group.py:63-71). -/
def getInverseIndex (T : Fin n → Fin n → Fin n) (idx : Fin n) : Except PyErr (Fin n) := do
  let e ← getIdentityIndex T
  match (List.finRange n).find? fun i => decide (T idx i = e) with
  | some i => .ok i
  | none => .error .valueError

/-- The `while` loop of `get_order` (group.py:77-82) with fuel. -/
def orderLoop (T : Fin n → Fin n → Fin n) (e idx : Fin n) : ℕ → Fin n → ℕ → Option ℕ
  | 0, _, _ => none
  | fuel + 1, tmp, ret =>
    if tmp = e then some ret else orderLoop T e idx fuel (T tmp idx) (ret + 1)

/-- `get_order` (group.py:74-82).  The loop gets fuel `n`. -/
def getOrder (T : Fin n → Fin n → Fin n) (idx : Fin n) : Except PyErr ℕ := do
  let e ← getIdentityIndex T
  match orderLoop T e idx n idx 1 with
  | some m => .ok m
  | none => .error .diverges

/-- `is_matrix_group` (group.py:85-98). -/
def isMatrixGroup (rots : Fin n → M3) : Bool :=
  match getCayleyTable rots with
  | .error _ => false
  | .ok T => decide (∀ i, Finset.univ.image (T i) = Finset.univ)

/-- `rotation.T @ kpoint - kpoint` (group.py:132 and 169). -/
def residual (R : M3) (k : V3) : V3 := fun a => (∑ b, (R b a : ℝ) * k b) - k a

/-- `np.dot` of two real vectors. -/
def dot3 (x y : V3) : ℝ := ∑ a, x a * y a

/-- `rotation @ vector` for an integer rotation. -/
def rotVec (R : M3) (v : V3) : V3 := fun a => ∑ b, (R a b : ℝ) * v b

/-- `np.exp(-2j * np.pi * x)`. -/
noncomputable def expPhase (x : ℝ) : ℂ := Complex.exp (-2 * Real.pi * x * Complex.I)

/-- `get_factor_system_from_little_group` (group.py:101-139). -/
noncomputable def getFactorSystem (rots : Fin n → M3) (trans : Fin n → V3) (k : V3) :
    Fin n → Fin n → ℂ :=
  fun i j => expPhase (dot3 (residual (rots i) k) (trans j))

/-- The loop test of `get_little_group` (group.py:169-171): `np.allclose(residual - rint, 0, atol)`;
the relative tolerance multiplies `|0|` and drops out. -/
def InLittle (R : M3) (k : V3) (atol : ℝ) : Prop :=
  AllClose 1e-5 atol (fun a => residual R k a - rint (residual R k a)) (fun _ => 0)

open Classical in
/-- `get_little_group` (group.py:142-181): the third returned list, in loop order.  The other two
returned arrays collect `rotations[i]` and `translations[i]` in the same iteration. -/
noncomputable def littleMapping (rots : Fin n → M3) (k : V3) (atol : ℝ) : List (Fin n) :=
  (List.finRange n).filter fun i => decide (InLittle (rots i) k atol)

/-- `get_little_group` (group.py:142-181): `(little_rotations, little_translations,
mapping_little_group)`. -/
noncomputable def getLittleGroup (rots : Fin n → M3) (trans : Fin n → V3) (k : V3)
    (atol : ℝ := 1e-8) : List M3 × List V3 × List (Fin n) :=
  ((littleMapping rots k atol).map rots, (littleMapping rots k atol).map trans,
    littleMapping rots k atol)

open Classical in
/-- `check_cocycle_condition` (group.py:184-202).  `none` is the `ValueError` of `.index`, which can
not occur after `is_matrix_group` succeeded.  `np.isclose` uses its defaults. -/
noncomputable def checkCocycleCondition (rots : Fin n → M3) (μ : Fin n → Fin n → ℂ) :
    Except PyErr Bool :=
  if isMatrixGroup rots = false then .ok false
  else if ∀ i j, (indexOf? rots (rots i * rots j)).isSome then
    .ok (decide (∀ i j k jk ij, indexOf? rots (rots j * rots k) = some jk →
      indexOf? rots (rots i * rots j) = some ij →
      IsCloseC 1e-5 1e-8 (μ i jk * μ j k) (μ ij k * μ i j)))
  else .error .valueError

/-- Line 258-260 of group.py: `diff = remainder(x, 1); diff -= rint(diff); allclose(diff, 0)`. -/
def TransClose (x y : V3) : Prop :=
  AllClose 1e-5 1e-8 (fun a => Int.fract (x a - y a) - rint (Int.fract (x a - y a))) (fun _ => 0)

open Classical in
/-- `decompose_by_maximal_space_subgroup` (group.py:205-264).  `rot @ None` (group.py:251) is a
`TypeError`, reached when no operation has a non-zero flag.  The inner loop appends nothing when no
operation matches.  `np.allclose(new_rot, rotations[j])` is the tolerance test of numpy, not
equality. -/
noncomputable def decomposeByXSG (rots : Fin n → M3) (trans : Fin n → V3) (trs : Fin n → ℤ) :
    Except PyErr (Option (List (Fin n) × List (Fin n) × Fin n)) :=
  if ∀ i, trs i = 1 then .ok none
  else
    let xsg := (List.finRange n).filter fun i => decide (trs i = 0)
    match (List.finRange n).find? fun i => decide (trs i ≠ 0) with
    | none => .error .typeError
    | some a0 =>
      .ok (some (xsg,
        xsg.filterMap (fun i => (List.finRange n).find? fun j =>
          decide (trs j ≠ 0 ∧
            AllClose (ι := Fin 3 × Fin 3) 1e-5 1e-8 (fun p => ((rots i * rots a0) p.1 p.2 : ℤ))
              (fun p => (rots j p.1 p.2 : ℤ)) ∧
            TransClose (fun a => rotVec (rots i) (trans a0) a + trans i a) (trans j))),
        a0))

end Spgrep
