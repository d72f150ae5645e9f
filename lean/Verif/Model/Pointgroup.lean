/-
Model of /repo/src/spgrep/pointgroup.py.
-/
import Verif.Model.Group
import Verif.Model.Utils
import Mathlib.Data.Matrix.Reflection
import Mathlib.LinearAlgebra.Matrix.NonsingularInverse

namespace Spgrep

/-- A 3x3 integer matrix as the nested tuple used by `pg_dataset`. -/
abbrev PgMat := (ℤ × ℤ × ℤ) × (ℤ × ℤ × ℤ) × (ℤ × ℤ × ℤ)

/-- The keys of `pg_dataset` and `pg_solvable_chain` (pointgroup.py:14-575, 580-662), in order.
Simplification: the string keys are an enumeration; both dictionaries have exactly these keys. -/
inductive PgSymbol where
  /-- `"1"` -/
  | pg_1
  /-- `"-1"` -/
  | pg_b1
  /-- `"2"` -/
  | pg_2
  /-- `"m"` -/
  | pg_m
  /-- `"2/m"` -/
  | pg_2_m
  /-- `"222"` -/
  | pg_222
  /-- `"mm2"` -/
  | pg_mm2
  /-- `"mmm"` -/
  | pg_mmm
  /-- `"4"` -/
  | pg_4
  /-- `"-4"` -/
  | pg_b4
  /-- `"4/m"` -/
  | pg_4_m
  /-- `"422"` -/
  | pg_422
  /-- `"4mm"` -/
  | pg_4mm
  /-- `"-42m"` -/
  | pg_b42m
  /-- `"4/mmm"` -/
  | pg_4_mmm
  /-- `"3"` -/
  | pg_3
  /-- `"-3"` -/
  | pg_b3
  /-- `"32"` -/
  | pg_32
  /-- `"3m"` -/
  | pg_3m
  /-- `"-3m"` -/
  | pg_b3m
  /-- `"6"` -/
  | pg_6
  /-- `"-6"` -/
  | pg_b6
  /-- `"6/m"` -/
  | pg_6_m
  /-- `"622"` -/
  | pg_622
  /-- `"6mm"` -/
  | pg_6mm
  /-- `"-6m2"` -/
  | pg_b6m2
  /-- `"6/mmm"` -/
  | pg_6_mmm
  /-- `"23"` -/
  | pg_23
  /-- `"m-3"` -/
  | pg_mb3
  /-- `"432"` -/
  | pg_432
  /-- `"-43m"` -/
  | pg_b43m
  /-- `"m-3m"` -/
  | pg_mb3m
  deriving DecidableEq, Repr

namespace PgSymbol

/-- All keys. -/
def all : List PgSymbol :=
  [pg_1, pg_b1, pg_2, pg_m, pg_2_m, pg_222, pg_mm2, pg_mmm,
   pg_4, pg_b4, pg_4_m, pg_422, pg_4mm, pg_b42m, pg_4_mmm, pg_3,
   pg_b3, pg_32, pg_3m, pg_b3m, pg_6, pg_b6, pg_6_m, pg_622,
   pg_6mm, pg_b6m2, pg_6_mmm, pg_23, pg_mb3, pg_432, pg_b43m, pg_mb3m]

theorem mem_all (s : PgSymbol) : s ∈ all := by cases s <;> decide

end PgSymbol

open PgSymbol

/-- `pg_dataset["1"]` (pointgroup.py:15-15). -/
def pgData_1 : List (List PgMat) :=
  [[((1, 0, 0), (0, 1, 0), (0, 0, 1))]]

/-- `pg_dataset["-1"]` (pointgroup.py:16-21). -/
def pgData_b1 : List (List PgMat) :=
  [[((1, 0, 0), (0, 1, 0), (0, 0, 1)),
    ((-1, 0, 0), (0, -1, 0), (0, 0, -1))]]

/-- `pg_dataset["2"]` (pointgroup.py:22-38). -/
def pgData_2 : List (List PgMat) :=
  [[((1, 0, 0), (0, 1, 0), (0, 0, 1)),
    ((1, 0, 0), (0, -1, 0), (0, 0, -1))],
   [((1, 0, 0), (0, 1, 0), (0, 0, 1)),
    ((-1, 0, 0), (0, 1, 0), (0, 0, -1))],
   [((1, 0, 0), (0, 1, 0), (0, 0, 1)),
    ((-1, 0, 0), (0, -1, 0), (0, 0, 1))]]

/-- `pg_dataset["m"]` (pointgroup.py:39-55). -/
def pgData_m : List (List PgMat) :=
  [[((1, 0, 0), (0, 1, 0), (0, 0, 1)),
    ((-1, 0, 0), (0, 1, 0), (0, 0, 1))],
   [((1, 0, 0), (0, 1, 0), (0, 0, 1)),
    ((1, 0, 0), (0, -1, 0), (0, 0, 1))],
   [((1, 0, 0), (0, 1, 0), (0, 0, 1)),
    ((1, 0, 0), (0, 1, 0), (0, 0, -1))]]

/-- `pg_dataset["2/m"]` (pointgroup.py:56-64). -/
def pgData_2_m : List (List PgMat) :=
  [[((1, 0, 0), (0, 1, 0), (0, 0, 1)),
    ((-1, 0, 0), (0, 1, 0), (0, 0, -1)),
    ((-1, 0, 0), (0, -1, 0), (0, 0, -1)),
    ((1, 0, 0), (0, -1, 0), (0, 0, 1))]]

/-- `pg_dataset["222"]` (pointgroup.py:65-72). -/
def pgData_222 : List (List PgMat) :=
  [[((1, 0, 0), (0, 1, 0), (0, 0, 1)),
    ((-1, 0, 0), (0, -1, 0), (0, 0, 1)),
    ((-1, 0, 0), (0, 1, 0), (0, 0, -1)),
    ((1, 0, 0), (0, -1, 0), (0, 0, -1))]]

/-- `pg_dataset["mm2"]` (pointgroup.py:73-95). -/
def pgData_mm2 : List (List PgMat) :=
  [[((1, 0, 0), (0, 1, 0), (0, 0, 1)),
    ((1, 0, 0), (0, -1, 0), (0, 0, -1)),
    ((1, 0, 0), (0, 1, 0), (0, 0, -1)),
    ((1, 0, 0), (0, -1, 0), (0, 0, 1))],
   [((1, 0, 0), (0, 1, 0), (0, 0, 1)),
    ((-1, 0, 0), (0, 1, 0), (0, 0, -1)),
    ((1, 0, 0), (0, 1, 0), (0, 0, -1)),
    ((-1, 0, 0), (0, 1, 0), (0, 0, 1))],
   [((1, 0, 0), (0, 1, 0), (0, 0, 1)),
    ((-1, 0, 0), (0, -1, 0), (0, 0, 1)),
    ((1, 0, 0), (0, -1, 0), (0, 0, 1)),
    ((-1, 0, 0), (0, 1, 0), (0, 0, 1))]]

/-- `pg_dataset["mmm"]` (pointgroup.py:96-107). -/
def pgData_mmm : List (List PgMat) :=
  [[((1, 0, 0), (0, 1, 0), (0, 0, 1)),
    ((-1, 0, 0), (0, -1, 0), (0, 0, 1)),
    ((-1, 0, 0), (0, 1, 0), (0, 0, -1)),
    ((1, 0, 0), (0, -1, 0), (0, 0, -1)),
    ((-1, 0, 0), (0, -1, 0), (0, 0, -1)),
    ((1, 0, 0), (0, 1, 0), (0, 0, -1)),
    ((1, 0, 0), (0, -1, 0), (0, 0, 1)),
    ((-1, 0, 0), (0, 1, 0), (0, 0, 1))]]

/-- `pg_dataset["4"]` (pointgroup.py:108-115). -/
def pgData_4 : List (List PgMat) :=
  [[((1, 0, 0), (0, 1, 0), (0, 0, 1)),
    ((-1, 0, 0), (0, -1, 0), (0, 0, 1)),
    ((0, -1, 0), (1, 0, 0), (0, 0, 1)),
    ((0, 1, 0), (-1, 0, 0), (0, 0, 1))]]

/-- `pg_dataset["-4"]` (pointgroup.py:116-123). -/
def pgData_b4 : List (List PgMat) :=
  [[((1, 0, 0), (0, 1, 0), (0, 0, 1)),
    ((-1, 0, 0), (0, -1, 0), (0, 0, 1)),
    ((0, 1, 0), (-1, 0, 0), (0, 0, -1)),
    ((0, -1, 0), (1, 0, 0), (0, 0, -1))]]

/-- `pg_dataset["4/m"]` (pointgroup.py:124-135). -/
def pgData_4_m : List (List PgMat) :=
  [[((1, 0, 0), (0, 1, 0), (0, 0, 1)),
    ((-1, 0, 0), (0, -1, 0), (0, 0, 1)),
    ((0, -1, 0), (1, 0, 0), (0, 0, 1)),
    ((0, 1, 0), (-1, 0, 0), (0, 0, 1)),
    ((-1, 0, 0), (0, -1, 0), (0, 0, -1)),
    ((1, 0, 0), (0, 1, 0), (0, 0, -1)),
    ((0, 1, 0), (-1, 0, 0), (0, 0, -1)),
    ((0, -1, 0), (1, 0, 0), (0, 0, -1))]]

/-- `pg_dataset["422"]` (pointgroup.py:136-147). -/
def pgData_422 : List (List PgMat) :=
  [[((1, 0, 0), (0, 1, 0), (0, 0, 1)),
    ((-1, 0, 0), (0, -1, 0), (0, 0, 1)),
    ((0, -1, 0), (1, 0, 0), (0, 0, 1)),
    ((0, 1, 0), (-1, 0, 0), (0, 0, 1)),
    ((-1, 0, 0), (0, 1, 0), (0, 0, -1)),
    ((1, 0, 0), (0, -1, 0), (0, 0, -1)),
    ((0, 1, 0), (1, 0, 0), (0, 0, -1)),
    ((0, -1, 0), (-1, 0, 0), (0, 0, -1))]]

/-- `pg_dataset["4mm"]` (pointgroup.py:148-159). -/
def pgData_4mm : List (List PgMat) :=
  [[((1, 0, 0), (0, 1, 0), (0, 0, 1)),
    ((-1, 0, 0), (0, -1, 0), (0, 0, 1)),
    ((0, -1, 0), (1, 0, 0), (0, 0, 1)),
    ((0, 1, 0), (-1, 0, 0), (0, 0, 1)),
    ((1, 0, 0), (0, -1, 0), (0, 0, 1)),
    ((-1, 0, 0), (0, 1, 0), (0, 0, 1)),
    ((0, -1, 0), (-1, 0, 0), (0, 0, 1)),
    ((0, 1, 0), (1, 0, 0), (0, 0, 1))]]

/-- `pg_dataset["-42m"]` (pointgroup.py:160-183). -/
def pgData_b42m : List (List PgMat) :=
  [[((1, 0, 0), (0, 1, 0), (0, 0, 1)),
    ((-1, 0, 0), (0, -1, 0), (0, 0, 1)),
    ((0, 1, 0), (-1, 0, 0), (0, 0, -1)),
    ((0, -1, 0), (1, 0, 0), (0, 0, -1)),
    ((-1, 0, 0), (0, 1, 0), (0, 0, -1)),
    ((1, 0, 0), (0, -1, 0), (0, 0, -1)),
    ((0, -1, 0), (-1, 0, 0), (0, 0, 1)),
    ((0, 1, 0), (1, 0, 0), (0, 0, 1))],
   [((1, 0, 0), (0, 1, 0), (0, 0, 1)),
    ((-1, 0, 0), (0, -1, 0), (0, 0, 1)),
    ((0, 1, 0), (-1, 0, 0), (0, 0, -1)),
    ((0, -1, 0), (1, 0, 0), (0, 0, -1)),
    ((1, 0, 0), (0, -1, 0), (0, 0, 1)),
    ((-1, 0, 0), (0, 1, 0), (0, 0, 1)),
    ((0, 1, 0), (1, 0, 0), (0, 0, -1)),
    ((0, -1, 0), (-1, 0, 0), (0, 0, -1))]]

/-- `pg_dataset["4/mmm"]` (pointgroup.py:184-203). -/
def pgData_4_mmm : List (List PgMat) :=
  [[((1, 0, 0), (0, 1, 0), (0, 0, 1)),
    ((-1, 0, 0), (0, -1, 0), (0, 0, 1)),
    ((0, -1, 0), (1, 0, 0), (0, 0, 1)),
    ((0, 1, 0), (-1, 0, 0), (0, 0, 1)),
    ((-1, 0, 0), (0, 1, 0), (0, 0, -1)),
    ((1, 0, 0), (0, -1, 0), (0, 0, -1)),
    ((0, 1, 0), (1, 0, 0), (0, 0, -1)),
    ((0, -1, 0), (-1, 0, 0), (0, 0, -1)),
    ((-1, 0, 0), (0, -1, 0), (0, 0, -1)),
    ((1, 0, 0), (0, 1, 0), (0, 0, -1)),
    ((0, 1, 0), (-1, 0, 0), (0, 0, -1)),
    ((0, -1, 0), (1, 0, 0), (0, 0, -1)),
    ((1, 0, 0), (0, -1, 0), (0, 0, 1)),
    ((-1, 0, 0), (0, 1, 0), (0, 0, 1)),
    ((0, -1, 0), (-1, 0, 0), (0, 0, 1)),
    ((0, 1, 0), (1, 0, 0), (0, 0, 1))]]

/-- `pg_dataset["3"]` (pointgroup.py:204-211). -/
def pgData_3 : List (List PgMat) :=
  [[((1, 0, 0), (0, 1, 0), (0, 0, 1)),
    ((0, -1, 0), (1, -1, 0), (0, 0, 1)),
    ((-1, 1, 0), (-1, 0, 0), (0, 0, 1))]]

/-- `pg_dataset["-3"]` (pointgroup.py:212-222). -/
def pgData_b3 : List (List PgMat) :=
  [[((1, 0, 0), (0, 1, 0), (0, 0, 1)),
    ((0, -1, 0), (1, -1, 0), (0, 0, 1)),
    ((-1, 1, 0), (-1, 0, 0), (0, 0, 1)),
    ((-1, 0, 0), (0, -1, 0), (0, 0, -1)),
    ((0, 1, 0), (-1, 1, 0), (0, 0, -1)),
    ((1, -1, 0), (1, 0, 0), (0, 0, -1))]]

/-- `pg_dataset["32"]` (pointgroup.py:223-242). -/
def pgData_32 : List (List PgMat) :=
  [[((1, 0, 0), (0, 1, 0), (0, 0, 1)),
    ((0, -1, 0), (1, -1, 0), (0, 0, 1)),
    ((-1, 1, 0), (-1, 0, 0), (0, 0, 1)),
    ((0, -1, 0), (-1, 0, 0), (0, 0, -1)),
    ((-1, 1, 0), (0, 1, 0), (0, 0, -1)),
    ((1, 0, 0), (1, -1, 0), (0, 0, -1))],
   [((1, 0, 0), (0, 1, 0), (0, 0, 1)),
    ((0, -1, 0), (1, -1, 0), (0, 0, 1)),
    ((-1, 1, 0), (-1, 0, 0), (0, 0, 1)),
    ((0, 1, 0), (1, 0, 0), (0, 0, -1)),
    ((1, -1, 0), (0, -1, 0), (0, 0, -1)),
    ((-1, 0, 0), (-1, 1, 0), (0, 0, -1))]]

/-- `pg_dataset["3m"]` (pointgroup.py:243-262). -/
def pgData_3m : List (List PgMat) :=
  [[((1, 0, 0), (0, 1, 0), (0, 0, 1)),
    ((0, -1, 0), (1, -1, 0), (0, 0, 1)),
    ((-1, 1, 0), (-1, 0, 0), (0, 0, 1)),
    ((0, -1, 0), (-1, 0, 0), (0, 0, 1)),
    ((-1, 1, 0), (0, 1, 0), (0, 0, 1)),
    ((1, 0, 0), (1, -1, 0), (0, 0, 1))],
   [((1, 0, 0), (0, 1, 0), (0, 0, 1)),
    ((0, -1, 0), (1, -1, 0), (0, 0, 1)),
    ((-1, 1, 0), (-1, 0, 0), (0, 0, 1)),
    ((0, 1, 0), (1, 0, 0), (0, 0, 1)),
    ((1, -1, 0), (0, -1, 0), (0, 0, 1)),
    ((-1, 0, 0), (-1, 1, 0), (0, 0, 1))]]

/-- `pg_dataset["-3m"]` (pointgroup.py:263-294). -/
def pgData_b3m : List (List PgMat) :=
  [[((1, 0, 0), (0, 1, 0), (0, 0, 1)),
    ((0, -1, 0), (1, -1, 0), (0, 0, 1)),
    ((-1, 1, 0), (-1, 0, 0), (0, 0, 1)),
    ((0, -1, 0), (-1, 0, 0), (0, 0, -1)),
    ((-1, 1, 0), (0, 1, 0), (0, 0, -1)),
    ((1, 0, 0), (1, -1, 0), (0, 0, -1)),
    ((-1, 0, 0), (0, -1, 0), (0, 0, -1)),
    ((0, 1, 0), (-1, 1, 0), (0, 0, -1)),
    ((1, -1, 0), (1, 0, 0), (0, 0, -1)),
    ((0, 1, 0), (1, 0, 0), (0, 0, 1)),
    ((1, -1, 0), (0, -1, 0), (0, 0, 1)),
    ((-1, 0, 0), (-1, 1, 0), (0, 0, 1))],
   [((1, 0, 0), (0, 1, 0), (0, 0, 1)),
    ((0, -1, 0), (1, -1, 0), (0, 0, 1)),
    ((-1, 1, 0), (-1, 0, 0), (0, 0, 1)),
    ((0, 1, 0), (1, 0, 0), (0, 0, -1)),
    ((1, -1, 0), (0, -1, 0), (0, 0, -1)),
    ((-1, 0, 0), (-1, 1, 0), (0, 0, -1)),
    ((-1, 0, 0), (0, -1, 0), (0, 0, -1)),
    ((0, 1, 0), (-1, 1, 0), (0, 0, -1)),
    ((1, -1, 0), (1, 0, 0), (0, 0, -1)),
    ((0, -1, 0), (-1, 0, 0), (0, 0, 1)),
    ((-1, 1, 0), (0, 1, 0), (0, 0, 1)),
    ((1, 0, 0), (1, -1, 0), (0, 0, 1))]]

/-- `pg_dataset["6"]` (pointgroup.py:295-304). -/
def pgData_6 : List (List PgMat) :=
  [[((1, 0, 0), (0, 1, 0), (0, 0, 1)),
    ((0, -1, 0), (1, -1, 0), (0, 0, 1)),
    ((-1, 1, 0), (-1, 0, 0), (0, 0, 1)),
    ((-1, 0, 0), (0, -1, 0), (0, 0, 1)),
    ((0, 1, 0), (-1, 1, 0), (0, 0, 1)),
    ((1, -1, 0), (1, 0, 0), (0, 0, 1))]]

/-- `pg_dataset["-6"]` (pointgroup.py:305-314). -/
def pgData_b6 : List (List PgMat) :=
  [[((1, 0, 0), (0, 1, 0), (0, 0, 1)),
    ((0, -1, 0), (1, -1, 0), (0, 0, 1)),
    ((-1, 1, 0), (-1, 0, 0), (0, 0, 1)),
    ((1, 0, 0), (0, 1, 0), (0, 0, -1)),
    ((0, -1, 0), (1, -1, 0), (0, 0, -1)),
    ((-1, 1, 0), (-1, 0, 0), (0, 0, -1))]]

/-- `pg_dataset["6/m"]` (pointgroup.py:315-330). -/
def pgData_6_m : List (List PgMat) :=
  [[((1, 0, 0), (0, 1, 0), (0, 0, 1)),
    ((0, -1, 0), (1, -1, 0), (0, 0, 1)),
    ((-1, 1, 0), (-1, 0, 0), (0, 0, 1)),
    ((-1, 0, 0), (0, -1, 0), (0, 0, 1)),
    ((0, 1, 0), (-1, 1, 0), (0, 0, 1)),
    ((1, -1, 0), (1, 0, 0), (0, 0, 1)),
    ((-1, 0, 0), (0, -1, 0), (0, 0, -1)),
    ((0, 1, 0), (-1, 1, 0), (0, 0, -1)),
    ((1, -1, 0), (1, 0, 0), (0, 0, -1)),
    ((1, 0, 0), (0, 1, 0), (0, 0, -1)),
    ((0, -1, 0), (1, -1, 0), (0, 0, -1)),
    ((-1, 1, 0), (-1, 0, 0), (0, 0, -1))]]

/-- `pg_dataset["622"]` (pointgroup.py:331-346). -/
def pgData_622 : List (List PgMat) :=
  [[((1, 0, 0), (0, 1, 0), (0, 0, 1)),
    ((0, -1, 0), (1, -1, 0), (0, 0, 1)),
    ((-1, 1, 0), (-1, 0, 0), (0, 0, 1)),
    ((-1, 0, 0), (0, -1, 0), (0, 0, 1)),
    ((0, 1, 0), (-1, 1, 0), (0, 0, 1)),
    ((1, -1, 0), (1, 0, 0), (0, 0, 1)),
    ((0, 1, 0), (1, 0, 0), (0, 0, -1)),
    ((1, -1, 0), (0, -1, 0), (0, 0, -1)),
    ((-1, 0, 0), (-1, 1, 0), (0, 0, -1)),
    ((0, -1, 0), (-1, 0, 0), (0, 0, -1)),
    ((-1, 1, 0), (0, 1, 0), (0, 0, -1)),
    ((1, 0, 0), (1, -1, 0), (0, 0, -1))]]

/-- `pg_dataset["6mm"]` (pointgroup.py:347-362). -/
def pgData_6mm : List (List PgMat) :=
  [[((1, 0, 0), (0, 1, 0), (0, 0, 1)),
    ((0, -1, 0), (1, -1, 0), (0, 0, 1)),
    ((-1, 1, 0), (-1, 0, 0), (0, 0, 1)),
    ((-1, 0, 0), (0, -1, 0), (0, 0, 1)),
    ((0, 1, 0), (-1, 1, 0), (0, 0, 1)),
    ((1, -1, 0), (1, 0, 0), (0, 0, 1)),
    ((0, -1, 0), (-1, 0, 0), (0, 0, 1)),
    ((-1, 1, 0), (0, 1, 0), (0, 0, 1)),
    ((1, 0, 0), (1, -1, 0), (0, 0, 1)),
    ((0, 1, 0), (1, 0, 0), (0, 0, 1)),
    ((1, -1, 0), (0, -1, 0), (0, 0, 1)),
    ((-1, 0, 0), (-1, 1, 0), (0, 0, 1))]]

/-- `pg_dataset["-6m2"]` (pointgroup.py:363-394). -/
def pgData_b6m2 : List (List PgMat) :=
  [[((1, 0, 0), (0, 1, 0), (0, 0, 1)),
    ((0, -1, 0), (1, -1, 0), (0, 0, 1)),
    ((-1, 1, 0), (-1, 0, 0), (0, 0, 1)),
    ((1, 0, 0), (0, 1, 0), (0, 0, -1)),
    ((0, -1, 0), (1, -1, 0), (0, 0, -1)),
    ((-1, 1, 0), (-1, 0, 0), (0, 0, -1)),
    ((0, -1, 0), (-1, 0, 0), (0, 0, 1)),
    ((-1, 1, 0), (0, 1, 0), (0, 0, 1)),
    ((1, 0, 0), (1, -1, 0), (0, 0, 1)),
    ((0, -1, 0), (-1, 0, 0), (0, 0, -1)),
    ((-1, 1, 0), (0, 1, 0), (0, 0, -1)),
    ((1, 0, 0), (1, -1, 0), (0, 0, -1))],
   [((1, 0, 0), (0, 1, 0), (0, 0, 1)),
    ((0, -1, 0), (1, -1, 0), (0, 0, 1)),
    ((-1, 1, 0), (-1, 0, 0), (0, 0, 1)),
    ((1, 0, 0), (0, 1, 0), (0, 0, -1)),
    ((0, -1, 0), (1, -1, 0), (0, 0, -1)),
    ((-1, 1, 0), (-1, 0, 0), (0, 0, -1)),
    ((0, 1, 0), (1, 0, 0), (0, 0, -1)),
    ((1, -1, 0), (0, -1, 0), (0, 0, -1)),
    ((-1, 0, 0), (-1, 1, 0), (0, 0, -1)),
    ((0, 1, 0), (1, 0, 0), (0, 0, 1)),
    ((1, -1, 0), (0, -1, 0), (0, 0, 1)),
    ((-1, 0, 0), (-1, 1, 0), (0, 0, 1))]]

/-- `pg_dataset["6/mmm"]` (pointgroup.py:395-422). -/
def pgData_6_mmm : List (List PgMat) :=
  [[((1, 0, 0), (0, 1, 0), (0, 0, 1)),
    ((0, -1, 0), (1, -1, 0), (0, 0, 1)),
    ((-1, 1, 0), (-1, 0, 0), (0, 0, 1)),
    ((-1, 0, 0), (0, -1, 0), (0, 0, 1)),
    ((0, 1, 0), (-1, 1, 0), (0, 0, 1)),
    ((1, -1, 0), (1, 0, 0), (0, 0, 1)),
    ((0, 1, 0), (1, 0, 0), (0, 0, -1)),
    ((1, -1, 0), (0, -1, 0), (0, 0, -1)),
    ((-1, 0, 0), (-1, 1, 0), (0, 0, -1)),
    ((0, -1, 0), (-1, 0, 0), (0, 0, -1)),
    ((-1, 1, 0), (0, 1, 0), (0, 0, -1)),
    ((1, 0, 0), (1, -1, 0), (0, 0, -1)),
    ((-1, 0, 0), (0, -1, 0), (0, 0, -1)),
    ((0, 1, 0), (-1, 1, 0), (0, 0, -1)),
    ((1, -1, 0), (1, 0, 0), (0, 0, -1)),
    ((1, 0, 0), (0, 1, 0), (0, 0, -1)),
    ((0, -1, 0), (1, -1, 0), (0, 0, -1)),
    ((-1, 1, 0), (-1, 0, 0), (0, 0, -1)),
    ((0, -1, 0), (-1, 0, 0), (0, 0, 1)),
    ((-1, 1, 0), (0, 1, 0), (0, 0, 1)),
    ((1, 0, 0), (1, -1, 0), (0, 0, 1)),
    ((0, 1, 0), (1, 0, 0), (0, 0, 1)),
    ((1, -1, 0), (0, -1, 0), (0, 0, 1)),
    ((-1, 0, 0), (-1, 1, 0), (0, 0, 1))]]

/-- `pg_dataset["23"]` (pointgroup.py:423-438). -/
def pgData_23 : List (List PgMat) :=
  [[((1, 0, 0), (0, 1, 0), (0, 0, 1)),
    ((-1, 0, 0), (0, -1, 0), (0, 0, 1)),
    ((-1, 0, 0), (0, 1, 0), (0, 0, -1)),
    ((1, 0, 0), (0, -1, 0), (0, 0, -1)),
    ((0, 0, 1), (1, 0, 0), (0, 1, 0)),
    ((0, 0, 1), (-1, 0, 0), (0, -1, 0)),
    ((0, 0, -1), (-1, 0, 0), (0, 1, 0)),
    ((0, 0, -1), (1, 0, 0), (0, -1, 0)),
    ((0, 1, 0), (0, 0, 1), (1, 0, 0)),
    ((0, -1, 0), (0, 0, 1), (-1, 0, 0)),
    ((0, 1, 0), (0, 0, -1), (-1, 0, 0)),
    ((0, -1, 0), (0, 0, -1), (1, 0, 0))]]

/-- `pg_dataset["m-3"]` (pointgroup.py:439-466). -/
def pgData_mb3 : List (List PgMat) :=
  [[((1, 0, 0), (0, 1, 0), (0, 0, 1)),
    ((-1, 0, 0), (0, -1, 0), (0, 0, 1)),
    ((-1, 0, 0), (0, 1, 0), (0, 0, -1)),
    ((1, 0, 0), (0, -1, 0), (0, 0, -1)),
    ((0, 0, 1), (1, 0, 0), (0, 1, 0)),
    ((0, 0, 1), (-1, 0, 0), (0, -1, 0)),
    ((0, 0, -1), (-1, 0, 0), (0, 1, 0)),
    ((0, 0, -1), (1, 0, 0), (0, -1, 0)),
    ((0, 1, 0), (0, 0, 1), (1, 0, 0)),
    ((0, -1, 0), (0, 0, 1), (-1, 0, 0)),
    ((0, 1, 0), (0, 0, -1), (-1, 0, 0)),
    ((0, -1, 0), (0, 0, -1), (1, 0, 0)),
    ((-1, 0, 0), (0, -1, 0), (0, 0, -1)),
    ((1, 0, 0), (0, 1, 0), (0, 0, -1)),
    ((1, 0, 0), (0, -1, 0), (0, 0, 1)),
    ((-1, 0, 0), (0, 1, 0), (0, 0, 1)),
    ((0, 0, -1), (-1, 0, 0), (0, -1, 0)),
    ((0, 0, -1), (1, 0, 0), (0, 1, 0)),
    ((0, 0, 1), (1, 0, 0), (0, -1, 0)),
    ((0, 0, 1), (-1, 0, 0), (0, 1, 0)),
    ((0, -1, 0), (0, 0, -1), (-1, 0, 0)),
    ((0, 1, 0), (0, 0, -1), (1, 0, 0)),
    ((0, -1, 0), (0, 0, 1), (1, 0, 0)),
    ((0, 1, 0), (0, 0, 1), (-1, 0, 0))]]

/-- `pg_dataset["432"]` (pointgroup.py:467-494). -/
def pgData_432 : List (List PgMat) :=
  [[((1, 0, 0), (0, 1, 0), (0, 0, 1)),
    ((-1, 0, 0), (0, -1, 0), (0, 0, 1)),
    ((-1, 0, 0), (0, 1, 0), (0, 0, -1)),
    ((1, 0, 0), (0, -1, 0), (0, 0, -1)),
    ((0, 0, 1), (1, 0, 0), (0, 1, 0)),
    ((0, 0, 1), (-1, 0, 0), (0, -1, 0)),
    ((0, 0, -1), (-1, 0, 0), (0, 1, 0)),
    ((0, 0, -1), (1, 0, 0), (0, -1, 0)),
    ((0, 1, 0), (0, 0, 1), (1, 0, 0)),
    ((0, -1, 0), (0, 0, 1), (-1, 0, 0)),
    ((0, 1, 0), (0, 0, -1), (-1, 0, 0)),
    ((0, -1, 0), (0, 0, -1), (1, 0, 0)),
    ((0, 1, 0), (1, 0, 0), (0, 0, -1)),
    ((0, -1, 0), (-1, 0, 0), (0, 0, -1)),
    ((0, 1, 0), (-1, 0, 0), (0, 0, 1)),
    ((0, -1, 0), (1, 0, 0), (0, 0, 1)),
    ((1, 0, 0), (0, 0, 1), (0, -1, 0)),
    ((-1, 0, 0), (0, 0, 1), (0, 1, 0)),
    ((-1, 0, 0), (0, 0, -1), (0, -1, 0)),
    ((1, 0, 0), (0, 0, -1), (0, 1, 0)),
    ((0, 0, 1), (0, 1, 0), (-1, 0, 0)),
    ((0, 0, 1), (0, -1, 0), (1, 0, 0)),
    ((0, 0, -1), (0, 1, 0), (1, 0, 0)),
    ((0, 0, -1), (0, -1, 0), (-1, 0, 0))]]

/-- `pg_dataset["-43m"]` (pointgroup.py:495-522). -/
def pgData_b43m : List (List PgMat) :=
  [[((1, 0, 0), (0, 1, 0), (0, 0, 1)),
    ((-1, 0, 0), (0, -1, 0), (0, 0, 1)),
    ((-1, 0, 0), (0, 1, 0), (0, 0, -1)),
    ((1, 0, 0), (0, -1, 0), (0, 0, -1)),
    ((0, 0, 1), (1, 0, 0), (0, 1, 0)),
    ((0, 0, 1), (-1, 0, 0), (0, -1, 0)),
    ((0, 0, -1), (-1, 0, 0), (0, 1, 0)),
    ((0, 0, -1), (1, 0, 0), (0, -1, 0)),
    ((0, 1, 0), (0, 0, 1), (1, 0, 0)),
    ((0, -1, 0), (0, 0, 1), (-1, 0, 0)),
    ((0, 1, 0), (0, 0, -1), (-1, 0, 0)),
    ((0, -1, 0), (0, 0, -1), (1, 0, 0)),
    ((0, 1, 0), (1, 0, 0), (0, 0, 1)),
    ((0, -1, 0), (-1, 0, 0), (0, 0, 1)),
    ((0, 1, 0), (-1, 0, 0), (0, 0, -1)),
    ((0, -1, 0), (1, 0, 0), (0, 0, -1)),
    ((1, 0, 0), (0, 0, 1), (0, 1, 0)),
    ((-1, 0, 0), (0, 0, 1), (0, -1, 0)),
    ((-1, 0, 0), (0, 0, -1), (0, 1, 0)),
    ((1, 0, 0), (0, 0, -1), (0, -1, 0)),
    ((0, 0, 1), (0, 1, 0), (1, 0, 0)),
    ((0, 0, 1), (0, -1, 0), (-1, 0, 0)),
    ((0, 0, -1), (0, 1, 0), (-1, 0, 0)),
    ((0, 0, -1), (0, -1, 0), (1, 0, 0))]]

/-- `pg_dataset["m-3m"]` (pointgroup.py:523-574). -/
def pgData_mb3m : List (List PgMat) :=
  [[((1, 0, 0), (0, 1, 0), (0, 0, 1)),
    ((-1, 0, 0), (0, -1, 0), (0, 0, 1)),
    ((-1, 0, 0), (0, 1, 0), (0, 0, -1)),
    ((1, 0, 0), (0, -1, 0), (0, 0, -1)),
    ((0, 0, 1), (1, 0, 0), (0, 1, 0)),
    ((0, 0, 1), (-1, 0, 0), (0, -1, 0)),
    ((0, 0, -1), (-1, 0, 0), (0, 1, 0)),
    ((0, 0, -1), (1, 0, 0), (0, -1, 0)),
    ((0, 1, 0), (0, 0, 1), (1, 0, 0)),
    ((0, -1, 0), (0, 0, 1), (-1, 0, 0)),
    ((0, 1, 0), (0, 0, -1), (-1, 0, 0)),
    ((0, -1, 0), (0, 0, -1), (1, 0, 0)),
    ((0, 1, 0), (1, 0, 0), (0, 0, -1)),
    ((0, -1, 0), (-1, 0, 0), (0, 0, -1)),
    ((0, 1, 0), (-1, 0, 0), (0, 0, 1)),
    ((0, -1, 0), (1, 0, 0), (0, 0, 1)),
    ((1, 0, 0), (0, 0, 1), (0, -1, 0)),
    ((-1, 0, 0), (0, 0, 1), (0, 1, 0)),
    ((-1, 0, 0), (0, 0, -1), (0, -1, 0)),
    ((1, 0, 0), (0, 0, -1), (0, 1, 0)),
    ((0, 0, 1), (0, 1, 0), (-1, 0, 0)),
    ((0, 0, 1), (0, -1, 0), (1, 0, 0)),
    ((0, 0, -1), (0, 1, 0), (1, 0, 0)),
    ((0, 0, -1), (0, -1, 0), (-1, 0, 0)),
    ((-1, 0, 0), (0, -1, 0), (0, 0, -1)),
    ((1, 0, 0), (0, 1, 0), (0, 0, -1)),
    ((1, 0, 0), (0, -1, 0), (0, 0, 1)),
    ((-1, 0, 0), (0, 1, 0), (0, 0, 1)),
    ((0, 0, -1), (-1, 0, 0), (0, -1, 0)),
    ((0, 0, -1), (1, 0, 0), (0, 1, 0)),
    ((0, 0, 1), (1, 0, 0), (0, -1, 0)),
    ((0, 0, 1), (-1, 0, 0), (0, 1, 0)),
    ((0, -1, 0), (0, 0, -1), (-1, 0, 0)),
    ((0, 1, 0), (0, 0, -1), (1, 0, 0)),
    ((0, -1, 0), (0, 0, 1), (1, 0, 0)),
    ((0, 1, 0), (0, 0, 1), (-1, 0, 0)),
    ((0, -1, 0), (-1, 0, 0), (0, 0, 1)),
    ((0, 1, 0), (1, 0, 0), (0, 0, 1)),
    ((0, -1, 0), (1, 0, 0), (0, 0, -1)),
    ((0, 1, 0), (-1, 0, 0), (0, 0, -1)),
    ((-1, 0, 0), (0, 0, -1), (0, 1, 0)),
    ((1, 0, 0), (0, 0, -1), (0, -1, 0)),
    ((1, 0, 0), (0, 0, 1), (0, 1, 0)),
    ((-1, 0, 0), (0, 0, 1), (0, -1, 0)),
    ((0, 0, -1), (0, -1, 0), (1, 0, 0)),
    ((0, 0, -1), (0, 1, 0), (-1, 0, 0)),
    ((0, 0, 1), (0, -1, 0), (-1, 0, 0)),
    ((0, 0, 1), (0, 1, 0), (1, 0, 0))]]

/-- `pg_dataset` (pointgroup.py:14-575). -/
def pgDataset : PgSymbol → List (List PgMat)
  | pg_1 => pgData_1
  | pg_b1 => pgData_b1
  | pg_2 => pgData_2
  | pg_m => pgData_m
  | pg_2_m => pgData_2_m
  | pg_222 => pgData_222
  | pg_mm2 => pgData_mm2
  | pg_mmm => pgData_mmm
  | pg_4 => pgData_4
  | pg_b4 => pgData_b4
  | pg_4_m => pgData_4_m
  | pg_422 => pgData_422
  | pg_4mm => pgData_4mm
  | pg_b42m => pgData_b42m
  | pg_4_mmm => pgData_4_mmm
  | pg_3 => pgData_3
  | pg_b3 => pgData_b3
  | pg_32 => pgData_32
  | pg_3m => pgData_3m
  | pg_b3m => pgData_b3m
  | pg_6 => pgData_6
  | pg_b6 => pgData_b6
  | pg_6_m => pgData_6_m
  | pg_622 => pgData_622
  | pg_6mm => pgData_6mm
  | pg_b6m2 => pgData_b6m2
  | pg_6_mmm => pgData_6_mmm
  | pg_23 => pgData_23
  | pg_mb3 => pgData_mb3
  | pg_432 => pgData_432
  | pg_b43m => pgData_b43m
  | pg_mb3m => pgData_mb3m

/-- `pg_solvable_chain` (pointgroup.py:580-662). -/
def pgSolvableChain : PgSymbol → List ((PgSymbol × ℕ) × ℕ)
  | pg_1 => []
  | pg_b1 => [((pg_1, 0), 1)]
  | pg_2 => [((pg_1, 0), 1), ((pg_1, 0), 1), ((pg_1, 0), 1)]
  | pg_m => [((pg_1, 0), 1), ((pg_1, 0), 1), ((pg_1, 0), 1)]
  | pg_2_m => [((pg_2, 1), 2)]
  | pg_222 => [((pg_2, 2), 2)]
  | pg_mm2 => [((pg_2, 0), 2), ((pg_2, 1), 2), ((pg_2, 2), 2)]
  | pg_mmm => [((pg_222, 0), 4)]
  | pg_4 => [((pg_1, 0), 2)]
  | pg_b4 => [((pg_1, 0), 2)]
  | pg_4_m => [((pg_4, 0), 4)]
  | pg_422 => [((pg_4, 0), 4)]
  | pg_4mm => [((pg_4, 0), 4)]
  | pg_b42m => [((pg_b4, 0), 4), ((pg_b4, 0), 4)]
  | pg_4_mmm => [((pg_422, 0), 8)]
  | pg_3 => [((pg_1, 0), 1)]
  | pg_b3 => [((pg_3, 0), 3)]
  | pg_32 => [((pg_3, 0), 3), ((pg_3, 0), 3)]
  | pg_3m => [((pg_3, 0), 3), ((pg_3, 0), 3)]
  | pg_b3m => [((pg_32, 0), 6), ((pg_32, 1), 6)]
  | pg_6 => [((pg_3, 0), 3)]
  | pg_b6 => [((pg_3, 0), 3)]
  | pg_6_m => [((pg_6, 0), 6)]
  | pg_622 => [((pg_6, 0), 6)]
  | pg_6mm => [((pg_6, 0), 6)]
  | pg_b6m2 => [((pg_b6, 0), 6), ((pg_b6, 0), 6)]
  | pg_6_mmm => [((pg_622, 0), 12)]
  | pg_23 => [((pg_222, 0), 4)]
  | pg_mb3 => [((pg_23, 0), 12)]
  | pg_432 => [((pg_23, 0), 12)]
  | pg_b43m => [((pg_23, 0), 12)]
  | pg_mb3m => [((pg_432, 0), 24)]

/-- The matrix of a nested tuple. -/
def PgMat.toM3 (t : PgMat) : M3 :=
  !![t.1.1, t.1.2.1, t.1.2.2; t.2.1.1, t.2.1.2.1, t.2.1.2.2; t.2.2.1, t.2.2.2.1, t.2.2.2.2]

/-- `_get_generators` (pointgroup.py:671-678) with fuel.  A missing index is an `IndexError`. -/
def getGeneratorsAux : ℕ → PgSymbol → ℕ → List ℕ → Except PyErr (List ℕ)
  | 0, _, _, _ => .error .diverges
  | fuel + 1, s, idx, gens =>
    if s = pg_1 then .ok gens
    else match (pgSolvableChain s)[idx]? with
      | none => .error .indexError
      | some ((s', idx'), g) => getGeneratorsAux fuel s' idx' (gens ++ [g])

/-- `get_generators` (pointgroup.py:665-668).  The recursion gets as fuel the number of keys. -/
def getGenerators (s : PgSymbol) (idx : ℕ) : Except PyErr (List ℕ) :=
  getGeneratorsAux PgSymbol.all.length s idx []

variable {n : ℕ}

/-- The loop over `std_rotations` (pointgroup.py:706-712), from position `i` on.  `.ok none` is
`success = False`; assigning to `mapping[i]` for `i >= order` is an `IndexError`. -/
def matchLoop (matched : Fin n → M3) : ℕ → List M3 → Except PyErr (Option (List (Fin n)))
  | _, [] => .ok (some [])
  | i, r :: rest =>
    match indexOf? matched r with
    | none => .ok none
    | some j =>
      if i < n then do
        let m ← matchLoop matched (i + 1) rest
        return m.map (j :: ·)
      else .error .indexError

/-- `mapping[g]` for a list and a natural number: an `IndexError` beyond the end. -/
def listGet (mapping : List ℤ) (g : ℕ) : Except PyErr ℤ :=
  match mapping[g]? with
  | some j => .ok j
  | none => .error .indexError

/-- The loop over the settings (pointgroup.py:702-715), from setting `idx` on.  `mapping` is filled up
with `-1`. -/
def settingLoop (s : PgSymbol) (matched : Fin n → M3) : ℕ → List (List PgMat) → Except PyErr (List ℤ)
  | _, [] => .ok []
  | idx, std :: rest => do
    match ← matchLoop matched 0 (std.map PgMat.toM3) with
    | none => settingLoop s matched (idx + 1) rest
    | some js =>
      let mapping : List ℤ := js.map (fun j : Fin n => ((j : ℕ) : ℤ)) ++ List.replicate (n - js.length) (-1)
      let gens ← getGenerators s idx
      gens.mapM (listGet mapping)

open Classical in
/-- `get_pointgroup_chain_generators` (pointgroup.py:681-718).  `spg` is the answer of
`spglib.get_pointgroup` (symbol and transformation matrix).  `np.linalg.inv` of a singular matrix
raises `LinAlgError`, a `ValueError`.  The last lines do not raise (`ValueError(...)` without `raise`)
and return the empty list. -/
noncomputable def getPointgroupChainGenerators (spg : PgSymbol × Matrix (Fin 3) (Fin 3) ℝ)
    (rots : Fin n → M3) : Except PyErr (List ℤ) :=
  let P := spg.2
  if P.det = 0 then .error .valueError
  else
    let matched := fun i => toIntegerTuple (P⁻¹ * (rots i).map (fun x : ℤ => (x : ℝ)) * P)
    settingLoop spg.1 matched 0 (pgDataset spg.1)

end Spgrep
