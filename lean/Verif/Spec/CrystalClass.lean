/-
The 32 geometric crystal classes by the numbers of their operations of each type.
-/
import Verif.Model.Pointgroup

namespace Spgrep.Spec

open PgSymbol

/-- The types -6, -4, -3, m, -1, 1, 2, 3, 4, 6 of crystallographic operations as pairs (determinant, trace)
(International Tables A, Table 11.2.1.1). -/
def rotTypes : List (ℤ × ℤ) :=
  [(-1, -2), (-1, -1), (-1, 0), (-1, 1), (-1, -3), (1, 3), (1, -1), (1, 0), (1, 1), (1, 2)]

/-- The numbers of operations of each type in a list. -/
def typeCounts (l : List M3) : List ℕ :=
  rotTypes.map fun t => l.countP fun R => decide (R.det = t.1 ∧ R.trace = t.2)

/-- The numbers of operations of types -6, -4, -3, m, -1, 1, 2, 3, 4, 6 in the crystal classes. -/
def classCounts : PgSymbol → List ℕ
  | pg_1 => [0, 0, 0, 0, 0, 1, 0, 0, 0, 0]
  | pg_b1 => [0, 0, 0, 0, 1, 1, 0, 0, 0, 0]
  | pg_2 => [0, 0, 0, 0, 0, 1, 1, 0, 0, 0]
  | pg_m => [0, 0, 0, 1, 0, 1, 0, 0, 0, 0]
  | pg_2_m => [0, 0, 0, 1, 1, 1, 1, 0, 0, 0]
  | pg_222 => [0, 0, 0, 0, 0, 1, 3, 0, 0, 0]
  | pg_mm2 => [0, 0, 0, 2, 0, 1, 1, 0, 0, 0]
  | pg_mmm => [0, 0, 0, 3, 1, 1, 3, 0, 0, 0]
  | pg_4 => [0, 0, 0, 0, 0, 1, 1, 0, 2, 0]
  | pg_b4 => [0, 2, 0, 0, 0, 1, 1, 0, 0, 0]
  | pg_4_m => [0, 2, 0, 1, 1, 1, 1, 0, 2, 0]
  | pg_422 => [0, 0, 0, 0, 0, 1, 5, 0, 2, 0]
  | pg_4mm => [0, 0, 0, 4, 0, 1, 1, 0, 2, 0]
  | pg_b42m => [0, 2, 0, 2, 0, 1, 3, 0, 0, 0]
  | pg_4_mmm => [0, 2, 0, 5, 1, 1, 5, 0, 2, 0]
  | pg_3 => [0, 0, 0, 0, 0, 1, 0, 2, 0, 0]
  | pg_b3 => [0, 0, 2, 0, 1, 1, 0, 2, 0, 0]
  | pg_32 => [0, 0, 0, 0, 0, 1, 3, 2, 0, 0]
  | pg_3m => [0, 0, 0, 3, 0, 1, 0, 2, 0, 0]
  | pg_b3m => [0, 0, 2, 3, 1, 1, 3, 2, 0, 0]
  | pg_6 => [0, 0, 0, 0, 0, 1, 1, 2, 0, 2]
  | pg_b6 => [2, 0, 0, 1, 0, 1, 0, 2, 0, 0]
  | pg_6_m => [2, 0, 2, 1, 1, 1, 1, 2, 0, 2]
  | pg_622 => [0, 0, 0, 0, 0, 1, 7, 2, 0, 2]
  | pg_6mm => [0, 0, 0, 6, 0, 1, 1, 2, 0, 2]
  | pg_b6m2 => [2, 0, 0, 4, 0, 1, 3, 2, 0, 0]
  | pg_6_mmm => [2, 0, 2, 7, 1, 1, 7, 2, 0, 2]
  | pg_23 => [0, 0, 0, 0, 0, 1, 3, 8, 0, 0]
  | pg_mb3 => [0, 0, 8, 3, 1, 1, 3, 8, 0, 0]
  | pg_432 => [0, 0, 0, 0, 0, 1, 9, 8, 6, 0]
  | pg_b43m => [0, 6, 0, 6, 0, 1, 3, 8, 0, 0]
  | pg_mb3m => [0, 6, 8, 9, 1, 1, 9, 8, 6, 0]

end Spgrep.Spec
