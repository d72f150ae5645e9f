/-
Independent vocabulary for centred lattices and Hall numbers.
-/
import Verif.Spec.Group
import Mathlib.Data.Real.Basic
import Mathlib.Data.Fin.VecNotation
import Mathlib.Data.Matrix.Basic
import Mathlib.Data.Matrix.Mul

namespace Spgrep.Spec

/-- Centring types of conventional cells; `R` is the obverse setting on hexagonal axes. -/
inductive Centring where
  | P | A | B | C | I | F | R
  deriving DecidableEq, Repr

/-- The centring vectors of the International Tables (Vol. A, Table 2.1.1.2), other than zero. -/
noncomputable def Centring.vectors : Centring → List (Fin 3 → ℝ)
  | .P => []
  | .A => [![0, 1 / 2, 1 / 2]]
  | .B => [![1 / 2, 0, 1 / 2]]
  | .C => [![1 / 2, 1 / 2, 0]]
  | .I => [![1 / 2, 1 / 2, 1 / 2]]
  | .F => [![0, 1 / 2, 1 / 2], ![1 / 2, 0, 1 / 2], ![1 / 2, 1 / 2, 0]]
  | .R => [![2 / 3, 1 / 3, 1 / 3], ![1 / 3, 2 / 3, 2 / 3]]

/-- The translation lattice of a centred cell: all integer vectors plus zero or one of the centring vectors. -/
def centredLattice (c : Centring) : Set (Fin 3 → ℝ) :=
  {x | ∃ v, (v = 0 ∨ v ∈ c.vectors) ∧ ∀ a, ∃ m : ℤ, x a = v a + m}

/-- All integer combinations of the columns of `P`. -/
def columnLattice (P : Matrix (Fin 3) (Fin 3) ℝ) : Set (Fin 3 → ℝ) :=
  {x | ∃ m : Fin 3 → ℤ, ∀ a, x a = ∑ b, P a b * m b}

/-- The centring letter of a Hall symbol, which may be preceded by a minus sign. -/
def centringLetter (c : Centring) : Char :=
  match c with
  | .P => 'P' | .A => 'A' | .B => 'B' | .C => 'C' | .I => 'I' | .F => 'F' | .R => 'R'

/-- The Hall symbol `s` starts with the centring letter `c` (after an optional minus sign). -/
def HasCentring (s : List Char) (c : Char) : Prop :=
  (∃ rest, s = c :: rest ∧ c ≠ '-') ∨ ∃ rest, s = '-' :: c :: rest

/-- The centring of the standard setting with a given Hall number: trigonal numbers (430 to 461) are described
by the choice of axes (`H`: hexagonal axes of a rhombohedral lattice; none or `R`: a primitive cell), all others
by the Hall symbol. -/
def DescribesCentring (hall : ℤ) (choice symbol : List Char) (c : Centring) : Prop :=
  if 430 ≤ hall ∧ hall ≤ 461 then (c = .R ∧ choice = ['H']) ∨ (c = .P ∧ (choice = [] ∨ choice = ['R']))
  else c ≠ .R ∧ HasCentring symbol (centringLetter c)

/-- `R` fixes `k` modulo the reciprocal of the lattice generated by the columns of `P`: `(Rᵀk - k)·x` is an
integer for every lattice vector `x`. -/
def FixesKLattice (P : Matrix (Fin 3) (Fin 3) ℝ) (R : Matrix (Fin 3) (Fin 3) ℤ) (k : Fin 3 → ℝ) : Prop :=
  ∀ x ∈ columnLattice P, ∃ m : ℤ, ∑ a, ((∑ b, (R b a : ℝ) * k b) - k a) * x a = m

/-- Operations written in a conventional basis for the lattice generated by the columns of `P`: the rotations
are integral in that lattice, and operations with equal rotation differ by a lattice vector. -/
def IsConventional {n : ℕ} (P : Matrix (Fin 3) (Fin 3) ℝ) (rots : Fin n → Matrix (Fin 3) (Fin 3) ℤ)
    (trans : Fin n → Fin 3 → ℝ) : Prop :=
  (∀ i, ∃ S : Matrix (Fin 3) (Fin 3) ℤ, (rots i).map (fun x => (x : ℝ)) * P = P * S.map (fun x => (x : ℝ))) ∧
  ∀ i j, rots i = rots j → trans i - trans j ∈ columnLattice P

/-- Coset representatives, modulo the lattice generated by the integer vectors, of a space group whose full lattice
is generated by the columns of `P`, written in a conventional basis: the rotations form a group and are integral in
the lattice, and products of representatives agree with representatives up to lattice vectors. -/
def IsConventionalGroup {n : ℕ} (P : Matrix (Fin 3) (Fin 3) ℝ) (rots : Fin n → Matrix (Fin 3) (Fin 3) ℤ)
    (trans : Fin n → Fin 3 → ℝ) : Prop :=
  (∃ H : Subgroup (GL (Fin 3) ℤ), Set.range rots = (fun g : GL (Fin 3) ℤ => (g : Matrix _ _ ℤ)) '' H) ∧
  (∀ i, ∃ S : Matrix (Fin 3) (Fin 3) ℤ, (rots i).map (fun x => (x : ℝ)) * P = P * S.map (fun x => (x : ℝ))) ∧
  ∀ i j l, rots i * rots j = rots l →
    (fun a => (∑ b, (rots i a b : ℝ) * trans j b) + trans i a - trans l a) ∈ columnLattice P

end Spgrep.Spec
