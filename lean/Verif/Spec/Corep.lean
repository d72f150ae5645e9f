/-
Independent vocabulary for co-representations: linear and anti-linear operators.
-/
import Verif.Spec.SpaceGroup
import Verif.Spec.Spinor

namespace Spgrep.Spec

variable {n : ℕ}

/-- Complex conjugation when the flag is set. -/
def conjIf (a : Bool) (z : ℂ) : ℂ := if a then star z else z

/-- Entrywise complex conjugation when the flag is set. -/
def conjIfM {ι : Type*} (a : Bool) (M : Matrix ι ι ℂ) : Matrix ι ι ℂ := if a then M.map star else M

/-- Operation `l` is the product of the magnetic operations `i` and `j` (flag 1: with time reversal). -/
def IsProduct (rots : Fin n → Matrix (Fin 3) (Fin 3) ℤ) (trs : Fin n → ℤ) (i j l : Fin n) : Prop :=
  rots i * rots j = rots l ∧ (trs l = 1 ↔ trs i ≠ trs j)

/-- The cocycle condition with anti-linear operators: `a i` says that operation `i` is anti-linear. -/
def IsAntiCocycle (T : Fin n → Fin n → Fin n) (a : Fin n → Bool) (ω : Fin n → Fin n → ℂ) : Prop :=
  ∀ i j k, ω i (T j k) * conjIf (a i) (ω j k) = ω (T i j) k * ω i j

/-- The law of a (projective) co-representation: `D_i D_j = ω(i,j) D_ij`, with `D_j` conjugated when `i` is anti-linear. -/
def CorepLaw {ι : Type*} [Fintype ι] (T : Fin n → Fin n → Fin n) (a : Fin n → Bool) (ω : Fin n → Fin n → ℂ)
    (D : Fin n → Matrix ι ι ℂ) : Prop :=
  ∀ i j, D i * conjIfM (a i) (D j) = ω i j • D (T i j)

/-- Magnetic operations `(R_i, w_i, θ_i)` which are coset representatives, modulo the lattice `ℤ³`, of a magnetic space
group written in a primitive basis (of the space group lattice and not of the lattice of anti-translations): products agree
with representatives up to an integer translation. -/
def IsMagneticSpaceGroup (rots : Fin n → Matrix (Fin 3) (Fin 3) ℤ) (trans : Fin n → Fin 3 → ℝ) (trs : Fin n → ℤ) : Prop :=
  EnumeratesMagneticGroup rots trs ∧ ∀ i j l, IsProduct rots trs i j l → ∀ a, ∃ m : ℤ,
    (∑ b, (rots i a b : ℝ) * trans j b) + trans i a - trans l a = m

/-- A list of magnetic operations `(R_i, w_i, θ_i)`, possibly in a centred cell: the rotations are invertible, operations
with equal rotation and flag have translations which differ by more than `δ` modulo integers, and every product of two
operations is in the list, up to an integer translation. -/
structure IsMagneticOperations (δ : ℝ) (rots : Fin n → Matrix (Fin 3) (Fin 3) ℤ) (trans : Fin n → Fin 3 → ℝ)
    (trs : Fin n → ℤ) : Prop where
  flag : ∀ i, trs i = 0 ∨ trs i = 1
  det : ∀ i, IsUnit (rots i).det
  distinct : ∀ i j, rots i = rots j → trs i = trs j → (∀ a, ∃ m : ℤ, |trans i a - trans j a - m| ≤ δ) → i = j
  closed : ∀ i j, ∃ l, IsProduct rots trs i j l ∧
    ∀ a, ∃ m : ℤ, (∑ b, (rots i a b : ℝ) * trans j b) + trans i a - trans l a = m

end Spgrep.Spec
