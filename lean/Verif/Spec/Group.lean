/-
Independent vocabulary for the group-theoretic properties.  Nothing here refers to the model.
-/
import Mathlib.LinearAlgebra.Matrix.GeneralLinearGroup.Defs
import Mathlib.Data.ZMod.Basic
import Mathlib.Data.Real.Basic

namespace Spgrep.Spec

/-- The list `rots[0..n-1]` enumerates, without repetition, a group of unimodular integer matrices. -/
def EnumeratesGroup {n : ℕ} (rots : Fin n → Matrix (Fin 3) (Fin 3) ℤ) : Prop :=
  Function.Injective rots ∧
    ∃ H : Subgroup (GL (Fin 3) ℤ), Set.range rots = (fun g : GL (Fin 3) ℤ => (g : Matrix _ _ ℤ)) '' H

/-- The list of pairs (rotation, time-reversal flag) enumerates a magnetic point group: flags are
0/1, the pairs are distinct and are exactly the elements of a subgroup of `GL(3,ℤ) × {1, 1'}`. -/
def EnumeratesMagneticGroup {n : ℕ} (rots : Fin n → Matrix (Fin 3) (Fin 3) ℤ) (trs : Fin n → ℤ) :
    Prop :=
  (Function.Injective fun i => (rots i, trs i)) ∧ (∀ i, trs i = 0 ∨ trs i = 1) ∧
    ∃ H : Subgroup (GL (Fin 3) ℤ × Multiplicative (ZMod 2)),
      (Set.range fun i => (rots i, ((trs i : ℤ) : ZMod 2))) =
        (fun g : GL (Fin 3) ℤ × Multiplicative (ZMod 2) => ((g.1 : Matrix _ _ ℤ), g.2.toAdd)) '' H

/-- `T` is the multiplication table of a group structure on the indices. -/
structure IsGroupTable {n : ℕ} (T : Fin n → Fin n → Fin n) : Prop where
  assoc : ∀ a b c, T (T a b) c = T a (T b c)
  one_inv : ∃ e, (∀ a, T e a = a) ∧ (∀ a, T a e = a) ∧ ∀ a, ∃ b, T a b = e ∧ T b a = e

end Spgrep.Spec
