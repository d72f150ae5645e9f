/-
Independent vocabulary: powers, finite matrix groups given as lists, solvable chains.
-/
import Mathlib.Data.Nat.Prime.Basic
import Mathlib.Data.Matrix.Mul
import Mathlib.LinearAlgebra.Matrix.Determinant.Basic

namespace Spgrep.Spec

/-- `m`-th power for a given multiplication and unit. -/
def power {M : Type*} (mul : M → M → M) (one r : M) : ℕ → M
  | 0 => one
  | m + 1 => mul (power mul one r m) r

/-- `IsSolvableChain mul one gens G`: reading `gens` from last to first, each generator `r` extends the
subgroup `H` reached so far to `{r^m h}`; `r` has order `p ≥ 2`, normalises `H`, `r^m ∉ H` for
`0 < m < p`, and `H` is trivial or `p` is prime.  The last subgroup is `G`. -/
inductive IsSolvableChain {M : Type*} (mul : M → M → M) (one : M) : List M → Set M → Prop
  | nil : IsSolvableChain mul one [] {one}
  | cons {gens : List M} {H : Set M} {r : M} {p : ℕ} (hH : IsSolvableChain mul one gens H) (hp : 2 ≤ p)
      (hone : power mul one r p = one) (hout : ∀ m, 0 < m → m < p → power mul one r m ∉ H)
      (hnorm : ∀ h ∈ H, ∃ h' ∈ H, mul h r = mul r h')
      (hprime : H = {one} ∨ p.Prime) :
      IsSolvableChain mul one (r :: gens) {x | ∃ m < p, ∃ h ∈ H, x = mul (power mul one r m) h}

/-- A list of distinct unimodular integer matrices that is a group, identity first. -/
structure IsGroupList (L : List (Matrix (Fin 3) (Fin 3) ℤ)) : Prop where
  nodup : L.Nodup
  head : L.head? = some 1
  det : ∀ a ∈ L, a.det = 1 ∨ a.det = -1
  mul : ∀ a ∈ L, ∀ b ∈ L, a * b ∈ L
  inv : ∀ a ∈ L, ∃ b ∈ L, a * b = 1 ∧ b * a = 1

end Spgrep.Spec
