/-
A condition on chains of generators under which the irreps built along the chain have simple entries.
-/
import Mathlib.Data.List.Basic

namespace Spgrep

/-! ### What is needed of the chain -/

section nice
variable {M N : Type*}

/-- The next generator `r` and the earlier ones `L`.  Either the earlier ones commute, and `r` commutes with them, or
they are involutions, or `r` is an involution inverting them; or `r` is an involution commuting with them; or `r` is an
involution and all earlier generators but the last added one `c` are commuting involutions that generate a subgroup `V`
normalised by `r`, `c` is of order three, `c` is inverted by `r` up to `V`, and the generators of `V` are commutators
of `c` with elements of `V`. -/
def NiceStep (mul : M → M → M) (one r : M) (L : List M) : Prop :=
  ((∀ a ∈ L, ∀ b ∈ L, mul a b = mul b a) ∧ ((∀ a ∈ L, mul a r = mul r a) ∨ (∀ a ∈ L, mul a a = one) ∨
    (mul r r = one ∧ ∀ a ∈ L, mul a (mul r a) = r))) ∨
  (mul r r = one ∧ ∀ a ∈ L, mul a r = mul r a) ∨
  (mul r r = one ∧ (∀ a ∈ L.tail, ∀ b ∈ L.tail, mul a b = mul b a) ∧
    (∀ a ∈ L.tail, mul a a = one ∧ ∃ u ∈ L.tail, ∃ v ∈ L.tail, mul a r = mul r u ∨ mul a r = mul r (mul u v)) ∧
    ∀ c ∈ L.take 1, mul c (mul c c) = one ∧
      (mul c (mul r c) = r ∨
        ∃ u ∈ L.tail, ∃ v ∈ L.tail, mul c (mul r c) = mul r u ∨ mul c (mul r c) = mul r (mul u v)) ∧
      ∀ a ∈ L.tail, ∃ u ∈ L.tail, ∃ v ∈ L.tail, mul a (mul u c) = mul c u ∨
        mul a (mul (mul u v) c) = mul c (mul u v))

/-- All steps of a chain. -/
def Nice (mul : M → M → M) (one : M) : List M → Prop
  | [] => True
  | r :: L => NiceStep mul one r L ∧ Nice mul one L

instance [DecidableEq M] (mul : M → M → M) (one r : M) (L : List M) : Decidable (NiceStep mul one r L) := by
  unfold NiceStep; infer_instance

instance instDecidableNice [DecidableEq M] (mul : M → M → M) (one : M) : ∀ L : List M, Decidable (Nice mul one L)
  | [] => isTrue trivial
  | r :: L => by
    have := instDecidableNice mul one L
    unfold Nice
    infer_instance

theorem niceStep_map {mul : M → M → M} {one : M} {mul' : N → N → N} {one' : N} {f : M → N}
    (hf : Function.Injective f) (hmul : ∀ a b, f (mul a b) = mul' (f a) (f b)) (hone : f one = one') (r : M)
    (L : List M) : NiceStep mul' one' (f r) (L.map f) ↔ NiceStep mul one r L := by
  unfold NiceStep
  simp only [← List.map_tail, ← List.map_take, List.forall_mem_map]
  simp only [List.mem_map, exists_exists_and_eq_and, ← hmul, ← hone, hf.eq_iff]

theorem nice_map {mul : M → M → M} {one : M} {mul' : N → N → N} {one' : N} {f : M → N}
    (hf : Function.Injective f) (hmul : ∀ a b, f (mul a b) = mul' (f a) (f b)) (hone : f one = one')
    (L : List M) : Nice mul' one' (L.map f) ↔ Nice mul one L := by
  induction L with
  | nil => exact Iff.rfl
  | cons r L ih =>
    rw [List.map_cons, Nice, Nice, niceStep_map hf hmul hone, ih]

end nice

end Spgrep
