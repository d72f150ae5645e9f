/-
C102: the outcomes of `check_spacegroup_representation` for arbitrary operations, including lists that are not closed.
-/
import Verif.Props.Representation

namespace Spgrep

open Spec

variable {n d : ℕ}

/-- The pairs of operations in the order of the two loops. -/
def EarlierPair (q p : Fin n × Fin n) : Prop := q.1 < p.1 ∨ q.1 = p.1 ∧ q.2 < p.2

/-- `l` is the first position of the rotation part of the product of the operations `i` and `j`. -/
def IsFirstProduct (rots : Fin n → M3) (i j l : Fin n) : Prop :=
  rots l = rots i * rots j ∧ ∀ m < l, rots m ≠ rots i * rots j

/-- The law of the space group for one pair of operations whose product has the rotation part of operation `l`, within the
tolerances of `np.allclose`. -/
def PairClose (rots : Fin n → M3) (trans : Fin n → V3) (k : V3) (rep : RepArr n d) (z : Fin n → Fin n → ℂ) (rtol : ℝ)
    (i j l : Fin n) : Prop :=
  ∀ a b, ‖z i j * Complex.exp (-2 * Real.pi * Complex.I *
      ((∑ x, k x * ((∑ y, (rots i x y : ℝ) * trans j y) + trans i x - trans l x) : ℝ) : ℂ)) * rep l a b -
    ∑ c, rep i a c * rep j c b‖ ≤ 1e-8 + rtol * ‖∑ c, rep i a c * rep j c b‖

theorem pairs_sorted : ((List.finRange n).flatMap fun i => (List.finRange n).map fun j => (i, j)).Pairwise EarlierPair := by
  rw [List.pairwise_flatMap]
  refine ⟨fun i _ => ?_, ?_⟩
  · rw [List.pairwise_map]
    exact (List.pairwise_lt_finRange n).imp fun h => .inr ⟨rfl, h⟩
  · refine (List.pairwise_lt_finRange n).imp fun h => ?_
    simp only [List.mem_map, forall_exists_index, and_imp]
    rintro _ j - rfl _ j' - rfl
    exact .inl h

theorem pairs_split {p : Fin n × Fin n} {P : Fin n × Fin n → Prop} :
    (∃ l₁ l₂, (List.finRange n).flatMap (fun i => (List.finRange n).map fun j => (i, j)) = l₁ ++ p :: l₂ ∧ ∀ q ∈ l₁, P q) ↔
      ∀ q, EarlierPair q p → P q := by
  have hmem : ∀ q : Fin n × Fin n, q ∈ (List.finRange n).flatMap (fun i => (List.finRange n).map fun j => (i, j)) := by
    intro q; simp
  constructor
  · rintro ⟨l₁, l₂, he, h⟩ q hq
    have hs := pairs_sorted (n := n)
    rw [he, List.pairwise_append, List.pairwise_cons] at hs
    have hm := hmem q
    rw [he, List.mem_append, List.mem_cons] at hm
    rcases hm with hm | rfl | hm
    · exact h q hm
    · rcases hq with hq | ⟨-, hq⟩ <;> exact absurd hq (lt_irrefl _)
    · have := hs.2.1.1 q hm
      rcases hq with hq | ⟨h1, hq⟩ <;> rcases this with h3 | ⟨h4, h3⟩
      · exact absurd (hq.trans h3) (lt_irrefl _)
      · rw [h4] at hq; exact absurd hq (lt_irrefl _)
      · rw [h1] at h3; exact absurd h3 (lt_irrefl _)
      · exact absurd (hq.trans h3) (lt_irrefl _)
  · intro h
    obtain ⟨l₁, l₂, he⟩ := List.append_of_mem (hmem p)
    refine ⟨l₁, l₂, he, fun q hq => h q ?_⟩
    have hs := pairs_sorted (n := n)
    rw [he, List.pairwise_append] at hs
    exact hs.2.2 q hq p List.mem_cons_self

theorem isFirstProduct_iff {rots : Fin n → M3} {i j l : Fin n} :
    indexOf? rots (rots i * rots j) = some l ↔ IsFirstProduct rots i j l := by
  rw [indexOf?_eq_some]; rfl

theorem pairClose_iff {rots : Fin n → M3} {trans : Fin n → V3} {k : V3} {rep : RepArr n d} {z : Option (Fin n → Fin n → ℂ)}
    {rtol : ℝ} {i j l : Fin n} : PairClose rots trans k rep (z.getD fun _ _ => 1) rtol i j l ↔
      ∀ a b, IsCloseC rtol 1e-8 ((z.getD fun _ _ => 1) i j *
        expPhase (dot3 k fun x => rotVec (rots i) (trans j) x + trans i x - trans l x) * rep l a b) ((rep i * rep j) a b) := by
  unfold PairClose IsCloseC
  simp only [Matrix.mul_apply, expPhase_spec]
  rfl

/-- **C102.** `check_spacegroup_representation` for arbitrary operations, matrices and factors.  Let a pair be good when the
product is listed and the law holds within the tolerances.  The result is `True` exactly when all pairs are good, `False`
exactly when the first pair that is not good has its product listed, and `ValueError` exactly when it has not.  There is no
other outcome. -/
theorem c102_check_outcomes (rots : Fin n → M3) (trans : Fin n → V3) (k : V3) (rep : RepArr n d)
    (z : Option (Fin n → Fin n → ℂ)) (rtol : ℝ) :
    let Good : Fin n × Fin n → Prop := fun p => ∃ l, IsFirstProduct rots p.1 p.2 l ∧
      PairClose rots trans k rep (z.getD fun _ _ => 1) rtol p.1 p.2 l
    (checkSpacegroupRep rots trans k rep z rtol = .ok true ↔ ∀ p, Good p) ∧
    (checkSpacegroupRep rots trans k rep z rtol = .ok false ↔ ∃ p, (∀ q, EarlierPair q p → Good q) ∧
      ∃ l, IsFirstProduct rots p.1 p.2 l ∧ ¬PairClose rots trans k rep (z.getD fun _ _ => 1) rtol p.1 p.2 l) ∧
    (checkSpacegroupRep rots trans k rep z rtol = .error .valueError ↔ ∃ p, (∀ q, EarlierPair q p → Good q) ∧
      ∀ l, rots l ≠ rots p.1 * rots p.2) ∧
    ∀ e, checkSpacegroupRep rots trans k rep z rtol = .error e → e = .valueError := by
  intro Good
  have hgood : ∀ p, spacegroupPair rots trans k rep z rtol p = .ok true ↔ Good p := by
    intro p
    simp only [Good, pairClose_iff, ← isFirstProduct_iff]
    unfold spacegroupPair
    rcases indexOf? rots (rots p.1 * rots p.2) with _ | l <;> simp
  have hfalse : ∀ p, spacegroupPair rots trans k rep z rtol p = .ok false ↔ ∃ l, IsFirstProduct rots p.1 p.2 l ∧
      ¬PairClose rots trans k rep (z.getD fun _ _ => 1) rtol p.1 p.2 l := by
    intro p
    simp only [pairClose_iff, ← isFirstProduct_iff]
    unfold spacegroupPair
    rcases indexOf? rots (rots p.1 * rots p.2) with _ | l <;> simp
  have herr : ∀ p e, spacegroupPair rots trans k rep z rtol p = .error e ↔ e = .valueError ∧ ∀ l, rots l ≠ rots p.1 * rots p.2 := by
    intro p e
    have h1 : indexOf? rots (rots p.1 * rots p.2) = none ↔ ∀ l, rots l ≠ rots p.1 * rots p.2 := by
      rw [← Option.not_isSome_iff_eq_none, indexOf?_isSome]; simp
    rw [← h1]
    unfold spacegroupPair
    rcases indexOf? rots (rots p.1 * rots p.2) with _ | l
    · simp [eq_comm]
    · simp
  have hstop : ∀ r, r ≠ .ok true → (checkSpacegroupRep rots trans k rep z rtol = r ↔ ∃ p, (∀ q, EarlierPair q p → Good q) ∧
      spacegroupPair rots trans k rep z rtol p = r) := by
    intro r hr
    unfold checkSpacegroupRep
    rw [allLoop_stop_iff hr]
    constructor
    · rintro ⟨l₁, p, l₂, h1, h2, h3⟩
      exact ⟨p, pairs_split.1 ⟨l₁, l₂, h1, fun q hq => (hgood q).1 (h2 q hq)⟩, h3⟩
    · rintro ⟨p, h1, h2⟩
      obtain ⟨l₁, l₂, h3, h4⟩ := pairs_split.2 h1
      exact ⟨l₁, p, l₂, h3, fun q hq => (hgood q).2 (h4 q hq), h2⟩
  refine ⟨?_, ?_, ?_, ?_⟩
  · unfold checkSpacegroupRep
    rw [allLoop_true_iff]
    constructor
    · intro h p
      exact (hgood p).1 (h p (by simp))
    · intro h p _
      exact (hgood p).2 (h p)
  · rw [hstop _ (by simp)]
    simp only [hfalse]
  · rw [hstop _ (by simp)]
    simp only [herr, true_and]
  · intro e he
    obtain ⟨p, -, hp⟩ := (hstop _ (by simp)).1 he
    exact ((herr p e).1 hp).1

/-- The two operations `E`, `4` are not closed.  With the matrices `1`, `1` the pairs before `(4, 4)` are good and the
function raises `ValueError`; with `2`, `2` already the pair `(E, E)` is not good, and the function returns `False` before
it looks for the missing product. -/
example : checkSpacegroupRep ![1, rotsC4 1] (fun _ _ => 0) 0 (fun _ => (1 : Matrix (Fin 1) (Fin 1) ℂ)) none 1e-5 =
      .error .valueError ∧
    checkSpacegroupRep ![1, rotsC4 1] (fun _ _ => 0) 0 (fun _ => (2 : Matrix (Fin 1) (Fin 1) ℂ)) none 1e-5 = .ok false := by
  have hfirst : ∀ i j : Fin 2, i ≠ 1 ∨ j ≠ 1 → ∃ l, IsFirstProduct ![1, rotsC4 1] i j l := by
    intro i j h
    unfold IsFirstProduct
    revert i j
    decide +kernel
  have hmiss : ∀ l, (![1, rotsC4 1] : Fin 2 → M3) l ≠ ![1, rotsC4 1] (1 : Fin 2) * ![1, rotsC4 1] (1 : Fin 2) := by
    decide +kernel
  constructor
  · refine (c102_check_outcomes _ _ _ _ _ _).2.2.1.2 ⟨(1, 1), fun q hq => ?_, hmiss⟩
    obtain ⟨l, hl⟩ := hfirst q.1 q.2 (by rcases hq with h | ⟨-, h⟩; exacts [.inl h.ne, .inr h.ne])
    refine ⟨l, hl, fun a b => ?_⟩
    obtain rfl : a = 0 := Subsingleton.elim _ _
    obtain rfl : b = 0 := Subsingleton.elim _ _
    norm_num [Matrix.one_apply]
  · obtain ⟨l, hl⟩ := hfirst 0 0 (by simp)
    refine (c102_check_outcomes _ _ _ _ _ _).2.1.2 ⟨(0, 0), fun q hq => ?_, l, hl, fun h => ?_⟩
    · rcases hq with h | ⟨-, h⟩ <;> exact absurd h (by simp)
    · have := h 0 0
      norm_num [Matrix.ofNat_apply] at this

end Spgrep
