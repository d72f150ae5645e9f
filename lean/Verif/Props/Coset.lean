/-
C47: the coset decomposition of a magnetic space group (group.py:205-264).
-/
import Verif.Model.Group
import Verif.Spec.Corep
import Verif.Proofs.Numeric
import Verif.Proofs.Corep

namespace Spgrep

open Spec

variable {n : ℕ}

/-- Integers below 100000 which numpy calls close are equal. -/
theorem int_eq_of_isClose {x y : ℤ} (h : IsClose 1e-5 1e-8 x y) (hy : |y| ≤ 99999) : x = y := by
  unfold IsClose at h
  have h1 : |(y : ℝ)| ≤ 99999 := by exact_mod_cast hy
  have h2 : |((x - y : ℤ) : ℝ)| < 1 := by
    rw [Int.cast_sub]
    norm_num at h
    linarith
  have h3 : |x - y| < 1 := by exact_mod_cast h2
  have h4 := Int.abs_lt_one_iff.1 h3
  omega

theorem isClose_self (x : ℝ) : IsClose 1e-5 1e-8 x x := by
  unfold IsClose
  rw [sub_self, abs_zero]
  positivity

/-- The test of translations holds when they differ by integers. -/
theorem transClose_of_int {x y : V3} (h : ∀ a, ∃ m : ℤ, x a - y a = m) : TransClose x y := by
  intro a
  obtain ⟨m, hm⟩ := h a
  dsimp only
  rw [hm, Int.fract_intCast, rint_zero]
  simpa using isClose_self 0

/-- Translations which pass the test differ by at most `1e-8` modulo integers. -/
theorem transClose_dist {x y : V3} (h : TransClose x y) (a : Fin 3) : ∃ m : ℤ, |x a - y a - m| ≤ 1e-8 := by
  have h1 := h a
  unfold IsClose at h1
  refine ⟨⌊x a - y a⌋ + rint (Int.fract (x a - y a)), ?_⟩
  rw [sub_zero, abs_zero, mul_zero, add_zero] at h1
  have h2 : x a - y a - ((⌊x a - y a⌋ + rint (Int.fract (x a - y a)) : ℤ) : ℝ) =
      Int.fract (x a - y a) - rint (Int.fract (x a - y a)) := by
    rw [Int.cast_add]
    nth_rewrite 2 [← Int.self_sub_floor]
    ring
  rw [h2]
  exact h1

theorem filterMap_eq_map_of_some {α β : Type*} {f : α → Option β} {g : α → β} {l : List α}
    (h : ∀ x ∈ l, f x = some (g x)) : l.filterMap f = l.map g := by
  induction l with
  | nil => rfl
  | cons a l ih =>
    rw [List.filterMap_cons, h a (List.mem_cons_self ..), List.map_cons, ih fun x hx => h x (List.mem_cons_of_mem _ hx)]

/-- A predicate with a unique witness. -/
theorem find?_unique {p : Fin n → Bool} {j : Fin n} (hj : p j = true) (h : ∀ i, p i = true → i = j) :
    (List.finRange n).find? p = some j := by
  have h1 : ((List.finRange n).find? p).isSome := by
    rw [List.find?_isSome]
    exact ⟨j, List.mem_finRange j, hj⟩
  obtain ⟨i, hi⟩ := Option.isSome_iff_exists.1 h1
  rw [hi, h i (List.find?_some hi)]

open Classical in
/-- C47, except for type-I groups: for every list of magnetic operations (also in a centred cell) with at least one time
reversal, whose rotations have entries below 100000, `decompose_by_maximal_space_subgroup` returns exactly the indices without
time reversal, an index `a0` with time reversal, and a list which has at every position the product of the operation of the first list
with `a0` and which contains every operation with time reversal once.

Missing: the case of a type-I group, see `c47_type_one_refuted`. -/
theorem c47_coset_decomposition_partial {rots : Fin n → M3} {trans : Fin n → V3} {trs : Fin n → ℤ}
    (h : IsMagneticOperations 1e-8 rots trans trs) (htr : ∃ i, trs i = 1) (hb : ∀ i a b, |rots i a b| ≤ 99999) :
    ∃ xsg tr a0, decomposeByXSG rots trans trs = .ok (some (xsg, tr, a0)) ∧ trs a0 = 1 ∧
      xsg.Nodup ∧ (∀ i, i ∈ xsg ↔ trs i = 0) ∧ tr.Nodup ∧ (∀ i, i ∈ tr ↔ trs i = 1) ∧
      List.Forall₂ (fun i j => rots i * rots a0 = rots j ∧
        ∀ a, ∃ m : ℤ, (∑ b, (rots i a b : ℝ) * trans a0 b) + trans i a - trans j a = m) xsg tr := by
  -- the square of an operation has flag 0
  have hnot : ¬ ∀ i, trs i = 1 := by
    obtain ⟨i, hi⟩ := htr
    obtain ⟨l, hl, -⟩ := h.closed i i
    intro hall
    exact (hl.2.1 (hall l)) rfl
  have hfind : ((List.finRange n).find? fun i => decide (trs i ≠ 0)).isSome := by
    rw [List.find?_isSome]
    obtain ⟨i, hi⟩ := htr
    exact ⟨i, List.mem_finRange i, by simp [hi]⟩
  obtain ⟨a0, ha0⟩ := Option.isSome_iff_exists.1 hfind
  have hne1 : ∀ i, trs i ≠ 0 ↔ trs i = 1 := by
    intro i
    rcases h.flag i with hi | hi <;> rw [hi] <;> decide
  have ha1 : trs a0 = 1 := (hne1 a0).1 (by simpa using List.find?_some ha0)
  choose τ hτ hτ2 using fun i => h.closed i a0
  have hτ1 : ∀ i, trs i = 0 → trs (τ i) = 1 := fun i hi => (hτ i).2.2 (by rw [hi, ha1]; decide)
  have hτ0 : ∀ i, trs i = 1 → trs (τ i) = 0 := by
    intro i hi
    rcases h.flag (τ i) with h0 | h1
    · exact h0
    · exact absurd (by rw [hi, ha1]) ((hτ i).2.1 h1)
  have hcancel : ∀ A B C : M3, IsUnit C.det → A * C = B * C → A = B := by
    intro A B C hC hh
    have hCu : IsUnit C := (Matrix.isUnit_iff_isUnit_det C).2 hC
    exact hCu.mul_right_cancel hh
  have hτinj : ∀ i j, trs i = trs j → τ i = τ j → i = j := by
    intro i j hf hij
    have hr : rots i = rots j := hcancel _ _ _ (h.det a0) (by rw [(hτ i).1, (hτ j).1, hij])
    refine h.distinct i j hr hf fun a => ?_
    obtain ⟨m, hm⟩ := hτ2 i a
    obtain ⟨m', hm'⟩ := hτ2 j a
    refine ⟨m - m', ?_⟩
    have h2 : trans i a - trans j a - ((m - m' : ℤ) : ℝ) = 0 := by
      rw [Int.cast_sub, ← hm, ← hm', hr, hij]
      ring
    rw [h2, abs_zero]
    norm_num
  have hstep : ∀ i, trs i = 0 → ((List.finRange n).find? fun j =>
      decide (trs j ≠ 0 ∧
        AllClose (ι := Fin 3 × Fin 3) 1e-5 1e-8 (fun p => ((rots i * rots a0) p.1 p.2 : ℤ)) (fun p => (rots j p.1 p.2 : ℤ)) ∧
        TransClose (fun a => rotVec (rots i) (trans a0) a + trans i a) (trans j))) = some (τ i) := by
    intro i hi
    apply find?_unique
    · rw [decide_eq_true_iff]
      refine ⟨by rw [hτ1 i hi]; decide, ?_, transClose_of_int (hτ2 i)⟩
      rw [(hτ i).1]
      exact fun p => isClose_self _
    · intro j hj
      rw [decide_eq_true_iff] at hj
      obtain ⟨h1, h2, h3⟩ := hj
      refine (h.distinct (τ i) j ?_ ?_ fun a => ?_).symm
      · rw [← (hτ i).1]
        ext a b
        exact int_eq_of_isClose (h2 (a, b)) (hb j a b)
      · rw [hτ1 i hi, (hne1 j).1 h1]
      · obtain ⟨m, hm⟩ := transClose_dist h3 a
        obtain ⟨m', hm'⟩ := hτ2 i a
        refine ⟨m - m', ?_⟩
        have h4 : rotVec (rots i) (trans a0) a + trans i a - trans j a - m =
            trans (τ i) a - trans j a - ((m - m' : ℤ) : ℝ) := by
          rw [Int.cast_sub, ← hm']
          unfold rotVec
          ring
        rw [← h4]
        exact hm
  let xsg := (List.finRange n).filter fun i => decide (trs i = 0)
  have hxsg : ∀ i, i ∈ xsg ↔ trs i = 0 := by
    intro i
    simp [xsg]
  have hxn : xsg.Nodup := (List.nodup_finRange n).filter _
  have hrun : decomposeByXSG rots trans trs = .ok (some (xsg, xsg.map τ, a0)) := by
    unfold decomposeByXSG
    rw [if_neg hnot]
    dsimp only
    rw [ha0]
    dsimp only
    congr 4
    exact filterMap_eq_map_of_some fun i hi => hstep i ((hxsg i).1 hi)
  refine ⟨xsg, xsg.map τ, a0, hrun, ha1, hxn, hxsg, ?_, ?_, ?_⟩
  · refine List.Nodup.map_on (fun i hi j hj hij => hτinj i j ?_ hij) hxn
    rw [(hxsg i).1 hi, (hxsg j).1 hj]
  · intro j
    constructor
    · intro hj
      obtain ⟨i, hi, rfl⟩ := List.mem_map.1 hj
      exact hτ1 i ((hxsg i).1 hi)
    · intro hj
      -- the map `τ` restricted to each class is injective, and it swaps the classes
      have hτtot : Function.Injective τ := by
        intro x y hxy
        refine hτinj x y ?_ hxy
        rcases h.flag x with hx | hx <;> rcases h.flag y with hy | hy <;> rw [hx, hy]
        · have := hτ1 x hx
          rw [hxy, hτ0 y hy] at this
          exact absurd this (by decide)
        · have := hτ1 y hy
          rw [← hxy, hτ0 x hx] at this
          exact absurd this (by decide)
      obtain ⟨i, rfl⟩ := (Finite.injective_iff_surjective.1 hτtot) j
      refine List.mem_map.2 ⟨i, (hxsg i).2 ?_, rfl⟩
      rcases h.flag i with hi | hi
      · exact hi
      · rw [hτ0 i hi] at hj
        exact absurd hj (by decide)
  · rw [List.forall₂_map_right_iff, List.forall₂_same]
    exact fun i _ => ⟨(hτ i).1, hτ2 i⟩

/-- C47 is false for type-I groups: instead of returning `None`, the function raises a `TypeError` for every non-empty list
without time reversals (the test for type I compares the flags with 1). -/
theorem c47_type_one_refuted {rots : Fin n → M3} {trans : Fin n → V3} {trs : Fin n → ℤ} (hn : 0 < n)
    (h : ∀ i, trs i = 0) : decomposeByXSG rots trans trs = .error .typeError := by
  unfold decomposeByXSG
  rw [if_neg fun hall => by have := hall ⟨0, hn⟩; rw [h] at this; exact absurd this (by decide)]
  have : ((List.finRange n).find? fun i => decide (trs i ≠ 0)) = none := by
    rw [List.find?_eq_none]
    intro x _
    simp [h x]
  dsimp only
  rw [this]

/-- The type-IV group C_c2 (a twofold axis, C centring and an anti-translation `c/2`) in its centred cell: rotations. -/
def rotsCc2 : Fin 8 → M3 := fun i => if i.val % 2 = 0 then 1 else !![-1, 0, 0; 0, -1, 0; 0, 0, 1]

/-- Twice the translations of C_c2. -/
def trans2Cc2 : Fin 8 → Fin 3 → ℤ := fun i a =>
  if a.val = 2 then (if i.val < 4 then 0 else 1) else (if i.val % 4 < 2 then 0 else 1)

/-- The translations of C_c2. -/
noncomputable def transCc2 (i : Fin 8) (a : Fin 3) : ℝ := trans2Cc2 i a / 2

/-- The time reversals of C_c2. -/
def trsCc2 : Fin 8 → ℤ := fun i => if i.val < 4 then 0 else 1

theorem cc2_operations : IsMagneticOperations 1e-8 rotsCc2 transCc2 trsCc2 := by
  refine ⟨by decide, ?_, ?_, ?_⟩
  · have : ∀ i, (rotsCc2 i).det = 1 := by decide +kernel
    intro i
    rw [this i]
    exact isUnit_one
  · intro i j h1 h2 h3
    have h4 : ∀ a, (trans2Cc2 i a - trans2Cc2 j a) % 2 = 0 := by
      intro a
      obtain ⟨m, hm⟩ := h3 a
      have h5 : |(((trans2Cc2 i a - trans2Cc2 j a - 2 * m : ℤ)) : ℝ)| < 1 := by
        have h6 : transCc2 i a - transCc2 j a - m = (((trans2Cc2 i a - trans2Cc2 j a - 2 * m : ℤ)) : ℝ) / 2 := by
          unfold transCc2
          push_cast
          ring
        rw [h6, abs_div] at hm
        norm_num at hm ⊢
        linarith
      have h7 : |trans2Cc2 i a - trans2Cc2 j a - 2 * m| < 1 := by exact_mod_cast h5
      have := Int.abs_lt_one_iff.1 h7
      omega
    have key : ∀ i j, rotsCc2 i = rotsCc2 j → trsCc2 i = trsCc2 j → (∀ a, (trans2Cc2 i a - trans2Cc2 j a) % 2 = 0) → i = j := by
      decide +kernel
    exact key i j h1 h2 h4
  · have key : ∀ i j, ∃ l, (rotsCc2 i * rotsCc2 j = rotsCc2 l ∧ (trsCc2 l = 1 ↔ trsCc2 i ≠ trsCc2 j)) ∧
        ∀ a, ((∑ b, rotsCc2 i a b * trans2Cc2 j b) + trans2Cc2 i a - trans2Cc2 l a) % 2 = 0 := by
      decide +kernel
    intro i j
    obtain ⟨l, h1, h2⟩ := key i j
    refine ⟨l, h1, fun a => ?_⟩
    obtain ⟨m, hm⟩ := Int.dvd_of_emod_eq_zero (h2 a)
    refine ⟨m, ?_⟩
    have h3 : (((∑ b, rotsCc2 i a b * trans2Cc2 j b) + trans2Cc2 i a - trans2Cc2 l a : ℤ) : ℝ) = ((2 * m : ℤ) : ℝ) := by
      rw [hm]
    unfold transCc2
    push_cast at h3
    have h4 : ∑ b, (rotsCc2 i a b : ℝ) * ((trans2Cc2 j b : ℝ) / 2) = (∑ b, (rotsCc2 i a b : ℝ) * (trans2Cc2 j b : ℝ)) / 2 := by
      simp only [Fin.sum_univ_three]
      ring
    rw [h4]
    linarith

/-- Non-vacuity of C47: a type-IV group in a centred cell. -/
example : IsMagneticOperations 1e-8 rotsCc2 transCc2 trsCc2 ∧ (∃ i, trsCc2 i = 1) ∧ ∀ i a b, |rotsCc2 i a b| ≤ 99999 :=
  ⟨cc2_operations, ⟨4, rfl⟩, by decide +kernel⟩

/-- Non-vacuity of the refutation: the group 2 without time reversal. -/
example : decomposeByXSG (n := 2) ![1, !![-1, 0, 0; 0, -1, 0; 0, 0, 1]] (fun _ _ => 0) (fun _ => 0) = .error .typeError :=
  c47_type_one_refuted (by decide) fun _ => rfl

end Spgrep
