/-
Lemmas about change of basis and removal of duplicates.
-/
import Verif.Model.Transform
import Verif.Proofs.Group
import Verif.Proofs.Numeric
import Verif.Spec.Lattice
import Mathlib.Tactic.NormNum
import Mathlib.Tactic.LinearCombination
import Mathlib.LinearAlgebra.Matrix.Notation
import Mathlib.LinearAlgebra.Matrix.Determinant.Basic

namespace Spgrep

open Matrix

variable {n : ℕ}

theorem matVec_eq (A : R3) (v : V3) : matVec A v = A *ᵥ v := rfl
theorem vecMat_eq (v : V3) (A : R3) : vecMat v A = v ᵥ* A := rfl
theorem dot3_eq (x y : V3) : dot3 x y = x ⬝ᵥ y := rfl
theorem rotVec_eq (R : M3) (v : V3) : rotVec R v = realMat R *ᵥ v := rfl
theorem residual_eq (R : M3) (k : V3) : residual R k = k ᵥ* realMat R - k := by
  funext a
  simp only [residual, Pi.sub_apply, vecMul, dotProduct, realMat, map_apply]
  congr 1
  exact Finset.sum_congr rfl fun b _ => mul_comm _ _

theorem realMat_injective : Function.Injective realMat := by
  intro A B h
  ext i j
  have := congrFun (congrFun h i) j
  simpa [realMat] using this

theorem realMat_mul (A B : M3) : realMat (A * B) = realMat A * realMat B := by
  ext i j
  simp [realMat, Matrix.mul_apply]

theorem realMat_one : realMat 1 = 1 := by
  ext i j
  by_cases h : i = j <;> simp [realMat, Matrix.one_apply, h]

theorem map_rint_realMat (S : M3) : (realMat S).map rint = S := by
  ext i j
  simp [realMat]

theorem linInv_ok {A : R3} (h : A.det ≠ 0) : linInv A = .ok A⁻¹ := by
  unfold linInv
  rw [if_neg h]

theorem transform_ok {P : R3} (hP : P.det ≠ 0) (rots : Fin n → M3) (trans : Fin n → V3) (k : V3) :
    transformSymmetryAndKpoint P rots trans k =
      .ok (fun i => (P⁻¹ * realMat (rots i) * P).map rint, fun i => P⁻¹ *ᵥ trans i, Pᵀ *ᵥ k) := by
  unfold transformSymmetryAndKpoint
  rw [linInv_ok hP]
  rfl

/-! ### Centred lattices -/

open Spec

theorem getCentering_of_has {s : List Char} {c : Char} (h : HasCentring s c) : getCentering s = .ok c := by
  obtain ⟨rest, rfl, hc⟩ | ⟨rest, rfl⟩ := h
  · unfold getCentering
    split <;> simp_all
  · rfl

theorem has_of_getCentering {s : List Char} {c : Char} (h : getCentering s = .ok c) : HasCentring s c := by
  unfold getCentering at h
  split at h
  · cases h
  · cases h
  · obtain rfl := Except.ok.inj h
    exact .inr ⟨_, rfl⟩
  · rename_i c' rest h1 h2
    obtain rfl := Except.ok.inj h
    refine .inl ⟨_, rfl, ?_⟩
    rintro rfl
    cases rest with
    | nil => exact h1 rfl rfl
    | cons b r => exact h2 _ _ rfl rfl

/-- What C39 says about one matrix. -/
def CentredBy (P : R3) (c : Centring) : Prop :=
  P.det ≠ 0 ∧ columnLattice P = centredLattice c ∧ ∃ Q : M3, P⁻¹ = Q.map (fun x => (x : ℝ))

theorem inv_of_mul {P : R3} {Q : M3} (h : P * realMat Q = 1) :
    P.det ≠ 0 ∧ (∃ Q : M3, P⁻¹ = Q.map (fun x => (x : ℝ))) ∧
      ∀ x : V3, x ∈ columnLattice P ↔ ∀ a, ∃ m : ℤ, (realMat Q *ᵥ x) a = m := by
  refine ⟨fun h0 => ?_, ⟨Q, Matrix.inv_eq_right_inv h⟩, fun x => ⟨?_, fun hx => ?_⟩⟩
  · have := congrArg Matrix.det h
    rw [Matrix.det_mul, h0, zero_mul, Matrix.det_one] at this
    exact zero_ne_one this
  · rintro ⟨m, hm⟩ a
    refine ⟨m a, ?_⟩
    have : x = P *ᵥ (fun b => (m b : ℝ)) := funext hm
    rw [this, Matrix.mulVec_mulVec, mul_eq_one_comm.1 h, Matrix.one_mulVec]
  · choose m hm using hx
    refine ⟨m, fun a => ?_⟩
    have : x = P *ᵥ (realMat Q *ᵥ x) := by rw [Matrix.mulVec_mulVec, h, Matrix.one_mulVec]
    calc x a = (P *ᵥ (realMat Q *ᵥ x)) a := congrFun this a
      _ = _ := by
        rw [funext hm]
        rfl

theorem centredBy_of {P : R3} {c : Centring} (Q : M3) (h : P * realMat Q = 1)
    (h1 : ∀ m : Fin 3 → ℤ, P *ᵥ (fun b => (m b : ℝ)) ∈ centredLattice c)
    (h2 : ∀ v ∈ c.vectors, ∀ a, ∃ m : ℤ, (realMat Q *ᵥ v) a = m) : CentredBy P c := by
  obtain ⟨hd, hQ, hx⟩ := inv_of_mul h
  refine ⟨hd, Set.Subset.antisymm ?_ ?_, hQ⟩
  · rintro x ⟨m, hm⟩
    rw [show x = P *ᵥ (fun b => (m b : ℝ)) from funext hm]
    exact h1 m
  · rintro x ⟨v, hv, hm⟩
    rw [hx]
    choose m hm using hm
    have hv' : ∀ a, ∃ m : ℤ, (realMat Q *ᵥ v) a = m := by
      rcases hv with rfl | hv
      · exact fun a => ⟨0, by simp⟩
      · exact h2 v hv
    intro a
    obtain ⟨p, hp⟩ := hv' a
    refine ⟨p + ∑ b, Q a b * m b, ?_⟩
    rw [show x = v + fun b => (m b : ℝ) from funext hm, Matrix.mulVec_add, Pi.add_apply, hp]
    push_cast
    rfl

theorem centred_P : CentredBy 1 .P := by
  refine centredBy_of 1 (by rw [realMat_one, mul_one]) (fun m => ⟨0, .inl rfl, fun a => ⟨m a, ?_⟩⟩) ?_
  · simp
  · simp [Centring.vectors]

theorem mem_centred {c : Centring} {x : V3} {v : V3} (hv : v = 0 ∨ v ∈ c.vectors) (m0 m1 m2 : ℤ)
    (h0 : x 0 = v 0 + m0) (h1 : x 1 = v 1 + m1) (h2 : x 2 = v 2 + m2) : x ∈ centredLattice c := by
  refine ⟨v, hv, fun a => ?_⟩
  fin_cases a
  · exact ⟨m0, h0⟩
  · exact ⟨m1, h1⟩
  · exact ⟨m2, h2⟩

theorem int_vec {v : V3} (m0 m1 m2 : ℤ) (h0 : v 0 = m0) (h1 : v 1 = m1) (h2 : v 2 = m2) :
    ∀ a, ∃ m : ℤ, v a = m := by
  intro a
  fin_cases a
  · exact ⟨m0, h0⟩
  · exact ⟨m1, h1⟩
  · exact ⟨m2, h2⟩

theorem mulVec3 (A : R3) (v : V3) (a : Fin 3) : (A *ᵥ v) a = A a 0 * v 0 + A a 1 * v 1 + A a 2 * v 2 := by
  simp [Matrix.mulVec, dotProduct, Fin.sum_univ_three]

local macro "nnum" : tactic => `(tactic| norm_num [realMat, Matrix.mul_apply, Fin.sum_univ_three, Matrix.one_apply,
  Matrix.cons_val_two, Matrix.vecHead, Matrix.vecTail])

theorem centred_A : CentredBy !![1, 0, 0; 0, 1 / 2, -1 / 2; 0, 1 / 2, 1 / 2] .A := by
  refine centredBy_of !![1, 0, 0; 0, 1, 1; 0, -1, 1] ?_ (fun m => ?_) ?_
  · ext i j
    fin_cases i <;> fin_cases j <;> nnum
  · have hq : (∃ q, m 1 + m 2 = 2 * q) ∨ (∃ q, m 1 + m 2 = 2 * q + 1) := by
      rcases Int.emod_two_eq_zero_or_one (m 1 + m 2) with h | h
      · exact .inl ⟨(m 1 + m 2) / 2, by omega⟩
      · exact .inr ⟨(m 1 + m 2) / 2, by omega⟩
    rcases hq with ⟨q, hq⟩ | ⟨q, hq⟩
    · have hr : ((m 1 + m 2 : ℤ) : ℝ) = 2 * q := by rw [hq]; push_cast; ring
      push_cast at hr
      refine mem_centred (v := 0) (.inl rfl) (m 0) (q - m 2) (q) ?_ ?_ ?_ <;>
        (rw [mulVec3]; nnum; try linarith)
    · have hr : ((m 1 + m 2 : ℤ) : ℝ) = 2 * q + 1 := by rw [hq]; push_cast; ring
      push_cast at hr
      refine mem_centred (v := ![0, 1 / 2, 1 / 2]) (.inr (by simp [Centring.vectors])) (m 0) (q - m 2) (q) ?_ ?_ ?_ <;>
        (rw [mulVec3]; nnum; try linarith)
  · simp only [Centring.vectors, List.forall_mem_cons, List.not_mem_nil, false_implies, implies_true, and_true]
    exact int_vec (0) (1) (0) (by rw [mulVec3]; nnum) (by rw [mulVec3]; nnum)
      (by rw [mulVec3]; nnum)

theorem centred_B : CentredBy !![1 / 2, 0, -1 / 2; 0, 1, 0; 1 / 2, 0, 1 / 2] .B := by
  refine centredBy_of !![1, 0, 1; 0, 1, 0; -1, 0, 1] ?_ (fun m => ?_) ?_
  · ext i j
    fin_cases i <;> fin_cases j <;> nnum
  · have hq : (∃ q, m 0 + m 2 = 2 * q) ∨ (∃ q, m 0 + m 2 = 2 * q + 1) := by
      rcases Int.emod_two_eq_zero_or_one (m 0 + m 2) with h | h
      · exact .inl ⟨(m 0 + m 2) / 2, by omega⟩
      · exact .inr ⟨(m 0 + m 2) / 2, by omega⟩
    rcases hq with ⟨q, hq⟩ | ⟨q, hq⟩
    · have hr : ((m 0 + m 2 : ℤ) : ℝ) = 2 * q := by rw [hq]; push_cast; ring
      push_cast at hr
      refine mem_centred (v := 0) (.inl rfl) (q - m 2) (m 1) (q) ?_ ?_ ?_ <;>
        (rw [mulVec3]; nnum; try linarith)
    · have hr : ((m 0 + m 2 : ℤ) : ℝ) = 2 * q + 1 := by rw [hq]; push_cast; ring
      push_cast at hr
      refine mem_centred (v := ![1 / 2, 0, 1 / 2]) (.inr (by simp [Centring.vectors])) (q - m 2) (m 1) (q) ?_ ?_ ?_ <;>
        (rw [mulVec3]; nnum; try linarith)
  · simp only [Centring.vectors, List.forall_mem_cons, List.not_mem_nil, false_implies, implies_true, and_true]
    exact int_vec (1) (0) (0) (by rw [mulVec3]; nnum) (by rw [mulVec3]; nnum)
      (by rw [mulVec3]; nnum)

theorem centred_C : CentredBy !![1 / 2, 1 / 2, 0; -1 / 2, 1 / 2, 0; 0, 0, 1] .C := by
  refine centredBy_of !![1, -1, 0; 1, 1, 0; 0, 0, 1] ?_ (fun m => ?_) ?_
  · ext i j
    fin_cases i <;> fin_cases j <;> nnum
  · have hq : (∃ q, m 0 + m 1 = 2 * q) ∨ (∃ q, m 0 + m 1 = 2 * q + 1) := by
      rcases Int.emod_two_eq_zero_or_one (m 0 + m 1) with h | h
      · exact .inl ⟨(m 0 + m 1) / 2, by omega⟩
      · exact .inr ⟨(m 0 + m 1) / 2, by omega⟩
    rcases hq with ⟨q, hq⟩ | ⟨q, hq⟩
    · have hr : ((m 0 + m 1 : ℤ) : ℝ) = 2 * q := by rw [hq]; push_cast; ring
      push_cast at hr
      refine mem_centred (v := 0) (.inl rfl) (q) (q - m 0) (m 2) ?_ ?_ ?_ <;>
        (rw [mulVec3]; nnum; try linarith)
    · have hr : ((m 0 + m 1 : ℤ) : ℝ) = 2 * q + 1 := by rw [hq]; push_cast; ring
      push_cast at hr
      refine mem_centred (v := ![1 / 2, 1 / 2, 0]) (.inr (by simp [Centring.vectors])) (q) (q - m 0) (m 2) ?_ ?_ ?_ <;>
        (rw [mulVec3]; nnum; try linarith)
  · simp only [Centring.vectors, List.forall_mem_cons, List.not_mem_nil, false_implies, implies_true, and_true]
    exact int_vec (0) (1) (0) (by rw [mulVec3]; nnum) (by rw [mulVec3]; nnum)
      (by rw [mulVec3]; nnum)

theorem centred_I : CentredBy !![-1 / 2, 1 / 2, 1 / 2; 1 / 2, -1 / 2, 1 / 2; 1 / 2, 1 / 2, -1 / 2] .I := by
  refine centredBy_of !![0, 1, 1; 1, 0, 1; 1, 1, 0] ?_ (fun m => ?_) ?_
  · ext i j
    fin_cases i <;> fin_cases j <;> nnum
  · have hq : (∃ q, m 0 + m 1 + m 2 = 2 * q) ∨ (∃ q, m 0 + m 1 + m 2 = 2 * q + 1) := by
      rcases Int.emod_two_eq_zero_or_one (m 0 + m 1 + m 2) with h | h
      · exact .inl ⟨(m 0 + m 1 + m 2) / 2, by omega⟩
      · exact .inr ⟨(m 0 + m 1 + m 2) / 2, by omega⟩
    rcases hq with ⟨q, hq⟩ | ⟨q, hq⟩
    · have hr : ((m 0 + m 1 + m 2 : ℤ) : ℝ) = 2 * q := by rw [hq]; push_cast; ring
      push_cast at hr
      refine mem_centred (v := 0) (.inl rfl) (q - m 0) (q - m 1) (q - m 2) ?_ ?_ ?_ <;>
        (rw [mulVec3]; nnum; try linarith)
    · have hr : ((m 0 + m 1 + m 2 : ℤ) : ℝ) = 2 * q + 1 := by rw [hq]; push_cast; ring
      push_cast at hr
      refine mem_centred (v := ![1 / 2, 1 / 2, 1 / 2]) (.inr (by simp [Centring.vectors])) (q - m 0) (q - m 1) (q - m 2) ?_ ?_ ?_ <;>
        (rw [mulVec3]; nnum; try linarith)
  · simp only [Centring.vectors, List.forall_mem_cons, List.not_mem_nil, false_implies, implies_true, and_true]
    exact int_vec (1) (1) (1) (by rw [mulVec3]; nnum) (by rw [mulVec3]; nnum)
      (by rw [mulVec3]; nnum)

theorem centred_F : CentredBy !![0, 1 / 2, 1 / 2; 1 / 2, 0, 1 / 2; 1 / 2, 1 / 2, 0] .F := by
  refine centredBy_of !![-1, 1, 1; 1, -1, 1; 1, 1, -1] ?_ (fun m => ?_) ?_
  · ext i j
    fin_cases i <;> fin_cases j <;> nnum
  · have hp : ∀ z : ℤ, ∃ q, z = 2 * q ∨ z = 2 * q + 1 := fun z => ⟨z / 2, by omega⟩
    obtain ⟨p, hp'⟩ := hp (m 1 + m 2)
    obtain ⟨q, hq'⟩ := hp (m 0 + m 2)
    have cast : ∀ x y z : ℤ, x + y = z → (x : ℝ) + y = z := fun x y z h => by exact_mod_cast h
    rcases hp' with h1 | h1 <;> rcases hq' with h2 | h2
    · have e1 := cast _ _ _ h1
      have e2 := cast _ _ _ h2
      push_cast at e1 e2
      refine mem_centred (v := 0) (.inl rfl) p q (p + q - m 2) ?_ ?_ ?_ <;>
        (rw [mulVec3]; nnum; try linarith)
    · have e1 := cast _ _ _ h1
      have e2 := cast _ _ _ h2
      push_cast at e1 e2
      refine mem_centred (v := ![0, 1 / 2, 1 / 2]) (.inr (by simp [Centring.vectors])) p q (p + q - m 2) ?_ ?_ ?_ <;>
        (rw [mulVec3]; nnum; try linarith)
    · have e1 := cast _ _ _ h1
      have e2 := cast _ _ _ h2
      push_cast at e1 e2
      refine mem_centred (v := ![1 / 2, 0, 1 / 2]) (.inr (by simp [Centring.vectors])) p q (p + q - m 2) ?_ ?_ ?_ <;>
        (rw [mulVec3]; nnum; try linarith)
    · have e1 := cast _ _ _ h1
      have e2 := cast _ _ _ h2
      push_cast at e1 e2
      refine mem_centred (v := ![1 / 2, 1 / 2, 0]) (.inr (by simp [Centring.vectors])) p q (p + q + 1 - m 2) ?_ ?_ ?_ <;>
        (rw [mulVec3]; nnum; try linarith)
  · simp only [Centring.vectors, List.forall_mem_cons, List.not_mem_nil, false_implies, implies_true, and_true]
    refine ⟨?_, ?_, ?_⟩
    · exact int_vec (1) (0) (0) (by rw [mulVec3]; nnum) (by rw [mulVec3]; nnum)
        (by rw [mulVec3]; nnum)
    · exact int_vec (0) (1) (0) (by rw [mulVec3]; nnum) (by rw [mulVec3]; nnum)
        (by rw [mulVec3]; nnum)
    · exact int_vec (0) (0) (1) (by rw [mulVec3]; nnum) (by rw [mulVec3]; nnum)
        (by rw [mulVec3]; nnum)

theorem centred_R : CentredBy !![2 / 3, -1 / 3, -1 / 3; 1 / 3, 1 / 3, -2 / 3; 1 / 3, 1 / 3, 1 / 3] .R := by
  refine centredBy_of !![1, 0, 1; -1, 1, 1; 0, -1, 1] ?_ (fun m => ?_) ?_
  · ext i j
    fin_cases i <;> fin_cases j <;> nnum
  · have hq : (∃ q, m 0 + m 1 + m 2 = 3 * q) ∨ (∃ q, m 0 + m 1 + m 2 = 3 * q + 1) ∨ (∃ q, m 0 + m 1 + m 2 = 3 * q + 2) := by
      have h3 : (m 0 + m 1 + m 2) % 3 = 0 ∨ (m 0 + m 1 + m 2) % 3 = 1 ∨ (m 0 + m 1 + m 2) % 3 = 2 := by omega
      rcases h3 with h | h | h
      · exact .inl ⟨(m 0 + m 1 + m 2) / 3, by omega⟩
      · exact .inr (.inl ⟨(m 0 + m 1 + m 2) / 3, by omega⟩)
      · exact .inr (.inr ⟨(m 0 + m 1 + m 2) / 3, by omega⟩)
    rcases hq with ⟨q, hq⟩ | ⟨q, hq⟩ | ⟨q, hq⟩
    · have hr : ((m 0 + m 1 + m 2 : ℤ) : ℝ) = 3 * q := by rw [hq]; push_cast; ring
      push_cast at hr
      refine mem_centred (v := 0) (.inl rfl) (m 0 - q) (q - m 2) (q) ?_ ?_ ?_ <;>
        (rw [mulVec3]; nnum; try linarith)
    · have hr : ((m 0 + m 1 + m 2 : ℤ) : ℝ) = 3 * q + 1 := by rw [hq]; push_cast; ring
      push_cast at hr
      refine mem_centred (v := ![2 / 3, 1 / 3, 1 / 3]) (.inr (by simp [Centring.vectors])) (m 0 - q - 1) (q - m 2) (q) ?_ ?_ ?_ <;>
        (rw [mulVec3]; nnum; try linarith)
    · have hr : ((m 0 + m 1 + m 2 : ℤ) : ℝ) = 3 * q + 2 := by rw [hq]; push_cast; ring
      push_cast at hr
      refine mem_centred (v := ![1 / 3, 2 / 3, 2 / 3]) (.inr (by simp [Centring.vectors])) (m 0 - q - 1) (q - m 2) (q) ?_ ?_ ?_ <;>
        (rw [mulVec3]; nnum; try linarith)
  · simp only [Centring.vectors, List.forall_mem_cons, List.not_mem_nil, false_implies, implies_true, and_true]
    refine ⟨?_, ?_⟩
    · exact int_vec (1) (0) (0) (by rw [mulVec3]; nnum) (by rw [mulVec3]; nnum)
        (by rw [mulVec3]; nnum)
    · exact int_vec (1) (1) (0) (by rw [mulVec3]; nnum) (by rw [mulVec3]; nnum)
        (by rw [mulVec3]; nnum)

/-! ### Removal of duplicates -/

/-- State of `uniquePrimitiveSymmetry` after the first `m` operations. -/
noncomputable def uniqueAfter (rots : Fin n → M3) (trans : Fin n → V3) (m : ℕ) : UniqueState n :=
  ((List.finRange n).take m).foldl (uniqueStep rots trans) ⟨[], [], [], fun _ => -1⟩

theorem uniqueAfter_succ (rots : Fin n → M3) (trans : Fin n → V3) {m : ℕ} (h : m < n) :
    uniqueAfter rots trans (m + 1) = uniqueStep rots trans (uniqueAfter rots trans m) ⟨m, h⟩ := by
  unfold uniqueAfter
  rw [List.take_add_one, List.foldl_append]
  simp [h]

/-- The loop invariant after `m` operations. -/
structure UniqueInv (rots : Fin n → M3) (trans : Fin n → V3) (m : ℕ)
    (s : UniqueState n) : Prop where
  ints : s.ints = s.rots
  nodup : s.rots.Nodup
  mem : ∀ R, R ∈ s.rots ↔ ∃ i : Fin n, (i : ℕ) < m ∧ rots i = R
  len : s.trans.length = s.rots.length
  fst : ∀ (p : ℕ) (R : M3) (v : V3), s.rots[p]? = some R → s.trans[p]? = some v →
    ∃ i : Fin n, (i : ℕ) < m ∧ (∀ j < i, rots j ≠ rots i) ∧ rots i = R ∧ v = fun a => Int.fract (trans i a)
  new : ∀ i : Fin n, (i : ℕ) < m → (∀ j < i, rots j ≠ rots i) → s.mapping i = (i : ℕ) ∧
    s.rots[(Finset.univ.filter fun l : Fin n => l < i ∧ ∀ l' < l, rots l' ≠ rots l).card]? = some (rots i)
  dup : ∀ i : Fin n, (i : ℕ) < m → ¬ (∀ j < i, rots j ≠ rots i) →
    ∃ p : ℕ, s.mapping i = p ∧ s.rots[p]? = some (rots i)
  card : s.rots.length = (Finset.univ.filter fun l : Fin n => (l : ℕ) < m ∧ ∀ l' < l, rots l' ≠ rots l).card

theorem uniqueInv (rots : Fin n → M3) (trans : Fin n → V3) (m : ℕ) (hm : m ≤ n) :
    UniqueInv rots trans m (uniqueAfter rots trans m) := by
  induction m with
  | zero =>
    refine ⟨rfl, List.nodup_nil, ?_, rfl, ?_, ?_, ?_, ?_⟩ <;> simp [uniqueAfter]
  | succ m ih =>
    have ih := ih (by omega)
    have hlt : m < n := hm
    rw [uniqueAfter_succ rots trans hlt]
    set s := uniqueAfter rots trans m with hs
    have hnew : (rots ⟨m, hlt⟩ ∉ s.rots) ↔ ∀ j < (⟨m, hlt⟩ : Fin n), rots j ≠ rots ⟨m, hlt⟩ := by
      rw [ih.mem]
      push Not
      exact ⟨fun h j hj => h j hj, fun h j hj => h j hj⟩
    have hcase : ∀ i : Fin n, (i : ℕ) < m + 1 → (i : ℕ) < m ∨ i = ⟨m, hlt⟩ := by
      intro i hi
      rcases Nat.lt_succ_iff_lt_or_eq.1 hi with h | h
      · exact .inl h
      · exact .inr (Fin.ext h)
    unfold uniqueStep
    cases hidx : s.ints.idxOf? (rots ⟨m, hlt⟩) with
    | some j =>
      have hj := List.idxOf?_eq_some_iff.1 hidx
      obtain ⟨hj1, hj2, _⟩ := hj
      have hin : rots ⟨m, hlt⟩ ∈ s.rots := by
        rw [← ih.ints, ← hj2]
        exact List.getElem_mem hj1
      have hnf : ¬ ∀ j < (⟨m, hlt⟩ : Fin n), rots j ≠ rots ⟨m, hlt⟩ := fun h => hnew.2 h hin
      dsimp only
      refine ⟨ih.ints, ih.nodup, fun R => ?_, ih.len, fun p R v h1 h2 => ?_, fun i hi hf => ?_,
        fun i hi hf => ?_, ?_⟩
      · rw [ih.mem]
        refine ⟨fun ⟨i, h, h'⟩ => ⟨i, by omega, h'⟩, fun ⟨i, h, h'⟩ => ?_⟩
        rcases hcase i h with h | rfl
        · exact ⟨i, h, h'⟩
        · exact (ih.mem R).1 (h' ▸ hin)
      · obtain ⟨i, h, h'⟩ := ih.fst p R v h1 h2
        exact ⟨i, by omega, h'⟩
      · rcases hcase i hi with h | rfl
        · have hne : i ≠ ⟨m, hlt⟩ := fun h' => by rw [h'] at h; simp at h
          try dsimp only
          rw [Function.update_of_ne hne]
          exact ih.new i h hf
        · exact absurd hf hnf
      · rcases hcase i hi with h | rfl
        · have hne : i ≠ ⟨m, hlt⟩ := fun h' => by rw [h'] at h; simp at h
          try dsimp only
          rw [Function.update_of_ne hne]
          exact ih.dup i h hf
        · refine ⟨j, Function.update_self _ _ _, ?_⟩
          rw [← ih.ints, List.getElem?_eq_getElem hj1, hj2]
      · rw [ih.card]
        congr 1
        ext l
        simp only [Finset.mem_filter, Finset.mem_univ, true_and]
        refine ⟨fun ⟨h, h'⟩ => ⟨by omega, h'⟩, fun ⟨h, h'⟩ => ⟨?_, h'⟩⟩
        rcases hcase l h with h | rfl
        · exact h
        · exact absurd h' hnf
    | none =>
      have hnin : rots ⟨m, hlt⟩ ∉ s.rots := by
        rw [← ih.ints]
        exact List.idxOf?_eq_none_iff.1 hidx
      have hf0 := hnew.1 hnin
      have hcount : (Finset.univ.filter fun l : Fin n => (l : ℕ) < m ∧ ∀ l' < l, rots l' ≠ rots l) =
          Finset.univ.filter fun l : Fin n => l < (⟨m, hlt⟩ : Fin n) ∧ ∀ l' < l, rots l' ≠ rots l := rfl
      have hget : ∀ (p : ℕ) (R : M3), s.rots[p]? = some R → (s.rots ++ [rots ⟨m, hlt⟩])[p]? = some R := by
        intro p R h
        rw [List.getElem?_append_left (List.getElem?_eq_some_iff.1 h).1]
        exact h
      dsimp only
      refine ⟨by rw [ih.ints], ?_, fun R => ?_, by simp [ih.len], fun p R v h1 h2 => ?_, fun i hi hf => ?_,
        fun i hi hf => ?_, ?_⟩
      · rw [List.nodup_append]
        refine ⟨ih.nodup, List.nodup_singleton _, fun a ha b hb => ?_⟩
        rw [List.mem_singleton] at hb
        subst hb
        exact fun h => hnin (h ▸ ha)
      · rw [List.mem_append, ih.mem, List.mem_singleton]
        constructor
        · rintro (⟨i, h, h'⟩ | rfl)
          · exact ⟨i, by omega, h'⟩
          · exact ⟨⟨m, hlt⟩, by simp, rfl⟩
        · rintro ⟨i, h, h'⟩
          rcases hcase i h with h | rfl
          · exact .inl ⟨i, h, h'⟩
          · exact .inr h'.symm
      · by_cases hp : p < s.rots.length
        · rw [List.getElem?_append_left hp] at h1
          rw [List.getElem?_append_left (by rw [ih.len]; exact hp)] at h2
          obtain ⟨i, h, h'⟩ := ih.fst p R v h1 h2
          exact ⟨i, by omega, h'⟩
        · have hp' : p = s.rots.length := by
            have := (List.getElem?_eq_some_iff.1 h1).1
            simp at this
            omega
          subst hp'
          rw [List.getElem?_append_right le_rfl] at h1
          rw [List.getElem?_append_right (by rw [ih.len]), ih.len] at h2
          simp at h1 h2
          exact ⟨⟨m, hlt⟩, by simp, hf0, h1, h2.symm⟩
      · rcases hcase i hi with h | rfl
        · have hne : i ≠ ⟨m, hlt⟩ := fun h' => by rw [h'] at h; simp at h
          try dsimp only
          rw [Function.update_of_ne hne]
          exact ⟨(ih.new i h hf).1, hget _ _ (ih.new i h hf).2⟩
        · refine ⟨Function.update_self _ _ _, ?_⟩
          rw [← hcount, ← ih.card, List.getElem?_append_right le_rfl]
          simp
      · rcases hcase i hi with h | rfl
        · have hne : i ≠ ⟨m, hlt⟩ := fun h' => by rw [h'] at h; simp at h
          try dsimp only
          rw [Function.update_of_ne hne]
          obtain ⟨p, h1, h2⟩ := ih.dup i h hf
          exact ⟨p, h1, hget _ _ h2⟩
        · exact absurd hf0 hf
      · rw [List.length_append, List.length_singleton, ih.card]
        have : (Finset.univ.filter fun l : Fin n => (l : ℕ) < m + 1 ∧ ∀ l' < l, rots l' ≠ rots l) =
            insert ⟨m, hlt⟩ (Finset.univ.filter fun l : Fin n => (l : ℕ) < m ∧ ∀ l' < l, rots l' ≠ rots l) := by
          ext l
          simp only [Finset.mem_insert, Finset.mem_filter, Finset.mem_univ, true_and]
          constructor
          · rintro ⟨h, h'⟩
            rcases hcase l h with h | rfl
            · exact .inr ⟨h, h'⟩
            · exact .inl rfl
          · rintro (rfl | ⟨h, h'⟩)
            · exact ⟨by simp, hf0⟩
            · exact ⟨by omega, h'⟩
        rw [this, Finset.card_insert_of_notMem (by simp)]

theorem uniqueInv_all (rots : Fin n → M3) (trans : Fin n → V3) :
    let u := uniquePrimitiveSymmetry rots trans
    u.1.Nodup ∧ (∀ R, R ∈ u.1 ↔ ∃ i : Fin n, (i : ℕ) < n ∧ rots i = R) ∧ u.2.1.length = u.1.length ∧
    (∀ (p : ℕ) (R : M3) (v : V3), u.1[p]? = some R → u.2.1[p]? = some v →
      ∃ i : Fin n, (i : ℕ) < n ∧ (∀ j < i, rots j ≠ rots i) ∧ rots i = R ∧ v = fun a => Int.fract (trans i a)) ∧
    (∀ i : Fin n, (i : ℕ) < n → (∀ j < i, rots j ≠ rots i) → u.2.2 i = (i : ℕ) ∧
      u.1[(Finset.univ.filter fun l : Fin n => l < i ∧ ∀ l' < l, rots l' ≠ rots l).card]? = some (rots i)) ∧
    (∀ i : Fin n, (i : ℕ) < n → ¬ (∀ j < i, rots j ≠ rots i) →
      ∃ p : ℕ, u.2.2 i = p ∧ u.1[p]? = some (rots i)) := by
  have h := uniqueInv rots trans n le_rfl
  have e : uniqueAfter rots trans n =
      (List.finRange n).foldl (uniqueStep rots trans) ⟨[], [], [], fun _ => -1⟩ := by
    unfold uniqueAfter
    rw [List.take_of_length_le (by simp)]
  rw [e] at h
  exact ⟨h.nodup, h.mem, h.len, h.fst, h.new, h.dup⟩

end Spgrep
