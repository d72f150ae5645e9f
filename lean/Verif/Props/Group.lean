/-
Property theorems C01-C09 (group.py).
-/
import Verif.Proofs.MatrixGroup

namespace Spgrep

open Spec

variable {n : ℕ}

/-! Concrete data used by the non-vacuity examples. -/

/-- The group generated by a fourfold rotation about z. -/
def rotsC4 : Fin 4 → M3 :=
  ![!![1, 0, 0; 0, 1, 0; 0, 0, 1], !![0, -1, 0; 1, 0, 0; 0, 0, 1],
    !![-1, 0, 0; 0, -1, 0; 0, 0, 1], !![0, 1, 0; -1, 0, 0; 0, 0, 1]]

theorem rotsC4_group : EnumeratesGroup rotsC4 := by
  apply enumerates_of_isMatrixGroup (by norm_num)
  · decide +kernel
  · decide +kernel

/-- The group generated by a threefold rotation about z, hexagonal axes. -/
def rotsC3 : Fin 3 → M3 :=
  ![!![1, 0, 0; 0, 1, 0; 0, 0, 1], !![0, -1, 0; 1, -1, 0; 0, 0, 1],
    !![-1, 1, 0; -1, 0, 0; 0, 0, 1]]

theorem rotsC3_group : EnumeratesGroup rotsC3 := by
  apply enumerates_of_isMatrixGroup (by norm_num)
  · decide +kernel
  · decide +kernel

/-- Every magnetic group without flags is a group: the unflagged case as a magnetic group. -/
theorem EnumeratesGroup.magnetic {rots : Fin n → M3} (h : EnumeratesGroup rots) :
    EnumeratesMagneticGroup rots fun _ => 0 := by
  obtain ⟨hinj, H, hH⟩ := h
  refine ⟨fun i j hij => hinj (Prod.ext_iff.1 hij).1, fun _ => Or.inl rfl,
    H.prod ⊥, ?_⟩
  ext ⟨M, z⟩
  constructor
  · rintro ⟨i, hi⟩
    simp only [Int.cast_zero, Prod.mk.injEq] at hi
    have : rots i ∈ Set.range rots := ⟨i, rfl⟩
    rw [hH] at this
    obtain ⟨g, hg, hgr⟩ := this
    refine ⟨(g, 1), ?_, ?_⟩
    · exact Subgroup.mem_prod.2 ⟨hg, by simp⟩
    · simp only [Prod.mk.injEq]
      exact ⟨hgr.trans hi.1, by rw [← hi.2]; rfl⟩
  · rintro ⟨⟨g, w⟩, hg, hgz⟩
    obtain ⟨hg1, hg2⟩ := Subgroup.mem_prod.1 hg
    simp only [Prod.mk.injEq] at hgz
    have : (g : M3) ∈ Set.range rots := by rw [hH]; exact ⟨g, hg1, rfl⟩
    obtain ⟨i, hi⟩ := this
    refine ⟨i, ?_⟩
    simp only [Int.cast_zero, Prod.mk.injEq]
    refine ⟨hi.trans hgz.1, ?_⟩
    rw [← hgz.2]
    have : w = 1 := by simpa using hg2
    rw [this]; rfl

/-- **C01.** For a magnetic (or, with all flags 0, an ordinary) group `get_cayley_table` returns a
table, the table is the multiplication table, and its rows and columns are permutations. -/
theorem c01_cayley_table {rots : Fin n → M3} {trs : Fin n → ℤ}
    (h : EnumeratesMagneticGroup rots trs) :
    ∃ T, getCayleyTable rots (some trs) = .ok T ∧
      (∀ i j k, T i j = k ↔ rots i * rots j = rots k ∧ (trs k = 1 ↔ ¬ trs i = trs j)) ∧
      IsGroupTable T ∧
      (∀ i, Function.Bijective (T i)) ∧ (∀ j, Function.Bijective fun i => T i j) := by
  obtain ⟨T, H, e, hT, hmul, he⟩ := cayley_of_magnetic h
  refine ⟨T, hT, ?_, isGroupTable_of_equiv e hmul, ?_, ?_⟩
  · intro i j k
    have key := (getCayleyTable_ok.1 hT) i j
    unfold cayleyEntry at key
    simp only [flagsOf, Option.getD_some] at key
    rw [indexOf?_eq_some_of_inj h.1] at key
    simp only [Prod.mk.injEq] at key
    constructor
    · rintro rfl
      refine ⟨key.1.symm, ?_⟩
      rw [key.2]
      by_cases hc : trs i = trs j <;> simp [hc]
    · rintro ⟨h1, h2⟩
      apply h.1
      simp only [Prod.mk.injEq]
      refine ⟨by rw [key.1, h1], ?_⟩
      rw [key.2]
      by_cases hc : trs i = trs j
      · simp only [hc, not_true_eq_false, iff_false] at h2
        rcases h.2.1 k with h3 | h3
        · simp [hc, h3]
        · exact absurd h3 h2
      · simp only [hc, not_false_eq_true, iff_true] at h2
        simp [hc, h2]
  · intro i
    refine (Function.Bijective.of_comp_iff' e.bijective _).1 ?_
    have : (e ∘ T i) = fun j => e i * e j := by funext j; simp [hmul]
    rw [this]
    exact (Group.mulLeft_bijective (e i)).comp e.bijective
  · intro j
    refine (Function.Bijective.of_comp_iff' e.bijective _).1 ?_
    have : (e ∘ fun i => T i j) = fun i => e i * e j := by funext i; simp [hmul]
    rw [this]
    exact (Group.mulRight_bijective (e j)).comp e.bijective

/-- **C01**, ordinary case: omitted flags. -/
theorem c01_cayley_table_ordinary {rots : Fin n → M3} (h : EnumeratesGroup rots) :
    ∃ T, getCayleyTable rots = .ok T ∧ (∀ i j k, T i j = k ↔ rots i * rots j = rots k) ∧
      IsGroupTable T := by
  obtain ⟨T, hT, hspec, hg, _⟩ := c01_cayley_table (EnumeratesGroup.magnetic h)
  refine ⟨T, ?_, fun i j k => by simpa using hspec i j k, hg⟩
  rw [← hT]; rfl

/-- Non-vacuity of C01: the grey-free magnetic group 4' (flags alternate). -/
example : EnumeratesMagneticGroup rotsC4 ![0, 1, 0, 1] := by
  refine ⟨?_, ?_, ?_⟩
  · intro i j hij
    exact rotsC4_group.1 (Prod.ext_iff.1 hij).1
  · decide
  · let g : GL (Fin 3) ℤ := ⟨rotsC4 1, rotsC4 3, by decide +kernel, by decide +kernel⟩
    let x : GL (Fin 3) ℤ × Multiplicative (ZMod 2) := (g, Multiplicative.ofAdd 1)
    have hx4 : x ^ 4 = 1 := by
      apply Prod.ext
      · apply Units.ext; simp only [x, g, Prod.pow_fst]
        decide +kernel
      · decide
    have hpow : ∀ i : Fin 4, ((x ^ (i : ℕ)).1 : M3) = rotsC4 i ∧
        (x ^ (i : ℕ)).2.toAdd = (((![0, 1, 0, 1] : Fin 4 → ℤ) i : ℤ) : ZMod 2) := by
      decide +kernel
    refine ⟨Subgroup.zpowers x, ?_⟩
    ext y
    constructor
    · rintro ⟨i, rfl⟩
      exact ⟨x ^ (i : ℕ), ⟨(i : ℕ), by simp⟩, Prod.ext (hpow i).1 (hpow i).2⟩
    · rintro ⟨_, ⟨m, rfl⟩, rfl⟩
      have hm : x ^ m = x ^ ((⟨(m % 4).toNat, by omega⟩ : Fin 4) : ℕ) := by
        have h1 : (((m % 4).toNat : ℕ) : ℤ) = m % 4 := Int.toNat_of_nonneg (by omega)
        rw [← zpow_natCast, h1]
        have h2 : m = 4 * (m / 4) + m % 4 := by omega
        conv_lhs => rw [h2, zpow_add, zpow_mul]
        have : x ^ (4 : ℤ) = 1 := by exact_mod_cast hx4
        rw [this]; simp
      refine ⟨⟨(m % 4).toNat, by omega⟩, ?_⟩
      simp only
      rw [hm]
      exact (Prod.ext (hpow _).1 (hpow _).2).symm

/-- **C02.** For arbitrary input, `get_cayley_table` raises `ValueError` exactly when some product of
two given operations is not in the list, and otherwise fills every entry with a correct index. -/
theorem c02_cayley_raises {rots : Fin n → M3} {trs : Option (Fin n → ℤ)} :
    (getCayleyTable rots trs = .error .valueError ↔
      ∃ i j, ¬ ∃ k, rots k = rots i * rots j ∧
        (trs.getD fun _ => 0) k = if (trs.getD fun _ => 0) i = (trs.getD fun _ => 0) j then 0 else 1) ∧
    (∀ T, getCayleyTable rots trs = .ok T → ∀ i j, rots (T i j) = rots i * rots j ∧
        (trs.getD fun _ => 0) (T i j) =
          if (trs.getD fun _ => 0) i = (trs.getD fun _ => 0) j then 0 else 1) ∧
    (∀ x, getCayleyTable rots trs = .error x → x = .valueError) := by
  have hif : ∀ i j, (if flagsOf trs i ≠ flagsOf trs j then (1 : ℤ) else 0) =
      if (trs.getD fun _ => 0) i = (trs.getD fun _ => 0) j then 0 else 1 := by
    intro i j
    unfold flagsOf
    by_cases h : (trs.getD fun _ => 0) i = (trs.getD fun _ => 0) j <;> simp [h]
  refine ⟨?_, ?_, ?_⟩
  · rw [getCayleyTable_error]
    simp only [true_and]
    constructor
    · rintro ⟨i, j, hij⟩
      refine ⟨i, j, ?_⟩
      rintro ⟨k, hk⟩
      have : (cayleyEntry rots (flagsOf trs) i j).isSome := by
        unfold cayleyEntry
        rw [indexOf?_isSome]
        exact ⟨k, Prod.ext hk.1 (by rw [hif]; exact hk.2)⟩
      rw [hij] at this
      simp at this
    · rintro ⟨i, j, hij⟩
      refine ⟨i, j, ?_⟩
      by_contra hc
      rw [← ne_eq, Option.ne_none_iff_isSome] at hc
      unfold cayleyEntry at hc
      rw [indexOf?_isSome] at hc
      obtain ⟨k, hk⟩ := hc
      simp only [Prod.mk.injEq] at hk
      exact hij ⟨k, hk.1, by rw [← hif]; exact hk.2⟩
  · intro T hT i j
    have := getCayleyTable_ok.1 hT i j
    unfold cayleyEntry at this
    rw [indexOf?_eq_some] at this
    obtain ⟨h1, _⟩ := this
    simp only [Prod.mk.injEq] at h1
    exact ⟨h1.1, by rw [← hif]; exact h1.2⟩
  · intro x hx
    exact (getCayleyTable_error.1 hx).1

/-- Both outcomes of C02 occur. -/
example : getCayleyTable ![rotsC4 0, rotsC4 1] = .error .valueError := by
  rw [c02_cayley_raises.1]
  exact ⟨1, 1, by decide +kernel⟩

example : ∃ T, getCayleyTable rotsC4 = .ok T := by
  obtain ⟨T, h, _⟩ := c01_cayley_table_ordinary rotsC4_group
  exact ⟨T, h⟩

/-- **C03.** On the table of a group the identity and inverse lookups succeed and return the indices
of the identity matrix and of the inverse matrix. -/
theorem c03_identity_inverse {rots : Fin n → M3} (h : EnumeratesGroup rots)
    {T : Fin n → Fin n → Fin n} (hT : getCayleyTable rots = .ok T) :
    (∃ e, getIdentityIndex T = .ok e ∧ rots e = 1) ∧
    ∀ i, ∃ j, getInverseIndex T i = .ok j ∧ rots i * rots j = 1 ∧ rots j * rots i = 1 := by
  obtain ⟨T', H, e, hT', hmul, he⟩ := cayley_of_group h
  rw [hT] at hT'
  cases hT'
  refine ⟨⟨_, getIdentityIndex_eq e hmul, by rw [← he]; simp⟩, fun i =>
    ⟨_, getInverseIndex_eq e hmul i, ?_, ?_⟩⟩
  · rw [← he, ← he]; simp
  · rw [← he, ← he]; simp

/-- **C03** for magnetic groups: the identity carries no time reversal, the inverse the same flag. -/
theorem c03_identity_inverse_magnetic {rots : Fin n → M3} {trs : Fin n → ℤ}
    (h : EnumeratesMagneticGroup rots trs)
    {T : Fin n → Fin n → Fin n} (hT : getCayleyTable rots (some trs) = .ok T) :
    (∃ e, getIdentityIndex T = .ok e ∧ rots e = 1 ∧ trs e = 0) ∧
    ∀ i, ∃ j, getInverseIndex T i = .ok j ∧ rots i * rots j = 1 ∧ rots j * rots i = 1 ∧
      trs j = trs i := by
  obtain ⟨T', H, e, hT', hmul, he⟩ := cayley_of_magnetic h
  rw [hT] at hT'
  cases hT'
  have h01 : ∀ i j, (trs i : ZMod 2) = (trs j : ZMod 2) → trs i = trs j := by
    intro i j hij
    rcases h.2.1 i with h1 | h1 <;> rcases h.2.1 j with h2 | h2 <;> simp_all
  refine ⟨⟨_, getIdentityIndex_eq e hmul, by rw [← (he _).1]; simp, ?_⟩, fun i =>
    ⟨_, getInverseIndex_eq e hmul i, ?_, ?_, ?_⟩⟩
  · have h1 : ((trs (e.symm 1) : ℤ) : ZMod 2) = 0 := by rw [← (he _).2]; simp
    rcases h.2.1 (e.symm 1) with h2 | h2
    · exact h2
    · rw [h2] at h1; exact absurd h1 (by decide)
  · rw [← (he _).1, ← (he _).1]; simp
  · rw [← (he _).1, ← (he _).1]; simp
  · apply h01
    rw [← (he _).2, ← (he _).2]
    have : ∀ z : ZMod 2, -z = z := by decide
    simp [this]

/-- Non-vacuity of C03: the fourfold group, whose element 1 has inverse 3. -/
example : EnumeratesGroup rotsC4 ∧ rotsC4 1 * rotsC4 3 = 1 ∧ rotsC4 1 ≠ rotsC4 3 :=
  ⟨rotsC4_group, by decide +kernel, by decide +kernel⟩

/-- **C04.** On the table of a group the loop of `get_order` terminates (fuel `n` suffices) and returns
the least positive exponent giving the identity matrix, which divides the group order. -/
theorem c04_get_order {rots : Fin n → M3} (h : EnumeratesGroup rots)
    {T : Fin n → Fin n → Fin n} (hT : getCayleyTable rots = .ok T) (i : Fin n) :
    ∃ m, getOrder T i = .ok m ∧ 0 < m ∧ rots i ^ m = 1 ∧
      (∀ l, 0 < l → rots i ^ l = 1 → m ≤ l) ∧ m ∣ n := by
  obtain ⟨T', H, e, hT', hmul, he⟩ := cayley_of_group h
  rw [hT] at hT'
  cases hT'
  have : Finite H := Finite.of_equiv _ e
  have hpow : ∀ l, rots i ^ l = 1 ↔ e i ^ l = 1 := by
    intro l
    rw [← he]
    rw [← Units.val_pow_eq_pow_val, Units.val_eq_one, ← Subgroup.coe_pow, OneMemClass.coe_eq_one]
  refine ⟨_, getOrder_eq e hmul i, orderOf_pos _, ?_, ?_, ?_⟩
  · rw [hpow]; exact pow_orderOf_eq_one _
  · intro l hl h1
    rw [hpow] at h1
    exact Nat.le_of_dvd hl (orderOf_dvd_of_pow_eq_one h1)
  · have h1 := orderOf_dvd_natCard (e i)
    have h2 : Nat.card H = n := by rw [← Nat.card_congr e]; simp
    rwa [h2] at h1

/-- Non-vacuity of C04: an element of order 4 in a group of order 4. -/
example : EnumeratesGroup rotsC4 ∧ rotsC4 1 ^ 4 = 1 ∧ rotsC4 1 ^ 2 ≠ 1 :=
  ⟨rotsC4_group, by decide +kernel, by decide +kernel⟩

/-- **C05 (partial).** For a non-empty list of non-singular integer matrices `is_matrix_group` is
exactly the property of enumerating a group.  Missing from the full claim: the empty list and
singular matrices, where the claim is false (see `c05_is_matrix_group_fails`). -/
theorem c05_is_matrix_group_partial {rots : Fin n → M3} (hn : 0 < n)
    (hdet : ∀ i, (rots i).det ≠ 0) : isMatrixGroup rots = true ↔ EnumeratesGroup rots :=
  ⟨enumerates_of_isMatrixGroup hn hdet, isMatrixGroup_of_enumerates⟩

/-- **C05 refuted as stated.** `is_matrix_group` accepts the empty list, and accepts two different
idempotent matrices, which do not form a group under any identity. -/
theorem c05_is_matrix_group_fails :
    (∃ rots : Fin 0 → M3, isMatrixGroup rots = true ∧ ¬ EnumeratesGroup rots) ∧
    (∃ rots : Fin 2 → M3, isMatrixGroup rots = true ∧ rots 0 ≠ rots 1 ∧
      ¬ ∃ e, ∀ i, rots e * rots i = rots i ∧ rots i * rots e = rots i) := by
  constructor
  · refine ⟨fun i => i.elim0, by decide, ?_⟩
    rintro ⟨_, H, hH⟩
    have : (1 : M3) ∈ (fun g : GL (Fin 3) ℤ => (g : M3)) '' H := ⟨1, H.one_mem, by simp⟩
    rw [← hH] at this
    obtain ⟨i, _⟩ := this
    exact i.elim0
  · refine ⟨![!![1, 0, 0; 0, 0, 0; 0, 0, 0], !![1, 1, 0; 0, 0, 0; 0, 0, 0]], ?_, ?_, ?_⟩ <;>
      decide +kernel

/-- Every list that does enumerate a group is accepted. -/
theorem c05_is_matrix_group_complete {rots : Fin n → M3} (h : EnumeratesGroup rots) :
    isMatrixGroup rots = true := isMatrixGroup_of_enumerates h

example : isMatrixGroup rotsC4 = true ∧ isMatrixGroup ![rotsC4 0, rotsC4 1] = false := by
  decide +kernel

/-- **C06.** `get_little_group` returns, in increasing order, exactly the indices whose rotation fixes
`k` within `atol` modulo integers, with their own rotations and translations. -/
theorem c06_little_group (rots : Fin n → M3) (trans : Fin n → V3) (k : V3) (atol : ℝ) :
    let out := getLittleGroup rots trans k atol
    (∀ i, i ∈ out.2.2 ↔ ∃ m : Fin 3 → ℤ, ∀ a,
      |(∑ b, (rots i b a : ℝ) * k b) - k a - m a| ≤ atol) ∧
    out.2.2.Pairwise (· < ·) ∧ out.1 = out.2.2.map rots ∧ out.2.1 = out.2.2.map trans := by
  refine ⟨fun i => ?_, littleMapping_sorted rots k atol, rfl, rfl⟩
  show i ∈ littleMapping rots k atol ↔ _
  rw [mem_littleMapping, inLittle_iff]
  rfl

/-- Non-vacuity of C06: at k=(1/2,0,0) the twofold rotation is kept and the fourfold one is not. -/
example : 2 ∈ (getLittleGroup rotsC4 (fun _ _ => 0) ![1/2, 0, 0] 0).2.2 ∧
    1 ∉ (getLittleGroup rotsC4 (fun _ _ => 0) ![1/2, 0, 0] 0).2.2 := by
  obtain ⟨h, _⟩ := c06_little_group rotsC4 (fun _ _ => 0) ![1/2, 0, 0] 0
  rw [h, h]
  constructor
  · refine ⟨![-1, 0, 0], fun a => ?_⟩
    fin_cases a <;> simp [rotsC4, Fin.sum_univ_three]
    norm_num
  · rintro ⟨m, hm⟩
    have := hm 1
    have hr : (∑ b, (rotsC4 1 b 1 : ℝ) * (![1/2, 0, 0] : V3) b) - (![1/2, 0, 0] : V3) 1 = -(1/2) := by
      simp [rotsC4, Fin.sum_univ_three]
    rw [hr, abs_nonpos_iff] at this
    have h2 : (2 * m 1 : ℝ) = -1 := by linarith
    have h3 : (2 * m 1 : ℤ) = -1 := by exact_mod_cast h2
    omega

/-- **C07 (partial).** If every coordinate of `k` has denominator dividing `N` and `atol < 1/N`, the
rotations returned by `get_little_group` form a group: precisely those fixing `k`.  Missing from the
full claim: k-points that are symmetric only within the tolerance, where it is false. -/
theorem c07_little_group_is_group_partial {rots : Fin n → M3} {k : V3} {atol : ℝ} {N : ℕ}
    (h : EnumeratesGroup rots) (hN : 0 < N) (hk : ∀ a, ∃ c : ℤ, (N : ℝ) * k a = c)
    (h0 : 0 ≤ atol) (hat : atol < 1 / N) :
    EnumeratesGroup (fun i => rots ((littleMapping rots k atol).get i)) ∧
    (∀ i, i ∈ littleMapping rots k atol ↔ FixesK (rots i) k) :=
  ⟨little_enumerates h fun _ => inLittle_iff_fixesK hN hk h0 hat,
    fun _ => mem_littleMapping.trans (inLittle_iff_fixesK hN hk h0 hat)⟩

/-- Non-vacuity of C07: C4 at (1/2,0,0) with the default tolerance. -/
example : EnumeratesGroup rotsC4 ∧ (0 < 2) ∧
    (∀ a, ∃ c : ℤ, ((2 : ℕ) : ℝ) * (![1/2, 0, 0] : V3) a = c) ∧ (0:ℝ) ≤ 1e-8 ∧
    (1e-8 : ℝ) < 1 / (2 : ℕ) := by
  refine ⟨rotsC4_group, by norm_num, ?_, by norm_num, by norm_num⟩
  intro a
  fin_cases a
  · exact ⟨1, by norm_num⟩
  · exact ⟨0, by norm_num⟩
  · exact ⟨0, by norm_num⟩

/-- **C07 refuted as stated.** For the threefold group and k=(1e-8,0,0), default tolerance, the
returned "little group" consists of the identity and one threefold rotation; it is not closed and the
next step `get_cayley_table` raises `ValueError`. -/
theorem c07_little_group_not_group :
    EnumeratesGroup rotsC3 ∧ littleMapping rotsC3 ![1e-8, 0, 0] 1e-8 = [0, 1] ∧
    getCayleyTable (fun i : Fin 2 => rotsC3 (([0, 1] : List (Fin 3)).get i)) =
      .error .valueError := by
  have key : ∀ i : Fin 3, InLittle (rotsC3 i) ![1e-8, 0, 0] 1e-8 ↔ i ≠ 2 := by
    intro i
    rw [inLittle_iff]
    constructor
    · rintro ⟨m, hm⟩ rfl
      have h := hm 0
      have hr : residual (rotsC3 2) ![1e-8, 0, 0] 0 = -2e-8 := by
        simp [rotsC3, residual, Fin.sum_univ_three]; norm_num
      rw [hr, abs_le] at h
      norm_num at h
      have h1 : (m 0 : ℝ) < 1 := by linarith
      have h2 : (-1 : ℝ) < m 0 := by linarith
      have h3 : m 0 < 1 := by exact_mod_cast h1
      have h4 : -1 < m 0 := by exact_mod_cast h2
      have h5 : m 0 = 0 := by omega
      rw [h5] at h
      norm_num at h
    · intro hi
      refine ⟨0, fun a => ?_⟩
      fin_cases i
      · fin_cases a <;> simp [rotsC3, residual, Fin.sum_univ_three] <;>
          norm_num [abs_of_pos]
      · fin_cases a <;> simp [rotsC3, residual, Fin.sum_univ_three] <;>
          norm_num [abs_of_pos]
      · exact absurd rfl hi
  refine ⟨rotsC3_group, ?_, ?_⟩
  · unfold littleMapping
    simp only [key]
    decide
  · rw [c02_cayley_raises.1]
    exact ⟨1, 1, by decide +kernel⟩

theorem dot3_rotVec (R : M3) (k w : V3) : dot3 k (rotVec R w) = dot3 (residual R k) w + dot3 k w := by
  unfold dot3 rotVec residual
  simp only [Fin.sum_univ_three]
  ring

theorem dot3_int {x y : V3} (hx : ∀ a, ∃ m : ℤ, x a = m) (hy : ∀ a, ∃ m : ℤ, y a = m) :
    ∃ m : ℤ, dot3 x y = m := by
  choose p hp using hx
  choose q hq using hy
  exact ⟨∑ a, p a * q a, by unfold dot3; push_cast; simp only [hp, hq]⟩

theorem factor_cocycle_aux {rots : Fin n → M3} {trans : Fin n → V3} {k : V3}
    (h : IsSpaceGroup rots trans) (hk : ∀ i, FixesK (rots i) k) {i j l jl il : Fin n}
    (hjl : rots j * rots l = rots jl) (hij : rots i * rots j = rots il) :
    getFactorSystem rots trans k i jl * getFactorSystem rots trans k j l =
      getFactorSystem rots trans k il l * getFactorSystem rots trans k i j := by
  unfold getFactorSystem
  rw [← expPhase_add, ← expPhase_add]
  apply expPhase_eq_of_sub_int
  choose m hm using h.2 j l jl hjl
  obtain ⟨q, hq⟩ := dot3_int (x := residual (rots i) k) (y := fun a => -(m a : ℝ)) (hk i)
    (fun a => ⟨-m a, by simp⟩)
  refine ⟨q, ?_⟩
  rw [← hq]
  have h1 : ∀ a, residual (rots il) k a =
      (∑ b, (rots j b a : ℝ) * residual (rots i) k b) + residual (rots j) k a := by
    intro a; rw [← hij, residual_mul]
  have h2 : ∀ a, (m a : ℝ) = (∑ b, (rots j a b : ℝ) * trans l b) + trans j a - trans jl a :=
    fun a => (hm a).symm
  unfold dot3
  simp only [h1, h2, Fin.sum_univ_three]
  ring

/-- **C08.** For coset representatives of a space group all fixing `k`, the factor system has modulus
one, is a cocycle of the multiplication table, and is normalised: `μ(E,j)=1`, and `μ(i,E)=1` because the
identity's translation is a lattice vector. -/
theorem c08_factor_system_cocycle {rots : Fin n → M3} {trans : Fin n → V3} {k : V3}
    (h : IsSpaceGroup rots trans) (hk : ∀ i, FixesK (rots i) k) {T : Fin n → Fin n → Fin n}
    (hT : getCayleyTable rots = .ok T) :
    (∀ i j, ‖getFactorSystem rots trans k i j‖ = 1) ∧
    IsCocycle T (getFactorSystem rots trans k) ∧
    (∀ e, rots e = 1 → ∀ j, getFactorSystem rots trans k e j = 1 ∧
      getFactorSystem rots trans k j e = 1) := by
  refine ⟨fun i j => norm_expPhase _, ?_, ?_⟩
  · intro i j l
    exact factor_cocycle_aux h hk (cayley_none_spec hT j l).1.symm (cayley_none_spec hT i j).1.symm
  · intro e he j
    constructor
    · unfold getFactorSystem
      rw [he]
      have : dot3 (residual 1 k) (trans j) = 0 := by
        unfold dot3; simp [residual_one]
      rw [this, expPhase_zero]
    · have hint : ∀ a, ∃ m : ℤ, trans e a = m := by
        intro a
        obtain ⟨m, hm⟩ := h.2 e e e (by rw [he]; simp) a
        refine ⟨m, ?_⟩
        rw [← hm, he]
        simp [Matrix.one_apply]
      obtain ⟨m, hm⟩ := dot3_int (hk j) hint
      unfold getFactorSystem
      have hm' : dot3 (residual (rots j) k) (trans e) = m := hm
      rw [hm', expPhase_int]

/-- The screw group 4_1 (primitive tetragonal), translations (0,0,i/4). -/
noncomputable def trans41 : Fin 4 → V3 := fun i => ![0, 0, (i : ℝ) / 4]

theorem space41 : IsSpaceGroup rotsC4 trans41 := by
  refine ⟨rotsC4_group, ?_⟩
  have h : ∀ i j l : Fin 4, rotsC4 i * rotsC4 j = rotsC4 l →
      ((i : ℕ) + j = l ∨ (i : ℕ) + j = l + 4) := by decide +kernel
  have hz : ∀ i : Fin 4, rotsC4 i 2 0 = 0 ∧ rotsC4 i 2 1 = 0 ∧ rotsC4 i 2 2 = 1 := by decide
  intro i j l hl a
  fin_cases a
  · exact ⟨0, by simp [trans41, Fin.sum_univ_three]; left; fin_cases i <;> rfl⟩
  · exact ⟨0, by simp [trans41, Fin.sum_univ_three]; left; fin_cases i <;> rfl⟩
  · rcases h i j l hl with h1 | h1
    · refine ⟨0, ?_⟩
      have h1' : (i : ℝ) + j = l := by exact_mod_cast h1
      simp [trans41, Fin.sum_univ_three, hz i]
      linarith
    · refine ⟨1, ?_⟩
      have h1' : (i : ℝ) + j = l + 4 := by exact_mod_cast h1
      simp [trans41, Fin.sum_univ_three, hz i]
      linarith

/-- Non-vacuity of C08: the screw group 4_1 at k=(1/2,1/2,1/2) with a non-integral fixed k-point. -/
example : IsSpaceGroup rotsC4 trans41 ∧ ∀ i, FixesK (rotsC4 i) ![1/2, 1/2, 1/2] := by
  refine ⟨space41, ?_⟩
  intro i a
  fin_cases i <;> fin_cases a <;> simp [rotsC4, Fin.sum_univ_three] <;>
    first
    | (refine ⟨0, ?_⟩; norm_num; done)
    | (refine ⟨-1, ?_⟩; norm_num)

/-- Characterisation of `check_cocycle_condition` on a group through its multiplication table. -/
theorem checkCocycle_group {rots : Fin n → M3} (h : EnumeratesGroup rots) {μ : Fin n → Fin n → ℂ}
    {T : Fin n → Fin n → Fin n} (hT : getCayleyTable rots = .ok T) :
    checkCocycleCondition rots μ = .ok true ↔
      ∀ i j k, IsCloseC 1e-5 1e-8 (μ i (T j k) * μ j k) (μ (T i j) k * μ i j) := by
  have hidx : ∀ i j, indexOf? rots (rots i * rots j) = some (T i j) := fun i j => by
    rw [indexOf?_eq_some_of_inj h.1]; exact (cayley_none_spec hT i j).1
  unfold checkCocycleCondition
  rw [isMatrixGroup_of_enumerates h]
  simp [hidx]

/-- **C09.** `check_cocycle_condition` accepts every exact cocycle on a group, in particular every
factor system computed from a space group, and rejects (returns False) every list of rotations that is
not closed under multiplication. -/
theorem c09_check_cocycle {rots : Fin n → M3} :
    (∀ T μ, EnumeratesGroup rots → getCayleyTable rots = .ok T → IsCocycle T μ →
      checkCocycleCondition rots μ = .ok true) ∧
    (∀ trans k, IsSpaceGroup rots trans → (∀ i, FixesK (rots i) k) →
      checkCocycleCondition rots (getFactorSystem rots trans k) = .ok true) ∧
    (∀ μ, (∃ i j, ∀ l, rots l ≠ rots i * rots j) → checkCocycleCondition rots μ = .ok false) ∧
    (∀ T μ i j k, EnumeratesGroup rots → getCayleyTable rots = .ok T →
      1e-8 + 1e-5 * ‖μ (T i j) k * μ i j‖ < ‖μ i (T j k) * μ j k - μ (T i j) k * μ i j‖ →
      checkCocycleCondition rots μ = .ok false) := by
  have key : ∀ T μ, EnumeratesGroup rots → getCayleyTable rots = .ok T → IsCocycle T μ →
      checkCocycleCondition rots μ = .ok true := by
    intro T μ h hT hμ
    rw [checkCocycle_group h hT]
    intro i j k
    unfold IsCloseC
    rw [hμ i j k, sub_self, norm_zero]
    positivity
  refine ⟨key, ?_, ?_, ?_⟩
  · intro trans k h hk
    obtain ⟨T, hT, _⟩ := c01_cayley_table_ordinary h.1
    exact key T _ h.1 hT (c08_factor_system_cocycle h hk hT).2.1
  · rintro μ ⟨i, j, hij⟩
    have : isMatrixGroup rots = false := by
      rw [← Bool.not_eq_true, isMatrixGroup_iff]
      rintro ⟨T, hT, _⟩
      exact hij _ (cayley_none_spec hT i j).1
    unfold checkCocycleCondition
    rw [if_pos this]
  · intro T μ i j k h hT hlt
    have hidx : ∀ i j, indexOf? rots (rots i * rots j) = some (T i j) := fun i j => by
      rw [indexOf?_eq_some_of_inj h.1]; exact (cayley_none_spec hT i j).1
    unfold checkCocycleCondition
    rw [isMatrixGroup_of_enumerates h]
    simp only [Bool.true_eq_false, ↓reduceIte, hidx, Option.isSome_some, implies_true,
      Except.ok.injEq, decide_eq_false_iff_not]
    intro hc
    have := hc i j k (T j k) (T i j) rfl rfl
    unfold IsCloseC at this
    linarith

/-- Non-vacuity of C09: a space group with a screw axis, and a non-closed list. -/
example : IsSpaceGroup rotsC4 trans41 ∧
    ∃ i j : Fin 2, ∀ l, (![rotsC4 0, rotsC4 1] : Fin 2 → M3) l ≠
      (![rotsC4 0, rotsC4 1] : Fin 2 → M3) i * (![rotsC4 0, rotsC4 1] : Fin 2 → M3) j :=
  ⟨space41, 1, 1, by decide +kernel⟩

end Spgrep
