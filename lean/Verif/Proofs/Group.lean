/-
Helper lemmas about the model of group.py.
-/
import Verif.Model.Group
import Verif.Spec.Group
import Mathlib.GroupTheory.OrderOfElement
import Mathlib.Algebra.Group.MinimalAxioms

namespace Spgrep

open Spec

variable {n : ℕ} {α : Type*} [DecidableEq α]

theorem find?_finRange_eq_some {p : Fin n → Bool} {k : Fin n} :
    (List.finRange n).find? p = some k ↔ p k = true ∧ ∀ j < k, p j = false := by
  constructor
  · intro h
    refine ⟨List.find?_some h, ?_⟩
    intro j hj
    rw [List.find?_eq_some_iff_getElem] at h
    obtain ⟨_, i, hi, hik, hlt⟩ := h
    have hi' : i = k.val := by
      have := congrArg Fin.val hik
      simpa using this
    have := hlt j.val (by omega)
    simpa using this
  · rintro ⟨hk, hlt⟩
    rw [List.find?_eq_some_iff_getElem]
    refine ⟨hk, k.val, by simp, by simp, ?_⟩
    intro j hj
    have := hlt ⟨j, by omega⟩ hj
    simpa using this

theorem find?_finRange_isSome {p : Fin n → Bool} :
    ((List.finRange n).find? p).isSome ↔ ∃ k, p k = true := by
  simp [List.find?_isSome]

theorem find?_finRange_of_unique {p : Fin n → Bool} {k : Fin n} (hk : p k = true)
    (hu : ∀ j, p j = true → j = k) : (List.finRange n).find? p = some k := by
  rw [find?_finRange_eq_some]
  refine ⟨hk, fun j hj => ?_⟩
  by_contra hc
  have := hu j (by simpa using hc)
  exact absurd hj (by simp [this])

theorem indexOf?_eq_some {xs : Fin n → α} {a : α} {k : Fin n} :
    indexOf? xs a = some k ↔ xs k = a ∧ ∀ j < k, xs j ≠ a := by
  unfold indexOf?
  rw [find?_finRange_eq_some]
  simp

theorem indexOf?_isSome {xs : Fin n → α} {a : α} :
    (indexOf? xs a).isSome ↔ ∃ k, xs k = a := by
  unfold indexOf?
  rw [find?_finRange_isSome]
  simp

theorem indexOf?_eq_some_of_inj {xs : Fin n → α} (hinj : Function.Injective xs) {a : α}
    {k : Fin n} : indexOf? xs a = some k ↔ xs k = a := by
  rw [indexOf?_eq_some]
  constructor
  · exact fun h => h.1
  · intro h
    refine ⟨h, fun j hj hc => ?_⟩
    exact absurd hj (by simp [hinj (hc.trans h.symm)])

/-- A bijection onto a group that turns `T` into multiplication makes `T` a group table. -/
theorem isGroupTable_of_equiv {G : Type*} [Group G] {T : Fin n → Fin n → Fin n} (e : Fin n ≃ G)
    (h : ∀ i j, e (T i j) = e i * e j) : IsGroupTable T where
  assoc a b c := e.injective (by simp [h, mul_assoc])
  one_inv := by
    refine ⟨e.symm 1, fun a => e.injective (by simp [h]), fun a => e.injective (by simp [h]),
      fun a => ⟨e.symm (e a)⁻¹, e.injective (by simp [h]), e.injective (by simp [h])⟩⟩

/-- Type synonym carrying the group structure of a table. -/
def TG {n : ℕ} (_T : Fin n → Fin n → Fin n) : Type := Fin n

namespace TG

variable {T : Fin n → Fin n → Fin n}

instance : Fintype (TG T) := inferInstanceAs (Fintype (Fin n))
instance : DecidableEq (TG T) := inferInstanceAs (DecidableEq (Fin n))

/-- The group structure on the indices given by a group table. -/
noncomputable abbrev group (h : IsGroupTable T) : Group (TG T) :=
  letI : Mul (TG T) := ⟨fun a b => T a b⟩
  letI : One (TG T) := ⟨h.one_inv.choose⟩
  letI : Inv (TG T) := ⟨fun a => (h.one_inv.choose_spec.2.2 a).choose⟩
  Group.ofRightAxioms (G := TG T) h.assoc (fun a => h.one_inv.choose_spec.2.1 a)
    (fun a => (h.one_inv.choose_spec.2.2 a).choose_spec.1)

end TG

/-- Every group table is realised by a finite group. -/
theorem IsGroupTable.realise {T : Fin n → Fin n → Fin n} (h : IsGroupTable T) :
    ∃ (G : Type) (_ : Group G) (e : Fin n ≃ G), ∀ i j, e (T i j) = e i * e j :=
  ⟨TG T, TG.group h, Equiv.refl _, fun _ _ => rfl⟩

section lookup

variable {G : Type*} [Group G] {T : Fin n → Fin n → Fin n} (e : Fin n ≃ G)

theorem getIdentityIndex_eq (h : ∀ i j, e (T i j) = e i * e j) :
    getIdentityIndex T = .ok (e.symm 1) := by
  unfold getIdentityIndex
  rw [find?_finRange_of_unique (k := e.symm 1)]
  · simp only [decide_eq_true_eq]
    intro j
    exact e.injective (by simp [h])
  · intro j hj
    simp only [decide_eq_true_eq] at hj
    have := congrArg e (hj j)
    rw [h] at this
    apply e.injective
    simpa using this

theorem getInverseIndex_eq (h : ∀ i j, e (T i j) = e i * e j) (i : Fin n) :
    getInverseIndex T i = .ok (e.symm (e i)⁻¹) := by
  unfold getInverseIndex
  rw [getIdentityIndex_eq e h]
  simp only [bind, Except.bind]
  rw [find?_finRange_of_unique (k := e.symm (e i)⁻¹)]
  · simp only [decide_eq_true_eq]
    exact e.injective (by simp [h])
  · intro j hj
    simp only [decide_eq_true_eq] at hj
    have := congrArg e hj
    rw [h] at this
    apply e.injective
    simp only [Equiv.apply_symm_apply] at this ⊢
    exact eq_inv_of_mul_eq_one_right this

theorem orderLoop_eq (h : ∀ i j, e (T i j) = e i * e j) (idx : Fin n) :
    ∀ (fuel k : ℕ) (tmp : Fin n), e tmp = e idx ^ k → 1 ≤ k → k ≤ orderOf (e idx) →
      orderOf (e idx) < k + fuel →
      orderLoop T (e.symm 1) idx fuel tmp k = some (orderOf (e idx)) := by
  intro fuel
  induction fuel with
  | zero => intro k tmp _ _ h1 h2; omega
  | succ f ih =>
    intro k tmp htmp hk1 hk2 hk3
    unfold orderLoop
    split_ifs with hc
    · have h1 : e idx ^ k = 1 := by rw [← htmp, hc]; simp
      have := Nat.le_of_dvd (by omega) (orderOf_dvd_of_pow_eq_one h1)
      congr 1; omega
    · apply ih
      · rw [h, htmp, pow_succ]
      · omega
      · have hne : k ≠ orderOf (e idx) := by
          intro hk
          apply hc
          apply e.injective
          rw [htmp, hk, pow_orderOf_eq_one]; simp
        omega
      · omega

theorem getOrder_eq (h : ∀ i j, e (T i j) = e i * e j) (idx : Fin n) :
    getOrder T idx = .ok (orderOf (e idx)) := by
  have : Finite G := Finite.of_equiv _ e
  have : Fintype G := Fintype.ofFinite G
  unfold getOrder
  rw [getIdentityIndex_eq e h]
  simp only [bind, Except.bind]
  have hcard : orderOf (e idx) ≤ n := by
    have h1 := orderOf_le_card_univ (x := e idx)
    have h2 : Fintype.card G = n := by
      rw [← Fintype.card_congr e]; simp
    omega
  rw [orderLoop_eq e h idx n 1 idx (by simp) le_rfl (orderOf_pos _) (by omega)]

end lookup

section cayley

theorem EnumeratesGroup.equiv {rots : Fin n → M3} (h : EnumeratesGroup rots) :
    ∃ (H : Subgroup (GL (Fin 3) ℤ)) (e : Fin n ≃ H), ∀ i, ((e i : GL (Fin 3) ℤ) : M3) = rots i := by
  obtain ⟨hinj, H, hH⟩ := h
  have hex : ∀ i, ∃ g : H, ((g : GL (Fin 3) ℤ) : M3) = rots i := by
    intro i
    have : rots i ∈ Set.range rots := ⟨i, rfl⟩
    rw [hH] at this
    obtain ⟨g, hg, he⟩ := this
    exact ⟨⟨g, hg⟩, he⟩
  choose f hf using hex
  have hbij : Function.Bijective f := by
    constructor
    · intro i j hij
      apply hinj
      rw [← hf, ← hf, hij]
    · intro g
      have : ((g : GL (Fin 3) ℤ) : M3) ∈ Set.range rots := by
        rw [hH]; exact ⟨g, g.2, rfl⟩
      obtain ⟨i, hi⟩ := this
      refine ⟨i, ?_⟩
      apply Subtype.ext
      apply Units.ext
      rw [hf, hi]
  exact ⟨H, Equiv.ofBijective f hbij, fun i => by simpa using hf i⟩

theorem EnumeratesMagneticGroup.equiv {rots : Fin n → M3} {trs : Fin n → ℤ}
    (h : EnumeratesMagneticGroup rots trs) :
    ∃ (H : Subgroup (GL (Fin 3) ℤ × Multiplicative (ZMod 2))) (e : Fin n ≃ H), ∀ i,
      ((e i).1.1 : M3) = rots i ∧ (e i).1.2.toAdd = (trs i : ZMod 2) := by
  obtain ⟨hinj, h01, H, hH⟩ := h
  have hex : ∀ i, ∃ g : H, ((g.1.1 : GL (Fin 3) ℤ) : M3) = rots i ∧ g.1.2.toAdd = (trs i : ZMod 2) := by
    intro i
    have : (rots i, ((trs i : ℤ) : ZMod 2)) ∈ Set.range fun i => (rots i, ((trs i : ℤ) : ZMod 2)) :=
      ⟨i, rfl⟩
    rw [hH] at this
    obtain ⟨g, hg, he⟩ := this
    simp only [Prod.mk.injEq] at he
    exact ⟨⟨g, hg⟩, he⟩
  choose f hf using hex
  have h01' : ∀ i j, (trs i : ZMod 2) = (trs j : ZMod 2) → trs i = trs j := by
    intro i j hij
    rcases h01 i with h1 | h1 <;> rcases h01 j with h2 | h2 <;> simp_all
  have hbij : Function.Bijective f := by
    constructor
    · intro i j hij
      apply hinj
      simp only [Prod.mk.injEq]
      refine ⟨by rw [← (hf i).1, ← (hf j).1, hij], h01' _ _ ?_⟩
      rw [← (hf i).2, ← (hf j).2, hij]
    · intro g
      have : (((g.1.1 : GL (Fin 3) ℤ) : M3), g.1.2.toAdd) ∈
          Set.range fun i => (rots i, ((trs i : ℤ) : ZMod 2)) := by
        rw [hH]; exact ⟨g, g.2, rfl⟩
      obtain ⟨i, hi⟩ := this
      simp only [Prod.mk.injEq] at hi
      refine ⟨i, ?_⟩
      apply Subtype.ext
      apply Prod.ext
      · apply Units.ext
        rw [(hf i).1, hi.1]
      · apply Multiplicative.toAdd.injective
        rw [(hf i).2, hi.2]
  exact ⟨H, Equiv.ofBijective f hbij, fun i => by simpa using hf i⟩

/-- Characterisation of success of `get_cayley_table` for arbitrary input. -/
theorem getCayleyTable_ok {rots : Fin n → M3} {trs : Option (Fin n → ℤ)}
    {T : Fin n → Fin n → Fin n} :
    getCayleyTable rots trs = .ok T ↔ ∀ i j, cayleyEntry rots (flagsOf trs) i j = some (T i j) := by
  unfold getCayleyTable
  constructor
  · intro h i j
    split_ifs at h with hs
    simp only [Except.ok.injEq] at h
    rw [← h]
    simp
  · intro h
    have hs : ∀ i j, (cayleyEntry rots (flagsOf trs) i j).isSome := fun i j => by simp [h i j]
    rw [dif_pos hs]
    congr 1
    funext i j
    simp [h]

theorem getCayleyTable_error {rots : Fin n → M3} {trs : Option (Fin n → ℤ)} {x : PyErr} :
    getCayleyTable rots trs = .error x ↔
      x = .valueError ∧ ∃ i j, cayleyEntry rots (flagsOf trs) i j = none := by
  unfold getCayleyTable
  split_ifs with hs
  · simp only [false_iff, not_and, not_exists]
    intro _ i j h
    have := hs i j
    simp [h] at this
  · simp only [Except.error.injEq]
    push Not at hs
    obtain ⟨i, j, hij⟩ := hs
    constructor
    · intro h
      exact ⟨h.symm, i, j, by simpa using hij⟩
    · exact fun h => h.1.symm

/-- On an enumerated group the table exists, and an equivalence with the group realises it. -/
theorem cayley_of_group {rots : Fin n → M3} (h : EnumeratesGroup rots) :
    ∃ (T : Fin n → Fin n → Fin n) (H : Subgroup (GL (Fin 3) ℤ)) (e : Fin n ≃ H),
      getCayleyTable rots = .ok T ∧ (∀ i j, e (T i j) = e i * e j) ∧
      (∀ i, ((e i : GL (Fin 3) ℤ) : M3) = rots i) := by
  obtain ⟨H, e, he⟩ := EnumeratesGroup.equiv h
  refine ⟨fun i j => e.symm (e i * e j), H, e, ?_, by simp, he⟩
  rw [getCayleyTable_ok]
  intro i j
  unfold cayleyEntry
  rw [indexOf?_eq_some_of_inj]
  · simp only [flagsOf, Option.getD_none, ne_eq, not_true_eq_false, ↓reduceIte, Prod.mk.injEq,
      and_true]
    rw [← he, ← he, ← he]
    simp
  · intro a b hab
    exact h.1 (Prod.ext_iff.1 hab).1

theorem cayley_of_magnetic {rots : Fin n → M3} {trs : Fin n → ℤ}
    (h : EnumeratesMagneticGroup rots trs) :
    ∃ (T : Fin n → Fin n → Fin n) (H : Subgroup (GL (Fin 3) ℤ × Multiplicative (ZMod 2)))
      (e : Fin n ≃ H), getCayleyTable rots (some trs) = .ok T ∧ (∀ i j, e (T i j) = e i * e j) ∧
      (∀ i, ((e i).1.1 : M3) = rots i ∧ (e i).1.2.toAdd = (trs i : ZMod 2)) := by
  obtain ⟨H, e, he⟩ := EnumeratesMagneticGroup.equiv h
  refine ⟨fun i j => e.symm (e i * e j), H, e, ?_, by simp, he⟩
  rw [getCayleyTable_ok]
  intro i j
  unfold cayleyEntry
  simp only [flagsOf, Option.getD_some]
  rw [indexOf?_eq_some_of_inj h.1]
  simp only [Prod.mk.injEq]
  constructor
  · rw [← (he i).1, ← (he j).1, ← (he _).1]
    simp
  · have h2 : ((trs (e.symm (e i * e j)) : ℤ) : ZMod 2) = trs i + trs j := by
      rw [← (he _).2, ← (he i).2, ← (he j).2]
      simp
    rcases h.2.1 i with h1 | h1 <;> rcases h.2.1 j with h3 | h3 <;>
      rcases h.2.1 (e.symm (e i * e j)) with h4 | h4 <;>
      simp only [h1, h3, h4, Int.cast_zero, Int.cast_one] at h2 ⊢ <;>
      first | (exact absurd h2 (by decide)) | simp

end cayley

end Spgrep
