/-
Representation theory for groups given by a multiplication table.
-/
import Verif.Proofs.Group
import Verif.Proofs.RepCount
import Verif.Spec.SpaceGroup
import Verif.Proofs.Numeric
import Verif.Model.Irreps

set_option linter.unusedSectionVars false

namespace Spgrep

open Spec Matrix Module

variable {n : ℕ} {T : Fin n → Fin n → Fin n} {μ : Fin n → Fin n → ℂ}

section
variable {ι κ : Type*} [Fintype ι] [Fintype κ] [DecidableEq ι] [DecidableEq κ]

theorem table_avg_intertwines (hT : IsGroupTable T) (hμ : ∀ g h, μ g h ≠ 0)
    {D : Fin n → Matrix ι ι ℂ} {E : Fin n → Matrix κ κ ℂ} (hD : IsProjRep T μ D)
    (hE : IsProjRep T μ E) (hEu : IsUnitaryRep E) (B : Matrix ι κ ℂ) (h : Fin n) :
    D h * (∑ g, D g * B * (E g).conjTranspose) = (∑ g, D g * B * (E g).conjTranspose) * E h := by
  let _ := TG.group hT
  have key := avg_intertwines (G := TG T) (μ := μ) hμ (D := D) (E := E) hD hE
    (IsUnitaryRep.isUnit hEu) B h
  have : avg (G := TG T) D E B = ∑ g, D g * B * (E g).conjTranspose := by
    exact Finset.sum_congr rfl fun g _ =>
      congrArg (fun X => D (g : Fin n) * B * X) (IsUnitaryRep.inv hEu (g : Fin n))
  rwa [this] at key

theorem table_char_orthogonality (hT : IsGroupTable T) (hμ : ∀ g h, μ g h ≠ 0)
    {D : Fin n → Matrix ι ι ℂ} {E : Fin n → Matrix κ κ ℂ} (hD : IsProjRep T μ D)
    (hE : IsProjRep T μ E) (hDu : IsUnitaryRep D) (hDi : IsIrreducible D) (hEi : IsIrreducible E)
    (hEu : IsUnitaryRep E) :
    (AreEquivalent D E → ∑ g, (D g).trace * star (E g).trace = (n : ℂ)) ∧
    (¬ AreEquivalent D E → ∑ g, (D g).trace * star (E g).trace = 0) := by
  let _ := TG.group hT
  have key := char_orthogonality (G := TG T) (μ := μ) hμ (D := D) (E := E) hD hE hDu hDi hEi hEu
  have hc : Fintype.card (TG T) = n := Fintype.card_fin n
  rw [hc] at key
  exact key

theorem table_sum_char_conj (hT : IsGroupTable T) (hμ : ∀ g h, μ g h ≠ 0)
    {D : Fin n → Matrix ι ι ℂ} {E : Fin n → Matrix κ κ ℂ} (hD : IsProjRep T μ D)
    (hE : IsProjRep T μ E) (hEu : IsUnitaryRep E) :
    ∑ g, (D g).trace * star (E g).trace = (n : ℂ) * (finrank ℂ (homSub D E) : ℂ) := by
  let _ := TG.group hT
  have key := sum_char_conj (G := TG T) (μ := μ) hμ (D := D) (E := E) hD hE hEu
  have hc : Fintype.card (TG T) = n := Fintype.card_fin n
  rw [hc] at key
  exact key

theorem table_schur_orthogonality_self (hT : IsGroupTable T) (hμ : ∀ g h, μ g h ≠ 0)
    {D : Fin n → Matrix ι ι ℂ} (hD : IsProjRep T μ D) (hDi : IsIrreducible D) (hDu : IsUnitaryRep D)
    (i j k l : ι) :
    ∑ g, D g i j * star (D g l k) =
      if i = l ∧ j = k then (n : ℂ) / (Fintype.card ι : ℂ) else 0 := by
  let _ := TG.group hT
  have key := schur_orthogonality_self (G := TG T) (μ := μ) hμ (D := D) hD hDi
    (IsUnitaryRep.isUnit hDu) i j k l
  have hc : Fintype.card (TG T) = n := Fintype.card_fin n
  rw [hc] at key
  rw [← key]
  exact Finset.sum_congr rfl fun g _ => congrArg (fun X : Matrix ι ι ℂ => D (g : Fin n) i j * X k l)
    (IsUnitaryRep.inv hDu (g : Fin n)).symm

theorem table_schur_orthogonality_ne (hT : IsGroupTable T) (hμ : ∀ g h, μ g h ≠ 0)
    {D : Fin n → Matrix ι ι ℂ} {E : Fin n → Matrix κ κ ℂ} (hD : IsProjRep T μ D)
    (hE : IsProjRep T μ E) (hDi : IsIrreducible D) (hEi : IsIrreducible E) (hEu : IsUnitaryRep E)
    (hne : ¬ AreEquivalent D E) (i j : ι) (k l : κ) : ∑ g, D g i j * star (E g l k) = 0 := by
  let _ := TG.group hT
  have key := schur_orthogonality_ne (G := TG T) (μ := μ) hμ (D := D) (E := E) hD hE hDi hEi
    (IsUnitaryRep.isUnit hEu) hne i j k l
  rw [← key]
  exact Finset.sum_congr rfl fun g _ => congrArg (fun X : Matrix κ κ ℂ => D (g : Fin n) i j * X k l)
    (IsUnitaryRep.inv hEu (g : Fin n)).symm

/-- The character test for irreducibility. -/
theorem table_irreducible_iff (hT : IsGroupTable T) (hμ : ∀ g h, μ g h ≠ 0)
    {D : Fin n → Matrix ι ι ℂ} (hD : IsProjRep T μ D) (hDu : IsUnitaryRep D) :
    IsIrreducible D ↔ ∑ g, (D g).trace * star (D g).trace = (n : ℂ) := by
  have hn : (n : ℂ) ≠ 0 := by
    obtain ⟨e, _⟩ := hT.one_inv
    have : 0 < n := Nat.lt_of_le_of_lt (Nat.zero_le _) e.2
    exact_mod_cast this.ne'
  rw [table_sum_char_conj hT hμ hD hD hDu]
  constructor
  · intro hi
    rw [finrank_homSub_self hi]; simp
  · intro h
    have h1 : (finrank ℂ (homSub D D) : ℂ) = 1 := by
      apply mul_left_cancel₀ hn; rw [h, mul_one]
    let _ := TG.group hT
    exact irreducible_of_finrank_one (G := TG T) (μ := μ) hμ (D := D) hD
      (IsUnitaryRep.isUnit hDu _) (by exact_mod_cast h1)

/-- A list of pairwise inequivalent unitary irreps is complete as soon as the squares of the dimensions
add up to the group order. -/
theorem isCompleteIrreps_of_card (hT : IsGroupTable T) (hμ : ∀ g h, μ g h ≠ 0)
    {L : List (Σ d : ℕ, Fin n → Matrix (Fin d) (Fin d) ℂ)}
    (hrep : ∀ D ∈ L, IsProjRep T μ D.2) (hun : ∀ D ∈ L, IsUnitaryRep D.2)
    (hirr : ∀ D ∈ L, IsIrreducible D.2) (hne : L.Pairwise fun D E => ¬ AreEquivalent D.2 E.2)
    (hcard : (L.map fun D => D.1 ^ 2).sum = n) : IsCompleteIrreps T μ L := by
  refine ⟨hrep, hun, hirr, hne, fun e E hE hEu hEi => ?_⟩
  let _ := TG.group hT
  have hc : Fintype.card (TG T) = n := Fintype.card_fin n
  have hmem : ∀ i : Fin L.length, L.get i ∈ L := fun i => List.get_mem L i
  have hF : IrrepFamily (G := TG T) (A := Fin L.length) (d := fun i => (L.get i).1) μ
      (fun i => (L.get i).2) := by
    refine ⟨fun i => hrep _ (hmem i), fun i => IsUnitaryRep.isUnit (hun _ (hmem i)),
      fun i => hirr _ (hmem i), fun i j hij => ?_⟩
    have hd := List.pairwise_iff_get.1 hne
    rcases lt_trichotomy i j with h1 | h1 | h1
    · exact absurd hij (hd i j h1)
    · exact h1
    · exact absurd (AreEquivalent.symm hij) (hd j i h1)
  have hs : ∑ i : Fin L.length, (L.get i).1 ^ 2 = Fintype.card (TG T) := by
    refine Eq.trans ?_ (hcard.trans hc.symm)
    rw [← List.sum_ofFn]
    refine congrArg List.sum ?_
    conv_rhs => rw [← List.ofFn_get L, List.map_ofFn]
    rfl
  obtain ⟨a, ha⟩ := complete_of_card (G := TG T) hμ hF hs (Γ := E) hE hEu hEi
  exact ⟨_, hmem a, AreEquivalent.symm ha⟩

/-- A complete list of irreps has squared dimensions adding up to the group order. -/
theorem IsCompleteIrreps.sum_sq (hT : IsGroupTable T) (hμ : ∀ g h, μ g h ≠ 0)
    (hc : ∀ i j k, μ i (T j k) * μ j k = μ (T i j) k * μ i j)
    {L : List (Σ d : ℕ, Fin n → Matrix (Fin d) (Fin d) ℂ)} (hL : IsCompleteIrreps T μ L) :
    (L.map fun D => D.1 ^ 2).sum = n := by
  let _ := TG.group hT
  have hcd : Fintype.card (TG T) = n := Fintype.card_fin n
  have hmem : ∀ i : Fin L.length, L.get i ∈ L := fun i => List.get_mem L i
  have hF : IrrepFamily (G := TG T) (A := Fin L.length) (d := fun i => (L.get i).1) μ
      (fun i => (L.get i).2) := by
    refine ⟨fun i => hL.rep _ (hmem i), fun i => IsUnitaryRep.isUnit (hL.unitary _ (hmem i)),
      fun i => hL.irred _ (hmem i), fun i j hij => ?_⟩
    have hd := List.pairwise_iff_get.1 hL.inequiv
    rcases lt_trichotomy i j with h1 | h1 | h1
    · exact absurd hij (hd i j h1)
    · exact h1
    · exact absurd (AreEquivalent.symm hij) (hd j i h1)
  have hs : ∑ i : Fin L.length, (L.get i).1 ^ 2 = Fintype.card (TG T) :=
    card_of_complete (G := TG T) hμ hc hF (by
      intro e Γ hΓ hΓu hΓi
      obtain ⟨D, hD, hDE⟩ := hL.complete e Γ hΓ hΓu hΓi
      obtain ⟨i, rfl⟩ := List.get_of_mem hD
      exact ⟨i, AreEquivalent.symm hDE⟩)
  rw [hcd] at hs
  refine Eq.trans ?_ hs
  rw [← List.sum_ofFn]
  refine congrArg List.sum ?_
  conv_lhs => rw [← List.ofFn_get L, List.map_ofFn]
  rfl

theorem table_pos (hT : IsGroupTable T) : 0 < n := by
  obtain ⟨e, _⟩ := hT.one_inv
  exact Nat.lt_of_le_of_lt (Nat.zero_le _) e.2

theorem ne_zero_of_norm_one (h : ∀ g k, ‖μ g k‖ = 1) : ∀ g k, μ g k ≠ 0 := by
  intro g k h0
  have := h g k
  rw [h0, norm_zero] at this
  norm_num at this

end

theorem getCharacter_eq_trace {d : ℕ} (rep : RepArr n d) (k : Fin n) :
    getCharacter rep k = (rep k).trace := rfl

theorem rint_zero : rint 0 = 0 := by
  simpa using rint_intCast 0

theorem rintC_natCast (m : ℕ) : rintC (m : ℂ) = m := by
  have h : rint (m : ℝ) = m := by exact_mod_cast rint_intCast (m : ℤ)
  unfold rintC
  apply Complex.ext
  · simp [h]
  · simp [rint_zero]

theorem rintC_zero : rintC 0 = 0 := by
  simpa using rintC_natCast 0

theorem zipWith_map_self {α : Type*} (S : List α) (f g : α → ℂ) :
    List.zipWith (fun a b => star a * b) (S.map f) (S.map g) = S.map fun s => star (f s) * g s := by
  induction S with
  | nil => rfl
  | cons a S ih => simp

theorem isEquivalentIrrep_map {α : Type*} (S : List α) (f g : α → ℂ) :
    IsEquivalentIrrep (S.map f) (S.map g) ↔
      rintC (S.map fun s => star (f s) * g s).sum = (S.length : ℂ) := by
  unfold IsEquivalentIrrep
  rw [zipWith_map_self, List.length_map]

theorem isEquivalentIrrep_ofFn (f g : Fin n → ℂ) :
    IsEquivalentIrrep (List.ofFn f) (List.ofFn g) ↔ rintC (∑ k, star (f k) * g k) = (n : ℂ) := by
  rw [List.ofFn_eq_map, List.ofFn_eq_map, isEquivalentIrrep_map]
  rw [← List.ofFn_eq_map, List.sum_ofFn, List.length_finRange]

end Spgrep
