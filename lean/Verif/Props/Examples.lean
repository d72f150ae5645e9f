/-
Concrete groups and representations shared by the non-vacuity examples and counterexamples.
-/
import Verif.Proofs.TableRep
import Verif.Props.Group

namespace Spgrep

open Spec Matrix

/-- Multiplication table of the Klein four-group. -/
def tblV4 : Fin 4 → Fin 4 → Fin 4 :=
  ![![0, 1, 2, 3], ![1, 0, 3, 2], ![2, 3, 0, 1], ![3, 2, 1, 0]]

theorem tblV4_group : IsGroupTable tblV4 where
  assoc := by decide
  one_inv := ⟨0, by decide, by decide, by decide⟩

/-- Integer signs of the non-trivial cocycle of the Klein four-group. -/
def sgnV4 : Fin 4 → Fin 4 → ℤ :=
  ![![1, 1, 1, 1], ![1, 1, 1, 1], ![1, -1, 1, -1], ![1, -1, 1, -1]]

/-- Integer matrices `1, σx, σz, σx σz`. -/
def matV4 : Fin 4 → Matrix (Fin 2) (Fin 2) ℤ :=
  ![!![1, 0; 0, 1], !![0, 1; 1, 0], !![1, 0; 0, -1], !![0, -1; 1, 0]]

/-- The cocycle over ℂ. -/
def μV4 (i j : Fin 4) : ℂ := sgnV4 i j

/-- The two-dimensional projective irrep of the Klein four-group. -/
def repV4 : RepArr 4 2 := fun i => (matV4 i).map (Int.cast : ℤ → ℂ)

theorem μV4_norm (i j : Fin 4) : ‖μV4 i j‖ = 1 := by
  have h : ∀ i j, sgnV4 i j = 1 ∨ sgnV4 i j = -1 := by decide
  unfold μV4
  rcases h i j with h | h <;> simp [h]

theorem μV4_real (i j : Fin 4) : μV4 i j = 1 ∨ μV4 i j = -1 := by
  have h : ∀ i j, sgnV4 i j = 1 ∨ sgnV4 i j = -1 := by decide
  unfold μV4
  rcases h i j with h | h <;> simp [h]

theorem μV4_cocycle : IsCocycle tblV4 μV4 := by
  have h : ∀ i j k, sgnV4 i (tblV4 j k) * sgnV4 j k = sgnV4 (tblV4 i j) k * sgnV4 i j := by decide
  intro i j k
  unfold μV4
  exact_mod_cast h i j k

theorem repV4_proj : IsProjRep tblV4 μV4 repV4 := by
  have h : ∀ i j, matV4 i * matV4 j = sgnV4 i j • matV4 (tblV4 i j) := by decide
  intro i j
  have h2 := congrArg (fun M : Matrix (Fin 2) (Fin 2) ℤ => M.map (Int.castRingHom ℂ)) (h i j)
  simp only [Matrix.map_mul] at h2
  unfold repV4 μV4
  rw [show (matV4 i).map (Int.cast : ℤ → ℂ) = (matV4 i).map (Int.castRingHom ℂ) from rfl,
    show (matV4 j).map (Int.cast : ℤ → ℂ) = (matV4 j).map (Int.castRingHom ℂ) from rfl, h2]
  ext a b
  rw [Matrix.map_apply, Matrix.smul_apply, Matrix.smul_apply, Matrix.map_apply]
  simp

theorem repV4_unitary : IsUnitaryRep repV4 := by
  have h : ∀ i, matV4 i * (matV4 i).transpose = 1 := by decide
  intro i
  have h2 := congrArg (fun M : Matrix (Fin 2) (Fin 2) ℤ => M.map (Int.castRingHom ℂ)) (h i)
  simp only [Matrix.map_mul] at h2
  have h3 : (repV4 i).conjTranspose = (matV4 i).transpose.map (Int.castRingHom ℂ) := by
    ext a b; simp [repV4, Matrix.conjTranspose_apply]
  rw [h3]
  show (matV4 i).map (Int.castRingHom ℂ) * _ = 1
  rw [h2]
  simp

theorem repV4_irreducible : IsIrreducible repV4 := by
  rw [table_irreducible_iff tblV4_group (ne_zero_of_norm_one μV4_norm) repV4_proj repV4_unitary]
  simp [Fin.sum_univ_four, repV4, matV4, Matrix.trace, Fin.sum_univ_two]
  norm_num

theorem repV4_complete : IsCompleteIrreps tblV4 μV4 [⟨2, repV4⟩] := by
  refine isCompleteIrreps_of_card tblV4_group (ne_zero_of_norm_one μV4_norm) ?_ ?_ ?_ ?_ ?_
  · simpa using repV4_proj
  · simpa using repV4_unitary
  · simpa using repV4_irreducible
  · simp
  · simp

end Spgrep
