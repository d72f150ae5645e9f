/-
C74: projecting to all irreps gives a basis of the whole space.
-/
import Verif.Proofs.Adapted

namespace Spgrep

open Spec

variable {n D : ℕ} {T : Fin n → Fin n → Fin n} {μ : Fin n → Fin n → ℂ}

/-- **C74.** Project a unitary representation to every member of a complete list of irreps.  If no projection ends with the
warning, all returned row vectors together are a basis of the whole space: they are linearly independent and span it, their
number is the dimension; vectors of different irreps are orthogonal; and in this basis every matrix of the representation
is block diagonal, each block being the matrix of the irrep. -/
theorem c74_adapted_basis (hT : IsGroupTable T) (hμ : ∀ g h, μ g h ≠ 0) {rep : RepArr n D}
    (hrep : IsProjRep T μ rep) (hru : IsUnitaryRep rep) {L : List (AnyRep n)} (hL : IsCompleteIrreps T μ L)
    (la : LinAlg) (hla : la.Contract) (atol : ℝ) (maxTrials : ℕ)
    {bs : ∀ i : Fin L.length, List (Matrix (Fin (L.get i).1) (Fin D) ℂ)}
    (hrun : ∀ i, projectToIrrep la rep (L.get i).2 atol maxTrials = .ok (bs i, false)) :
    let row : (Σ i, Fin (bs i).length × Fin (L.get i).1) → Fin D → ℂ := fun x => (bs x.1).get x.2.1 x.2.2
    LinearIndependent ℂ row ∧ Submodule.span ℂ (Set.range row) = ⊤ ∧
    ∑ i, (bs i).length * (L.get i).1 = D ∧
    (∀ x y, x.1 ≠ y.1 → ∑ m, row x m * star (row y m) = 0) ∧
    ∀ g i (a : Fin (bs i).length) j,
      (rep g).mulVec (row ⟨i, a, j⟩) = ∑ l, (L.get i).2 g l j • row ⟨i, a, l⟩ := by
  intro row
  have hmem : ∀ i : Fin L.length, L.get i ∈ L := fun i => List.get_mem L i
  have hineq : ∀ i j : Fin L.length, i ≠ j → ¬ AreEquivalent (L.get i).2 (L.get j).2 := by
    intro i j hij h
    have hd := List.pairwise_iff_get.1 hL.inequiv
    rcases lt_or_gt_of_ne hij with h1 | h1
    · exact hd i j h1 h
    · exact hd j i h1 (AreEquivalent.symm h)
  have h57 := fun i => (c57_projection_basis hT hμ hrep hru (hL.rep _ (hmem i)) (hL.unitary _ (hmem i))
    (hL.irred _ (hmem i)) la hla atol maxTrials).2 _ _ (hrun i)
  have hhom : ∀ i, ∀ b ∈ bs i, BlockHom rep (L.get i).2 b := by
    intro i b hb g
    have := ((c15_projection hT hμ hrep hru (hL.rep _ (hmem i)) (hL.unitary _ (hmem i))
      (hL.irred _ (hmem i))).2 la atol maxTrials _ _ (hrun i) b hb).1
    ext m j
    simpa [Matrix.mul_apply] using this g j m
  have horth : ∀ x y, x.1 ≠ y.1 → ∑ m, row x m * star (row y m) = 0 := by
    rintro ⟨i, a, j⟩ ⟨i', a', j'⟩ hne
    have := BlockHom.orthogonal hru (hL.unitary _ (hmem i')) (hL.irred _ (hmem i')) (hL.irred _ (hmem i))
      (hineq i' i hne.symm) (hhom i' _ (List.get_mem _ a')) (hhom i _ (List.get_mem _ a))
    have h1 := congrFun (congrFun this j') j
    rw [Matrix.mul_apply] at h1
    rw [Matrix.zero_apply] at h1
    rw [← h1]
    exact Finset.sum_congr rfl fun m _ => mul_comm _ _
  have hli : LinearIndependent ℂ row := by
    rw [Fintype.linearIndependent_iff]
    rintro c hc ⟨i, a, j⟩
    let v : Fin L.length → Fin D → ℂ := fun i => ∑ y : Fin (bs i).length × Fin (L.get i).1, c ⟨i, y⟩ • row ⟨i, y⟩
    have hv : ∑ i, v i = 0 := by rw [← hc, Fintype.sum_sigma]
    have hvo : ∀ i k, i ≠ k → ∑ m, v i m * star (v k m) = 0 := by
      intro i k hik
      simp only [v, Finset.sum_apply, Pi.smul_apply, smul_eq_mul, star_sum, star_mul', Finset.sum_mul, Finset.mul_sum]
      rw [Finset.sum_comm]
      refine Finset.sum_eq_zero fun z _ => ?_
      rw [Finset.sum_comm]
      refine Finset.sum_eq_zero fun y _ => ?_
      have := horth ⟨i, y⟩ ⟨k, z⟩ hik
      calc _ = ∑ m, c ⟨i, y⟩ * star (c ⟨k, z⟩) * (row ⟨i, y⟩ m * star (row ⟨k, z⟩ m)) :=
            Finset.sum_congr rfl fun m _ => by ring
        _ = 0 := by rw [← Finset.mul_sum, this, mul_zero]
    have hvv : ∑ m, v i m * star (v i m) = 0 := by
      have h1 : ∑ k, ∑ m, v k m * star (v i m) = 0 := by
        rw [Finset.sum_comm]
        simp_rw [← Finset.sum_mul]
        refine Finset.sum_eq_zero fun m _ => ?_
        have := congrFun hv m
        rw [Finset.sum_apply] at this
        rw [this, Pi.zero_apply, zero_mul]
      rwa [Finset.sum_eq_single i (fun k _ hk => hvo k i hk) (fun h => absurd (Finset.mem_univ i) h)] at h1
    have hv0 : v i = 0 := by
      have h1 : ((∑ m, ‖v i m‖ ^ 2 : ℝ) : ℂ) = 0 := by
        rw [← hvv]; push_cast
        refine Finset.sum_congr rfl fun m _ => ?_
        rw [RCLike.star_def, Complex.mul_conj']
      have h2 : ∑ m, ‖v i m‖ ^ 2 = 0 := by exact_mod_cast h1
      funext m
      have := (Finset.sum_eq_zero_iff_of_nonneg fun _ _ => by positivity).1 h2 m (Finset.mem_univ m)
      simpa using this
    exact (Fintype.linearIndependent_iff.1 (h57 i).1) (fun y => c ⟨i, y⟩) hv0 (a, j)
  -- no vector is orthogonal to all rows
  have hbot := orthSub_eq_bot (κ := Σ i, Fin (bs i).length) (dim := fun x => (L.get x.1).1)
    (B := fun x => (bs x.1).get x.2) (F := fun x => (L.get x.1).2) hrep hru hL
    (fun x => hL.unitary _ (hmem _)) (fun x => hhom _ _ (List.get_mem _ _)) (by
      intro E hE b hb ho
      obtain ⟨i, rfl⟩ := List.get_of_mem hE
      obtain ⟨c, hc⟩ := (h57 i).2.2.2 rfl b (fun g j m => by
        have := congrFun (congrFun (hb g) m) j
        simpa [Matrix.mul_apply] using this)
      have h1 : b.map star = ∑ a, star (c a) • ((bs i).get a).map star := by
        rw [hc]; ext j m
        simp [Matrix.sum_apply]
      rw [h1, Matrix.sum_mul]
      refine Finset.sum_eq_zero fun a _ => ?_
      rw [Matrix.smul_mul, ho ⟨i, a⟩, smul_zero])
  have hcard : Fintype.card (Σ i, Fin (bs i).length × Fin (L.get i).1) = ∑ i, (bs i).length * (L.get i).1 := by
    simp [Fintype.card_sigma]
  have hle := hli.fintype_card_le_finrank
  have hge : D ≤ Fintype.card (Σ i, Fin (bs i).length × Fin (L.get i).1) := by
    let A : Matrix (Σ i, Fin (bs i).length × Fin (L.get i).1) (Fin D) ℂ := Matrix.of fun x m => star (row x m)
    have hinj : Function.Injective A.mulVecLin := by
      rw [← LinearMap.ker_eq_bot, Submodule.eq_bot_iff]
      intro v hv
      have h1 : v ∈ orthSub (fun x : Σ i, Fin (bs i).length => (bs x.1).get x.2) := by
        rintro ⟨i, a⟩
        funext j
        exact congrFun hv ⟨i, a, j⟩
      rwa [hbot] at h1
    have := LinearMap.finrank_le_finrank_of_injective hinj
    simpa using this
  have heq : Fintype.card (Σ i, Fin (bs i).length × Fin (L.get i).1) = Module.finrank ℂ (Fin D → ℂ) :=
    le_antisymm hle (by simpa using hge)
  refine ⟨hli, hli.span_eq_top_of_card_eq_finrank' heq, ?_, horth, ?_⟩
  · rw [← hcard, heq]; simp
  · intro g i a j
    exact (hhom i _ (List.get_mem _ a)).row g j

end Spgrep
