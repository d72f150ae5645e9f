/-
Property C57: the blocks of project_to_irrep form a basis.
-/
import Verif.Proofs.ProjectBasis

namespace Spgrep

open Spec

variable {n d D : ℕ}

/-- **C57.** Let `rep` be a unitary projective representation, `irrep` a unitary projective irrep with the same
factor system, and let the linear-algebra routines satisfy their contracts.  With at least one trial
`project_to_irrep` returns a result.  The rows of all returned blocks together are linearly independent.  There
are at most as many blocks as independent intertwiners, and the final warning is given iff there are fewer.
Without the warning every block that transforms like the irrep is a linear combination of the returned ones. -/
theorem c57_projection_basis {T : Fin n → Fin n → Fin n} (hT : IsGroupTable T)
    {μ : Fin n → Fin n → ℂ} (hμ : ∀ g h, μ g h ≠ 0) {rep : RepArr n D} {irrep : RepArr n d}
    (hrep : IsProjRep T μ rep) (hru : IsUnitaryRep rep)
    (hirrep : IsProjRep T μ irrep) (hiu : IsUnitaryRep irrep) (hi : IsIrreducible irrep)
    (la : LinAlg) (hla : la.Contract) (atol : ℝ) (maxTrials : ℕ) :
    (0 < maxTrials → ∃ r, projectToIrrep la rep irrep atol maxTrials = .ok r) ∧
    ∀ bs w, projectToIrrep la rep irrep atol maxTrials = .ok (bs, w) →
      LinearIndependent ℂ (fun x : Fin bs.length × Fin d => fun m => bs.get x.1 x.2 m) ∧
      bs.length ≤ Module.finrank ℂ (homSub rep irrep) ∧
      (w = true ↔ bs.length < Module.finrank ℂ (homSub rep irrep)) ∧
      (w = false → ∀ b : Matrix (Fin d) (Fin D) ℂ,
        (∀ g i m, ∑ m', rep g m m' * b i m' = ∑ l, b l m * irrep g l i) →
        ∃ c : Fin bs.length → ℂ, b = ∑ i, c i • bs.get i) := by
  obtain ⟨i0⟩ := hi.1
  have hd : 0 < d := lt_of_le_of_lt (Nat.zero_le _) i0.2
  have hnum := numBasis_eq hT hμ hrep hirrep hiu
  have hinner : ∀ a : ℝ, 0 ≤ a → ∃ bs, projInner la rep irrep a = .ok bs ∧ GoodBlocks rep irrep bs :=
    fun a ha => projInner_good hT hμ hrep hru hirrep hiu hi hla ha
  constructor
  · intro hm
    unfold projectToIrrep
    by_cases h0 : numBasis rep irrep = 0
    · exact ⟨([], false), by simp only [h0, if_true]⟩
    · obtain ⟨x, hx⟩ := (c16_tolerance_search (n := n) (d := d) (D := D)).1
        (fun a => do let b ← projInner la rep irrep a; return (b, b.length)) (numBasis rep irrep) atol maxTrials
        |>.2.1 hm (by
          intro a h1 _
          obtain ⟨bs, hbs, _⟩ := hinner a (le_trans (by norm_num) h1)
          rw [hbs]
          exact ⟨_, rfl⟩)
      simp only [h0, if_false, hx]
      exact ⟨_, rfl⟩
  · intro bs w h
    have hg : GoodBlocks rep irrep bs := by
      rcases projectToIrrep_cases h with ⟨_, rfl, _⟩ | ⟨t, _, ht, _, hp, _⟩
      · refine ⟨?_, by simp⟩
        have : IsEmpty (Fin ([] : List (Matrix (Fin d) (Fin D) ℂ)).length × Fin d) := ⟨fun x => Fin.elim0 x.1⟩
        exact linearIndependent_empty_type
      · obtain ⟨bs', h1, h2⟩ := hinner t (le_trans (by norm_num) ht)
        rw [hp] at h1
        cases h1
        exact h2
    have hw := c16_tolerance_search.2 la rep irrep atol maxTrials bs w h
    rw [hnum] at hw
    have hli := blocks_card hd hg
    have hcard : bs.length ≤ Module.finrank ℂ (homSub rep irrep) := by
      simpa using hli.fintype_card_le_finrank
    refine ⟨hg.indep, hcard, ?_, ?_⟩
    · rw [hw]
      constructor
      · intro hne
        exact lt_of_le_of_ne hcard fun he => hne (by exact_mod_cast he)
      · intro hlt he
        exact hlt.ne (by exact_mod_cast he)
    · intro hf b hb
      have heq : bs.length = Module.finrank ℂ (homSub rep irrep) := by
        by_contra hne
        rw [hf] at hw
        exact absurd (hw.2 fun he => hne (by exact_mod_cast he)) (by simp)
      have hspan := hli.span_eq_top_of_card_eq_finrank' (by simpa using heq)
      have hbm : b.transpose ∈ homSub rep irrep := by
        intro g
        ext m i
        simpa [Matrix.mul_apply] using hb g i m
      have hmem : (⟨b.transpose, hbm⟩ : homSub rep irrep) ∈ Submodule.span ℂ (Set.range fun i : Fin bs.length =>
          (⟨(bs.get i).transpose, hg.hom _ (List.get_mem _ _)⟩ : homSub rep irrep)) := by
        rw [hspan]; trivial
      obtain ⟨c, hc⟩ := (Submodule.mem_span_range_iff_exists_fun ℂ).1 hmem
      refine ⟨c, ?_⟩
      have h3 := congrArg Matrix.transpose (congrArg Subtype.val hc)
      rw [Matrix.transpose_transpose] at h3
      rw [← h3]
      ext i m
      simp [Matrix.sum_apply]

/-- Non-vacuity of C57: the two-dimensional projective irrep of the Klein group occurs once in itself, and
routines satisfying the contracts exist; so projecting it returns one block or warns. -/
example : ∃ (la : LinAlg) (bs : List (Matrix (Fin 2) (Fin 2) ℂ)) (w : Bool), la.Contract ∧
    projectToIrrep la repV4 repV4 = .ok (bs, w) ∧ bs.length ≤ 1 ∧ (w = false → bs.length = 1) := by
  obtain ⟨la, hla⟩ := exists_linAlg_contract
  obtain ⟨h1, h2⟩ := c57_projection_basis tblV4_group (ne_zero_of_norm_one μV4_norm) repV4_proj repV4_unitary
    repV4_proj repV4_unitary repV4_irreducible la hla 1e-6 10
  obtain ⟨⟨bs, w⟩, hr⟩ := h1 (by norm_num)
  obtain ⟨_, h3, h4, _⟩ := h2 bs w hr
  rw [finrank_homSub_self repV4_irreducible] at h3 h4
  refine ⟨la, bs, w, hla, hr, h3, fun hw => ?_⟩
  rw [hw] at h4
  have : ¬ bs.length < 1 := fun h => by simpa using h4.2 h
  omega

end Spgrep
