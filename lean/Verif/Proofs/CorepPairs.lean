/-
The pairing of conjugated irreps in corep.py, for irreps known up to the purification tolerance.
-/
import Verif.Proofs.CorepLaw
import Verif.Proofs.SmallReal
import Verif.Props.Coset

namespace Spgrep

open Spec

variable {n m d e l : ℕ}

/-- The test on characters decides equivalence also for perturbed matrices. -/
theorem near_test_iff {T : Fin n → Fin n → Fin n} {μ : Fin n → Fin n → ℂ} (hT : IsGroupTable T) (hμ : ∀ g h, ‖μ g h‖ = 1)
    {D D' : RepArr n d} {E E' : RepArr n e} (hD : IsProjRep T μ D) (hE : IsProjRep T μ E) (hDu : IsUnitaryRep D)
    (hEu : IsUnitaryRep E) (hDi : Spec.IsIrreducible D) (hEi : Spec.IsIrreducible E) (hd : d ^ 2 ≤ n) (he : e ^ 2 ≤ n)
    {ε : ℝ} (hε0 : 0 ≤ ε) (hε : (n : ℝ) ^ 2 * ε ≤ 1 / 5) (h1 : Near ε D D') (h2 : Near ε E E') :
    IsEquivalentIrrep (List.ofFn (getCharacter D')) (List.ofFn (getCharacter E')) ↔ AreEquivalent D E := by
  have hn := table_pos hT
  have hn1 : (1 : ℝ) ≤ n := by exact_mod_cast hn
  obtain ⟨o1, o2⟩ := table_char_orthogonality hT (ne_zero_of_norm_one hμ) hE hD hEu hEi hDi hDu
  have hsum : ∀ (D : RepArr n d) (E : RepArr n e), ∑ k, star (getCharacter D k) * getCharacter E k =
      ∑ g, ∑ i, ∑ j, star (D g i i) * E g j j := by
    intro D E
    refine Finset.sum_congr rfl fun g _ => ?_
    unfold getCharacter
    rw [star_sum, Finset.sum_mul_sum]
  have hsum' : ∑ g, (E g).trace * star (D g).trace = ∑ g, ∑ i, ∑ j, star (D g i i) * E g j j := by
    rw [← hsum]
    exact Finset.sum_congr rfl fun g _ => mul_comm _ _
  have hde : (d : ℝ) * e ≤ n := by
    have : d * e ≤ n := by nlinarith [sq_nonneg ((d : ℤ) - e)]
    exact_mod_cast this
  have h3 : ‖∑ g, ∑ i, ∑ j, star (D g i i) * E g j j - ∑ g, ∑ i, ∑ j, star (D' g i i) * E' g j j‖ ≤
      n * (d * (e * (2 * ε + ε ^ 2))) := by
    have := sum_near (ε := d * (e * (2 * ε + ε ^ 2))) (fun k => ∑ i, ∑ j, star (D k i i) * E k j j)
      (fun k => ∑ i, ∑ j, star (D' k i i) * E' k j j) fun k => by
        have := sum_near (ε := e * (2 * ε + ε ^ 2)) (fun i => ∑ j, star (D k i i) * E k j j)
          (fun i => ∑ j, star (D' k i i) * E' k j j) fun i => by
            have := sum_near (ε := 2 * ε + ε ^ 2) (fun j => star (D k i i) * E k j j)
              (fun j => star (D' k i i) * E' k j j) fun j =>
                mul_near (by rw [norm_star]; exact unitary_entry_le hDu k i i) (unitary_entry_le hEu k j j)
                  (by rw [← star_sub, norm_star]; exact h1 k i i) (h2 k j j)
            simpa using this
        simpa using this
    simpa using this
  have h4 : (n : ℝ) * (d * (e * (2 * ε + ε ^ 2))) < 1 / 2 := by
    have h5 : (n : ℝ) * (d * (e * (2 * ε + ε ^ 2))) ≤ n ^ 2 * (2 * ε + ε ^ 2) := by
      have h6 : (0 : ℝ) ≤ 2 * ε + ε ^ 2 := by positivity
      calc _ = n * ((d * e) * (2 * ε + ε ^ 2)) := by ring
        _ ≤ n * (n * (2 * ε + ε ^ 2)) := by gcongr
        _ = _ := by ring
    have h6 : (1 : ℝ) ≤ n ^ 2 := by nlinarith
    have h7 : ε ≤ 1 / 5 := by nlinarith
    have h8 : (n : ℝ) ^ 2 * ε * ε ≤ 1 / 5 * (1 / 5) := mul_le_mul hε h7 hε0 (by norm_num)
    nlinarith
  have h5 : ∀ c : ℕ, ∑ g, ∑ i, ∑ j, star (D g i i) * E g j j = (c : ℂ) →
      rintC (∑ g, ∑ i, ∑ j, star (D' g i i) * E' g j j) = (c : ℂ) := by
    intro c hc
    rw [hc] at h3
    have h6 := lt_of_le_of_lt h3 h4
    unfold rintC
    apply Complex.ext
    · have : rint (∑ g, ∑ i, ∑ j, star (D' g i i) * E' g j j).re = (c : ℤ) := rint_eq_of_abs_lt (by
        have h7 := lt_of_le_of_lt (Complex.abs_re_le_norm _) h6
        rw [Complex.sub_re, Complex.natCast_re, abs_sub_comm] at h7
        exact_mod_cast h7)
      rw [this]
      simp
    · have : rint (∑ g, ∑ i, ∑ j, star (D' g i i) * E' g j j).im = (0 : ℤ) := rint_eq_of_abs_lt (by
        have h7 := lt_of_le_of_lt (Complex.abs_im_le_norm _) h6
        rw [Complex.sub_im, Complex.natCast_im, abs_sub_comm] at h7
        simpa using h7)
      rw [this]
      simp
  rw [isEquivalentIrrep_ofFn, hsum D' E']
  constructor
  · intro h
    by_contra hne
    have h6 := o2 fun h => hne (AreEquivalent.symm h)
    rw [hsum'] at h6
    rw [h5 0 (by rw [h6, Nat.cast_zero])] at h
    exact absurd h.symm (by exact_mod_cast hn.ne')
  · intro h
    have h6 := o1 (AreEquivalent.symm h)
    rw [hsum'] at h6
    exact h5 n h6

/-- The indicator of perturbed matrices. -/
theorem near_indicator {F : Fin n → Fin n → ℂ} (hF : ∀ i j, ‖F i j‖ = 1) {D D' : RepArr m d} {ε : ℝ} (h : Near ε D D')
    (hε0 : 0 ≤ ε) (hm : 0 < m) (hd : d ^ 2 ≤ m) (hε : (m : ℝ) ^ 2 * ε ≤ 1 / 5) (a0u : Fin m → Fin n) (sq : Fin m → Fin m)
    {c : ℤ} (hc : ∑ u, F (a0u u) (a0u u) * (D (sq u)).trace = (c : ℂ)) : corepIndicatorSum F a0u sq D' = c := by
  unfold corepIndicatorSum getCharacter
  have hm1 : (1 : ℝ) ≤ m := by exact_mod_cast hm
  have hd' : (d : ℝ) ≤ m := by
    have : d ≤ m := by nlinarith
    exact_mod_cast this
  have h1 : ‖∑ u, F (a0u u) (a0u u) * (D (sq u)).trace - ∑ u, F (a0u u) (a0u u) * (D' (sq u)).trace‖ ≤ m * (d * ε) := by
    have := sum_near (ε := d * ε) (fun u => F (a0u u) (a0u u) * (D (sq u)).trace)
      (fun u => F (a0u u) (a0u u) * (D' (sq u)).trace) fun u => by
        rw [← mul_sub, norm_mul, hF, one_mul]
        have := sum_near (ε := ε) (fun i => D (sq u) i i) (fun i => D' (sq u) i i) fun i => h (sq u) i i
        simpa [Matrix.trace] using this
    simpa using this
  rw [hc] at h1
  have h2 : (m : ℝ) * (d * ε) < 1 / 2 := by
    have : (m : ℝ) * (d * ε) ≤ m ^ 2 * ε := by
      calc (m : ℝ) * (d * ε) ≤ m * (m * ε) := by gcongr
        _ = _ := by ring
    linarith
  apply rint_eq_of_abs_lt
  have h3 := lt_of_le_of_lt (Complex.abs_re_le_norm _) (lt_of_le_of_lt h1 h2)
  rw [Complex.sub_re, Complex.intCast_re, abs_sub_comm] at h3
  exact h3

open Classical in
/-- The pairing loop, for indicators `ε` and a test which says that `p i` is the partner of `i`. -/
theorem corepPairs_ok {sum : Fin l → ℤ} {chars conjChars : Fin l → Fin m → ℂ} {ε : Fin l → ℤ} {p : Fin l → Fin l}
    (hm : 0 < m) (hsum : ∀ i, sum i = ε i * m) (hp : ∀ i, p (p i) = i) (hε : ∀ i, ε i = 0 ↔ p i ≠ i)
    (htest : ∀ i j, IsEquivalentIrrep (List.ofFn (conjChars i)) (List.ofFn (chars j)) ↔ j = p i) :
    ∃ v, (List.finRange l).foldlM (corepPairStep sum chars conjChars) (fun _ => false, []) =
      .ok (v, ((List.finRange l).filter fun i => decide (i ≤ p i)).map fun i => (ε i, i)) := by
  have key : ∀ (rest done : List (Fin l)) (v : Fin l → Bool), done ++ rest = List.finRange l →
      (∀ j, v j = true ↔ j ∈ done ∨ p j ∈ done) →
      ∃ v', rest.foldlM (corepPairStep sum chars conjChars)
        (v, (done.filter fun i => decide (i ≤ p i)).map fun i => (ε i, i)) =
        .ok (v', ((done ++ rest).filter fun i => decide (i ≤ p i)).map fun i => (ε i, i)) := by
    intro rest
    induction rest with
    | nil =>
      intro done v _ _
      exact ⟨v, by rw [List.append_nil]; rfl⟩
    | cons i rest ih =>
      intro done v hdr hv
      have hpw : (done ++ i :: rest).Pairwise (· < ·) := by rw [hdr]; exact List.pairwise_lt_finRange l
      have hmem : ∀ j, j ∈ done ↔ j < i := by
        intro j
        constructor
        · intro hj
          exact (List.pairwise_append.1 hpw).2.2 j hj i (List.mem_cons_self ..)
        · intro hj
          have h1 : j ∈ done ++ i :: rest := by rw [hdr]; exact List.mem_finRange j
          rcases List.mem_append.1 h1 with h2 | h2
          · exact h2
          · rcases List.mem_cons.1 h2 with rfl | h3
            · exact absurd hj (lt_irrefl _)
            · exact absurd hj (not_lt.2 ((List.pairwise_cons.1 (List.pairwise_append.1 hpw).2.1).1 j h3).le)
      have hvi : v i = true ↔ p i < i := by
        rw [hv, hmem, hmem]
        simp
      have happ : done ++ i :: rest = (done ++ [i]) ++ rest := by simp
      rw [List.foldlM_cons]
      unfold corepPairStep
      by_cases h1 : p i < i
      · rw [if_pos (hvi.2 h1)]
        have h2 := ih (done ++ [i]) v (by rw [← happ, hdr]) (by
          intro j
          rw [hv]
          simp only [List.mem_append, List.mem_singleton]
          constructor
          · rintro (h | h)
            · exact .inl (.inl h)
            · exact .inr (.inl h)
          · rintro ((h | rfl) | (h | h))
            · exact .inl h
            · exact .inr ((hmem _).2 h1)
            · exact .inr h
            · refine .inl ((hmem _).2 ?_)
              rw [← hp j, h]
              exact h1)
        rw [← happ] at h2
        rw [List.filter_append, show [i].filter (fun i => decide (i ≤ p i)) = [] by
          rw [List.filter_cons_of_neg (by simpa using h1), List.filter_nil], List.append_nil] at h2
        exact h2
      · rw [if_neg (fun h => h1 (hvi.1 h))]
        dsimp only
        have h1' : i ≤ p i := not_lt.1 h1
        have hmz : (m : ℤ) ≠ 0 := by exact_mod_cast hm.ne'
        rw [if_neg (by rw [hsum, Int.mul_emod_left]; simp), hsum, Int.mul_ediv_cancel _ hmz]
        have hfilt : ((done ++ [i]).filter fun i => decide (i ≤ p i)).map (fun i => (ε i, i)) =
            ((done.filter fun i => decide (i ≤ p i)).map fun i => (ε i, i)) ++ [(ε i, i)] := by
          rw [List.filter_append, List.filter_cons_of_pos (by simpa using h1'), List.filter_nil, List.map_append]
          rfl
        by_cases h2 : p i = i
        · have h3 : ε i ≠ 0 := fun h => (hε i).1 h h2
          rw [if_pos h3]
          have h4 := ih (done ++ [i]) (Function.update v i true) (by rw [← happ, hdr]) (by
            intro j
            by_cases hj : j = i
            · subst hj
              simp
            · rw [Function.update_of_ne hj, hv]
              have h5 : p j ≠ i := fun h => hj (by rw [← hp j, h, h2])
              simp [hj, h5])
          rw [← happ, hfilt] at h4
          exact h4
        · have h3 : ε i = 0 := (hε i).2 h2
          rw [if_neg (not_not.2 h3)]
          have h4 : Function.update v i true (p i) = false := by
            rw [Function.update_of_ne h2]
            by_contra h5
            have h6 : v (p i) = true := by simpa using h5
            rw [hv, hp, hmem, hmem] at h6
            rcases h6 with h6 | h6
            · exact h1 h6
            · exact lt_irrefl _ h6
          rw [find?_unique (j := p i) (by rw [h4]; simpa using (htest i (p i)).2 rfl) (by
            intro j hj
            rw [Bool.and_eq_true, decide_eq_true_iff] at hj
            exact (htest i j).1 hj.2)]
          have h5 := ih (done ++ [i]) (Function.update (Function.update v i true) (p i) true) (by rw [← happ, hdr]) (by
            intro j
            by_cases hj : j = p i
            · subst hj
              simp [hp]
            · rw [Function.update_of_ne hj]
              by_cases hj' : j = i
              · subst hj'
                simp
              · rw [Function.update_of_ne hj', hv]
                have h6 : p j ≠ i := fun h => hj (by rw [← hp j, h])
                simp [hj', h6])
          rw [← happ, hfilt] at h5
          exact h5
  have := key (List.finRange l) [] (fun _ => false) rfl (by simp)
  simpa using this

end Spgrep
