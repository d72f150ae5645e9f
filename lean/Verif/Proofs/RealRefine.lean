/-
Splitting the irreps over the reals into complex irreps.
-/
import Verif.Proofs.RealProject
import Verif.Props.RealIrreps

namespace Spgrep

open Spec Matrix

variable {n d : ℕ} {T : Fin n → Fin n → Fin n}

open Classical in
/-- The complex irreps of a real irrep made from the pair `p`. -/
noncomputable def splitPair (L : List (AnyRep n)) (p : Fin L.length × Fin L.length) (x : AnyReal n × ℤ) :
    List (AnyRep n) :=
  if x.2 = 1 then [⟨x.1.1, fun k => (x.1.2 k).map Complex.ofReal⟩] else [L.get p.1, L.get p.2]

theorem realEntries_map_star {α β γ : Type*} [Fintype β] [Fintype γ] {R : Matrix α β ℂ} (hR : RealEntries R)
    (X : Matrix β γ ℂ) : R * X.map star = (R * X).map star := by
  ext i j
  simp only [Matrix.mul_apply, Matrix.map_apply, star_sum, star_mul']
  exact Finset.sum_congr rfl fun k _ => by rw [hR i k]

theorem mapStar_mul {α β γ : Type*} [Fintype β] (A : Matrix α β ℂ) (B : Matrix β γ ℂ) :
    (A * B).map star = A.map star * B.map star := by
  ext i j
  simp only [Matrix.mul_apply, Matrix.map_apply, star_sum, star_mul']

theorem refined_complete {L : List (AnyRep n)} (hTg : IsGroupTable T) (hL : IsCompleteIrreps T (fun _ _ => 1) L)
    {l : List (AnyReal n × ℤ)}
    (hF : List.Forall₂ (fun p (x : AnyReal n × ℤ) => Covers T (fun _ _ => 1) (L.get p.1).2 x.1.2 ∧
      (∀ g i j, SpecialReal (x.1.2 g i j)) ∧ frobeniusSchur (L.get p.1).2 = .ok x.2 ∧
      (x.2 = 1 ∨ (x.2 = 0 ∧ x.1.1 = 2 ∧ (L.get p.1).1 = 1)) ∧
      (x.2 = 1 → AreEquivalent (fun g => (x.1.2 g).map Complex.ofReal) (L.get p.1).2)) (pairsOf L) l) :
    ∃ Ls : List (List (AnyRep n)), IsCompleteIrreps T (fun _ _ => 1) Ls.flatten ∧
      List.Forall₂ (fun E M => M = [E] ∨ SplitsInto T E M) (IrrepsOut.real l).irreps Ls := by
  obtain ⟨hpair, huniq⟩ := c21_pairing.2 n T _ L hTg (fun _ _ => Or.inl rfl) hL
  have hmem : ∀ j : Fin L.length, L.get j ∈ L := fun j => List.get_mem L j
  have hnd : (pairsOf L).Nodup := (c21_pairing.1 _ _).2.1
  have hlen := hF.length_eq
  have hfs : ∀ (D : AnyRep n) (hD : D ∈ L) (s : ℤ), frobeniusSchur D.2 = .ok s →
      (s = 0 ↔ ¬ AreEquivalent D.2 fun g => (D.2 g).map star) := by
    intro D hD s hs
    obtain ⟨s', h1, -, h2, -⟩ := c17_frobenius_schur hTg (μ := fun _ _ => 1) (fun _ _ => .inl rfl) (hL.rep D hD)
      (hL.unitary D hD) (hL.irred D hD)
    rw [hs] at h1
    obtain rfl := Except.ok.inj h1
    exact h2
  have hcov : ∀ {R : AnyReal n} {D : AnyRep n}, Covers T (fun _ _ => 1) D.2 R.2 →
      IsProjRep T (fun _ _ => 1) (fun g => (R.2 g).map Complex.ofReal) ∧
      IsUnitaryRep fun g => (R.2 g).map Complex.ofReal := by
    intro R D h1
    refine ⟨by simpa using complex_projRep h1.rep, fun g => ?_⟩
    have h3 := congrArg (fun M : Matrix _ _ ℝ => M.map Complex.ofRealHom) (h1.orth g)
    rw [Matrix.map_mul, Matrix.map_one _ (map_zero _) (map_one _)] at h3
    rw [← h3]
    congr 1
    ext i j
    simp
  set Ls := List.zipWith (splitPair L) (pairsOf L) l with hLs
  have hLlen : Ls.length = l.length := by rw [hLs, List.length_zipWith, hlen, min_self]
  -- every member of the block of a pair
  have hblock : ∀ (p : Fin L.length × Fin L.length) (x : AnyReal n × ℤ), p ∈ pairsOf L →
      Covers T (fun _ _ => 1) (L.get p.1).2 x.1.2 →
      (x.2 = 1 → AreEquivalent (fun g => (x.1.2 g).map Complex.ofReal) (L.get p.1).2) →
      ∀ C ∈ splitPair L p x, IsProjRep T (fun _ _ => 1) C.2 ∧ IsUnitaryRep C.2 ∧ Spec.IsIrreducible C.2 ∧
        (AreEquivalent C.2 (L.get p.1).2 ∨ AreEquivalent C.2 (L.get p.2).2) := by
    intro p x hp h1 h2 C hC
    unfold splitPair at hC
    split_ifs at hC with hx
    · rw [List.mem_singleton] at hC
      subst hC
      exact ⟨(hcov h1).1, (hcov h1).2, AreEquivalent.irreducible (h2 hx) (hL.irred _ (hmem _)), .inl (h2 hx)⟩
    · rcases List.mem_cons.1 hC with rfl | hC
      · exact ⟨hL.rep _ (hmem _), hL.unitary _ (hmem _), hL.irred _ (hmem _), .inl (AreEquivalent.refl _)⟩
      · rw [List.mem_singleton] at hC
        subst hC
        exact ⟨hL.rep _ (hmem _), hL.unitary _ (hmem _), hL.irred _ (hmem _), .inr (AreEquivalent.refl _)⟩
  have hget : ∀ i (hi : i < Ls.length), ∃ (hp : i < (pairsOf L).length) (hl : i < l.length),
      Ls[i] = splitPair L (pairsOf L)[i] l[i] := by
    intro i hi
    exact ⟨by omega, by omega, by simp [hLs, List.getElem_zipWith]⟩
  have hrel := (List.forall₂_iff_get.1 hF).2
  have hall : ∀ C ∈ Ls.flatten, ∃ p ∈ pairsOf L, IsProjRep T (fun _ _ => 1) C.2 ∧ IsUnitaryRep C.2 ∧
      Spec.IsIrreducible C.2 ∧ (AreEquivalent C.2 (L.get p.1).2 ∨ AreEquivalent C.2 (L.get p.2).2) := by
    intro C hC
    obtain ⟨M, hM, hC⟩ := List.mem_flatten.1 hC
    obtain ⟨i, hi, rfl⟩ := List.getElem_of_mem hM
    obtain ⟨hp, hl, he⟩ := hget i hi
    rw [he] at hC
    have h1 := hrel i hp hl
    exact ⟨_, List.getElem_mem hp, hblock _ _ (List.getElem_mem hp) h1.1 h1.2.2.2.2 C hC⟩
  refine ⟨Ls, ⟨fun C hC => ?_, fun C hC => ?_, fun C hC => ?_, ?_, ?_⟩, ?_⟩
  · obtain ⟨p, -, h, -⟩ := hall C hC; exact h
  · obtain ⟨p, -, -, h, -⟩ := hall C hC; exact h
  · obtain ⟨p, -, -, -, h, -⟩ := hall C hC; exact h
  · rw [List.pairwise_flatten]
    constructor
    · intro M hM
      obtain ⟨i, hi, rfl⟩ := List.getElem_of_mem hM
      obtain ⟨hp, hl, he⟩ := hget i hi
      have h1 := hrel i hp hl
      have h2 := (hpair _ (List.getElem_mem hp)).2
      rw [he]
      unfold splitPair
      split_ifs with hx
      · exact List.pairwise_singleton _ _
      · rw [List.pairwise_pair]
        intro heq
        have hx0 : (l.get ⟨i, hl⟩).2 = 0 := by
          rcases h1.2.2.2.1 with h | h
          · exact absurd h hx
          · exact h.1
        have h3 := (hfs _ (hmem _) _ h1.2.2.1).1 hx0
        exact h3 (AreEquivalent.trans heq (AreEquivalent.symm h2))
    · rw [List.pairwise_iff_getElem]
      intro i j hi hj hij x hx y hy heq
      obtain ⟨hp, hl, he⟩ := hget i hi
      obtain ⟨hp', hl', he'⟩ := hget j hj
      rw [he] at hx
      rw [he'] at hy
      have h1 := hrel i hp hl
      have h1' := hrel j hp' hl'
      obtain ⟨a1, a2, a3, a4⟩ := hblock _ _ (List.getElem_mem hp) h1.1 h1.2.2.2.2 x hx
      obtain ⟨b1, b2, b3, b4⟩ := hblock _ _ (List.getElem_mem hp') h1'.1 h1'.2.2.2.2 y hy
      obtain ⟨r, -, hr⟩ := huniq _ x.2 a1 (IsUnitaryRep.isUnit a2) a3
      have e1 := hr _ ⟨List.getElem_mem hp, a4⟩
      have e2 := hr _ ⟨List.getElem_mem hp', b4.imp (AreEquivalent.trans heq) (AreEquivalent.trans heq)⟩
      have := (List.Nodup.getElem_inj_iff hnd).1 (e1.trans e2.symm)
      omega
  · intro e E hE hu hi
    obtain ⟨p, ⟨hp, h1⟩, -⟩ := huniq e E hE hu hi
    obtain ⟨i, hi', rfl⟩ := List.getElem_of_mem hp
    have hl : i < l.length := by omega
    obtain ⟨hp', hl', he⟩ := hget i (by omega)
    have h2 := hrel i hp' hl'
    have h3 := (hpair _ (List.getElem_mem hp')).2
    have hsub : ∀ C, C ∈ splitPair L (pairsOf L)[i] l[i] → C ∈ Ls.flatten := fun C hC =>
      List.mem_flatten.2 ⟨_, List.getElem_mem (by omega : i < Ls.length), by rw [he]; exact hC⟩
    by_cases hx : (l[i]).2 = 1
    · have h4 : AreEquivalent E (L.get ((pairsOf L)[i]).1).2 := by
        rcases h1 with h1 | h1
        · exact h1
        · have h5 : AreEquivalent (L.get ((pairsOf L)[i]).1).2 fun g => ((L.get ((pairsOf L)[i]).1).2 g).map star := by
            by_contra hc
            have := (hfs _ (hmem _) _ h2.2.2.1).2 hc
            exact absurd (this.symm.trans hx) (by norm_num)
          exact AreEquivalent.trans h1 (AreEquivalent.trans (AreEquivalent.symm h3) (AreEquivalent.symm h5))
      refine ⟨_, hsub ⟨_, fun k => ((l[i]).1.2 k).map Complex.ofReal⟩ ?_,
        AreEquivalent.trans h4 (AreEquivalent.symm (h2.2.2.2.2 hx))⟩
      unfold splitPair
      rw [if_pos hx]
      exact List.mem_singleton_self _
    · rcases h1 with h1 | h1
      · refine ⟨_, hsub (L.get ((pairsOf L)[i]).1) ?_, h1⟩
        unfold splitPair
        rw [if_neg hx]
        simp
      · refine ⟨_, hsub (L.get ((pairsOf L)[i]).2) ?_, h1⟩
        unfold splitPair
        rw [if_neg hx]
        simp
  · unfold IrrepsOut.irreps
    rw [List.forall₂_map_left_iff, List.forall₂_iff_get]
    refine ⟨hLlen.symm, fun i hl hi => ?_⟩
    obtain ⟨hp, _, he⟩ := hget i hi
    have h1 := hrel i hp hl
    have h2 := (hpair _ (List.getElem_mem hp)).2
    have hb := hblock _ _ (List.getElem_mem hp) h1.1 h1.2.2.2.2
    rw [List.get_eq_getElem, List.get_eq_getElem, he]
    by_cases hx : (l[i]).2 = 1
    · left
      unfold splitPair
      rw [if_pos hx]
    · right
      obtain ⟨hd2, hd1⟩ : (l[i]).1.1 = 2 ∧ (L.get ((pairsOf L)[i]).1).1 = 1 := by
        rcases h1.2.2.2.1 with h | h
        · exact absurd h hx
        · exact h.2
      obtain ⟨X, hX0, hX⟩ := h1.1.contains
      have hc := hcov h1.1
      refine ⟨⟨_, rfl, h1.1.irred⟩, hc.1, hc.2, fun hirr => ?_, fun C hC => ?_⟩
      · obtain ⟨S', h3, h4⟩ := schur_equiv hirr (hL.irred _ (hmem _)) hX hX0
        have h5 := congrArg Matrix.trace h3
        have h6 := congrArg Matrix.trace h4
        rw [Matrix.trace_mul_comm] at h6
        rw [Matrix.trace_one, Fintype.card_fin] at h5 h6
        rw [h5] at h6
        have h7 : (l[i]).1.1 = (L.get ((pairsOf L)[i]).1).1 := by exact_mod_cast h6
        omega
      · obtain ⟨a1, a2, a3, -⟩ := hb C hC
        refine ⟨a1, a2, a3, ?_⟩
        unfold splitPair at hC
        rw [if_neg hx] at hC
        rcases List.mem_cons.1 hC with rfl | hC
        · exact ⟨X, hX0, hX⟩
        · rw [List.mem_singleton] at hC
          subst hC
          obtain ⟨S, S', h3, h4, hS⟩ := h2
          refine ⟨X.map star * S, fun h0 => hX0 ?_, fun g => ?_⟩
          · have h5 : X.map star = 0 := by
              calc X.map star = X.map star * S * S' := by rw [Matrix.mul_assoc, h3, Matrix.mul_one]
                _ = 0 := by rw [h0, Matrix.zero_mul]
            ext a b
            have := congrFun (congrFun h5 a) b
            simpa using this
          · have h6 : ((l[i]).1.2 g).map Complex.ofReal * X = X * (L.get ((pairsOf L)[i]).1).2 g := hX g
            have h7 : ((L.get ((pairsOf L)[i]).1).2 g).map star * S = S * (L.get ((pairsOf L)[i]).2).2 g := hS g
            dsimp only
            rw [← Matrix.mul_assoc, realEntries_map_star (realEntries_ofReal _), h6, mapStar_mul, Matrix.mul_assoc,
              h7, Matrix.mul_assoc]

end Spgrep
