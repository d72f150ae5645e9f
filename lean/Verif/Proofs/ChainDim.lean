/-
Dimensions along the chain enumeration: every array has a dimension dividing the order of the subgroup reached.
-/
import Verif.Props.Chain

set_option linter.unusedSectionVars false

namespace Spgrep

open Spec

variable {n : ℕ} {G : Type} [Group G] [Fintype G] [DecidableEq G] (e : Fin n ≃ G) {T : Fin n → Fin n → Fin n}
  (hT : ∀ i j, e (T i j) = e i * e j) {μ : Fin n → Fin n → ℂ} {H K : Subgroup G} {r : G} {p : ℕ}

theorem length_flatMap_range {α β : Type} (f : ℕ → α → β) (S : List α) (p : ℕ) :
    ((List.range p).flatMap fun m => S.map (f m)).length = p * S.length := by
  induction p with
  | zero => simp
  | succ p ih => rw [List.range_succ, List.flatMap_append, List.length_append, ih]; simp; ring

include hT in
theorem length_extendGroup (C : ChainExt H K r p) {S : List (Fin n)} (hnd : S.Nodup) (hmem : ∀ g, e.symm g ∈ S ↔ g ∈ H) :
    (extendGroup T (e.symm 1) (e.symm r) p S).length = p * S.length := by
  have h1 := pairs_nodup e hT C hnd hmem
  have h2 : (extendGroup T (e.symm 1) (e.symm r) p S).Perm
      ((chainPairs p S).map fun ms => T (powIdx T (e.symm 1) (e.symm r) ms.1) ms.2) := by
    rw [List.perm_ext_iff_of_nodup (nodup_extendGroup _ _ _) h1]
    intro g
    unfold extendGroup chainPairs
    rw [List.mem_filter]
    simp only [List.mem_finRange, true_and, decide_eq_true_eq, List.map_flatMap, List.map_map, Function.comp_def]
  rw [h2.length_eq, List.length_map]
  exact length_flatMap_range (fun m s => (m, s)) S p

theorem mem_dedupe {grp : List (Fin n)} {L : List (AnyRep n)} {D : AnyRep n} (h : D ∈ dedupe grp L) : D ∈ L := by
  classical
  unfold dedupe at h
  have key : ∀ (L acc : List (AnyRep n)), D ∈ L.foldl (fun acc D =>
      if acc.any fun E => decide (IsEquivalentIrrep (grp.map (getCharacter D.2)) (grp.map (getCharacter E.2)))
      then acc else acc ++ [D]) acc → D ∈ acc ∨ D ∈ L := by
    intro L
    induction L with
    | nil => intro acc h; exact .inl h
    | cons E L ih =>
      intro acc h
      rw [List.foldl_cons] at h
      rcases ih _ h with h1 | h1
      · split_ifs at h1 with h2
        · exact .inl h1
        · rcases List.mem_append.1 h1 with h3 | h3
          · exact .inl h3
          · rw [List.mem_singleton] at h3
            exact .inr (by rw [h3]; simp)
      · exact .inr (by simp [h1])
  rcases key L [] h with h1 | h1
  · cases h1
  · exact h1

theorem chainInner_dim {random : ∀ d, ℕ → Matrix (Fin d) (Fin d) ℂ} {e r rinv : Fin n} {p : ℕ} {sub : List (Fin n)}
    {atol : ℝ} {maxGen : ℕ} {D E : AnyRep n} (h : E ∈ (chainInner random T μ e r rinv p sub atol maxGen D).1) :
    E.1 = D.1 ∨ E.1 = p * D.1 := by
  unfold chainInner at h
  dsimp only at h
  split_ifs at h with h1
  · obtain ⟨q, -, rfl⟩ := List.mem_map.1 h
    exact .inl rfl
  · rw [List.mem_singleton] at h
    exact .inr (by rw [h])

theorem chainStep_dim {random : ∀ d, ℕ → Matrix (Fin d) (Fin d) ℂ} {e r : Fin n} {atol : ℝ} {maxGen : ℕ}
    {st st' : ChainState n} {p : ℕ} (hp : getOrder T r = .ok p)
    (h : chainStep random T μ e atol maxGen st r = .ok st') :
    st'.grp = extendGroup T e r p st.grp ∧ ∀ E ∈ st'.irreps, ∃ D ∈ st.irreps, E.1 = D.1 ∨ E.1 = p * D.1 := by
  unfold chainStep at h
  simp only [hp, bind, Except.bind] at h
  cases hi : getInverseIndex T r with
  | error _ => rw [hi] at h; cases h
  | ok rinv =>
    rw [hi] at h
    dsimp only at h
    split_ifs at h
    obtain rfl := Except.ok.inj h
    refine ⟨rfl, fun E hE => ?_⟩
    obtain ⟨x, hx, hEx⟩ := List.mem_flatMap.1 (mem_dedupe hE)
    obtain ⟨D, hD, rfl⟩ := List.mem_map.1 hx
    exact ⟨D, hD, chainInner_dim hEx⟩

include hT in
/-- The dimensions of the arrays divide the length of the group list, whatever the draws. -/
theorem chainLoop_dim (hμ : Cocy (pb2 e μ)) (random : ∀ d, ℕ → Matrix (Fin d) (Fin d) ℂ) {atol : ℝ} (ha : 0 ≤ atol)
    (maxGen : ℕ) {gens : List (Fin n)} {S : Set (Fin n)} (hc : IsSolvableChain T (e.symm 1) gens S) :
    ∃ H : Subgroup G, (∀ g, g ∈ H ↔ e.symm g ∈ S) ∧
      ∃ st, gens.reverse.foldlM (chainStep random T μ (e.symm 1) atol maxGen) (chainInit (e.symm 1)) = .ok st ∧
        st.grp.Nodup ∧ (∀ g, e.symm g ∈ st.grp ↔ g ∈ H) ∧ ∀ D ∈ st.irreps, D.1 ∣ st.grp.length := by
  classical
  obtain ⟨H, hH, st, hst, hnd, -, hmem, -⟩ := chainLoop_ok e hT hμ random ha maxGen hc
  refine ⟨H, hH, st, hst, hnd, hmem, ?_⟩
  clear hnd hmem
  generalize hone : e.symm 1 = e1 at hc
  induction hc generalizing H st with
  | nil =>
    subst hone
    obtain rfl := Except.ok.inj hst
    intro D hD
    rw [chainInit, List.mem_singleton] at hD
    rw [hD]; exact one_dvd _
  | @cons gens S r p hH' hp h1 hout hnorm hprime ih =>
    subst hone
    obtain ⟨H', hHS, st', hst', hnd', -, hmem', -⟩ := chainLoop_ok e hT hμ random ha maxGen hH'
    have hdiv := ih H' hHS st' hst'
    rw [List.reverse_cons, List.foldlM_append, hst'] at hst
    simp only [bind, Except.bind, List.foldlM_cons, List.foldlM_nil] at hst
    obtain ⟨r, rfl⟩ := e.symm.surjective r
    rw [power_eq e hT, e.symm.injective.eq_iff] at h1
    have hout' : ∀ m, 0 < m → m < p → r ^ m ∉ H' := by
      intro m hm0 hm h
      apply hout m hm0 hm
      rw [power_eq e hT]
      exact (hHS _).1 h
    have hnorm' : ∀ h ∈ H', r⁻¹ * h * r ∈ H' := by
      intro h hh
      obtain ⟨h', hh', heq⟩ := hnorm _ ((hHS h).1 hh)
      obtain ⟨h', rfl⟩ := e.symm.surjective h'
      rw [tg_mul e hT, tg_mul e hT, e.symm.injective.eq_iff] at heq
      rw [mul_assoc, heq, inv_mul_cancel_left]
      exact (hHS h').2 hh'
    have hprime' : H' = ⊥ ∨ p.Prime := by
      rcases hprime with h | h
      · left
        rw [Subgroup.eq_bot_iff_forall]
        intro x hx
        have := (hHS x).1 hx
        rw [h, Set.mem_singleton_iff, e.symm.injective.eq_iff] at this
        exact this
      · exact Or.inr h
    obtain ⟨K, C⟩ := exists_chainExt hp h1 hout' hnorm' hprime'
    have hord : orderOf r = p := by
      rw [orderOf_eq_iff (by omega)]
      refine ⟨h1, fun m hm hm0 h => hout' m hm0 hm ?_⟩
      rw [h]; exact H'.one_mem
    have ho : getOrder T (e.symm r) = .ok p := by rw [getOrder_eq e hT, e.apply_symm_apply, hord]
    cases hs : chainStep random T μ (e.symm 1) atol maxGen st' (e.symm r) with
    | error _ => rw [hs] at hst; cases hst
    | ok st'' =>
      rw [hs] at hst
      obtain rfl := Except.ok.inj hst
      obtain ⟨h2, h3⟩ := chainStep_dim ho hs
      intro E hE
      obtain ⟨D, hD, hED⟩ := h3 E hE
      rw [h2, length_extendGroup e hT C hnd' hmem']
      rcases hED with h4 | h4
      · rw [h4]; exact (hdiv D hD).mul_left p
      · rw [h4]; exact Nat.mul_dvd_mul_left p (hdiv D hD)

/-- The dimensions returned by the chain enumeration divide the group order. -/
theorem enumerateFromChain_dim (hT : IsGroupTable T) (hc : IsCocycle T μ) (hn : ∀ g h, ‖μ g h‖ = 1) {e : Fin n}
    (he : ∀ g, T e g = g) (h1 : μ e e = 1) {gens : List (Fin n)} (hgens : IsSolvableChain T e gens Set.univ)
    (random : ∀ d, ℕ → Matrix (Fin d) (Fin d) ℂ) {atol : ℝ} (ha : 0 ≤ atol) (maxGen : ℕ) {L : List (AnyRep n)}
    {w w' : Bool} (hrun : enumerateFromChain random T μ gens atol maxGen = .ok (L, w, w')) : ∀ D ∈ L, D.1 ∣ n := by
  classical
  let _ := TG.group hT
  let f : Fin n ≃ TG T := Equiv.refl _
  have hf : ∀ i j, f (T i j) = f i * f j := fun _ _ => rfl
  have hef : f.symm 1 = e := by
    apply f.injective
    have h2 : f (T e e) = f e * f e := hf e e
    rw [he] at h2
    rw [f.apply_symm_apply]
    exact (mul_eq_left.1 h2.symm).symm
  have hμ := cocy_of_table f hf hc hn (by rw [hef]; exact h1)
  rw [← hef] at hgens
  obtain ⟨H, hH, st, hst, hnd, hmem, hdiv⟩ := chainLoop_dim f hf hμ random ha maxGen hgens
  unfold enumerateFromChain at hrun
  rw [getIdentityIndex_eq f hf] at hrun
  simp only [bind, Except.bind] at hrun
  have h2 : List.foldlM (chainStep random T μ (f.symm 1) atol maxGen)
      { grp := [f.symm 1], irreps := [⟨1, fun g => if g = f.symm 1 then 1 else 0⟩], warned := false }
      gens.reverse = .ok st := hst
  rw [h2] at hrun
  dsimp only at hrun
  split_ifs at hrun with h3
  · obtain ⟨rfl, -⟩ := Prod.mk.inj (Except.ok.inj hrun)
    rw [h3, List.length_finRange] at hdiv
    exact hdiv
  · obtain ⟨rfl, -⟩ := Prod.mk.inj (Except.ok.inj hrun)
    simp

end Spgrep
