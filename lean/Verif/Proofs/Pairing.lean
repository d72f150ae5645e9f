/-
The conjugate pairing loop of irreps.py.
-/
import Verif.Model.Irreps

namespace Spgrep

variable {m : ℕ} {eqv : Fin m → Fin m → Prop}

/-- Component of a pair. -/
def InPair (x : Fin m) (p : Fin m × Fin m) : Prop := x = p.1 ∨ x = p.2

/-- Loop invariant after the first `k` indices. -/
structure PairInv (eqv : Fin m → Fin m → Prop) (st : List (Fin m) × List (Fin m × Fin m)) (k : ℕ) :
    Prop where
  seen : ∀ i : Fin m, (i : ℕ) < k → i ∈ st.1
  comp : ∀ x, x ∈ st.1 ↔ ∃ p ∈ st.2, InPair x p
  disj : st.2.Pairwise fun p q => ∀ x, InPair x p → ¬ InPair x q
  lead : ∀ p ∈ st.2, (p.1 : ℕ) < k ∧ p.1 ≤ p.2 ∧ (p.1 ≠ p.2 → eqv p.1 p.2) ∧
    (p.1 = p.2 → ∀ j, eqv p.1 j → j ≠ p.1 → ∃ q ∈ st.2, q.1 < p.1 ∧ InPair j q)

theorem pairInv_step {st : List (Fin m) × List (Fin m × Fin m)} {i : Fin m}
    (h : PairInv eqv st i) : PairInv eqv (pairStep eqv st i) (i + 1) := by
  classical
  unfold pairStep
  by_cases hi : i ∈ st.1
  · rw [if_pos hi]
    refine ⟨fun j hj => ?_, h.comp, h.disj, fun p hp => ?_⟩
    · rcases Nat.lt_succ_iff_lt_or_eq.1 hj with h1 | h1
      · exact h.seen j h1
      · rw [Fin.ext h1]; exact hi
    · obtain ⟨h1, h2⟩ := h.lead p hp
      exact ⟨by omega, h2⟩
  · rw [if_neg hi]
    simp only
    have hseen : ∀ (l : List (Fin m)), (∀ x ∈ i :: st.1, x ∈ l) → ∀ j : Fin m, (j : ℕ) < i + 1 → j ∈ l := by
      intro l hl j hj
      apply hl
      rcases Nat.lt_succ_iff_lt_or_eq.1 hj with h1 | h1
      · exact List.mem_cons_of_mem _ (h.seen j h1)
      · rw [Fin.ext h1]; exact List.mem_cons_self
    have hnot : ∀ p ∈ st.2, ¬ InPair i p := fun p hp hip => hi ((h.comp i).2 ⟨p, hp, hip⟩)
    split
    next j hf =>
      have hj := List.find?_some hf
      rw [decide_eq_true_iff] at hj
      have hji : j ≠ i := fun hji => hj.1 (by rw [hji]; exact List.mem_cons_self)
      have hjs : j ∉ st.1 := fun h1 => hj.1 (List.mem_cons_of_mem _ h1)
      have hij : i < j := by
        rcases lt_trichotomy i j with h1 | h1 | h1
        · exact h1
        · exact absurd h1.symm hji
        · exact absurd (h.seen j h1) hjs
      refine ⟨hseen _ fun x hx => List.mem_cons_of_mem _ hx, fun x => ?_, ?_, ?_⟩
      · simp only [List.mem_cons, List.mem_append, List.not_mem_nil, or_false]
        constructor
        · rintro (rfl | rfl | hx)
          · exact ⟨(i, x), Or.inr rfl, Or.inr rfl⟩
          · exact ⟨(x, j), Or.inr rfl, Or.inl rfl⟩
          · obtain ⟨p, hp, hxp⟩ := (h.comp x).1 hx
            exact ⟨p, Or.inl hp, hxp⟩
        · rintro ⟨p, hp | rfl, hxp⟩
          · exact Or.inr (Or.inr ((h.comp x).2 ⟨p, hp, hxp⟩))
          · rcases hxp with rfl | rfl
            · exact Or.inr (Or.inl rfl)
            · exact Or.inl rfl
      · rw [List.pairwise_append]
        refine ⟨h.disj, List.pairwise_singleton _ _, fun p hp q hq x hxp => ?_⟩
        rw [List.mem_singleton] at hq
        subst hq
        have hx : x ∈ st.1 := (h.comp x).2 ⟨p, hp, hxp⟩
        rintro (rfl | rfl)
        · exact hi hx
        · exact hjs hx
      · intro p hp
        rw [List.mem_append, List.mem_singleton] at hp
        rcases hp with hp | rfl
        · obtain ⟨h1, h2, h3, h4⟩ := h.lead p hp
          refine ⟨by omega, h2, h3, fun he x hx hxp => ?_⟩
          obtain ⟨q, hq, hq2⟩ := h4 he x hx hxp
          exact ⟨q, List.mem_append_left _ hq, hq2⟩
        · exact ⟨Nat.lt_succ_self _, hij.le, fun _ => hj.2, fun he => absurd he.symm hji⟩
    next hf =>
      rw [List.find?_eq_none] at hf
      refine ⟨hseen _ fun x hx => hx, fun x => ?_, ?_, ?_⟩
      · simp only [List.mem_cons, List.mem_append, List.not_mem_nil, or_false]
        constructor
        · rintro (rfl | hx)
          · exact ⟨(x, x), Or.inr rfl, Or.inl rfl⟩
          · obtain ⟨p, hp, hxp⟩ := (h.comp x).1 hx
            exact ⟨p, Or.inl hp, hxp⟩
        · rintro ⟨p, hp | rfl, hxp⟩
          · exact Or.inr ((h.comp x).2 ⟨p, hp, hxp⟩)
          · rcases hxp with rfl | rfl <;> exact Or.inl rfl
      · rw [List.pairwise_append]
        refine ⟨h.disj, List.pairwise_singleton _ _, fun p hp q hq x hxp => ?_⟩
        rw [List.mem_singleton] at hq
        subst hq
        have hx : x ∈ st.1 := (h.comp x).2 ⟨p, hp, hxp⟩
        rintro (rfl | rfl) <;> exact hi hx
      · intro p hp
        rw [List.mem_append, List.mem_singleton] at hp
        rcases hp with hp | rfl
        · obtain ⟨h1, h2, h3, h4⟩ := h.lead p hp
          refine ⟨by omega, h2, h3, fun he x hx hxp => ?_⟩
          obtain ⟨q, hq, hq2⟩ := h4 he x hx hxp
          exact ⟨q, List.mem_append_left _ hq, hq2⟩
        · refine ⟨Nat.lt_succ_self _, le_rfl, fun hne => absurd rfl hne, fun _ x hx hxi => ?_⟩
          have h1 := hf x (List.mem_finRange x)
          rw [decide_eq_true_iff, not_and] at h1
          have h2 : x ∈ i :: st.1 := by
            by_contra h3; exact h1 h3 hx
          rcases List.mem_cons.1 h2 with h3 | h3
          · exact absurd h3 hxi
          · obtain ⟨q, hq, hxq⟩ := (h.comp x).1 h3
            refine ⟨q, List.mem_append_left _ hq, ?_, hxq⟩
            exact (h.lead q hq).1

theorem pairInv_fold : ∀ (suf : List (Fin m)) (k : ℕ) (st : List (Fin m) × List (Fin m × Fin m)),
    suf.map Fin.val = List.range' k suf.length → PairInv eqv st k →
    PairInv eqv (suf.foldl (pairStep eqv) st) (k + suf.length)
  | [], k, st, _, h => h
  | i :: suf, k, st, hs, h => by
    simp only [List.map_cons, List.length_cons, List.range'_succ, List.cons.injEq] at hs
    obtain ⟨rfl, hs⟩ := hs
    have := pairInv_fold suf (i + 1) _ hs (pairInv_step h)
    rw [List.foldl_cons, List.length_cons, show (i : ℕ) + (suf.length + 1) = i + 1 + suf.length by omega]
    exact this

theorem conjugatedPairs_inv (eqv : Fin m → Fin m → Prop) : ∃ vis,
    PairInv eqv (vis, conjugatedPairs eqv) m := by
  have h0 : PairInv eqv (([], []) : List (Fin m) × List (Fin m × Fin m)) 0 :=
    ⟨fun i hi => absurd hi (by omega), by simp, List.Pairwise.nil, by simp⟩
  have := pairInv_fold (List.finRange m) 0 _ (by
    rw [List.length_finRange, List.map_coe_finRange_eq_range, List.range_eq_range']) h0
  rw [List.length_finRange, Nat.zero_add] at this
  exact ⟨_, this⟩

theorem pairInv_unique {st : List (Fin m) × List (Fin m × Fin m)} {k : ℕ} (h : PairInv eqv st k)
    {x : Fin m} {p q : Fin m × Fin m} (hp : p ∈ st.2) (hq : q ∈ st.2) (hxp : InPair x p)
    (hxq : InPair x q) : p = q := by
  obtain ⟨a, ha, rfl⟩ := List.getElem_of_mem hp
  obtain ⟨b, hb, rfl⟩ := List.getElem_of_mem hq
  have hd := List.pairwise_iff_getElem.1 h.disj
  rcases lt_trichotomy a b with h1 | h1 | h1
  · exact absurd hxq (hd a b ha hb h1 x hxp)
  · subst h1; rfl
  · exact absurd hxp (hd b a hb ha h1 x hxq)

/-- With an involution as equivalence test every pair is `(i, σ i)`. -/
theorem pairInv_involution {σ : Fin m → Fin m} (hσ : ∀ i, σ (σ i) = i) (he : ∀ i j, eqv i j ↔ j = σ i)
    {st : List (Fin m) × List (Fin m × Fin m)} {k : ℕ} (h : PairInv eqv st k)
    {p : Fin m × Fin m} (hp : p ∈ st.2) : p.2 = σ p.1 := by
  obtain ⟨_, _, h3, h4⟩ := h.lead p hp
  by_cases hpp : p.1 = p.2
  · rw [← hpp]
    by_contra hne
    obtain ⟨q, hq, hlt, hin⟩ := h4 hpp (σ p.1) ((he _ _).2 rfl) (fun h1 => hne h1.symm)
    obtain ⟨_, _, g3, g4⟩ := h.lead q hq
    have hpq : p ≠ q := fun h1 => by rw [h1] at hlt; exact lt_irrefl _ hlt
    by_cases hqq : q.1 = q.2
    · have e : q.1 = σ p.1 := by rcases hin with h1 | h1 <;> simp [h1, hqq]
      obtain ⟨q', hq', hlt', hin'⟩ := g4 hqq p.1 ((he _ _).2 (by rw [e, hσ]))
        (fun h1 => by rw [h1] at hlt; exact lt_irrefl _ hlt)
      have := pairInv_unique h hp hq' (Or.inl rfl) hin'
      rw [← this] at hlt'
      exact lt_asymm hlt hlt'
    · have e : q.2 = σ q.1 := (he _ _).1 (g3 hqq)
      have : InPair p.1 q := by
        rcases hin with h1 | h1
        · right; rw [e, ← h1, hσ]
        · left
          rw [e] at h1
          have := congrArg σ h1
          rwa [hσ, hσ] at this
      exact hpq (pairInv_unique h hp hq (Or.inl rfl) this)
  · exact (he _ _).1 (h3 hpp)

end Spgrep
