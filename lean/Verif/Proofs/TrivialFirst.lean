/-
The trivial irrep comes first (C73): lemmas about the chain of a solvable group.
-/
import Verif.Model.Enumerate
import Verif.Proofs.Purify

namespace Spgrep

open Matrix

variable {n : ℕ}

theorem intertwinerLoop_one {m : ℕ} {rep1 rep2 : RepArr m 1} (h1 : ∀ g, rep1 g = 1) (h2 : ∀ g, rep2 g = 1) {atol : ℝ}
    (ha : 0 ≤ atol) : ∀ (L : List (Matrix (Fin 1) (Fin 1) ℂ)) {U}, intertwinerLoop rep1 rep2 atol L = (U, false) → U = 1
  | [], U, h => by simp [intertwinerLoop] at h
  | X :: L, U, h => by
    unfold intertwinerLoop at h
    dsimp only at h
    split_ifs at h with hc
    · exact intertwinerLoop_one h1 h2 ha L h
    · have hU := (Prod.mk.inj h).1
      set M := intertwinerSum rep1 rep2 X
      have hM : M 0 0 ≠ 0 := by
        intro h0
        apply hc
        intro i j
        obtain rfl : i = 0 := Subsingleton.elim _ _
        obtain rfl : j = 0 := Subsingleton.elim _ _
        rw [h0]
        unfold IsCloseC
        simpa using ha
      rw [← hU]
      ext i j
      obtain rfl : i = 0 := Subsingleton.elim _ _
      obtain rfl : j = 0 := Subsingleton.elim _ _
      rw [Matrix.smul_apply, Matrix.det_fin_one]
      simp [hM]

theorem equiv_ones (L : List (Fin n)) {c1 c2 : Fin n → ℂ} (h1 : ∀ g ∈ L, c1 g = 1) (h2 : ∀ g ∈ L, c2 g = 1) :
    IsEquivalentIrrep (L.map c1) (L.map c2) := by
  have e1 : L.map c1 = List.replicate L.length 1 := by
    rw [List.eq_replicate_iff]
    simpa using h1
  have e2 : L.map c2 = List.replicate L.length 1 := by
    rw [List.eq_replicate_iff]
    simpa using h2
  unfold IsEquivalentIrrep
  rw [e1, e2]
  have h0 : rint 0 = 0 := by simpa using rint_natCast 0
  apply Complex.ext <;> simp [rintC, rint_natCast, h0]

theorem foldl_update_const {α κ' β : Type*} [DecidableEq κ'] (k : α → κ') (v : α → β) (c : β) : ∀ (L : List α) (f : κ' → β)
    (x : κ'), (∀ a ∈ L, v a = c) → (f x = c ∨ ∃ a ∈ L, k a = x) →
    L.foldl (fun D' a => Function.update D' (k a) (v a)) f x = c
  | [], f, x, _, h => by simpa using h
  | a :: L, f, x, hv, h => by
    rw [List.foldl_cons]
    apply foldl_update_const k v c L _ x fun b hb => hv b (List.mem_cons_of_mem _ hb)
    by_cases hx : k a = x
    · left
      rw [← hx, Function.update_self]
      exact hv a List.mem_cons_self
    · rcases h with h | ⟨b, hb, h⟩
      · left
        rw [Function.update_of_ne (Ne.symm hx)]
        exact h
      · rcases List.mem_cons.1 hb with rfl | hb
        · exact absurd h hx
        · exact .inr ⟨b, hb, h⟩

theorem nroot_one {p : ℕ} (hp : 1 ≤ p) : nroot 1 p = 1 := by
  rw [(nroot_eq 1 hp).1, Complex.one_cpow]

theorem deltaRm_one (T : Fin n → Fin n → Fin n) (e r : Fin n) {A : Matrix (Fin 1) (Fin 1) ℂ} (hA : A = 1) :
    ∀ m, deltaRm T (fun _ _ => 1) e r A m = 1
  | 0 => rfl
  | m + 1 => by
    unfold deltaRm
    rw [deltaRm_one T e r hA m, hA]
    simp

theorem nextSelf_one (T : Fin n → Fin n → Fin n) (e r : Fin n) {p : ℕ} (hp : 1 ≤ p) {sub : List (Fin n)} {D : RepArr n 1}
    (hD : ∀ g ∈ sub, D g = 1) {g : Fin n} (hg : g ∈ extendGroup T e r p sub) :
    nextSelf T (fun _ _ => 1) e r p sub D 1 0 g = 1 := by
  unfold nextSelf
  dsimp only
  have ho : chainOmega T (fun _ _ => (1 : ℂ)) e r p = 1 := by
    unfold chainOmega
    have : ((List.range' 1 (p - 1)).map fun _ => (1 : ℂ)).prod = 1 := by simp
    rw [this, nroot_one hp, div_one]
  have hone : (chainOmega T (fun _ _ => (1 : ℂ)) e r p * Complex.exp (2 * Complex.I * Real.pi * (0 : ℕ) / p))⁻¹ •
      (1 : Matrix (Fin 1) (Fin 1) ℂ) = 1 := by
    rw [ho]
    simp
  unfold extendGroup at hg
  have hg' := of_decide_eq_true (List.mem_filter.1 hg).2
  simp only [List.mem_flatMap, List.mem_map] at hg'
  obtain ⟨m, hm, s, hs, hgs⟩ := hg'
  refine foldl_update_const (fun ms : ℕ × Fin n => T (powIdx T e r ms.1) ms.2) _ 1 _ _ g (fun ms hms => ?_)
    (.inr ⟨(m, s), ?_, hgs⟩)
  · rw [deltaRm_one T e r hone]
    unfold chainPairs at hms
    simp only [List.mem_flatMap, List.mem_map] at hms
    obtain ⟨m', -, s', hs', rfl⟩ := hms
    rw [hD s' hs']
    simp
  · unfold chainPairs
    simp only [List.mem_flatMap, List.mem_map]
    exact ⟨m, hm, s, hs, rfl⟩

/-- The first entry is the trivial representation. -/
def HeadTrivial (grp : List (Fin n)) (L : List (AnyRep n)) : Prop :=
  ∃ (D : RepArr n 1) (rest : List (AnyRep n)), L = ⟨1, D⟩ :: rest ∧ ∀ g ∈ grp, D g = 1

theorem scaleIntertwiner_one {p : ℕ} : scaleIntertwiner (1 : Matrix (Fin 1) (Fin 1) ℂ) p = 1 := by
  unfold scaleIntertwiner
  have h : ∀ k : ℕ, (List.range k).foldl (fun S _ => (1 : Matrix (Fin 1) (Fin 1) ℂ) * S) 1 = 1 := by
    intro k
    induction k with
    | zero => rfl
    | succ k ih => rw [List.range_succ, List.foldl_append, ih]; simp
  dsimp only
  rw [h, dif_pos (by norm_num)]
  simp

theorem orderLoop_pos {T : Fin n → Fin n → Fin n} {e idx : Fin n} : ∀ (fuel : ℕ) (tmp : Fin n) (ret : ℕ) {m}, 1 ≤ ret →
    orderLoop T e idx fuel tmp ret = some m → 1 ≤ m
  | 0, tmp, ret, m, hr, h => by simp [orderLoop] at h
  | fuel + 1, tmp, ret, m, hr, h => by
    unfold orderLoop at h
    split_ifs at h
    · cases h; exact hr
    · exact orderLoop_pos fuel _ _ (by omega) h

theorem getOrder_pos {T : Fin n → Fin n → Fin n} {idx : Fin n} {p : ℕ} (h : getOrder T idx = .ok p) : 1 ≤ p := by
  unfold getOrder at h
  rcases he : getIdentityIndex T with err | e
  · rw [he] at h; cases h
  · rw [he] at h
    simp only [bind, Except.bind] at h
    rcases ho : orderLoop T e idx n idx 1 with _ | m
    · rw [ho] at h; cases h
    · rw [ho] at h
      cases h
      exact orderLoop_pos _ _ _ le_rfl ho

theorem dedupe_head (grp : List (Fin n)) (x : AnyRep n) (L : List (AnyRep n)) :
    ∃ rest, dedupe grp (x :: L) = x :: rest := by
  classical
  unfold dedupe
  rw [List.foldl_cons]
  have : ∀ (L : List (AnyRep n)) (acc : List (AnyRep n)), (∃ rest, acc = x :: rest) → ∃ rest, L.foldl (fun acc D =>
      if acc.any fun E => decide (IsEquivalentIrrep (grp.map (getCharacter D.2)) (grp.map (getCharacter E.2)))
      then acc else acc ++ [D]) acc = x :: rest := by
    intro L
    induction L with
    | nil => intro acc h; simpa using h
    | cons D L ih =>
      rintro acc ⟨rest, rfl⟩
      rw [List.foldl_cons]
      apply ih
      split_ifs
      · exact ⟨rest, rfl⟩
      · exact ⟨rest ++ [D], by simp⟩
  apply this
  simp

theorem chainStep_headTrivial {random : ∀ d, ℕ → Matrix (Fin d) (Fin d) ℂ} {T : Fin n → Fin n → Fin n} {e : Fin n}
    {atol : ℝ} (ha : 0 ≤ atol) {maxGen : ℕ} {st st' : ChainState n} {r : Fin n}
    (h : chainStep random T (fun _ _ => 1) e atol maxGen st r = .ok st') (hw : st'.warned = false)
    (hst : st.warned = false → HeadTrivial st.grp st.irreps) : HeadTrivial st'.grp st'.irreps := by
  unfold chainStep at h
  rcases ho : getOrder T r with err | p
  · rw [ho] at h; cases h
  rw [ho] at h
  rcases hi : getInverseIndex T r with err | rinv
  · rw [hi] at h; cases h
  rw [hi] at h
  simp only [bind, Except.bind] at h
  split_ifs at h with hk hp1
  have hp := getOrder_pos ho
  obtain rfl := Except.ok.inj h
  dsimp only at hw ⊢
  rw [Bool.or_eq_false_iff] at hw
  obtain ⟨D, rest, hL, hD⟩ := hst hw.1
  rw [hL, List.map_cons, List.any_cons, Bool.or_eq_false_iff] at hw
  have hin : ∃ rest', (chainInner random T (fun _ _ => 1) e r rinv p st.grp atol maxGen ⟨1, D⟩).1 =
      ⟨1, nextSelf T (fun _ _ => 1) e r p st.grp D 1 0⟩ :: rest' := by
    have hc : ∀ j < p, ∀ g ∈ st.grp, conjSub T (fun _ _ => (1 : ℂ)) e r rinv D j g = 1 := by
      intro j hj g hg
      unfold conjSub
      dsimp only
      rw [hD _ (hk j hj g hg)]
      simp
    have hq : IsEquivalentIrrep
        (st.grp.map (getCharacter (conjSub T (fun _ _ => (1 : ℂ)) e r rinv D 0)))
        (st.grp.map (getCharacter (conjSub T (fun _ _ => (1 : ℂ)) e r rinv D 1))) := by
      refine equiv_ones _ (fun g hg => ?_) fun g hg => ?_
      · unfold getCharacter
        rw [hc 0 (by omega) g hg]; simp
      · unfold getCharacter
        rw [hc 1 (by omega) g hg]; simp
    have hwin := hw.2.1
    unfold chainInner at hwin ⊢
    dsimp only at hwin ⊢
    rw [if_pos hq] at hwin ⊢
    dsimp only at hwin ⊢
    have hU := intertwinerLoop_one (m := st.grp.length)
      (rep1 := fun i => conjSub T (fun _ _ => (1 : ℂ)) e r rinv D 0 (st.grp.get i))
      (rep2 := fun i => conjSub T (fun _ _ => (1 : ℂ)) e r rinv D 1 (st.grp.get i))
      (fun g => hc 0 (by omega) _ (List.get_mem _ _)) (fun g => hc 1 (by omega) _ (List.get_mem _ _)) ha
      ((List.range maxGen).map (random 1)) (U := (subIntertwiner (random 1) st.grp
        (conjSub T (fun _ _ => (1 : ℂ)) e r rinv D 0) (conjSub T (fun _ _ => (1 : ℂ)) e r rinv D 1) atol maxGen).1)
      (Prod.ext rfl hwin)
    rw [hU, scaleIntertwiner_one]
    obtain ⟨p', rfl⟩ : ∃ p', p = p' + 1 := ⟨p - 1, by omega⟩
    rw [List.range_succ_eq_map, List.map_cons]
    exact ⟨_, rfl⟩
  obtain ⟨rest', hin⟩ := hin
  rw [hL, List.map_cons, List.flatMap_cons, hin, List.cons_append]
  obtain ⟨rest2, hd⟩ := dedupe_head (extendGroup T e r p st.grp)
    ⟨1, nextSelf T (fun _ _ => 1) e r p st.grp D 1 0⟩ (rest' ++ (rest.map
      (chainInner random T (fun _ _ => 1) e r rinv p st.grp atol maxGen)).flatMap Prod.fst)
  exact ⟨_, rest2, hd, fun g hg => nextSelf_one T e r hp hD hg⟩

theorem chainStep_warned {random : ∀ d, ℕ → Matrix (Fin d) (Fin d) ℂ} {T : Fin n → Fin n → Fin n}
    {μ : Fin n → Fin n → ℂ} {e : Fin n} {atol : ℝ} {maxGen : ℕ} {st st' : ChainState n} {r : Fin n}
    (h : chainStep random T μ e atol maxGen st r = .ok st') (hw : st'.warned = false) : st.warned = false := by
  unfold chainStep at h
  rcases ho : getOrder T r with err | p
  · rw [ho] at h; cases h
  rw [ho] at h
  rcases hi : getInverseIndex T r with err | rinv
  · rw [hi] at h; cases h
  rw [hi] at h
  simp only [bind, Except.bind] at h
  split_ifs at h
  obtain rfl := Except.ok.inj h
  exact (Bool.or_eq_false_iff.1 hw).1

theorem chainLoop_headTrivial {random : ∀ d, ℕ → Matrix (Fin d) (Fin d) ℂ} {T : Fin n → Fin n → Fin n} {e : Fin n}
    {atol : ℝ} (ha : 0 ≤ atol) {maxGen : ℕ} : ∀ (gens : List (Fin n)) (st st' : ChainState n),
    gens.foldlM (chainStep random T (fun _ _ => 1) e atol maxGen) st = .ok st' → st'.warned = false →
    (st.warned = false → HeadTrivial st.grp st.irreps) → HeadTrivial st'.grp st'.irreps
  | [], st, st', h, hw, hst => by
    cases h
    exact hst hw
  | r :: gens, st, st', h, hw, hst => by
    rw [List.foldlM_cons] at h
    rcases hs : chainStep random T (fun _ _ => 1) e atol maxGen st r with err | s1
    · rw [hs] at h; cases h
    · rw [hs] at h
      exact chainLoop_headTrivial ha gens s1 st' h hw fun h1 => chainStep_headTrivial ha hs h1 hst

theorem enumerateFromChain_head {random : ∀ d, ℕ → Matrix (Fin d) (Fin d) ℂ} {T : Fin n → Fin n → Fin n} {atol : ℝ}
    (ha : 0 ≤ atol) {maxGen : ℕ} {gens : List (Fin n)} {L : List (AnyRep n)}
    (h : enumerateFromChain random T (fun _ _ => 1) gens atol maxGen = .ok (L, false, false)) :
    ∃ rest, L = ⟨1, fun _ => 1⟩ :: rest := by
  unfold enumerateFromChain at h
  rcases he : getIdentityIndex T with err | e
  · rw [he] at h; cases h
  rw [he] at h
  simp only [bind, Except.bind] at h
  rcases hs : gens.reverse.foldlM (chainStep random T (fun _ _ => 1) e atol maxGen)
    { grp := [e], irreps := [⟨1, fun g => if g = e then 1 else 0⟩], warned := false } with err | st
  · rw [hs] at h; cases h
  rw [hs] at h
  dsimp only at h
  split_ifs at h with hg
  · obtain ⟨rfl, hw, -⟩ : st.irreps = L ∧ st.warned = false ∧ True := by
      have := Except.ok.inj h
      simp only [Prod.mk.injEq] at this
      exact ⟨this.1, this.2.1, trivial⟩
    obtain ⟨D, rest, hL, hD⟩ := chainLoop_headTrivial ha _ _ _ hs hw fun _ => ⟨_, [], rfl, by simp⟩
    refine ⟨rest, ?_⟩
    rw [hL]
    have : D = fun _ => 1 := funext fun g => hD g (by rw [hg]; exact List.mem_finRange g)
    rw [this]
  · have := Except.ok.inj h
    simp at this

end Spgrep
