/-
Transport of solvable chains along injective multiplicative maps, and the matching loops of
get_pointgroup_chain_generators.
-/
import Verif.Proofs.Pointgroup
import Verif.Proofs.Group
import Mathlib.Data.Fintype.EquivFin

namespace Spgrep

open Spec

section transport
variable {M N : Type*}

theorem power_map {mul : M → M → M} {one : M} {mul' : N → N → N} {one' : N} {f : M → N}
    (hmul : ∀ a b, f (mul a b) = mul' (f a) (f b)) (hone : f one = one') (r : M) (m : ℕ) :
    f (power mul one r m) = power mul' one' (f r) m := by
  induction m with
  | zero => exact hone
  | succ m ih =>
    change f (mul (power mul one r m) r) = mul' (power mul' one' (f r) m) (f r)
    rw [hmul, ih]

/-- Image of a chain. -/
theorem IsSolvableChain.image {mul : M → M → M} {one : M} {mul' : N → N → N} {one' : N} {f : M → N}
    (hf : Function.Injective f) (hmul : ∀ a b, f (mul a b) = mul' (f a) (f b)) (hone : f one = one')
    {gens : List M} {H : Set M} (h : IsSolvableChain mul one gens H) :
    IsSolvableChain mul' one' (gens.map f) (f '' H) := by
  induction h with
  | nil =>
    rw [Set.image_singleton, hone]; exact .nil
  | @cons gens H r p hH hp h1 hout hnorm hprime ih =>
    have key := IsSolvableChain.cons (p := p) (r := f r) ih hp ?_ ?_ ?_ ?_
    · rw [List.map_cons]
      convert key using 1
      ext x
      constructor
      · rintro ⟨_, ⟨m, hm, h, hh, rfl⟩, rfl⟩
        exact ⟨m, hm, f h, ⟨h, hh, rfl⟩, by rw [hmul, power_map hmul hone]⟩
      · rintro ⟨m, hm, _, ⟨h, hh, rfl⟩, rfl⟩
        exact ⟨_, ⟨m, hm, h, hh, rfl⟩, by rw [hmul, power_map hmul hone]⟩
    · rw [← power_map hmul hone, h1, hone]
    · rintro m h0 hm ⟨h, hh, hfh⟩
      rw [← power_map hmul hone] at hfh
      rw [hf hfh] at hh
      exact hout m h0 hm hh
    · rintro _ ⟨h, hh, rfl⟩
      obtain ⟨h', hh', he⟩ := hnorm h hh
      exact ⟨f h', ⟨h', hh', rfl⟩, by rw [← hmul, he, hmul]⟩
    · rcases hprime with h | h
      · left; rw [h, Set.image_singleton, hone]
      · exact Or.inr h

/-- Preimage of a chain lying in the range of an injective multiplicative map. -/
theorem IsSolvableChain.preimage [Monoid N] {mul : M → M → M} {one : M} {f : M → N}
    (hf : Function.Injective f) (hmul : ∀ a b, f (mul a b) = f a * f b) (hone : f one = 1)
    {gens' : List N} {K : Set N} (h : IsSolvableChain (· * ·) 1 gens' K) :
    ∀ gens : List M, gens' = gens.map f → K ⊆ Set.range f → IsSolvableChain mul one gens (f ⁻¹' K) := by
  induction h with
  | nil =>
    intro gens hg _
    rw [eq_comm, List.map_eq_nil_iff] at hg
    subst hg
    have : f ⁻¹' {1} = {one} := by
      ext x
      constructor
      · intro hx; exact hf (Eq.trans hx hone.symm)
      · intro hx; cases hx; exact hone
    rw [this]; exact .nil
  | @cons gens0 H r p hH hp h1 hout hnorm hprime ih =>
    intro gens hg hK
    obtain ⟨r0, gens1, rfl, rfl, rfl⟩ := List.map_eq_cons_iff.1 hg.symm
    have hHK : H ⊆ Set.range f := by
      intro x hx
      apply hK
      exact ⟨0, by omega, x, hx, (one_mul x).symm⟩
    have hpow := power_map (mul' := fun a b : N => a * b) hmul hone r0
    have key := IsSolvableChain.cons (p := p) (r := r0) (ih gens1 rfl hHK) hp ?_ ?_ ?_ ?_
    · convert key using 1
      ext x
      constructor
      · rintro ⟨m, hm, h, hh, hx⟩
        obtain ⟨h', rfl⟩ := hHK hh
        refine ⟨m, hm, h', hh, hf ?_⟩
        rw [hmul, hpow]; exact hx
      · rintro ⟨m, hm, h, hh, rfl⟩
        exact ⟨m, hm, f h, hh, by rw [hmul, hpow]⟩
    · apply hf; rw [hpow, hone]; exact h1
    · intro m h0 hm hmem
      apply hout m h0 hm
      have : f (power mul one r0 m) ∈ H := hmem
      rwa [hpow] at this
    · intro h hh
      obtain ⟨h', hh', he⟩ := hnorm _ hh
      obtain ⟨h'', rfl⟩ := hHK hh'
      exact ⟨h'', hh', hf (by rw [hmul, hmul]; exact he)⟩
    · rcases hprime with h | h
      · left
        rw [h]
        ext x
        constructor
        · intro hx; exact hf (Eq.trans hx hone.symm)
        · intro hx; cases hx; exact hone
      · exact Or.inr h

end transport

/-! ### Orders -/

/-- All settings of a symbol have the same length. -/
theorem pg_lengths : (PgSymbol.all.all fun s => (pgDataset s).all fun L =>
    decide (L.length = ((pgDataset s).head?.map List.length).getD 0)) = true := by
  decide +kernel

theorem pg_length_eq {s : PgSymbol} {L L' : List PgMat} (h : L ∈ pgDataset s) (h' : L' ∈ pgDataset s) :
    L.length = L'.length := by
  have := List.all_eq_true.1 (List.all_eq_true.1 pg_lengths s (PgSymbol.mem_all s))
  have h1 := of_decide_eq_true (this L h)
  have h2 := of_decide_eq_true (this L' h')
  rw [h1, h2]

/-! ### Matching -/

variable {n : ℕ}

theorem indexOf?_eq_none' {xs : Fin n → M3} {a : M3} (h : indexOf? xs a = none) (j : Fin n) : xs j ≠ a := by
  intro hj
  have := indexOf?_isSome.2 ⟨j, hj⟩
  rw [h] at this
  cases this

theorem matchLoop_some {matched : Fin n → M3} : ∀ {i : ℕ} {L : List M3}, (∀ r ∈ L, ∃ j, matched j = r) →
    i + L.length ≤ n → ∃ js : List (Fin n), matchLoop matched i L = .ok (some js) ∧ js.map matched = L := by
  intro i L
  induction L generalizing i with
  | nil => intro _ _; exact ⟨[], rfl, rfl⟩
  | cons r L ih =>
    intro h hlen
    rw [List.length_cons] at hlen
    obtain ⟨js, h1, h2⟩ := ih (i := i + 1) (fun x hx => h x (List.mem_cons_of_mem _ hx)) (by omega)
    unfold matchLoop
    split
    next hno =>
      obtain ⟨j, hj⟩ := h r List.mem_cons_self
      exact absurd hj (indexOf?_eq_none' hno j)
    next j hj =>
      rw [if_pos (by omega), h1]
      refine ⟨j :: js, rfl, ?_⟩
      rw [List.map_cons, h2, (indexOf?_eq_some.1 hj).1]

theorem matchLoop_none {matched : Fin n → M3} : ∀ {i : ℕ} {L : List M3} {r0 : M3}, r0 ∈ L →
    (∀ j, matched j ≠ r0) →
    matchLoop matched i L = .ok none ∨
      ∃ k, n < i + k ∧ k ≤ L.length ∧ ∀ r ∈ L.take k, ∃ j, matched j = r := by
  intro i L
  induction L generalizing i with
  | nil => intro r0 h; cases h
  | cons r L ih =>
    intro r0 hr0 hno
    unfold matchLoop
    split
    next => left; rfl
    next j hj =>
      have hjr := (indexOf?_eq_some.1 hj).1
      split_ifs with hin
      · have hL : r0 ∈ L := by
          rcases List.mem_cons.1 hr0 with h | h
          · rw [h] at hno; exact absurd hjr (hno j)
          · exact h
        rcases ih (i := i + 1) hL hno with h | ⟨k, h1, h2, h3⟩
        · left; rw [h]; rfl
        · right
          refine ⟨k + 1, by omega, by rw [List.length_cons]; omega, ?_⟩
          intro x hx
          rw [List.take_succ_cons] at hx
          rcases List.mem_cons.1 hx with rfl | hx
          · exact ⟨j, hjr⟩
          · exact h3 x hx
      · right
        refine ⟨1, by omega, by simp, ?_⟩
        intro x hx
        simp only [List.take_succ_cons, List.take_zero, List.mem_singleton] at hx
        rw [hx]; exact ⟨j, hjr⟩

theorem nodup_length_le {matched : Fin n → M3} {L : List M3} (hL : L.Nodup)
    (h : ∀ r ∈ L, ∃ j, matched j = r) : L.length ≤ n := by
  classical
  have h1 : L.toFinset ⊆ Finset.univ.image matched := by
    intro r hr
    obtain ⟨j, hj⟩ := h r (List.mem_toFinset.1 hr)
    exact Finset.mem_image.2 ⟨j, Finset.mem_univ _, hj⟩
  have h2 := Finset.card_le_card h1
  rw [List.toFinset_card_of_nodup hL] at h2
  exact h2.trans (Finset.card_image_le.trans (by simp))

/-- The inner loop: a list of distinct matrices is either completely matched or not; no exception. -/
theorem matchLoop_spec (matched : Fin n → M3) {L : List M3} (hL : L.Nodup) :
    (matchLoop matched 0 L = .ok none ∧ ∃ r ∈ L, ∀ j, matched j ≠ r) ∨
    ∃ js : List (Fin n), matchLoop matched 0 L = .ok (some js) ∧ js.map matched = L := by
  by_cases h : ∀ r ∈ L, ∃ j, matched j = r
  · right
    exact matchLoop_some h (by have := nodup_length_le hL h; omega)
  · left
    push Not at h
    obtain ⟨r, hr, hno⟩ := h
    refine ⟨?_, r, hr, hno⟩
    rcases matchLoop_none (i := 0) hr hno with h | ⟨k, h1, h2, h3⟩
    · exact h
    · have := nodup_length_le (hL.sublist (List.take_sublist k L)) h3
      rw [List.length_take] at this
      omega

theorem pg_nodup {s : PgSymbol} {std : List PgMat} (h : std ∈ pgDataset s) : (std.map PgMat.toM3).Nodup :=
  (checkGroup_sound (checkGroup_all h)).nodup

/-- Result of the loop over settings when some setting is matched. -/
theorem settingLoop_some (s : PgSymbol) (matched : Fin n → M3) {std : List PgMat} (hstd : std ∈ pgDataset s)
    (hm : ∀ r ∈ std.map PgMat.toM3, ∃ j, matched j = r) (hn : std.length = n) :
    ∀ (k : ℕ) (L : List (List PgMat)), L = (pgDataset s).drop k → std ∈ L →
    ∃ std' ∈ pgDataset s, ∃ gens : List (Fin n),
      settingLoop s matched k L = .ok (gens.map fun j : Fin n => ((j : ℕ) : ℤ)) ∧
      (∀ r ∈ std'.map PgMat.toM3, ∃ j, matched j = r) ∧
      IsSolvableChain (· * ·) (1 : M3) (gens.map matched) {x | x ∈ std'.map PgMat.toM3} ∧
      Nice (· * ·) (1 : M3) (gens.map matched) := by
  intro k L
  induction L generalizing k with
  | nil => intro _ h; cases h
  | cons st L ih =>
    intro hL hmem
    have hget : (pgDataset s)[k]? = some st := by
      have : ((pgDataset s).drop k)[0]? = some st := by rw [← hL]; rfl
      rwa [List.getElem?_drop, Nat.add_zero] at this
    have hst : st ∈ pgDataset s := List.mem_of_getElem? hget
    have hdrop : L = (pgDataset s).drop (k + 1) := by
      rw [← List.tail_drop, ← hL]; rfl
    have hlen : st.length = n := (pg_length_eq hst hstd).trans hn
    unfold settingLoop
    rcases matchLoop_spec matched (pg_nodup hst) with ⟨h1, r, hr, hno⟩ | ⟨js, h1, h2⟩
    · have hne : std ≠ st := by
        rintro rfl
        obtain ⟨j, hj⟩ := hm r hr
        exact hno j hj
      have hmem' : std ∈ L := by
        rcases List.mem_cons.1 hmem with h | h
        · exact absurd h hne
        · exact h
      obtain ⟨std', h3, gens, h4, h5⟩ := ih (k + 1) hdrop hmem'
      refine ⟨std', h3, gens, ?_, h5⟩
      rw [h1]
      exact h4
    · obtain ⟨gens, hg, hchain⟩ := getGenerators_spec hget
      have hnice := getGenerators_nice hget hg
      have hjs : js.length = st.length := by
        have := congrArg List.length h2
        simpa using this
      have hmap : (gens.map fun g => js.get (Fin.cast hjs.symm g)).map matched = gens.map fun g => (st.get g).toM3 := by
        rw [List.map_map]
        apply List.map_congr_left
        intro g _
        have e1 : (js.map matched)[(g : ℕ)]? = some (matched (js.get (Fin.cast hjs.symm g))) := by
          rw [List.getElem?_map, List.getElem?_eq_getElem (by rw [hjs]; exact g.2)]
          rfl
        rw [h2, List.getElem?_map, List.getElem?_eq_getElem g.2] at e1
        exact (Option.some.inj e1).symm
      refine ⟨st, hst, gens.map fun g => js.get (Fin.cast hjs.symm g), ?_, ?_, by rw [hmap]; exact hchain,
        by rw [hmap]; exact hnice⟩
      · rw [h1]
        change (getGenerators s k >>= fun gens => gens.mapM (listGet (js.map (fun j : Fin n => ((j : ℕ) : ℤ)) ++
          List.replicate (n - js.length) (-1 : ℤ)))) = _
        rw [hg]
        change (gens.map Fin.val).mapM _ = _
        have h0 : n - js.length = 0 := by omega
        rw [h0, List.replicate_zero, List.append_nil]
        clear hg hchain hnice hmap
        induction gens with
        | nil => rfl
        | cons g gens ihg =>
          rw [List.map_cons, List.mapM_cons, ihg]
          have : (js.map fun j : Fin n => ((j : ℕ) : ℤ))[(g : ℕ)]? = some (((js.get (Fin.cast hjs.symm g) : ℕ)) : ℤ) := by
            rw [List.getElem?_map, List.getElem?_eq_getElem (by rw [hjs]; exact g.2)]
            rfl
          have e2 : listGet (js.map fun j : Fin n => ((j : ℕ) : ℤ)) g =
              .ok ((js.get (Fin.cast hjs.symm g) : ℕ) : ℤ) := by
            unfold listGet; rw [this]
          rw [e2]
          rfl
      · intro r hr
        rw [← h2] at hr
        obtain ⟨j, _, hj⟩ := List.mem_map.1 hr
        exact ⟨j, hj⟩

theorem settingLoop_none (s : PgSymbol) (matched : Fin n → M3) : ∀ (k : ℕ) (L : List (List PgMat)),
    (∀ st ∈ L, (st.map PgMat.toM3).Nodup ∧ ∃ r ∈ st.map PgMat.toM3, ∀ j, matched j ≠ r) →
    settingLoop s matched k L = .ok [] := by
  intro k L
  induction L generalizing k with
  | nil => intro _; rfl
  | cons st L ih =>
    intro h
    unfold settingLoop
    obtain ⟨hnd, r, hr, hno⟩ := h st List.mem_cons_self
    rcases matchLoop_spec matched hnd with ⟨h1, _⟩ | ⟨js, _, h2⟩
    · rw [h1]
      exact ih (k + 1) fun x hx => h x (List.mem_cons_of_mem _ hx)
    · rw [← h2] at hr
      obtain ⟨j, _, hj⟩ := List.mem_map.1 hr
      exact absurd hj (hno j)

end Spgrep
