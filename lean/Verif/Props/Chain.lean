/-
C33, C34: enumeration of projective irreps along a solvable chain (irreps.py:408-559).
-/
import Verif.Proofs.ChainMain
import Verif.Props.Examples
import Verif.Props.Pointgroup

namespace Spgrep

open Spec Matrix

variable {n : ℕ} {T : Fin n → Fin n → Fin n} {μ : Fin n → Fin n → ℂ}

theorem cocy_of_table {G : Type} [Group G] [Fintype G] [DecidableEq G] (e : Fin n ≃ G)
    (hT : ∀ i j, e (T i j) = e i * e j) (hc : IsCocycle T μ) (hn : ∀ g h, ‖μ g h‖ = 1)
    (h1 : μ (e.symm 1) (e.symm 1) = 1) : Cocy (pb2 e μ) where
  norm g h := hn _ _
  coc i j k := by
    have := hc (e.symm i) (e.symm j) (e.symm k)
    rw [tg_mul e hT, tg_mul e hT] at this
    exact this
  one := h1

/-- Common core of C33 and C34. -/
theorem enumerateFromChain_spec (hT : IsGroupTable T) (hc : IsCocycle T μ) (hn : ∀ g h, ‖μ g h‖ = 1) {e : Fin n}
    (he : ∀ g, T e g = g) (h1 : μ e e = 1) {gens : List (Fin n)} (hgens : IsSolvableChain T e gens Set.univ)
    (random : ∀ d, ℕ → Matrix (Fin d) (Fin d) ℂ) {atol : ℝ} (ha : 0 ≤ atol) (maxGen : ℕ) :
    ∃ L w, enumerateFromChain random T μ gens atol maxGen = .ok (L, w, false) ∧
      (w = false → IsCompleteIrreps T μ L ∧ (L.map fun D => D.1 ^ 2).sum = n) ∧
      (RichDraws n random atol maxGen → w = false) := by
  classical
  let _ := TG.group hT
  let f : Fin n ≃ TG T := Equiv.refl _
  have hf : ∀ i j, f (T i j) = f i * f j := fun _ _ => rfl
  have hef : f.symm 1 = e := by
    apply f.injective
    have h2 : f (T e e) = f e * f e := hf e e
    rw [he] at h2
    rw [f.apply_symm_apply]
    exact (mul_eq_left.1 h2.symm).symm
  have hμ := cocy_of_table f hf hc hn (by rw [hef]; exact h1)
  rw [← hef] at hgens
  obtain ⟨H, hH, st, hst, hnd, ⟨Q, hQ⟩, hmem, hinv, hrich⟩ := chainLoop_ok f hf hμ random ha maxGen hgens
  have hHtop : ∀ g, g ∈ H := fun g => (hH g).2 (Set.mem_univ _)
  have hgrp : st.grp = List.finRange n := by
    rw [hQ, List.filter_eq_self]
    intro a _
    have : a ∈ st.grp := by
      have := (hmem (f a)).2 (hHtop _)
      simpa using this
    rw [hQ, List.mem_filter] at this
    exact this.2
  refine ⟨st.irreps, st.warned, ?_, fun hw => ?_, hrich⟩
  · unfold enumerateFromChain
    rw [getIdentityIndex_eq f hf]
    simp only [bind, Except.bind]
    have h2 : List.foldlM (chainStep random T μ (f.symm 1) atol maxGen)
        { grp := [f.symm 1], irreps := [⟨1, fun g => if g = f.symm 1 then 1 else 0⟩], warned := false }
        gens.reverse = .ok st := hst
    rw [h2]
    simp only [hgrp, if_true]
    rfl
  · have hI := hinv hw
    have hcomp : IsCompleteIrreps T μ st.irreps := by
      refine ⟨fun D hD g h => ?_, fun D hD g => ?_, fun D hD => ?_, ?_, fun k E hE hEu hEi => ?_⟩
      · exact (hI.good D hD).rep g (hHtop g) h (hHtop h)
      · exact (hI.good D hD).uni g (hHtop g)
      · refine ⟨(hI.good D hD).irr.1, fun W hW => (hI.good D hD).irr.2 W fun a v hv => hW a.1 v hv⟩
      · refine hI.ineq.imp ?_
        rintro D E h ⟨S, S', h1, h2, h3⟩
        exact h ⟨S, S', h1, h2, fun a => h3 a.1⟩
      · have hE1 : E e = 1 := by
          have h2 := hE e e
          rw [he, h1, one_smul] at h2
          obtain ⟨u, hu⟩ := hEu e
          rw [← hu] at h2 ⊢
          have h3 : u * u = u := Units.ext h2
          rw [mul_eq_left.1 h3]; rfl
        obtain ⟨D, hD, S, S', h2, h3, h4⟩ := hI.complete k (pb f E) (fun g _ h _ => hE g h)
          (by rw [pb, hef]; exact hE1)
          ⟨hEi.1, fun W hW => hEi.2 W fun a v hv => hW ⟨a, hHtop a⟩ v hv⟩
        exact ⟨D, hD, S, S', h2, h3, fun a => h4 ⟨a, hHtop a⟩⟩
    exact ⟨hcomp, IsCompleteIrreps.sum_sq hT (ne_zero_of_norm_one hn) hc hcomp⟩

/-- C33. For every finite group table with a solvable chain of generators, every unimodular cocycle with
`μ(e,e) = 1`, every sequence of random draws and every tolerance, the chain enumeration returns without an
error and without the "not sufficient" warning, and unless an intertwiner search gave up on all its draws,
every returned array satisfies `D(g)D(h) = μ(g,h)D(gh)`, maps the identity to the unit matrix and is
unitary. -/
theorem c33_chain_unitary_projective (hT : IsGroupTable T) (hc : IsCocycle T μ) (hn : ∀ g h, ‖μ g h‖ = 1)
    {e : Fin n} (he : ∀ g, T e g = g) (h1 : μ e e = 1) {gens : List (Fin n)}
    (hgens : IsSolvableChain T e gens Set.univ) (random : ∀ d, ℕ → Matrix (Fin d) (Fin d) ℂ) {atol : ℝ}
    (ha : 0 ≤ atol) (maxGen : ℕ) :
    ∃ L w, enumerateFromChain random T μ gens atol maxGen = .ok (L, w, false) ∧
      (w = false → ∀ D ∈ L, (∀ g h, D.2 g * D.2 h = μ g h • D.2 (T g h)) ∧ D.2 e = 1 ∧
        ∀ g, D.2 g * (D.2 g).conjTranspose = 1) := by
  obtain ⟨L, w, h, hw, -⟩ := enumerateFromChain_spec hT hc hn he h1 hgens random ha maxGen
  refine ⟨L, w, h, fun h0 D hD => ⟨(hw h0).1.rep D hD, ?_, (hw h0).1.unitary D hD⟩⟩
  have h2 := (hw h0).1.rep D hD e e
  rw [he, h1, one_smul] at h2
  have h3 := (hw h0).1.unitary D hD e
  calc D.2 e = D.2 e * (D.2 e * (D.2 e).conjTranspose) := by rw [h3, Matrix.mul_one]
    _ = D.2 e * D.2 e * (D.2 e).conjTranspose := by rw [Matrix.mul_assoc]
    _ = 1 := by rw [h2, h3]

/-- C34. Under the hypotheses of C33 (and no intertwiner warning) the returned arrays are irreducible,
pairwise inequivalent, contain every irreducible representation with this factor system up to equivalence,
and the squares of their dimensions add up to the group order. -/
theorem c34_chain_complete (hT : IsGroupTable T) (hc : IsCocycle T μ) (hn : ∀ g h, ‖μ g h‖ = 1)
    {e : Fin n} (he : ∀ g, T e g = g) (h1 : μ e e = 1) {gens : List (Fin n)}
    (hgens : IsSolvableChain T e gens Set.univ) (random : ∀ d, ℕ → Matrix (Fin d) (Fin d) ℂ) {atol : ℝ}
    (ha : 0 ≤ atol) (maxGen : ℕ) :
    ∃ L w, enumerateFromChain random T μ gens atol maxGen = .ok (L, w, false) ∧
      (w = false → IsCompleteIrreps T μ L ∧ (L.map fun D => D.1 ^ 2).sum = n) := by
  obtain ⟨L, w, h, hw, -⟩ := enumerateFromChain_spec hT hc hn he h1 hgens random ha maxGen
  exact ⟨L, w, h, hw⟩

/-- Draws consisting of large multiples of elementary matrices. -/
theorem exists_richDraws (atol : ℝ) (n maxGen : ℕ) (hmax : ∀ d, d ^ 2 ≤ n → d ^ 2 ≤ maxGen) :
    ∃ random : ∀ d, ℕ → Matrix (Fin d) (Fin d) ℂ, RichDraws n random atol maxGen := by
  refine ⟨fun d t => (((d : ℝ) ^ 2 * atol + 1 : ℝ) : ℂ) •
    Matrix.of fun (a b : Fin d) => if (a : ℕ) * d + b = t then (1 : ℂ) else 0, ?_⟩
  refine fun d hd i j => ⟨i * d + j, ?_, (d : ℝ) ^ 2 * atol + 1, by linarith, ?_⟩
  · refine lt_of_lt_of_le ?_ (hmax d hd)
    have := i.2; have := j.2
    nlinarith
  · beta_reduce
    congr 1
    ext a b
    rw [Matrix.single_apply, Matrix.of_apply]
    by_cases hab : i = a ∧ j = b
    · rw [if_pos hab, if_pos (by rw [hab.1, hab.2])]
    · rw [if_neg hab, if_neg]
      intro h3
      apply hab
      have h4 := congrArg (· / d) h3
      have h5 := congrArg (· % d) h3
      have hdp : 0 < d := i.pos
      have h6 : ∀ x y : Fin d, ((x : ℕ) * d + y) / d = x := fun x y => by
        rw [Nat.add_comm, Nat.add_mul_div_right _ _ hdp, Nat.div_eq_of_lt y.2, Nat.zero_add]
      have h7 : ∀ x y : Fin d, ((x : ℕ) * d + y) % d = y := fun x y => by
        rw [Nat.add_comm, Nat.add_mul_mod_self_right, Nat.mod_eq_of_lt y.2]
      simp only [h6, h7] at h4 h5
      exact ⟨Fin.ext h4.symm, Fin.ext h5.symm⟩

/-- The warning-free case of C33 and C34 is never empty: for each tolerance there are draws (large multiples of
elementary matrices) such that no intertwiner search gives up, for any group, cocycle and chain. -/
theorem c34_draws_exist (atol : ℝ) (ha : 0 ≤ atol) (n maxGen : ℕ) (hmax : ∀ d, d ^ 2 ≤ n → d ^ 2 ≤ maxGen) :
    ∃ random : ∀ d, ℕ → Matrix (Fin d) (Fin d) ℂ,
    ∀ (T : Fin n → Fin n → Fin n) (μ : Fin n → Fin n → ℂ) (e : Fin n) (gens : List (Fin n)),
      IsGroupTable T → IsCocycle T μ → (∀ g h, ‖μ g h‖ = 1) → (∀ g, T e g = g) → μ e e = 1 →
      IsSolvableChain T e gens Set.univ →
      ∃ L, enumerateFromChain random T μ gens atol maxGen = .ok (L, false, false) ∧
        IsCompleteIrreps T μ L ∧ (L.map fun D => D.1 ^ 2).sum = n := by
  obtain ⟨random, hrich⟩ := exists_richDraws atol n maxGen hmax
  refine ⟨random, ?_⟩
  intro T μ e gens hT hc hn he h1 hgens
  obtain ⟨L, w, h, hw, hr⟩ := enumerateFromChain_spec hT hc hn he h1 hgens random ha maxGen
  obtain rfl := hr hrich
  exact ⟨L, h, hw rfl⟩

/-- C32, C33 and C34 together: for every rotation list conjugate to a tabulated setting of a point group, in
any order, and every normalised unimodular cocycle on it, the generators the code looks up make the chain
enumeration return all the irreps. -/
theorem c34_pointgroup (s : PgSymbol) (P : Matrix (Fin 3) (Fin 3) ℝ) (hP : P.det ≠ 0) (rots : Fin n → M3)
    {std : List PgMat} (hstd : std ∈ pgDataset s) (σ : Fin n ≃ Fin std.length)
    (hσ : ∀ i, (rots i).map (fun x : ℤ => (x : ℝ)) = P * (std.get (σ i)).toM3.map (fun x : ℤ => (x : ℝ)) * P⁻¹)
    (hT : IsGroupTable T) (hrot : ∀ i j, rots (T i j) = rots i * rots j) {e : Fin n} (he : rots e = 1)
    (hc : IsCocycle T μ) (hn : ∀ g h, ‖μ g h‖ = 1) (h1 : μ e e = 1)
    (random : ∀ d, ℕ → Matrix (Fin d) (Fin d) ℂ) {atol : ℝ} (ha : 0 ≤ atol) (maxGen : ℕ) :
    ∃ (gens : List (Fin n)) (L : List (AnyRep n)) (w : Bool),
      getPointgroupChainGenerators (s, P) rots = .ok (gens.map fun j : Fin n => ((j : ℕ) : ℤ)) ∧
      enumerateFromChain random T μ gens atol maxGen = .ok (L, w, false) ∧
      (w = false → IsCompleteIrreps T μ L ∧ (L.map fun D => D.1 ^ 2).sum = n) := by
  obtain ⟨gens, h2, -, h3⟩ := (c32_chain_generators s P hP rots).1 std hstd σ hσ
  have hinj : Function.Injective rots := by
    intro i j hij
    have hcast := hσ i
    rw [hij, hσ j] at hcast
    have hPu : IsUnit P.det := isUnit_iff_ne_zero.2 hP
    have h5 : (std.get (σ j)).toM3.map (fun x : ℤ => (x : ℝ)) = (std.get (σ i)).toM3.map (fun x : ℤ => (x : ℝ)) := by
      have h6 := congrArg (fun M => P⁻¹ * M * P) hcast
      simp only [Matrix.mul_assoc] at h6
      simp only [Matrix.nonsing_inv_mul _ hPu, Matrix.mul_one] at h6
      simpa only [← Matrix.mul_assoc, Matrix.nonsing_inv_mul _ hPu, Matrix.one_mul] using h6
    have h6 : (std.get (σ j)).toM3 = (std.get (σ i)).toM3 := by
      ext a b
      have := congrFun (congrFun h5 a) b
      simp only [Matrix.map_apply] at this
      exact_mod_cast this
    have h7 := PgMat.toM3_injective h6
    have hnd : std.Nodup := List.Nodup.of_map _ (checkGroup_sound (checkGroup_all hstd)).nodup
    have h8 := (List.nodup_iff_injective_get.1 hnd) h7
    exact (σ.injective h8).symm
  have hT1 : ∀ g, T e g = g := fun g => hinj (by rw [hrot, he, Matrix.one_mul])
  obtain ⟨L, w, h, hw, -⟩ := enumerateFromChain_spec hT hc hn hT1 h1 (h3 T hrot e he) random ha maxGen
  exact ⟨gens, L, w, h2, h, hw⟩

/-- Non-vacuity of C33/C34: the Klein four-group with its non-trivial cocycle and the chain
`⟨2⟩ < ⟨1, 2⟩`, with the code's default tolerance and number of draws. -/
example : ∃ (random : ∀ d, ℕ → Matrix (Fin d) (Fin d) ℂ) (L : List (AnyRep 4)),
    enumerateFromChain random tblV4 μV4 [1, 2] = .ok (L, false, false) ∧ IsCompleteIrreps tblV4 μV4 L ∧
      L.length = 1 := by
  obtain ⟨random, h⟩ := c34_draws_exist 1e-8 (by norm_num) 4 4 fun d hd => hd
  have hset : {x : Fin 4 | ∃ m < 2, ∃ h ∈ {x : Fin 4 | ∃ m < 2, ∃ h ∈ ({0} : Set (Fin 4)),
      x = tblV4 (power tblV4 0 2 m) h}, x = tblV4 (power tblV4 0 1 m) h} = Set.univ := by
    ext x
    simp only [Set.mem_ofPred_eq, Set.mem_singleton_iff, exists_eq_left, Set.mem_univ, iff_true]
    revert x
    decide
  have hchain : IsSolvableChain tblV4 0 [1, 2] Set.univ := by
    rw [← hset]
    refine .cons (.cons .nil le_rfl (by decide) (fun m h1 h2 => ?_) (by simp; decide) (.inl rfl)) le_rfl (by decide)
      (fun m h1 h2 => ?_) ?_ (.inr Nat.prime_two)
    · obtain rfl : m = 1 := by omega
      simp only [Set.mem_singleton_iff]
      decide
    · obtain rfl : m = 1 := by omega
      simp only [Set.mem_ofPred_eq, Set.mem_singleton_iff, exists_eq_left]
      decide
    · simp only [Set.mem_ofPred_eq, Set.mem_singleton_iff, exists_eq_left]
      decide
  obtain ⟨L, h1, h2, h3⟩ := h tblV4 μV4 0 [1, 2] tblV4_group μV4_cocycle μV4_norm (by decide)
    (by simp [μV4, sgnV4]) hchain
  refine ⟨random, L, h1, h2, ?_⟩
  have heq : ∀ D ∈ L, AreEquivalent D.2 repV4 := fun D hD => by
    obtain ⟨E, hE, hDE⟩ := repV4_complete.complete D.1 D.2 (h2.rep D hD) (IsUnitaryRep.isUnit (h2.unitary D hD))
      (h2.irred D hD)
    rw [List.mem_singleton] at hE
    subst hE
    exact hDE
  match L, h2, h3, heq with
  | [], _, h3, _ => simp at h3
  | [_], _, _, _ => rfl
  | D :: E :: L, h2, _, heq =>
    exact absurd (AreEquivalent.trans (heq D (by simp)) (AreEquivalent.symm (heq E (by simp))))
      (List.rel_of_pairwise_cons h2.inequiv (by simp))

end Spgrep
