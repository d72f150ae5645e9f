/-
Properties C30-C32: the point group tables and the generators of the chain.
-/
import Verif.Proofs.ChainTransport
import Verif.Proofs.Numeric

namespace Spgrep

open Spec PgSymbol

/-! ### C30 -/

/-- Orders of the 32 crystallographic point groups (International Tables, Table 10.1.2.4). -/
def Spec.pgOrder : PgSymbol → ℕ
  | pg_1 => 1
  | pg_b1 | pg_2 | pg_m => 2
  | pg_3 => 3
  | pg_2_m | pg_222 | pg_mm2 | pg_4 | pg_b4 => 4
  | pg_b3 | pg_32 | pg_3m | pg_6 | pg_b6 => 6
  | pg_mmm | pg_4_m | pg_422 | pg_4mm | pg_b42m => 8
  | pg_b3m | pg_6_m | pg_622 | pg_6mm | pg_b6m2 | pg_23 => 12
  | pg_4_mmm => 16
  | pg_6_mmm | pg_mb3 | pg_432 | pg_b43m => 24
  | pg_mb3m => 48

theorem pgOrder_all : (PgSymbol.all.all fun s => (pgDataset s).all fun L =>
    decide (L.length = pgOrder s)) = true := by
  decide +kernel

/-- C30: every setting of every symbol is a list of distinct unimodular integer matrices forming a group,
identity first, of the order of the point group; and every symbol has a setting. -/
theorem c30_tables_are_groups (s : PgSymbol) :
    pgDataset s ≠ [] ∧ ∀ std ∈ pgDataset s,
      IsGroupList (std.map PgMat.toM3) ∧ std.length = pgOrder s := by
  refine ⟨by cases s <;> decide, fun std h => ⟨checkGroup_sound (checkGroup_all h), ?_⟩⟩
  exact of_decide_eq_true
    (List.all_eq_true.1 (List.all_eq_true.1 pgOrder_all s (PgSymbol.mem_all s)) std h)

/-- Case of C30: the cubic group of order 48. -/
example : ∃ std, pgDataset pg_mb3m = [std] ∧ IsGroupList (std.map PgMat.toM3) ∧ std.length = 48 :=
  ⟨_, rfl, (c30_tables_are_groups pg_mb3m).2 _ List.mem_cons_self⟩

/-! ### C31 -/

/-- C31: for every symbol and every setting `get_generators` terminates without exception, its indices
are valid for the setting, and the corresponding matrices form a solvable chain (in the sense of
`Spec.IsSolvableChain`) of the tabulated group. -/
theorem c31_tabulated_chains (s : PgSymbol) (idx : ℕ) (std : List PgMat)
    (h : (pgDataset s)[idx]? = some std) :
    ∃ gens : List (Fin std.length), getGenerators s idx = .ok (gens.map Fin.val) ∧
      IsSolvableChain (· * ·) (1 : M3) (gens.map fun g => (std.get g).toM3)
        {x | x ∈ std.map PgMat.toM3} :=
  getGenerators_spec h

/-- Case of C31: the chain of `m-3m` has the five generators 24, 12, 4, 2, 1. -/
example : getGenerators pg_mb3m 0 = .ok [24, 12, 4, 2, 1] := by decide +kernel

/-! ### C32 -/

/-- C32 with further facts about the generators. -/
theorem chain_generators_core {n : ℕ} (s : PgSymbol) (P : Matrix (Fin 3) (Fin 3) ℝ) (hP : P.det ≠ 0)
    (rots : Fin n → M3) :
    (∀ std ∈ pgDataset s, ∀ σ : Fin n ≃ Fin std.length,
      (∀ i, (rots i).map (fun x : ℤ => (x : ℝ)) =
        P * (std.get (σ i)).toM3.map (fun x : ℤ => (x : ℝ)) * P⁻¹) →
      ∃ gens : List (Fin n),
        getPointgroupChainGenerators (s, P) rots = .ok (gens.map fun j : Fin n => ((j : ℕ) : ℤ)) ∧
        IsSolvableChain (· * ·) (1 : M3) (gens.map rots) (Set.range rots) ∧
        (∀ T : Fin n → Fin n → Fin n, (∀ i j, rots (T i j) = rots i * rots j) → ∀ e, rots e = 1 →
          IsSolvableChain T e gens Set.univ ∧ Nice T e gens ∧ ∀ i, power T e i 4 = e ∨ power T e i 6 = e)) ∧
    ((∀ std ∈ pgDataset s, ∃ x ∈ std, ∀ i,
        toIntegerTuple (P⁻¹ * (rots i).map (fun x : ℤ => (x : ℝ)) * P) ≠ x.toM3) →
      getPointgroupChainGenerators (s, P) rots = .ok []) := by
  classical
  have hP' : IsUnit P.det := isUnit_iff_ne_zero.2 hP
  have hunf : getPointgroupChainGenerators (s, P) rots = settingLoop s
      (fun i => toIntegerTuple (P⁻¹ * (rots i).map (fun x : ℤ => (x : ℝ)) * P)) 0 (pgDataset s) := by
    unfold getPointgroupChainGenerators
    rw [if_neg hP]
  constructor
  · intro std hstd σ hσ
    have hmatch : ∀ i, toIntegerTuple (P⁻¹ * (rots i).map (fun x : ℤ => (x : ℝ)) * P) =
        (std.get (σ i)).toM3 := by
      intro i
      have : P⁻¹ * (rots i).map (fun x : ℤ => (x : ℝ)) * P =
          (std.get (σ i)).toM3.map (fun x : ℤ => (x : ℝ)) := by
        rw [hσ i, ← Matrix.mul_assoc, ← Matrix.mul_assoc, Matrix.nonsing_inv_mul _ hP', Matrix.one_mul,
          Matrix.mul_assoc, Matrix.nonsing_inv_mul _ hP', Matrix.mul_one]
      rw [this]
      ext a b
      exact rint_intCast _
    set f : Fin n → M3 := fun i => (std.get (σ i)).toM3 with hf
    have hunf' : getPointgroupChainGenerators (s, P) rots = settingLoop s f 0 (pgDataset s) := by
      rw [hunf]; congr 1; funext i; exact hmatch i
    have hG := checkGroup_sound (checkGroup_all hstd)
    have hlen : std.length = n := by
      have := Fintype.card_congr σ
      simpa using this.symm
    have hrange : ∀ r, r ∈ std.map PgMat.toM3 ↔ ∃ j, f j = r := by
      intro r
      constructor
      · intro hr
        obtain ⟨x, hx, rfl⟩ := List.mem_map.1 hr
        obtain ⟨k, rfl⟩ := List.mem_iff_get.1 hx
        exact ⟨σ.symm k, by simp [hf]⟩
      · rintro ⟨j, rfl⟩
        exact List.mem_map_of_mem (List.get_mem _ _)
    have hinj : Function.Injective f := by
      intro i j hij
      have h1 := PgMat.toM3_injective hij
      have h2 := List.nodup_iff_injective_get.1 (hG.nodup.of_map _) h1
      exact σ.injective h2
    obtain ⟨std', hstd', gens, h1, h2, h3, hnice⟩ := settingLoop_some s f hstd (fun r hr => (hrange r).1 hr) hlen 0
      (pgDataset s) rfl hstd
    have hset : {x : M3 | x ∈ std'.map PgMat.toM3} = Set.range f := by
      have hlen' : std'.length = n := (pg_length_eq hstd' hstd).trans hlen
      have hsub : (std'.map PgMat.toM3).toFinset ⊆ Finset.univ.image f := by
        intro r hr
        obtain ⟨j, hj⟩ := h2 r (List.mem_toFinset.1 hr)
        exact Finset.mem_image.2 ⟨j, Finset.mem_univ _, hj⟩
      have heq := Finset.eq_of_subset_of_card_le hsub (by
        rw [List.toFinset_card_of_nodup (pg_nodup hstd'), Finset.card_image_of_injective _ hinj,
          List.length_map, hlen']
        simp)
      ext x
      have h4 : x ∈ (std'.map PgMat.toM3).toFinset ↔ x ∈ Finset.univ.image f := by rw [heq]
      rw [List.mem_toFinset, Finset.mem_image] at h4
      simpa using h4
    rw [hset] at h3
    -- user's rotations and tabulated ones multiply alike
    have hmulR : ∀ i j k, rots k = rots i * rots j ↔ f k = f i * f j := by
      intro i j k
      have hcast : ∀ A B : M3, A = B ↔ A.map (fun x : ℤ => (x : ℝ)) = B.map (fun x : ℤ => (x : ℝ)) := by
        intro A B
        exact ⟨fun h => by rw [h], fun h => Matrix.map_injective Int.cast_injective h⟩
      have hcm : ∀ A B : M3, (A * B).map (fun x : ℤ => (x : ℝ)) =
          A.map (fun x : ℤ => (x : ℝ)) * B.map (fun x : ℤ => (x : ℝ)) := by
        intro A B; exact Matrix.map_mul (f := Int.castRingHom ℝ)
      rw [hcast, hcm, hσ, hσ, hσ, hcast (f k), hcm]
      constructor
      · intro h
        have h5 := congrArg (fun X => P⁻¹ * X * P) h
        simp only [Matrix.mul_assoc, Matrix.nonsing_inv_mul _ hP', Matrix.mul_one] at h5
        simp only [← Matrix.mul_assoc, Matrix.nonsing_inv_mul _ hP', Matrix.one_mul] at h5
        exact h5
      · intro h
        rw [h]
        simp only [Matrix.mul_assoc]
        rw [← Matrix.mul_assoc P⁻¹ P, Matrix.nonsing_inv_mul _ hP', Matrix.one_mul]
    have honeR : ∀ e, rots e = 1 ↔ f e = 1 := by
      intro e
      constructor
      · intro h
        have := hmatch e
        rw [h] at this
        change toIntegerTuple (P⁻¹ * (1 : M3).map (fun x : ℤ => (x : ℝ)) * P) = f e at this
        rw [← this, Matrix.map_one _ Int.cast_zero Int.cast_one, Matrix.mul_one,
          Matrix.nonsing_inv_mul _ hP']
        ext a b
        have e1 : ∀ X : Matrix (Fin 3) (Fin 3) ℝ, toIntegerTuple X a b = rint (X a b) := fun _ => rfl
        rw [e1, Matrix.one_apply, Matrix.one_apply]
        split_ifs
        · exact_mod_cast rint_intCast 1
        · exact_mod_cast rint_intCast 0
      · intro h
        apply Matrix.map_injective (Int.cast_injective (α := ℝ))
        have := hσ e
        change _ = P * (f e).map _ * _ at this
        rw [h, Matrix.map_one _ Int.cast_zero Int.cast_one, Matrix.mul_one,
          Matrix.mul_nonsing_inv _ hP'] at this
        refine this.trans ?_
        exact (Matrix.map_one _ Int.cast_zero Int.cast_one).symm
    have hone : ∃ e, f e = 1 := by
      apply (hrange 1).1
      exact List.mem_of_mem_head? (by rw [hG.head]; rfl)
    have hTex : ∀ i j, ∃ k, f k = f i * f j := fun i j =>
      (hrange _).1 (hG.mul _ ((hrange _).2 ⟨i, rfl⟩) _ ((hrange _).2 ⟨j, rfl⟩))
    have hidx : ∀ T : Fin n → Fin n → Fin n, (∀ i j, rots (T i j) = rots i * rots j) → ∀ e, rots e = 1 →
        IsSolvableChain T e gens Set.univ ∧ Nice T e gens ∧ ∀ i, power T e i 4 = e ∨ power T e i 6 = e := by
      intro T hT e he
      have hfm : ∀ a b, f (T a b) = f a * f b := fun a b => (hmulR a b _).1 (hT a b)
      refine ⟨?_, (nice_map hinj hfm ((honeR e).1 he) gens).1 hnice, fun i => ?_⟩
      swap
      · have hpow := power_map (mul' := fun a b : M3 => a * b) hfm ((honeR e).1 he) i
        rcases pg_order hstd (List.get_mem std (σ i)) with h | h
        · left; apply hinj; rw [hpow, (honeR e).1 he]; exact h
        · right; apply hinj; rw [hpow, (honeR e).1 he]; exact h
      have := IsSolvableChain.preimage (mul := T) (one := e) hinj (fun a b => (hmulR a b _).1 (hT a b))
        ((honeR e).1 he) h3 gens rfl le_rfl
      rwa [Set.preimage_range] at this
    refine ⟨gens, by rw [hunf', h1], ?_, hidx⟩
    choose T hT using hTex
    obtain ⟨e, he⟩ := hone
    have hTR : ∀ i j, rots (T i j) = rots i * rots j := fun i j => (hmulR i j _).2 (hT i j)
    have hRinj : Function.Injective rots := by
      intro i j hij
      apply hinj
      have := hmatch i
      rw [hij, hmatch j] at this
      exact this.symm
    have := IsSolvableChain.image (mul' := fun a b : M3 => a * b) hRinj hTR ((honeR e).2 he)
      (hidx T hTR e ((honeR e).2 he)).1
    rwa [Set.image_univ] at this
  · intro hno
    rw [hunf]
    apply settingLoop_none
    intro st hst
    obtain ⟨x, hx, hxn⟩ := hno st hst
    exact ⟨pg_nodup hst, x.toM3, List.mem_map_of_mem hx, hxn⟩

/-- C32: if `P` maps the user's rotations onto some tabulated setting, in any order (`σ`), then the
function returns valid indices into the user's list, and the rotations with these indices form a
solvable chain of the group of all the user's rotations.  If every setting has a matrix that is not among
the (rounded) transformed rotations, it returns the empty list. -/
theorem c32_chain_generators {n : ℕ} (s : PgSymbol) (P : Matrix (Fin 3) (Fin 3) ℝ) (hP : P.det ≠ 0)
    (rots : Fin n → M3) :
    (∀ std ∈ pgDataset s, ∀ σ : Fin n ≃ Fin std.length,
      (∀ i, (rots i).map (fun x : ℤ => (x : ℝ)) =
        P * (std.get (σ i)).toM3.map (fun x : ℤ => (x : ℝ)) * P⁻¹) →
      ∃ gens : List (Fin n),
        getPointgroupChainGenerators (s, P) rots = .ok (gens.map fun j : Fin n => ((j : ℕ) : ℤ)) ∧
        IsSolvableChain (· * ·) (1 : M3) (gens.map rots) (Set.range rots) ∧
        (∀ T : Fin n → Fin n → Fin n, (∀ i j, rots (T i j) = rots i * rots j) → ∀ e, rots e = 1 →
          IsSolvableChain T e gens Set.univ)) ∧
    ((∀ std ∈ pgDataset s, ∃ x ∈ std, ∀ i,
        toIntegerTuple (P⁻¹ * (rots i).map (fun x : ℤ => (x : ℝ)) * P) ≠ x.toM3) →
      getPointgroupChainGenerators (s, P) rots = .ok []) := by
  obtain ⟨h1, h2⟩ := chain_generators_core s P hP rots
  refine ⟨fun std hstd σ hσ => ?_, h2⟩
  obtain ⟨gens, a, b, c⟩ := h1 std hstd σ hσ
  exact ⟨gens, a, b, fun T hT e he => (c T hT e he).1⟩

/-- Case of C32: the group `2` about a body diagonal direction of the primitive basis (`P` not the
identity, reversed order of operations). -/
example : ∃ gens : List (Fin 2),
    getPointgroupChainGenerators (pg_2, !![(1 : ℝ), 1, 0; 0, 1, 0; 0, 0, 1])
      ![!![1, -2, 0; 0, -1, 0; 0, 0, -1], 1] = .ok (gens.map fun j : Fin 2 => ((j : ℕ) : ℤ)) ∧
    IsSolvableChain (· * ·) (1 : M3) (gens.map ![!![1, -2, 0; 0, -1, 0; 0, 0, -1], 1])
      (Set.range ![!![1, -2, 0; 0, -1, 0; 0, 0, -1], 1]) := by
  have hdet : (!![(1 : ℝ), 1, 0; 0, 1, 0; 0, 0, 1]).det ≠ 0 := by
    rw [Matrix.det_fin_three]; simp
  have hinv : (!![(1 : ℝ), 1, 0; 0, 1, 0; 0, 0, 1])⁻¹ = !![1, -1, 0; 0, 1, 0; 0, 0, 1] := by
    apply Matrix.inv_eq_right_inv
    ext i j
    fin_cases i <;> fin_cases j <;> simp [Matrix.mul_apply, Fin.sum_univ_three]
  obtain ⟨gens, h1, h2, _⟩ := (c32_chain_generators pg_2 _ hdet
    ![!![1, -2, 0; 0, -1, 0; 0, 0, -1], 1]).1 [((1, 0, 0), (0, 1, 0), (0, 0, 1)),
    ((1, 0, 0), (0, -1, 0), (0, 0, -1))] List.mem_cons_self (Equiv.swap 0 1) (by
      intro i
      rw [hinv]
      ext a b
      fin_cases i <;> fin_cases a <;> fin_cases b <;>
        simp [Matrix.mul_apply, Matrix.vecMul, dotProduct, Fin.sum_univ_three, PgMat.toM3]
      all_goals norm_num)
  exact ⟨gens, h1, h2⟩

end Spgrep
