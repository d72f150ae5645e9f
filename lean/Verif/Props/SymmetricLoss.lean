/-
C104, refutation: `apply_intrinsic_symmetry` loses a tensor of rank two for a mirror plane in general position.
-/
import Verif.Props.SymmetricCount
import Verif.Props.Order

namespace Spgrep

open Spec

/-! ### A mirror plane in general position -/

/-- The group m: the identity and a mirror reflection. -/
def rotsMir : Fin 2 → M3 := fun i => (pgData_m.head!.get i).toM3

theorem rotsMir_group : EnumeratesGroup rotsMir := by
  apply enumerates_of_isMatrixGroup (by norm_num)
  · decide +kernel
  · decide +kernel

theorem pointgroup_mir : PointgroupContract (PgSymbol.pg_m, (1 : M3).map fun x : ℤ => (x : ℝ)) rotsMir :=
  contract_of_int (std := pgData_m.head!) (by decide +kernel) (by decide +kernel) (Equiv.refl (Fin 2))
    (by decide +kernel)

theorem cayley_mir : getCayleyTable rotsMir = .ok (fun a b : Fin 2 => a + b) := by
  obtain ⟨T, hT, hs, hTg⟩ := c01_cayley_table_ordinary rotsMir_group
  have : T = fun a b : Fin 2 => a + b := by
    funext i j
    exact (hs i j _).2 (by revert i j; decide +kernel)
  subst this
  exact hT

/-- The reflection in the plane with normal `(2, 2, 1) / 3`. -/
noncomputable def mirM : Matrix (Fin 3) (Fin 3) ℂ := !![1 / 9, -8 / 9, -4 / 9; -8 / 9, 1 / 9, -4 / 9; -4 / 9, -4 / 9, 7 / 9]

/-- The group m in Cartesian coordinates. -/
noncomputable def repMir : RepArr 2 3 := fun g => if g = 0 then 1 else mirM

theorem mirM_sq : mirM * mirM = 1 := by
  ext i j
  fin_cases i <;> fin_cases j <;> simp [mirM, Matrix.mul_apply, Fin.sum_univ_three] <;> norm_num

theorem mirM_herm : mirM.conjTranspose = mirM := by
  ext i j
  fin_cases i <;> fin_cases j <;> simp [mirM]

theorem repMir_proj : IsProjRep (fun a b : Fin 2 => a + b) (fun _ _ => (1 : ℂ)) repMir := by
  intro g h
  fin_cases g <;> fin_cases h <;> simp [repMir, mirM_sq]

theorem repMir_unitary : IsUnitaryRep repMir := by
  intro g
  fin_cases g
  · simp [repMir]
  · simp [repMir, mirM_herm, mirM_sq]

/-- The non-trivial irrep. -/
def signRep : RepArr 2 1 := fun g => if g = 0 then 1 else -1

theorem signRep_proj : IsProjRep (fun a b : Fin 2 => a + b) (fun _ _ => (1 : ℂ)) signRep := by
  intro g h
  fin_cases g <;> fin_cases h <;> simp [signRep]

theorem signRep_unitary : IsUnitaryRep signRep := by
  intro g
  fin_cases g <;> simp [signRep]

theorem rint_half {m : ℕ} {s : ℂ} (hs : s = ((2 * m : ℕ) : ℂ)) : rint (rintC s / (2 : ℕ)).re = m := by
  rw [hs, rintC_natCast]
  have : (((2 * m : ℕ) : ℂ) / (2 : ℕ)).re = (m : ℝ) := by
    have h1 : (((2 * m : ℕ) : ℂ) / (2 : ℕ)) = ((m : ℝ) : ℂ) := by push_cast; field_simp
    rw [h1, Complex.ofReal_re]
  rw [this]
  exact_mod_cast rint_intCast (m : ℤ)

theorem num_mir_triv : numBasis repMir trivRep = 2 := by
  refine rint_half (m := 2) ?_
  simp only [Fin.sum_univ_two, getCharacter, repMir, trivRep, Fin.sum_univ_three, mirM]
  simp
  norm_num

theorem num_mir_sign : numBasis repMir signRep = 1 := by
  refine rint_half (m := 1) ?_
  simp only [Fin.sum_univ_two, getCharacter, repMir, signRep, Fin.sum_univ_three, mirM]
  simp
  norm_num

/-- The irreps found for the group m. -/
theorem irreps_mir {L : List (AnyRep 2)} (hL : IsCompleteIrreps (fun a b : Fin 2 => a + b) (fun _ _ => 1) L)
    (hh : ∃ rest, L = ⟨1, fun _ => 1⟩ :: rest) : L = [⟨1, trivRep⟩, ⟨1, signRep⟩] := by
  obtain ⟨rest, rfl⟩ := hh
  have hsum := IsCompleteIrreps.sum_sq tbl2_group (fun _ _ => one_ne_zero) (by simp) hL
  have hpos : ∀ E ∈ rest, 0 < E.1 := fun E hE => by
    obtain ⟨i⟩ := (hL.irred _ (List.mem_cons_of_mem _ hE)).1
    exact lt_of_le_of_lt (Nat.zero_le _) i.2
  rw [List.map_cons, List.sum_cons] at hsum
  match rest, hpos with
  | [], _ => simp at hsum
  | x :: y :: r, hpos =>
    have h1 := hpos x (by simp)
    have h2 := hpos y (by simp)
    simp only [List.map_cons, List.sum_cons] at hsum
    have h3 := Nat.one_le_pow 2 _ h1
    have h4 := Nat.one_le_pow 2 _ h2
    omega
  | [⟨d, E⟩], hpos =>
    have h1 := hpos _ (List.mem_singleton.2 rfl)
    simp only [List.map_cons, List.map_nil, List.sum_cons, List.sum_nil] at hsum
    have h1' : 0 < d := h1
    obtain rfl : d = 1 := by nlinarith
    have hp := hL.rep ⟨1, E⟩ (by simp)
    have e00 := congrFun (congrFun (hp 0 0) 0) 0
    have e11 := congrFun (congrFun (hp 1 1) 0) 0
    simp only [Matrix.mul_apply, Fin.sum_univ_one, one_smul, add_zero, show (1 : Fin 2) + 1 = 0 from rfl] at e00 e11
    have hu := congrFun (congrFun (hL.unitary ⟨1, E⟩ (by simp) 0) 0) 0
    simp only [Matrix.mul_apply, Fin.sum_univ_one, Matrix.conjTranspose_apply, Matrix.one_apply_eq] at hu
    have hne : E 0 0 0 ≠ 0 := fun h0 => by rw [h0, zero_mul] at hu; exact zero_ne_one hu
    have h0 : E 0 0 0 = 1 := mul_left_cancel₀ hne (by rw [mul_one]; exact e00)
    rw [h0] at e11
    have h2 : E 1 0 0 = 1 ∨ E 1 0 0 = -1 := mul_self_eq_one_iff.1 e11
    rcases h2 with h2 | h2
    · exfalso
      have hneq := (List.pairwise_cons.1 hL.inequiv).1 ⟨1, E⟩ (by simp)
      apply hneq
      refine ⟨1, 1, by simp, by simp, fun g => ?_⟩
      ext i j
      obtain rfl := Subsingleton.elim i 0
      obtain rfl := Subsingleton.elim j 0
      fin_cases g <;> simp [h0, h2]
    · have : E = signRep := by
        funext g
        ext i j
        obtain rfl := Subsingleton.elim i 0
        obtain rfl := Subsingleton.elim j 0
        fin_cases g <;> simp [h0, h2, signRep]
      rw [this]
      rfl

/-- Columns of nine times the projection to the plane. -/
def colMir (c : Fin 3) : Fin 3 → ℝ := ![![5, -4, -2], ![-4, 5, -2], ![-2, -2, 8]] c

theorem block_mir (c : Fin 3) (i j : Fin 1) (m : Fin 3) : projBlock repMir trivRep c j i m = ((colMir c m / 9 : ℝ) : ℂ) := by
  obtain rfl := Subsingleton.elim i 0
  obtain rfl := Subsingleton.elim j 0
  unfold projBlock
  simp only [Matrix.of_apply, Fin.sum_univ_two, trivRep, repMir, mirM, colMir]
  fin_cases c <;> fin_cases m <;> norm_num

/-- The normalised blocks. -/
noncomputable def nMir (c : Fin 3) : Matrix (Fin 1) (Fin 3) ℂ := normalizeRows (projBlock repMir trivRep c 0)

/-- The length of the first two columns, over nine. -/
noncomputable def rMir : ℝ := Real.sqrt (45 / 81)

theorem rMir_sq : rMir ^ 2 = 45 / 81 := Real.sq_sqrt (by norm_num)

theorem rMir_pos : 0 < rMir := Real.sqrt_pos.2 (by norm_num)

theorem nMir_apply {c : Fin 3} (hc : c = 0 ∨ c = 1) (i : Fin 1) (m : Fin 3) :
    nMir c i m = ((colMir c m / 9 / rMir : ℝ) : ℂ) := by
  unfold nMir normalizeRows
  simp only [Matrix.of_apply, block_mir, Complex.norm_real, Real.norm_eq_abs, sq_abs]
  have : ∑ m, (colMir c m / 9) ^ 2 = 45 / 81 := by
    rcases hc with rfl | rfl <;> simp [Fin.sum_univ_three, colMir] <;> norm_num
  rw [this]
  push_cast
  rfl

theorem colMir_self {c : Fin 3} (hc : c = 0 ∨ c = 1) : ∑ m, colMir c m * colMir c m = 45 := by
  rcases hc with rfl | rfl <;> simp [Fin.sum_univ_three, colMir] <;> norm_num

theorem colMir_inner : ∑ m, colMir 1 m * colMir 0 m = -36 := by
  simp [Fin.sum_univ_three, colMir]
  norm_num

theorem nMir_inner {c c' : Fin 3} (hc : c = 0 ∨ c = 1) (hc' : c' = 0 ∨ c' = 1) :
    ∑ m, star (nMir c 0 m) * nMir c' 0 m = (((∑ m, colMir c m * colMir c' m) / 45 : ℝ) : ℂ) := by
  simp only [nMir_apply hc, nMir_apply hc', RCLike.star_def, Complex.conj_ofReal, ← Complex.ofReal_mul, ← Complex.ofReal_sum]
  congr 1
  rw [Finset.sum_div]
  refine Finset.sum_congr rfl fun m _ => ?_
  have h1 : colMir c m / 9 / rMir * (colMir c' m / 9 / rMir) = colMir c m * colMir c' m / (81 * rMir ^ 2) := by
    have := rMir_pos.ne'
    field_simp
    ring
  rw [h1, rMir_sq]
  norm_num

theorem mir_not_close {a : ℝ} (ha : a ≤ 1e-2) (c : Fin 3) :
    ¬ ∀ i m, IsCloseC 1e-5 a (projBlock repMir trivRep c 0 i m) 0 := by
  intro h
  have := h 0 0
  unfold IsCloseC at this
  rw [sub_zero, norm_zero, mul_zero, add_zero, block_mir, Complex.norm_real, Real.norm_eq_abs] at this
  have h2 := this.trans ha
  fin_cases c <;> norm_num [colMir, abs_of_neg] at h2

theorem mir_step0 (la : LinAlg) {a : ℝ} (ha : a ≤ 1e-2) :
    projStep la repMir trivRep a [] (0, 0) = .ok [nMir 0] := by
  unfold projStep
  dsimp only
  rw [if_neg (mir_not_close ha 0), if_neg (by simp)]
  rfl

theorem mir_step1 {la : LinAlg} (hla : la.Contract) {a : ℝ} (ha : a ≤ 1e-2) :
    projStep la repMir trivRep a [nMir 0] (1, 0) = .ok [nMir 0, nMir 1] := by
  unfold projStep
  dsimp only
  rw [if_neg (mir_not_close ha 1), if_pos (by simp)]
  have h1 : ∀ c, c = 0 ∨ c = 1 → ∑ m, star (nMir c 0 m) * nMir c 0 m = 1 := by
    intro c hc
    rw [nMir_inner hc hc, colMir_self hc]
    norm_num
  have hd := grassmann_lines hla (u := nMir 1 0) (v := nMir 0 0) (b1 := nMir 1) (b2 := stackBlocks [nMir 0])
    (by funext i m; rw [Subsingleton.elim i 0])
    (by
      funext i m
      have h2 : ∀ x : Fin (1 * 1), (finProdFinEquiv.symm x) = ((0 : Fin 1), (0 : Fin 1)) := by decide
      show stackBlocks [nMir 0] i m = _
      unfold stackBlocks
      rw [Matrix.of_apply]
      erw [h2 i]
      rfl) (h1 1 (.inr rfl)) (h1 0 (.inl rfl))
  rw [nMir_inner (.inr rfl) (.inl rfl), colMir_inner] at hd
  have hg : ¬ gMin ‖((-36 / 45 : ℝ) : ℂ)‖ < 0.5 := by
    unfold gMin
    rw [Complex.norm_real, Real.norm_eq_abs, not_lt]
    apply Real.le_sqrt_of_sq_le
    rw [sq_abs]
    norm_num
  rw [show normalizeRows (projBlock repMir trivRep 1 0) = nMir 1 from rfl, hd]
  change (if gMin ‖((-36 / 45 : ℝ) : ℂ)‖ < 0.5 then _ else _) = _
  rw [if_neg hg]
  rfl

theorem projStep_grows {la : LinAlg} {n d D : ℕ} {rep : RepArr n D} {irrep : RepArr n d} {a : ℝ}
    {bs bs' : List (Matrix (Fin d) (Fin D) ℂ)} {x : Fin D × Fin d} (h : projStep la rep irrep a bs x = .ok bs') :
    bs' = bs ∨ bs'.length = bs.length + 1 := by
  unfold projStep at h
  dsimp only at h
  split_ifs at h with h1 h2
  · exact .inl (Except.ok.inj h).symm
  · simp only [bind, Except.bind] at h
    split at h
    · cases h
    · split_ifs at h
      · exact .inl (Except.ok.inj h).symm
      · right; rw [← Except.ok.inj h]; simp
  · right; rw [← Except.ok.inj h]; simp

/-- Projecting to the trivial irrep. -/
theorem project_mir_triv {la : LinAlg} (hla : la.Contract) (atol : ℝ) :
    projectToIrrep la repMir trivRep atol = .ok ([nMir 0, nMir 1], false) := by
  have hfin : Module.finrank ℂ (homSub repMir trivRep) = 2 := by
    have := numBasis_eq tbl2_group (fun _ _ => one_ne_zero) repMir_proj trivRep_proj trivRep_unitary
    rw [num_mir_triv] at this
    exact_mod_cast this.symm
  obtain ⟨bs, hbs, hlen⟩ := c75_all_blocks_found_partial tbl2_group (fun _ _ => one_ne_zero) repMir_proj repMir_unitary
    trivRep_proj trivRep_unitary trivRep_irreducible la hla atol 10 (by norm_num) (.inl ⟨by rw [hfin]; norm_num, by
      calc ((3 : ℕ) : ℝ) * min (max atol 1e-10) 1e-2 ≤ (3 : ℕ) * 1e-2 := by gcongr; exact min_le_right _ _
        _ < 1 / 2 := by norm_num⟩)
  rw [hfin] at hlen
  rw [hbs]
  rcases projectToIrrep_cases hbs with ⟨-, rfl, -⟩ | ⟨t, -, -, ht, hp, -⟩
  · simp at hlen
  · unfold projInner at hp
    have hl : ((List.finRange 3).flatMap fun c => (List.finRange 1).map fun j => (c, j)) =
        [((0 : Fin 3), (0 : Fin 1)), (1, 0), (2, 0)] := by decide
    rw [hl, List.foldlM_cons, mir_step0 la ht] at hp
    change List.foldlM _ [nMir 0] _ = _ at hp
    rw [List.foldlM_cons, mir_step1 hla ht] at hp
    change (projStep la repMir trivRep t [nMir 0, nMir 1] (2, 0)).bind _ = _ at hp
    cases h2 : projStep la repMir trivRep t [nMir 0, nMir 1] (2, 0) with
    | error e => rw [h2] at hp; cases hp
    | ok bs' =>
      rw [h2] at hp
      obtain rfl : bs' = bs := Except.ok.inj hp
      rcases projStep_grows h2 with h3 | h3
      · rw [h3]
      · rw [hlen] at h3
        simp at h3


theorem signRep_irreducible : Spec.IsIrreducible signRep := irreducible_dim_one _

/-- Both irreps. -/
def mir (s : Bool) : RepArr 2 1 := if s then signRep else trivRep

theorem mir_good (s : Bool) : IsProjRep (fun a b : Fin 2 => a + b) (fun _ _ => (1 : ℂ)) (mir s) ∧ IsUnitaryRep (mir s) ∧
    Spec.IsIrreducible (mir s) := by
  cases s
  · exact ⟨trivRep_proj, trivRep_unitary, trivRep_irreducible⟩
  · exact ⟨signRep_proj, signRep_unitary, signRep_irreducible⟩

theorem project_mir_sign {la : LinAlg} (hla : la.Contract) (atol : ℝ) :
    ∃ b, projectToIrrep la repMir signRep atol = .ok ([b], false) := by
  have hfin : Module.finrank ℂ (homSub repMir signRep) = 1 := by
    have := numBasis_eq tbl2_group (fun _ _ => one_ne_zero) repMir_proj signRep_proj signRep_unitary
    rw [num_mir_sign] at this
    exact_mod_cast this.symm
  obtain ⟨bs, hbs, hlen⟩ := c75_all_blocks_found_partial tbl2_group (fun _ _ => one_ne_zero) repMir_proj repMir_unitary
    signRep_proj signRep_unitary signRep_irreducible la hla atol 10 (by norm_num) (.inl ⟨by rw [hfin]; norm_num, by
      calc ((3 : ℕ) : ℝ) * min (max atol 1e-10) 1e-2 ≤ (3 : ℕ) * 1e-2 := by gcongr; exact min_le_right _ _
        _ < 1 / 2 := by norm_num⟩)
  rw [hfin] at hlen
  obtain ⟨b, rfl⟩ := List.length_eq_one_iff.1 hlen
  exact ⟨b, hbs⟩

theorem num_mir_mir (s s' : Bool) : numBasis (mir s) (mir s') = ((if s = s' then 1 else 0 : ℕ) : ℤ) := by
  refine rint_half ?_
  cases s <;> cases s' <;> simp [Fin.sum_univ_two, getCharacter, mir, signRep, trivRep]
  norm_num

theorem project_mir_mir {la : LinAlg} (hla : la.Contract) (atol : ℝ) (s s' : Bool) :
    (s = s' → ∃ c, c 0 0 ≠ 0 ∧ projectToIrrep la (mir s) (mir s') atol = .ok ([c], false)) ∧
    (s ≠ s' → projectToIrrep la (mir s) (mir s') atol = .ok ([], false)) := by
  have hfin : Module.finrank ℂ (homSub (mir s) (mir s')) = if s = s' then 1 else 0 := by
    have := numBasis_eq tbl2_group (fun _ _ => one_ne_zero) (mir_good s).1 (mir_good s').1 (mir_good s').2.1
    rw [num_mir_mir] at this
    exact_mod_cast this.symm
  obtain ⟨bs, hbs, hlen⟩ := c75_all_blocks_found_partial tbl2_group (fun _ _ => one_ne_zero) (mir_good s).1 (mir_good s).2.1
    (mir_good s').1 (mir_good s').2.1 (mir_good s').2.2 la hla atol 10 (by norm_num) (.inl ⟨by rw [hfin]; split_ifs <;> norm_num, by
      calc ((1 : ℕ) : ℝ) * min (max atol 1e-10) 1e-2 ≤ (1 : ℕ) * 1e-2 := by gcongr; exact min_le_right _ _
        _ < 1 / 2 := by norm_num⟩)
  have hli := ((c57_projection_basis tbl2_group (fun _ _ => one_ne_zero) (mir_good s).1 (mir_good s).2.1
    (mir_good s').1 (mir_good s').2.1 (mir_good s').2.2 la hla atol 10).2 _ _ hbs).1
  rw [hfin] at hlen
  constructor
  · intro h
    rw [if_pos h] at hlen
    obtain ⟨b, rfl⟩ := List.length_eq_one_iff.1 hlen
    refine ⟨b, fun h0 => ?_, hbs⟩
    refine hli.ne_zero (⟨0, by simp⟩, 0) ?_
    funext m
    obtain rfl := Subsingleton.elim m 0
    exact h0
  · intro h
    rw [if_neg h] at hlen
    rw [hbs, List.length_eq_zero_iff.1 hlen]

theorem direct_mir (s s' : Bool) : getDirectProduct (mir s) (mir s') =
    (.ok (mir (xor s s')) : Except PyErr (RepArr 2 (1 * 1))) := by
  unfold getDirectProduct
  rw [dif_pos ⟨rfl, rfl, rfl⟩]
  congr 1
  funext g
  ext x y
  have h2 : ∀ x : Fin (1 * 1), (finProdFinEquiv.symm x) = ((0 : Fin 1), (0 : Fin 1)) := by decide
  rw [Matrix.of_apply, h2 x, h2 y]
  have hx : x = (0 : Fin 1) := Subsingleton.elim (α := Fin 1) _ _
  have hy : y = (0 : Fin 1) := Subsingleton.elim (α := Fin 1) _ _
  rw [hx, hy]
  change mir s g 0 0 * mir s' g 0 0 = mir (xor s s') g 0 0
  cases s <;> cases s' <;> fin_cases g <;> simp [mir, signRep, trivRep]

theorem tensorPair_mir {la : LinAlg} (hla : la.Contract) (atol : ℝ) (s s' : Bool) (x : Fin 1 → Tensor 3 1) (y : Fin 1 → Tensor 3 1) :
    ∃ c : ℂ, c ≠ 0 ∧ tensorPair la [⟨1, trivRep⟩, ⟨1, signRep⟩] atol ⟨1, mir s, x⟩ ⟨1, mir s', y⟩ =
      .ok ([⟨1, mir (xor s s'), fun _ a => c * (x 0 (Fin.init a) * y 0 fun _ => a (Fin.last 1))⟩], false) := by
  have hcon : ∀ c : Matrix (Fin 1) (Fin (1 * 1)) ℂ, contractBasis c x y =
      fun _ a => c 0 (0 : Fin 1) * (x 0 (Fin.init a) * y 0 fun _ => a (Fin.last 1)) := by
    intro c
    funext i a
    unfold contractBasis
    obtain rfl := Subsingleton.elim i 0
    rw [Fin.sum_univ_one, Fin.sum_univ_one, mul_assoc]
    rfl
  unfold tensorPair
  rw [direct_mir]
  cases h : xor s s' with
  | false =>
    obtain ⟨c, hc, h1⟩ := (project_mir_mir hla atol false false).1 rfl
    have h2 := (project_mir_mir hla atol false true).2 (by decide)
    refine ⟨c 0 0, hc, ?_⟩
    have h1' : projectToIrrep la (mir false : RepArr 2 (1 * 1)) trivRep atol = .ok ([c], false) := h1
    have h2' : projectToIrrep la (mir false : RepArr 2 (1 * 1)) signRep atol = .ok ([], false) := h2
    simp only [bind, Except.bind, List.mapM_cons, List.mapM_nil, pure, Except.pure, h1', h2', List.map_cons, List.map_nil, hcon]
    rfl
  | true =>
    obtain ⟨c, hc, h1⟩ := (project_mir_mir hla atol true true).1 rfl
    have h2 := (project_mir_mir hla atol true false).2 (by decide)
    refine ⟨c 0 0, hc, ?_⟩
    have h1' : projectToIrrep la (mir true : RepArr 2 (1 * 1)) signRep atol = .ok ([c], false) := h1
    have h2' : projectToIrrep la (mir true : RepArr 2 (1 * 1)) trivRep atol = .ok ([], false) := h2
    simp only [bind, Except.bind, List.mapM_cons, List.mapM_nil, pure, Except.pure, h1', h2', List.map_cons, List.map_nil, hcon]
    rfl

/-- The vectors of the plane and the normal. -/
noncomputable def vMir (b : Matrix (Fin 1) (Fin 3) ℂ) : List (Bool × Matrix (Fin 1) (Fin 3) ℂ) :=
  [(false, nMir 0), (false, nMir 1), (true, b)]

noncomputable def tbMir (x : Bool × Matrix (Fin 1) (Fin 3) ℂ) : TensorBasis 2 3 1 := ⟨1, mir x.1, fun i a => x.2 i (a 0)⟩

theorem vectorBasis_mir {la : LinAlg} (hla : la.Contract) (atol : ℝ) : ∃ b, 
    vectorBasis la repMir [⟨1, trivRep⟩, ⟨1, signRep⟩] atol = .ok ((vMir b).map tbMir, false) := by
  obtain ⟨b, hb⟩ := project_mir_sign hla atol
  refine ⟨b, ?_⟩
  unfold vectorBasis
  simp only [bind, Except.bind, List.mapM_cons, List.mapM_nil, pure, Except.pure, project_mir_triv hla, hb]
  rfl

/-- The product of two vectors. -/
def outerMir (x y : Matrix (Fin 1) (Fin 3) ℂ) : Tensor 3 2 := fun a => x 0 (a 0) * y 0 (a 1)

theorem tensorStep_mir {la : LinAlg} (hla : la.Contract) (atol : ℝ) (b : Matrix (Fin 1) (Fin 3) ℂ) :
    ∃ c : Bool × Matrix (Fin 1) (Fin 3) ℂ → Bool × Matrix (Fin 1) (Fin 3) ℂ → ℂ, (∀ x y, c x y ≠ 0) ∧
      tensorStep la [⟨1, trivRep⟩, ⟨1, signRep⟩] atol ((vMir b).map tbMir) ((vMir b).map tbMir) =
      .ok (((vMir b).flatMap fun x => (vMir b).map fun y =>
        (⟨1, mir (xor x.1 y.1), fun _ => c x y • outerMir x.2 y.2⟩ : TensorBasis 2 3 2)), false) := by
  have h := fun x y : Bool × Matrix (Fin 1) (Fin 3) ℂ => tensorPair_mir hla atol x.1 y.1 (tbMir x).basis (tbMir y).basis
  choose c hc hp using h
  refine ⟨c, hc, ?_⟩
  have hp' : ∀ x y, tensorPair la [⟨1, trivRep⟩, ⟨1, signRep⟩] atol (tbMir x) (tbMir y) =
      .ok ([(⟨1, mir (xor x.1 y.1), fun _ => c x y • outerMir x.2 y.2⟩ : TensorBasis 2 3 2)], false) := hp
  unfold tensorStep
  simp only [vMir, List.map_cons, List.map_nil, List.flatMap_cons, List.flatMap_nil, List.cons_append, List.nil_append,
    bind, Except.bind, List.mapM_cons, List.mapM_nil, pure, Except.pure, hp']
  rfl

theorem equiv_mir (s : Bool) : IsEquivalentIrrep (charList (mir s)) (List.replicate 2 1) ↔ s = false := by
  have h : (List.replicate 2 (1 : ℂ)) = List.ofFn fun _ : Fin 2 => (1 : ℂ) := rfl
  rw [h, charList, isEquivalentIrrep_ofFn]
  have h2 : ∑ k, star (getCharacter (mir s) k) * 1 = ((if s then 0 else 2 : ℕ) : ℂ) := by
    cases s <;> simp [Fin.sum_univ_two, getCharacter, mir, signRep, trivRep]
  rw [h2, rintC_natCast]
  cases s <;> simp

theorem take_mir {D p : ℕ} (acc : List (Tensor D p)) (s : Bool) (t : Fin 1 → Tensor D p) :
    invariantStep acc ⟨1, mir s, t⟩ = .ok (if s then acc else acc ++ [t 0]) := by
  unfold invariantStep
  rw [if_neg (lt_irrefl 1)]
  cases s with
  | false =>
    rw [if_pos ((equiv_mir false).2 rfl), dif_pos one_pos]
    rfl
  | true =>
    rw [if_neg (fun h => Bool.noConfusion ((equiv_mir true).1 h))]
    rfl

/-- The tensors of rank two. -/
theorem tensors_mir {la : LinAlg} (hla : la.Contract) (atol : ℝ) :
    ∃ (c₁ c₂ c₃ : ℂ) (t₄ t₅ : Tensor 3 2), c₁ ≠ 0 ∧ c₂ ≠ 0 ∧ c₃ ≠ 0 ∧
      tensorsFrom la repMir [⟨1, trivRep⟩, ⟨1, signRep⟩] 2 atol = .ok ([c₁ • outerMir (nMir 0) (nMir 0),
        c₂ • outerMir (nMir 0) (nMir 1), c₃ • outerMir (nMir 1) (nMir 0), t₄, t₅], false) := by
  obtain ⟨b, hv⟩ := vectorBasis_mir hla atol
  obtain ⟨c, hc, hs⟩ := tensorStep_mir hla atol b
  refine ⟨_, _, _, c (false, nMir 1) (false, nMir 1) • outerMir (nMir 1) (nMir 1),
    c (true, b) (true, b) • outerMir b b, hc (false, nMir 0) (false, nMir 0), hc (false, nMir 0) (false, nMir 1),
    hc (false, nMir 1) (false, nMir 0), ?_⟩
  have hl : tensorLoop la [⟨1, trivRep⟩, ⟨1, signRep⟩] atol ((vMir b).map tbMir) 1 =
      .ok (((vMir b).flatMap fun x => (vMir b).map fun y =>
        (⟨1, mir (xor x.1 y.1), fun _ => c x y • outerMir x.2 y.2⟩ : TensorBasis 2 3 2)), false) := by
    unfold tensorLoop tensorLoop
    simp only [bind, Except.bind, hs]
    rfl
  have ht : takeInvariant ((vMir b).flatMap fun x => (vMir b).map fun y =>
        (⟨1, mir (xor x.1 y.1), fun _ => c x y • outerMir x.2 y.2⟩ : TensorBasis 2 3 2)) =
      .ok [c (false, nMir 0) (false, nMir 0) • outerMir (nMir 0) (nMir 0),
        c (false, nMir 0) (false, nMir 1) • outerMir (nMir 0) (nMir 1),
        c (false, nMir 1) (false, nMir 0) • outerMir (nMir 1) (nMir 0),
        c (false, nMir 1) (false, nMir 1) • outerMir (nMir 1) (nMir 1), c (true, b) (true, b) • outerMir b b] := by
    unfold takeInvariant
    simp only [vMir, List.map_cons, List.map_nil, List.flatMap_cons, List.flatMap_nil, List.cons_append, List.nil_append,
      List.foldlM_cons, List.foldlM_nil, take_mir, bind, Except.bind]
    rfl
  unfold tensorsFrom
  simp only [bind, Except.bind, hv]
  have hl' : tensorLoop la [⟨1, trivRep⟩, ⟨1, signRep⟩] atol ((vMir b).map tbMir) (2 - 1) =
      .ok (((vMir b).flatMap fun x => (vMir b).map fun y =>
        (⟨1, mir (xor x.1 y.1), fun _ => c x y • outerMir x.2 y.2⟩ : TensorBasis 2 3 2)), false) := hl
  simp only [hl', ht]
  rfl

/-! ### Loss of a tensor -/

theorem outer_inner (x y x' y' : Matrix (Fin 1) (Fin 3) ℂ) :
    ∑ a, star (outerMir x y a) * outerMir x' y' a = (∑ m, star (x 0 m) * x' 0 m) * ∑ m, star (y 0 m) * y' 0 m := by
  rw [← (finTwoArrowEquiv (Fin 3)).symm.sum_comp, Fintype.sum_prod_type, Finset.sum_mul_sum]
  refine Finset.sum_congr rfl fun i _ => Finset.sum_congr rfl fun j _ => ?_
  show star (x 0 i * y 0 j) * (x' 0 i * y' 0 j) = _
  rw [star_mul']
  ring

theorem inner_mir : (∑ m, star (nMir 0 0 m) * nMir 0 0 m = 1) ∧ (∑ m, star (nMir 1 0 m) * nMir 1 0 m = 1) ∧
    (∑ m, star (nMir 1 0 m) * nMir 0 0 m = -4 / 5) ∧ (∑ m, star (nMir 0 0 m) * nMir 1 0 m = -4 / 5) := by
  refine ⟨?_, ?_, ?_, ?_⟩
  · rw [nMir_inner (.inl rfl) (.inl rfl), colMir_self (.inl rfl)]; norm_num
  · rw [nMir_inner (.inr rfl) (.inr rfl), colMir_self (.inr rfl)]; norm_num
  · rw [nMir_inner (.inr rfl) (.inl rfl), colMir_inner]; norm_num
  · have h : ∑ m, colMir 0 m * colMir 1 m = -36 := by
      rw [← colMir_inner]
      exact Finset.sum_congr rfl fun m _ => mul_comm _ _
    rw [nMir_inner (.inl rfl) (.inr rfl), h]; norm_num

/-- The symmetrised product of the two vectors. -/
noncomputable def yMir : Tensor 3 2 := outerMir (nMir 0) (nMir 1) + outerMir (nMir 1) (nMir 0)

theorem symSum_two {D : ℕ} (t : Tensor D 2) : symSum t = t + permTensor (Equiv.swap 0 1) t := by
  have hu : (Finset.univ : Finset (Equiv.Perm (Fin 2))) = {1, Equiv.swap 0 1} := by decide
  unfold symSum
  rw [hu, Finset.sum_pair (by decide)]
  rfl

theorem perm_outer (x y : Matrix (Fin 1) (Fin 3) ℂ) : permTensor (Equiv.swap 0 1) (outerMir x y) = outerMir y x := by
  funext a
  show x 0 (a (Equiv.swap 0 1 0)) * y 0 (a (Equiv.swap 0 1 1)) = y 0 (a 0) * x 0 (a 1)
  rw [Equiv.swap_apply_left, Equiv.swap_apply_right, mul_comm]

theorem inner_yx : ∑ a, star (yMir a) * outerMir (nMir 0) (nMir 0) a = -8 / 5 := by
  obtain ⟨h1, -, h3, -⟩ := inner_mir
  simp only [yMir, Pi.add_apply, star_add, add_mul, Finset.sum_add_distrib, outer_inner, h1, h3]
  norm_num

theorem inner_yy : ∑ a, star (yMir a) * yMir a = 82 / 25 := by
  obtain ⟨h1, h2, h3, h4⟩ := inner_mir
  simp only [yMir, Pi.add_apply, star_add, add_mul, mul_add, Finset.sum_add_distrib, outer_inner, h1, h2, h3, h4]
  norm_num

theorem inner_xx : ∑ a, star (outerMir (nMir 0) (nMir 0) a) * outerMir (nMir 0) (nMir 0) a = 1 := by
  rw [outer_inner, inner_mir.1, one_mul]

theorem sum_star_self {D p : ℕ} {t : Tensor D p} (h : tensorNorm t = 1) : ∑ a, star (t a) * t a = 1 := by
  have h2 := tensorNorm_sq t
  rw [h] at h2
  have h3 : ∀ a, star (t a) * t a = ((‖t a‖ ^ 2 : ℝ) : ℂ) := fun a => by
    rw [Complex.star_def, Complex.conj_mul', Complex.ofReal_pow]
  rw [Finset.sum_congr rfl fun a _ => h3 a, ← Complex.ofReal_sum, ← h2]
  norm_num

theorem sum_flatten {D p : ℕ} (s t : Tensor D p) :
    ∑ x, star (flattenTensor s 0 x) * flattenTensor t 0 x = ∑ a, star (s a) * t a :=
  finFunctionFinEquiv.symm.sum_comp fun a => star (s a) * t a

/-- A tensor whose symmetrised form is a multiple of `yMir` is rejected next to a multiple of the first one. -/
theorem reject_mir {la : LinAlg} (hla : la.Contract) {atol' : ℝ} {k₁ k : ℂ} {t : Tensor 3 2} {bs : List (Tensor 3 2)}
    (h1 : tensorNorm (k₁ • outerMir (nMir 0) (nMir 0)) = 1) (ht : symmetrize t = k • yMir)
    (h : intrinsicStep la atol' [k₁ • outerMir (nMir 0) (nMir 0)] t = .ok bs) :
    bs = [k₁ • outerMir (nMir 0) (nMir 0)] := by
  rcases intrinsicStep_cases h with h | ⟨-, h2, -, h4⟩
  · exact h
  exfalso
  obtain ⟨dist, hd, hg⟩ := h4 (by simp)
  have h5 := normalized_norm h2
  rw [ht, smul_smul] at h5 hg
  set k' : ℂ := ((tensorNorm (k • yMir))⁻¹ : ℂ) * k
  have u1 := sum_star_self h1
  have u2 := sum_star_self h5
  have hg2 := grassmann_lines hla (b1 := flattenTensor (k' • yMir))
    (b2 := stackTensors [k₁ • outerMir (nMir 0) (nMir 0)]) (u := flattenTensor (k' • yMir) 0)
    (v := flattenTensor (k₁ • outerMir (nMir 0) (nMir 0)) 0)
    (by funext i; rw [Subsingleton.elim i 0]) (by
      funext i
      obtain ⟨i, hi⟩ := i
      obtain rfl : i = 0 := by simpa using hi
      rfl)
    (by rw [sum_flatten]; exact u2) (by rw [sum_flatten]; exact u1)
  have hdist : dist = _ := Except.ok.inj (hg.symm.trans hg2)
  rw [sum_flatten] at hdist
  have e : ∀ (x y : ℂ) (s t : Tensor 3 2), ∑ a, star ((x • s) a) * (y • t) a = star x * y * ∑ a, star (s a) * t a := by
    intro x y s t
    rw [Finset.mul_sum]
    refine Finset.sum_congr rfl fun a _ => ?_
    rw [Pi.smul_apply, Pi.smul_apply, smul_eq_mul, smul_eq_mul, star_mul']
    ring
  rw [e, inner_xx, mul_one, Complex.star_def, Complex.conj_mul'] at u1
  rw [e, inner_yy, Complex.star_def, Complex.conj_mul'] at u2
  rw [e, inner_yx, norm_mul, norm_mul, norm_star] at hdist
  have u1' : ‖k₁‖ ^ 2 = 1 := by exact_mod_cast u1
  have u2' : ‖k'‖ ^ 2 * (82 / 25) = 1 := by
    have : ((‖k'‖ ^ 2 * (82 / 25) : ℝ) : ℂ) = (1 : ℝ) := by
      push_cast
      exact u2
    exact Complex.ofReal_injective this
  have hn : ‖(-8 / 5 : ℂ)‖ = 8 / 5 := by norm_num
  rw [hn] at hdist
  have hsq : (‖k'‖ * ‖k₁‖ * (8 / 5)) ^ 2 = 32 / 41 := by
    rw [mul_pow, mul_pow, u1']
    linarith
  rw [hdist, gMin, hsq] at hd
  have := Real.le_sqrt' (by norm_num : (0 : ℝ) < 0.5) |>.1 hd
  norm_num at this

theorem norm_xMir : tensorNorm (outerMir (nMir 0) (nMir 0)) = 1 := by
  have h : ((∑ a, ‖outerMir (nMir 0) (nMir 0) a‖ ^ 2 : ℝ) : ℂ) = (1 : ℝ) := by
    rw [Complex.ofReal_one, ← inner_xx, Complex.ofReal_sum]
    refine Finset.sum_congr rfl fun a _ => ?_
    rw [Complex.star_def, Complex.conj_mul', Complex.ofReal_pow]
  unfold tensorNorm
  rw [Complex.ofReal_injective h, Real.sqrt_one]

theorem symSum_smul {D p : ℕ} (c : ℂ) (t : Tensor D p) : symSum (c • t) = c • symSum t := by
  funext a
  simp only [symSum, Finset.sum_apply, Pi.smul_apply, smul_eq_mul, Finset.mul_sum]
  rfl

theorem accept_mir (la : LinAlg) {atol' : ℝ} (ha : atol' ≤ 1 / 2) {c : ℂ} (hc : c ≠ 0) :
    ∃ k₁ : ℂ, tensorNorm (k₁ • outerMir (nMir 0) (nMir 0)) = 1 ∧
      intrinsicStep la atol' [] (c • outerMir (nMir 0) (nMir 0)) = .ok [k₁ • outerMir (nMir 0) (nMir 0)] := by
  have hn : tensorNorm (c • outerMir (nMir 0) (nMir 0)) = ‖c‖ := by rw [tensorNorm_smul, norm_xMir, mul_one]
  have hc0 : ‖c‖ ≠ 0 := norm_ne_zero_iff.2 hc
  have hs : symmetrize (c • outerMir (nMir 0) (nMir 0)) = ((‖c‖⁻¹ : ℂ) * (2 * c)) • outerMir (nMir 0) (nMir 0) := by
    rw [symmetrize_symSum, hn, symSum_smul, symSum_two, perm_outer, ← two_smul ℂ (outerMir (nMir 0) (nMir 0)),
      smul_smul, smul_smul, mul_assoc, mul_comm c 2]
  have hk : ‖(‖c‖⁻¹ : ℂ) * (2 * c)‖ = 2 := by
    rw [norm_mul, norm_mul, norm_inv, Complex.norm_real, norm_norm]
    norm_num
    field_simp
  have hn2 : tensorNorm (symmetrize (c • outerMir (nMir 0) (nMir 0))) = 2 := by
    rw [hs, tensorNorm_smul, norm_xMir, hk, mul_one]
  refine ⟨(2 : ℂ)⁻¹ * ((‖c‖⁻¹ : ℂ) * (2 * c)), ?_, ?_⟩
  · rw [tensorNorm_smul, norm_xMir, norm_mul, hk]
    norm_num
  unfold intrinsicStep
  rw [if_neg (by rw [hn]; exact hc0)]
  dsimp only
  rw [if_neg ?_, if_neg (by rw [hn2]; norm_num), if_neg (by simp)]
  · congr 1
    rw [List.nil_append, hn2, hs]
    congr 1
    funext a
    simp only [Pi.smul_apply, smul_eq_mul]
    push_cast
    ring
  · intro hall
    have h4 := tensorNorm_sq (symmetrize (c • outerMir (nMir 0) (nMir 0)))
    rw [hn2] at h4
    have h5 : ∑ a, ‖symmetrize (c • outerMir (nMir 0) (nMir 0)) a‖ ^ 2 ≤ ∑ _a : Fin 2 → Fin 3, (1 / 4 : ℝ) := by
      refine Finset.sum_le_sum fun a _ => ?_
      have h6 := hall a
      unfold IsCloseC at h6
      rw [sub_zero, norm_zero, mul_zero, add_zero] at h6
      have h7 := h6.trans ha
      have h8 := norm_nonneg (symmetrize (c • outerMir (nMir 0) (nMir 0)) a)
      nlinarith
    rw [← h4] at h5
    simp at h5
    norm_num at h5

theorem intrinsicStep_length {D p : ℕ} {la : LinAlg} {atol : ℝ} {bs bs' : List (Tensor D p)} {t : Tensor D p}
    (h : intrinsicStep la atol bs t = .ok bs') : bs'.length ≤ bs.length + 1 := by
  rcases intrinsicStep_cases h with rfl | ⟨-, -, rfl, -⟩
  · omega
  · simp

theorem lost_mir {la : LinAlg} (hla : la.Contract) {atol' : ℝ} (ha : atol' ≤ 1 / 2) {c₁ c₂ c₃ : ℂ}
    {t₄ t₅ : Tensor 3 2} (h1 : c₁ ≠ 0) {us : List (Tensor 3 2)}
    (h : applyIntrinsicSymmetry la [c₁ • outerMir (nMir 0) (nMir 0), c₂ • outerMir (nMir 0) (nMir 1),
      c₃ • outerMir (nMir 1) (nMir 0), t₄, t₅] atol' = .ok us) : us.length ≤ 3 := by
  obtain ⟨k₁, hk, hs⟩ := accept_mir la ha h1
  have hy : ∀ c : ℂ, ∀ t, (t = outerMir (nMir 0) (nMir 1) ∨ t = outerMir (nMir 1) (nMir 0)) →
      ∃ k : ℂ, symmetrize (c • t) = k • yMir := by
    intro c t ht
    refine ⟨((tensorNorm (c • t))⁻¹ : ℂ) * c, ?_⟩
    rw [symmetrize_symSum, symSum_smul, smul_smul]
    congr 1
    rcases ht with rfl | rfl
    · rw [symSum_two, perm_outer]; rfl
    · rw [symSum_two, perm_outer, add_comm]; rfl
  unfold applyIntrinsicSymmetry at h
  simp only [List.foldlM_cons, List.foldlM_nil, bind, Except.bind, hs] at h
  obtain ⟨k₂, hk₂⟩ := hy c₂ _ (.inl rfl)
  obtain ⟨k₃, hk₃⟩ := hy c₃ _ (.inr rfl)
  cases e2 : intrinsicStep la atol' [k₁ • outerMir (nMir 0) (nMir 0)] (c₂ • outerMir (nMir 0) (nMir 1)) with
  | error e => rw [e2] at h; cases h
  | ok b2 =>
    rw [e2] at h
    dsimp only at h
    obtain rfl := reject_mir hla hk hk₂ e2
    cases e3 : intrinsicStep la atol' [k₁ • outerMir (nMir 0) (nMir 0)] (c₃ • outerMir (nMir 1) (nMir 0)) with
    | error e => rw [e3] at h; cases h
    | ok b3 =>
      rw [e3] at h
      dsimp only at h
      obtain rfl := reject_mir hla hk hk₃ e3
      cases e4 : intrinsicStep la atol' [k₁ • outerMir (nMir 0) (nMir 0)] t₄ with
      | error e => rw [e4] at h; cases h
      | ok b4 =>
        rw [e4] at h
        dsimp only at h
        cases e5 : intrinsicStep la atol' b4 t₅ with
        | error e => rw [e5] at h; cases h
        | ok b5 =>
          rw [e5] at h
          obtain rfl := Except.ok.inj h
          have l4 := intrinsicStep_length e4
          have l5 := intrinsicStep_length e5
          simp at l4
          omega

theorem trace_mir : ∑ g, symTrace 2 (repMir g) = 16 := by
  have h : mirM.trace = 1 := by
    simp [mirM, Matrix.trace, Fin.sum_univ_three]
    norm_num
  rw [Fin.sum_univ_two]
  have h0 : repMir 0 = 1 := rfl
  have h1 : repMir 1 = mirM := rfl
  rw [h0, h1, symTrace_two, symTrace_two, one_pow, pow_two mirM, mirM_sq, h, Matrix.trace_one, Fintype.card_fin]
  norm_num

/-- **C104, refutation of completeness.** For the group m acting on vectors by the reflection in the plane with normal
`(2, 2, 1) / 3`, `get_symmetry_adapted_tensors` of rank two returns tensors without a warning, but
`apply_intrinsic_symmetry` applied to them returns at most three of the four linearly independent symmetric invariant tensors:
one of them is not a combination of the returned tensors. -/
theorem c104_refuted (o : Oracles) (ho : PointgroupContract o.pointgroup rotsMir) (he : EigenContract o.eigh o.qr)
    (la : LinAlg) (hla : la.Contract) {atol : ℝ} (ha : 0 ≤ atol) (ha2 : atol ≤ 1 / 10)
    (hr : ∃ out, enumerateUnitaryIrreps o rotsMir none false .neto 1e-5 atol = .ok (out, false))
    {atol' : ℝ} (ha' : 0 ≤ atol') (ha2' : atol' ≤ 1 / 2) :
    EnumeratesGroup rotsMir ∧ (∃ T, getCayleyTable rotsMir = .ok T ∧ IsProjRep T (fun _ _ => 1) repMir) ∧
    IsUnitaryRep repMir ∧ ∃ ts us : List (Tensor 3 2),
      getSymmetryAdaptedTensors o la repMir rotsMir 2 false atol = .ok (ts, false) ∧
      applyIntrinsicSymmetry la ts atol' = .ok us ∧ us.length ≤ 3 ∧ ∑ g, symTrace 2 (repMir g) = 2 * 2 * 4 ∧
      ∃ t : Tensor 3 2, IsSymInvariant repMir t ∧ t ∉ Submodule.span ℂ (Set.range us.get) := by
  refine ⟨rotsMir_group, ⟨_, cayley_mir, repMir_proj⟩, repMir_unitary, ?_⟩
  obtain ⟨out, hout⟩ := hr
  obtain ⟨L, w, hraw, hw2, hw⟩ := c64_exact_entries rotsMir_group cayley_mir o ho 1e-5 ha (ha2.trans (by norm_num)) 4
  have hwf : w = false := by
    have hout' := hout
    unfold enumerateUnitaryIrreps at hout'
    simp only [Option.getD_none, hraw, bind, Except.bind, pure, Except.pure, Bool.false_eq_true, if_false] at hout'
    split at hout'
    · cases hout'
    · exact (Prod.mk.inj (Except.ok.inj hout')).2
  obtain ⟨l, henum, hlfst, hL, -⟩ := hw hwf
  obtain ⟨rest, hrest⟩ := (c73_trivial_first rotsMir_group o he .neto (rtol := 1e-5) (by norm_num) (by norm_num) ha ha2 4).1 l
    henum
  have hl : l.map Prod.fst = [⟨1, trivRep⟩, ⟨1, signRep⟩] := by
    refine irreps_mir hL ⟨rest.map Prod.fst, ?_⟩
    rw [hrest, List.map_cons]
  obtain ⟨c₁, c₂, c₃, t₄, t₅, hc, -, -, hts⟩ := tensors_mir hla atol
  have hrun : getSymmetryAdaptedTensors o la repMir rotsMir 2 false atol = .ok ([c₁ • outerMir (nMir 0) (nMir 0),
        c₂ • outerMir (nMir 0) (nMir 1), c₃ • outerMir (nMir 1) (nMir 0), t₄, t₅], false) := by
    unfold getSymmetryAdaptedTensors
    simp only [bind, Except.bind, henum, IrrepsOut.irreps, hl, hts]
    rfl
  obtain ⟨us, m, hus, -, -, hm, -, hiff⟩ := c104_symmetric_tensors_partial rotsMir_group cayley_mir repMir_proj
    repMir_unitary o ho la hla 2 ha (ha2.trans (by norm_num)) hrun ha'
  have h3 : us.length ≤ 3 := lost_mir hla ha2' hc hus
  have hm4 : m = 4 := by
    have h4 : ((2 * 2 * m : ℕ) : ℂ) = ((16 : ℕ) : ℂ) := by
      refine hm.trans (trace_mir.trans ?_)
      norm_num
    have := Nat.cast_injective h4
    omega
  refine ⟨_, us, hrun, hus, h3, trace_mir.trans (by norm_num), ?_⟩
  by_contra hcon
  push Not at hcon
  have := hiff.2 hcon
  omega

/-- Non-vacuity: such oracles exist, with the default tolerances. -/
example : ∃ (o : Oracles) (la : LinAlg), PointgroupContract o.pointgroup rotsMir ∧ EigenContract o.eigh o.qr ∧
    la.Contract ∧ ∃ out, enumerateUnitaryIrreps o rotsMir none false .neto 1e-5 1e-8 = .ok (out, false) := by
  obtain ⟨random, hr⟩ := exists_richDraws 1e-8 2 4 fun d hd => by nlinarith
  obtain ⟨la, hla⟩ := exists_linAlg_contract
  obtain ⟨eigh, qr, he⟩ := eigenContract_exists
  let o : Oracles := { random := random, eig := fun d _ => (fun _ => 0, 0), eigh := eigh, qr := qr,
                       pointgroup := (PgSymbol.pg_m, (1 : M3).map fun x : ℤ => (x : ℝ)) }
  have ho : PointgroupContract o.pointgroup rotsMir := pointgroup_mir
  obtain ⟨L, w, hraw, hw2, hw⟩ := c64_exact_entries rotsMir_group cayley_mir o ho 1e-5 (atol := 1e-8) (by norm_num)
    (by norm_num) 4
  obtain ⟨l, henum, -⟩ := hw (hw2 hr)
  exact ⟨o, la, ho, he, hla, _, henum⟩

end Spgrep
