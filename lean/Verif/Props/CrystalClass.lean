/-
C89: the table of point groups lists each geometric crystal class under its symbol.
-/
import Verif.Spec.CrystalClass
import Verif.Props.Pointgroup
import Verif.Props.SmallReps

namespace Spgrep

open Spec PgSymbol

theorem classCounts_injective : ∀ s s', classCounts s = classCounts s' → s = s' := by
  intro s s'
  cases s <;> cases s' <;> first | (intro _; rfl) | (intro h; exact absurd h (by decide))

/-- The counting with determinants written out. -/
def fastCounts (l : List PgMat) : List ℕ :=
  rotTypes.map fun t => l.countP fun x =>
    decide (x.1.1 * (x.2.1.2.1 * x.2.2.2.2 - x.2.1.2.2 * x.2.2.2.1) - x.1.2.1 * (x.2.1.1 * x.2.2.2.2 - x.2.1.2.2 * x.2.2.1) +
      x.1.2.2 * (x.2.1.1 * x.2.2.2.1 - x.2.1.2.1 * x.2.2.1) = t.1 ∧ x.1.1 + x.2.1.2.1 + x.2.2.2.2 = t.2)

theorem fastCounts_eq (l : List PgMat) : typeCounts (l.map PgMat.toM3) = fastCounts l := by
  unfold typeCounts fastCounts
  refine List.map_congr_left fun t _ => ?_
  rw [List.countP_map]
  refine List.countP_congr fun x _ => ?_
  simp only [Function.comp, decide_eq_true_eq]
  unfold PgMat.toM3
  rw [Matrix.det_fin_three, Matrix.trace_fin_three]
  simp only [Matrix.of_apply, Matrix.cons_val', Matrix.cons_val_zero, Matrix.cons_val_one, Matrix.cons_val_fin_one,
    Matrix.cons_val]
  constructor
  · rintro ⟨h1, h2⟩; exact ⟨by rw [← h1]; ring, h2⟩
  · rintro ⟨h1, h2⟩; exact ⟨by rw [← h1]; ring, h2⟩

theorem fastCounts_all : ∀ s : PgSymbol, ∀ std ∈ pgDataset s, fastCounts std = classCounts s := by
  intro s
  cases s <;> decide +kernel

/-- **C89.** Every setting listed under a symbol has exactly the operations of the crystal class of this symbol: so many
rotations and roto-inversions of each type. -/
theorem c89_class_counts (s : PgSymbol) {std : List PgMat} (hstd : std ∈ pgDataset s) :
    typeCounts (std.map PgMat.toM3) = classCounts s := by
  rw [fastCounts_eq]
  exact fastCounts_all s std hstd

/-- Determinant and trace do not depend on the basis. -/
theorem type_conj {A B : M3} {P : Matrix (Fin 3) (Fin 3) ℝ} (hP : P.det ≠ 0)
    (h : A.map (fun x : ℤ => (x : ℝ)) = P * B.map (fun x : ℤ => (x : ℝ)) * P⁻¹) : A.det = B.det ∧ A.trace = B.trace := by
  have hP' : IsUnit P.det := isUnit_iff_ne_zero.2 hP
  have hd : ∀ X : M3, (X.map fun x : ℤ => (x : ℝ)).det = ((X.det : ℤ) : ℝ) := fun X =>
    ((Int.castRingHom ℝ).map_det X).symm
  have ht : ∀ X : M3, (X.map fun x : ℤ => (x : ℝ)).trace = ((X.trace : ℤ) : ℝ) := fun X => by
    simp [Matrix.trace]
  constructor
  · have h1 := congrArg Matrix.det h
    rw [Matrix.det_mul, Matrix.det_mul, hd, hd, mul_right_comm, ← Matrix.det_mul, Matrix.mul_nonsing_inv _ hP', Matrix.det_one,
      one_mul] at h1
    exact_mod_cast h1
  · have h1 := congrArg Matrix.trace h
    rw [Matrix.trace_mul_comm, ← Matrix.mul_assoc, Matrix.nonsing_inv_mul _ hP', Matrix.one_mul, ht, ht] at h1
    exact_mod_cast h1

variable {n : ℕ}

/-- **C89, rotations of the user.** If the reported point group fits the rotations, in any basis and order, then the rotations
have the numbers of operations of each type of that crystal class. -/
theorem c89_contract_class {pg : PgSymbol × Matrix (Fin 3) (Fin 3) ℝ} {rots : Fin n → M3} (h : PointgroupContract pg rots) :
    typeCounts (List.ofFn rots) = classCounts pg.1 := by
  obtain ⟨hP, std, hstd, σ, hσ⟩ := h
  rw [← c89_class_counts pg.1 hstd]
  unfold typeCounts
  refine List.map_congr_left fun t _ => ?_
  have hperm : (List.ofFn rots).map (fun R => (R.det, R.trace)) |>.Perm
      ((std.map PgMat.toM3).map fun R : M3 => (R.det, R.trace)) := by
    have e1 : (std.map PgMat.toM3).map (fun R : M3 => (R.det, R.trace)) =
        List.ofFn fun j : Fin std.length => ((std.get j).toM3.det, (std.get j).toM3.trace) := by
      conv_lhs => rw [← List.ofFn_get std]
      rw [List.map_ofFn, List.map_ofFn]
      rfl
    have e2 : (List.ofFn rots).map (fun R => (R.det, R.trace)) =
        List.ofFn fun i : Fin n => ((std.get (σ i)).toM3.det, (std.get (σ i)).toM3.trace) := by
      rw [List.map_ofFn]
      congr 1
      funext i
      obtain ⟨h1, h2⟩ := type_conj hP (hσ i)
      exact Prod.ext h1 h2
    rw [e1, e2]
    have hn : n = std.length := by simpa using Fintype.card_congr σ
    subst hn
    exact Equiv.Perm.ofFn_comp_perm σ fun j => ((std.get j).toM3.det, (std.get j).toM3.trace)
  have := hperm.countP_eq fun x => decide (x.1 = t.1 ∧ x.2 = t.2)
  rwa [List.countP_map, List.countP_map] at this

/-- **C89, the symbol is determined.** Two answers that fit the same rotations, even listed in different orders or in
different bases, have the same symbol. -/
theorem c89_symbol_determined {n' : ℕ} {pg pg' : PgSymbol × Matrix (Fin 3) (Fin 3) ℝ} {rots : Fin n → M3} {rots' : Fin n' → M3}
    (h : PointgroupContract pg rots) (h' : PointgroupContract pg' rots')
    {P : Matrix (Fin 3) (Fin 3) ℝ} (hP : P.det ≠ 0) (σ : Fin n ≃ Fin n')
    (hσ : ∀ i, (rots i).map (fun x : ℤ => (x : ℝ)) = P * (rots' (σ i)).map (fun x : ℤ => (x : ℝ)) * P⁻¹) : pg.1 = pg'.1 := by
  apply classCounts_injective
  rw [← c89_contract_class h, ← c89_contract_class h']
  have hn : n = n' := by simpa using Fintype.card_congr σ
  subst hn
  unfold typeCounts
  refine List.map_congr_left fun t _ => ?_
  have e2 : (List.ofFn rots).map (fun R => (R.det, R.trace)) =
      List.ofFn fun i : Fin n => ((rots' (σ i)).det, (rots' (σ i)).trace) := by
    rw [List.map_ofFn]
    congr 1
    funext i
    obtain ⟨h1, h2⟩ := type_conj hP (hσ i)
    exact Prod.ext h1 h2
  have e1 : (List.ofFn rots').map (fun R => (R.det, R.trace)) = List.ofFn fun i : Fin n => ((rots' i).det, (rots' i).trace) := by
    rw [List.map_ofFn]; rfl
  have hperm := Equiv.Perm.ofFn_comp_perm σ fun i => ((rots' i).det, (rots' i).trace)
  have := hperm.countP_eq fun x => decide (x.1 = t.1 ∧ x.2 = t.2)
  change List.countP _ (List.ofFn fun i : Fin n => ((rots' (σ i)).det, (rots' (σ i)).trace)) = _ at this
  rw [← e1, ← e2, List.countP_map, List.countP_map] at this
  exact this

/-- Basis changes from the first setting of a symbol to the others. -/
def settingBasis : PgSymbol → List M3
  | pg_2 | pg_m => [1, !![0, -1, -1; -1, 0, 0; 0, 0, -1], !![0, -1, -1; 0, -1, 0; -1, 0, 0]]
  | pg_mm2 => [1, !![0, -1, 0; -1, 0, 0; 0, 0, -1], !![0, -1, 0; 0, 0, -1; 1, 0, 0]]
  | pg_b42m => [1, !![-1, -1, 0; -1, 1, 0; 0, 0, -1]]
  | pg_32 | pg_3m | pg_b3m | pg_b6m2 => [1, !![-2, 1, 0; -1, -1, 0; 0, 0, 1]]
  | _ => [1]

theorem settingBasis_all : ∀ s : PgSymbol, (pgDataset s).length = (settingBasis s).length ∧
    ∀ x ∈ (pgDataset s).zip (settingBasis s), 0 < x.2.det ∧
      (∀ a ∈ x.1, ∃ b ∈ (pgDataset s).head!, a.toM3 * x.2 = x.2 * b.toM3) ∧
      ∀ b ∈ (pgDataset s).head!, ∃ a ∈ x.1, a.toM3 * x.2 = x.2 * b.toM3 := by
  intro s
  cases s <;> decide +kernel

/-- The matrices of a setting over the real numbers. -/
def Spec.settingSet (std : List PgMat) : Set (Matrix (Fin 3) (Fin 3) ℝ) :=
  {A | ∃ x ∈ std, A = x.toM3.map fun a : ℤ => (a : ℝ)}

theorem conj_of_comm {A B : M3} {Q : M3} (hQ : 0 < Q.det) (h : A * Q = Q * B) :
    (Q.map fun a : ℤ => (a : ℝ)).det ≠ 0 ∧ A.map (fun a : ℤ => (a : ℝ)) * Q.map (fun a : ℤ => (a : ℝ)) =
      Q.map (fun a : ℤ => (a : ℝ)) * B.map (fun a : ℤ => (a : ℝ)) := by
  constructor
  · have : (Q.map fun x : ℤ => (x : ℝ)).det = ((Q.det : ℤ) : ℝ) := ((Int.castRingHom ℝ).map_det Q).symm
    rw [this]
    exact_mod_cast hQ.ne'
  · have := congrArg (fun X : M3 => X.map fun a : ℤ => (a : ℝ)) h
    have e : ∀ X Y : M3, (X * Y).map (fun a : ℤ => (a : ℝ)) = X.map (fun a : ℤ => (a : ℝ)) * Y.map fun a : ℤ => (a : ℝ) :=
      fun X Y => Matrix.map_mul (f := Int.castRingHom ℝ)
    simpa only [e] using this

theorem setting_standard {s : PgSymbol} {std : List PgMat} (hstd : std ∈ pgDataset s) :
    ∃ Q : Matrix (Fin 3) (Fin 3) ℝ, Q.det ≠ 0 ∧
      (fun A => Q * A * Q⁻¹) '' settingSet (pgDataset s).head! = settingSet std := by
  obtain ⟨hlen, hall⟩ := settingBasis_all s
  obtain ⟨k, hk, rfl⟩ := List.mem_iff_getElem.1 hstd
  have hz : k < ((pgDataset s).zip (settingBasis s)).length := by rw [List.length_zip, ← hlen, Nat.min_self]; exact hk
  obtain ⟨hdet, h1, h2⟩ := hall _ (List.getElem_mem hz)
  rw [List.getElem_zip] at hdet h1 h2
  dsimp only at hdet h1 h2
  set Q := (settingBasis s)[k]'(hlen ▸ hk) with hQ
  have hd : (Q.map fun a : ℤ => (a : ℝ)).det ≠ 0 := (conj_of_comm (A := Q) (B := Q) hdet rfl).1
  have hu : IsUnit (Q.map fun a : ℤ => (a : ℝ)).det := isUnit_iff_ne_zero.2 hd
  refine ⟨Q.map fun a : ℤ => (a : ℝ), hd, ?_⟩
  have key : ∀ a b : PgMat, a.toM3 * Q = Q * b.toM3 → (Q.map fun a : ℤ => (a : ℝ)) * b.toM3.map (fun a : ℤ => (a : ℝ)) *
      (Q.map fun a : ℤ => (a : ℝ))⁻¹ = a.toM3.map fun a : ℤ => (a : ℝ) := by
    intro a b h
    rw [← (conj_of_comm hdet h).2, Matrix.mul_assoc, Matrix.mul_nonsing_inv _ hu, Matrix.mul_one]
  ext A
  constructor
  · rintro ⟨_, ⟨b, hb, rfl⟩, rfl⟩
    obtain ⟨a, ha, hab⟩ := h2 b hb
    exact ⟨a, ha, key a b hab⟩
  · rintro ⟨a, ha, rfl⟩
    obtain ⟨b, hb, hab⟩ := h1 a ha
    exact ⟨_, ⟨b, hb, rfl⟩, key a b hab⟩

/-- **C89, one class per symbol.** Two tabulated settings are the same group of linear maps in two bases if and only if they
are listed under the same symbol. -/
theorem c89_settings_conjugate_iff {s s' : PgSymbol} {std std' : List PgMat} (hstd : std ∈ pgDataset s)
    (hstd' : std' ∈ pgDataset s') :
    (∃ P : Matrix (Fin 3) (Fin 3) ℝ, P.det ≠ 0 ∧ (fun A => P * A * P⁻¹) '' settingSet std' = settingSet std) ↔ s = s' := by
  constructor
  · rintro ⟨P, hP, himg⟩
    have hP' : IsUnit P.det := isUnit_iff_ne_zero.2 hP
    have hinj : ∀ {s : PgSymbol} {std : List PgMat}, std ∈ pgDataset s → ∀ i j : Fin std.length,
        (std.get i).toM3 = (std.get j).toM3 → i = j := by
      intro s std h i j hij
      have hnd := ((c30_tables_are_groups s).2 std h).1.nodup
      have h1 := (List.nodup_iff_injective_get.1 hnd) (a₁ := i.cast (by simp)) (a₂ := j.cast (by simp)) (by simpa using hij)
      exact Fin.ext (by simpa using congrArg Fin.val h1)
    have hcast : ∀ X Y : M3, X.map (fun a : ℤ => (a : ℝ)) = Y.map (fun a : ℤ => (a : ℝ)) → X = Y := by
      intro X Y h
      ext a b
      have := congrFun (congrFun h a) b
      simp only [Matrix.map_apply] at this
      exact_mod_cast this
    have hcancel : ∀ X Y : Matrix (Fin 3) (Fin 3) ℝ, P * X * P⁻¹ = P * Y * P⁻¹ → X = Y := by
      intro X Y h
      have h1 := congrArg (fun Z => P⁻¹ * Z * P) h
      simpa only [Matrix.mul_assoc, Matrix.nonsing_inv_mul _ hP', Matrix.mul_one, ← Matrix.mul_assoc P⁻¹ P,
        Matrix.one_mul] using h1
    have h1 : ∀ i : Fin std.length, ∃ j : Fin std'.length, (std.get i).toM3.map (fun a : ℤ => (a : ℝ)) =
        P * (std'.get j).toM3.map (fun a : ℤ => (a : ℝ)) * P⁻¹ := by
      intro i
      have : (std.get i).toM3.map (fun a : ℤ => (a : ℝ)) ∈ settingSet std := ⟨_, List.get_mem std i, rfl⟩
      rw [← himg] at this
      obtain ⟨_, ⟨x, hx, rfl⟩, h2⟩ := this
      obtain ⟨j, rfl⟩ := List.get_of_mem hx
      exact ⟨j, h2.symm⟩
    choose σ hσ using h1
    have hbij : Function.Bijective σ := by
      constructor
      · intro i i' h
        exact hinj hstd _ _ (hcast _ _ (by rw [hσ i, hσ i', h]))
      · intro j
        have : P * (std'.get j).toM3.map (fun a : ℤ => (a : ℝ)) * P⁻¹ ∈ settingSet std := by
          rw [← himg]; exact ⟨_, ⟨_, List.get_mem std' j, rfl⟩, rfl⟩
        obtain ⟨x, hx, h2⟩ := this
        obtain ⟨i, rfl⟩ := List.get_of_mem hx
        exact ⟨i, hinj hstd' _ _ (hcast _ _ (hcancel _ _ (by rw [← hσ i, ← h2])))⟩
    have c1 : PointgroupContract (s', P) fun i : Fin std.length => (std.get i).toM3 :=
      ⟨hP, std', hstd', Equiv.ofBijective σ hbij, hσ⟩
    have c2 : PointgroupContract (s, 1) fun i : Fin std.length => (std.get i).toM3 :=
      ⟨by simp, std, hstd, Equiv.refl _, fun i => by simp⟩
    exact c89_symbol_determined c2 c1 (P := 1) (by simp) (Equiv.refl _) fun i => by simp
  · rintro rfl
    obtain ⟨Q, hQ, h1⟩ := setting_standard hstd
    obtain ⟨Q', hQ', h2⟩ := setting_standard hstd'
    have hu : IsUnit Q'.det := isUnit_iff_ne_zero.2 hQ'
    refine ⟨Q * Q'⁻¹, ?_, ?_⟩
    · rw [Matrix.det_mul]
      exact mul_ne_zero hQ (isUnit_iff_ne_zero.1 ((Matrix.isUnit_nonsing_inv_det_iff).2 hu))
    · rw [← h1, ← h2, Set.image_image]
      refine Set.image_congr fun A _ => ?_
      rw [Matrix.mul_inv_rev, Matrix.nonsing_inv_nonsing_inv _ hu]
      simp only [Matrix.mul_assoc]
      rw [← Matrix.mul_assoc Q'⁻¹ Q', Matrix.nonsing_inv_mul _ hu, Matrix.one_mul, ← Matrix.mul_assoc Q'⁻¹ Q',
        Matrix.nonsing_inv_mul _ hu, Matrix.one_mul]

/-- Cases of C89: the two settings of `-42m`, and `32` and `3m`, which have the same order. -/
example : (pgDataset pg_b42m).length = 2 ∧ classCounts pg_32 ≠ classCounts pg_3m ∧ pgOrder pg_32 = pgOrder pg_3m ∧
    typeCounts ((pgDataset pg_b42m)[1]!.map PgMat.toM3) = [0, 2, 0, 2, 0, 1, 3, 0, 0, 0] :=
  ⟨by decide +kernel, by decide, rfl, c89_class_counts pg_b42m (by decide +kernel)⟩

example : PointgroupContract (pg_222, trafoI24.map fun x : ℤ => (x : ℝ)) rotsI24 ∧
    typeCounts (List.ofFn rotsI24) = [0, 0, 0, 0, 0, 1, 3, 0, 0, 0] :=
  ⟨pointgroup_I24, c89_contract_class pointgroup_I24⟩

end Spgrep
