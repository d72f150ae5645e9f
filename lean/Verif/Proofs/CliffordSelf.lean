/-
Self-conjugate case: extension of an irrep of `H` to `K` by a matrix for `r`.
-/
import Verif.Proofs.Clifford

set_option linter.unusedSectionVars false

namespace Spgrep

open Spec Matrix

variable {G : Type} [Group G] [Fintype G] [DecidableEq G] {μ : G → G → ℂ}
variable {ι κ : Type} [Fintype ι] [Fintype κ] [DecidableEq ι] [DecidableEq κ]
variable {H K : Subgroup G} {r : G} {p : ℕ}

/-- Product of the factors `μ(r, r^k)`, `k < m`. -/
noncomputable def rprod (μ : G → G → ℂ) (r : G) (m : ℕ) : ℂ := ∏ k ∈ Finset.range m, μ r (r ^ k)

theorem rprod_ne (hμ : Cocy μ) (m : ℕ) : rprod μ r m ≠ 0 := Finset.prod_ne_zero_iff.2 fun _ _ => hμ.ne _ _

theorem rprod_norm (hμ : Cocy μ) (m : ℕ) : ‖rprod μ r m‖ = 1 := by
  rw [rprod, norm_prod]
  exact Finset.prod_eq_one fun _ _ => hμ.norm _ _

theorem rprod_succ (m : ℕ) : rprod μ r (m + 1) = rprod μ r m * μ r (r ^ m) := Finset.prod_range_succ _ _

/-- Matrix of `r^m`, from the matrix `A` of `r`. -/
noncomputable def bmat (μ : G → G → ℂ) (r : G) (A : Matrix ι ι ℂ) (m : ℕ) : Matrix ι ι ℂ :=
  (rprod μ r m)⁻¹ • A ^ m

theorem bmat_zero (A : Matrix ι ι ℂ) : bmat μ r A 0 = 1 := by simp [bmat, rprod]

theorem bmat_succ (A : Matrix ι ι ℂ) (m : ℕ) :
    bmat μ r A (m + 1) = (μ r (r ^ m))⁻¹ • (A * bmat μ r A m) := by
  unfold bmat
  rw [rprod_succ, mul_inv, Matrix.mul_smul, smul_smul, pow_succ', mul_comm]

theorem bmat_mul (hμ : Cocy μ) (A : Matrix ι ι ℂ) (m m' : ℕ) :
    bmat μ r A m * bmat μ r A m' = μ (r ^ m) (r ^ m') • bmat μ r A (m + m') := by
  induction m with
  | zero => simp [bmat_zero, hμ.one_left]
  | succ m ih =>
    rw [bmat_succ, Matrix.smul_mul, Matrix.mul_assoc, ih, show m + 1 + m' = m + m' + 1 by omega, bmat_succ,
      Matrix.mul_smul, smul_smul, smul_smul]
    congr 1
    have h := hμ.coc r (r ^ m) (r ^ m')
    rw [← pow_add, ← pow_succ'] at h
    have h1 := hμ.ne r (r ^ m)
    have h2 := hμ.ne r (r ^ (m + m'))
    field_simp
    linear_combination h

/-- `A` is a possible matrix for `r`, given the representation `D` of `H`. -/
structure ExtMat (H : Subgroup G) (μ : G → G → ℂ) (r : G) (p : ℕ) (D : G → Matrix ι ι ℂ)
    (A : Matrix ι ι ℂ) : Prop where
  comm : ∀ s ∈ H, D s * A = indc μ s r r • (A * D (r⁻¹ * s * r))
  pow : A ^ p = rprod μ r p • 1
  uni : A * A.conjTranspose = 1

theorem comm_pow (hμ : Cocy μ) (C : ChainExt H K r p) {D : G → Matrix ι ι ℂ} {A : Matrix ι ι ℂ}
    (hA : ∀ s ∈ H, D s * A = indc μ s r r • (A * D (r⁻¹ * s * r))) (m : ℕ) {s : G} (hs : s ∈ H) :
    D s * A ^ m = indc μ s (r ^ m) (r ^ m) • (A ^ m * D ((r ^ m)⁻¹ * s * r ^ m)) := by
  induction m with
  | zero => simp [indc_one hμ]
  | succ m ih =>
    rw [pow_succ A, ← Matrix.mul_assoc, ih, Matrix.smul_mul, Matrix.mul_assoc,
      hA _ (C.norm_pow m hs), Matrix.mul_smul, smul_smul, indc_comp hμ, ← pow_succ, Matrix.mul_assoc,
      show r⁻¹ * ((r ^ m)⁻¹ * s * r ^ m) * r = (r ^ (m + 1))⁻¹ * s * r ^ (m + 1) by rw [pow_succ]; group]

theorem unitary_pow {A : Matrix ι ι ℂ} (hA : A * A.conjTranspose = 1) (m : ℕ) :
    A ^ m * (A ^ m).conjTranspose = 1 := by
  induction m with
  | zero => simp
  | succ m ih =>
    rw [pow_succ, Matrix.conjTranspose_mul, Matrix.mul_assoc, ← Matrix.mul_assoc A, hA, Matrix.one_mul, ih]

section Ext

variable (hμ : Cocy μ) (C : ChainExt H K r p) {D : G → Matrix ι ι ℂ} (hD : GoodOn H μ D)
  {A : Matrix ι ι ℂ} (hA : ExtMat H μ r p D A)
include hμ C hA

theorem bmat_comm (m : ℕ) {s : G} (hs : s ∈ H) :
    D s * bmat μ r A m = indc μ s (r ^ m) (r ^ m) • (bmat μ r A m * D ((r ^ m)⁻¹ * s * r ^ m)) := by
  unfold bmat
  rw [Matrix.mul_smul, comm_pow hμ C hA.comm m hs, Matrix.smul_mul, smul_comm]

theorem bmat_uni (m : ℕ) : bmat μ r A m * (bmat μ r A m).conjTranspose = 1 :=
  smul_unitary (by rw [norm_inv, rprod_norm hμ, inv_one]) (unitary_pow hA.uni m)

theorem bmat_p : bmat μ r A p = 1 := by
  unfold bmat
  rw [hA.pow, smul_smul, inv_mul_cancel₀ (rprod_ne hμ p), one_smul]

theorem bmat_add_p (m : ℕ) : bmat μ r A (m + p) = bmat μ r A m := by
  have := bmat_mul hμ (r := r) A m p
  rw [bmat_p hμ C hA, C.hone, hμ.one_right, one_smul, Matrix.mul_one] at this
  exact this.symm

theorem bmat_mod (m : ℕ) : bmat μ r A (m % p) = bmat μ r A m := by
  have h : ∀ k, bmat μ r A (m % p + p * k) = bmat μ r A (m % p) := by
    intro k
    induction k with
    | zero => simp
    | succ k ih => rw [Nat.mul_succ, ← add_assoc, bmat_add_p hμ C hA, ih]
  rw [← h (m / p), Nat.mod_add_div]

variable {Δ : G → Matrix ι ι ℂ}
  (hΔ : ∀ m < p, ∀ s ∈ H, Δ (r ^ m * s) = (μ (r ^ m) s)⁻¹ • (bmat μ r A m * D s))
include hΔ

theorem ext_apply (m : ℕ) {s : G} (hs : s ∈ H) :
    Δ (r ^ m * s) = (μ (r ^ m) s)⁻¹ • (bmat μ r A m * D s) := by
  have := hΔ (m % p) (Nat.mod_lt _ (by have := C.hp; omega)) s hs
  rwa [C.pow_mod, bmat_mod hμ C hA] at this

theorem ext_sub {s : G} (hs : s ∈ H) : Δ s = D s := by
  have := ext_apply hμ C hA hΔ 0 hs
  simpa [bmat_zero, hμ.one_left] using this

include hD

theorem ext_rep : RepOn K μ Δ := by
  intro g hg h hh
  obtain ⟨m, _, s, hs, rfl⟩ := (C.mem g).1 hg
  obtain ⟨m', _, t, ht, rfl⟩ := (C.mem h).1 hh
  have hs' := C.norm_pow m' hs
  rw [ext_apply hμ C hA hΔ m hs, ext_apply hμ C hA hΔ m' ht,
    show r ^ m * s * (r ^ m' * t) = r ^ (m + m') * ((r ^ m')⁻¹ * s * r ^ m' * t) by rw [pow_add]; group,
    ext_apply hμ C hA hΔ (m + m') (H.mul_mem hs' ht), Matrix.smul_mul, Matrix.mul_smul, Matrix.mul_assoc,
    ← Matrix.mul_assoc (D s), bmat_comm hμ C hA m' hs, Matrix.smul_mul, Matrix.mul_smul,
    Matrix.mul_assoc, ← Matrix.mul_assoc (bmat μ r A m), bmat_mul hμ, hD.rep _ hs' _ ht,
    Matrix.smul_mul, Matrix.mul_smul]
  simp only [smul_smul]
  congr 1
  have h1 := indc_split hμ (r ^ m) s (r ^ m') t
  rw [← pow_add] at h1
  have n1 := hμ.ne (r ^ m) s
  have n2 := hμ.ne (r ^ m') t
  have n3 := hμ.ne (r ^ (m + m')) ((r ^ m')⁻¹ * s * r ^ m' * t)
  field_simp
  linear_combination h1

theorem ext_good : GoodOn K μ Δ := by
  refine ⟨ext_rep hμ C hD hA hΔ, fun g hg => ?_, hD.irr.1, fun W hW => hD.irr.2 W fun a v hv => ?_⟩
  · obtain ⟨m, _, s, hs, rfl⟩ := (C.mem g).1 hg
    rw [ext_apply hμ C hA hΔ m hs]
    apply smul_unitary (by rw [norm_inv, hμ.norm, inv_one])
    rw [Matrix.conjTranspose_mul, Matrix.mul_assoc, ← Matrix.mul_assoc (D s), hD.uni s hs, Matrix.one_mul,
      bmat_uni hμ C hA]
  · have := hW ⟨a, C.le a.2⟩ v hv
    simp only [res] at this ⊢
    rwa [ext_sub hμ C hA hΔ a.2] at this

end Ext

/-- Any representation of `K` is determined by its values on `H` and on `r`. -/
theorem intertwine_of_gen (hμ : Cocy μ) (C : ChainExt H K r p) {Γ : G → Matrix κ κ ℂ} {Δ : G → Matrix ι ι ℂ}
    (hΓ : RepOn K μ Γ) (hΔ : RepOn K μ Δ) (h1Γ : Γ 1 = 1) (h1Δ : Δ 1 = 1) {X : Matrix κ ι ℂ}
    (hH : ∀ s ∈ H, Γ s * X = X * Δ s) (hr : Γ r * X = X * Δ r) : ∀ g ∈ K, Γ g * X = X * Δ g := by
  have hpow : ∀ m, Γ (r ^ m) * X = X * Δ (r ^ m) := by
    intro m
    induction m with
    | zero => simp [h1Γ, h1Δ]
    | succ m ih =>
      have e1 := hΓ r C.r_mem (r ^ m) (K.pow_mem C.r_mem m)
      have e2 := hΔ r C.r_mem (r ^ m) (K.pow_mem C.r_mem m)
      rw [← pow_succ'] at e1 e2
      have n1 := hμ.ne r (r ^ m)
      have e1' : Γ (r ^ (m + 1)) = (μ r (r ^ m))⁻¹ • (Γ r * Γ (r ^ m)) := by
        rw [e1, smul_smul, inv_mul_cancel₀ n1, one_smul]
      have e2' : Δ (r ^ (m + 1)) = (μ r (r ^ m))⁻¹ • (Δ r * Δ (r ^ m)) := by
        rw [e2, smul_smul, inv_mul_cancel₀ n1, one_smul]
      rw [e1', e2', Matrix.smul_mul, Matrix.mul_smul, Matrix.mul_assoc, ih, ← Matrix.mul_assoc, hr,
        Matrix.mul_assoc]
  intro g hg
  obtain ⟨m, _, s, hs, rfl⟩ := (C.mem g).1 hg
  have n1 := hμ.ne (r ^ m) s
  have e1 := hΓ _ (K.pow_mem C.r_mem m) s (C.le hs)
  have e2 := hΔ _ (K.pow_mem C.r_mem m) s (C.le hs)
  have e1' : Γ (r ^ m * s) = (μ (r ^ m) s)⁻¹ • (Γ (r ^ m) * Γ s) := by
    rw [e1, smul_smul, inv_mul_cancel₀ n1, one_smul]
  have e2' : Δ (r ^ m * s) = (μ (r ^ m) s)⁻¹ • (Δ (r ^ m) * Δ s) := by
    rw [e2, smul_smul, inv_mul_cancel₀ n1, one_smul]
  rw [e1', e2', Matrix.smul_mul, Matrix.mul_smul, Matrix.mul_assoc, hH s hs, ← Matrix.mul_assoc, hpow,
    Matrix.mul_assoc]

theorem rep_pow (hμ : Cocy μ) (C : ChainExt H K r p) {Γ : G → Matrix κ κ ℂ} (hΓ : RepOn K μ Γ) (h1Γ : Γ 1 = 1)
    (m : ℕ) : Γ r ^ m = rprod μ r m • Γ (r ^ m) := by
  induction m with
  | zero => simp [rprod, h1Γ]
  | succ m ih =>
    rw [pow_succ', ih, Matrix.mul_smul, hΓ r C.r_mem _ (K.pow_mem C.r_mem m), smul_smul, ← pow_succ', rprod_succ]

theorem rep_comm (hμ : Cocy μ) (C : ChainExt H K r p) {Γ : G → Matrix κ κ ℂ} (hΓ : RepOn K μ Γ) {s : G}
    (hs : s ∈ H) : Γ s * Γ r = indc μ s r r • (Γ r * Γ (r⁻¹ * s * r)) := by
  rw [hΓ s (C.le hs) r C.r_mem, hΓ r C.r_mem _ (C.le (C.norm s hs)), smul_smul, indc,
    div_mul_cancel₀ _ (hμ.ne _ _)]
  congr 2; group

/-- Completeness in the self-conjugate case: an irrep `Γ` of `K` containing `D` on `H` is equivalent to one
of the extensions `Δ_q`, whose matrices for `r` differ by the `p`-th roots of unity. -/
theorem ext_complete (hμ : Cocy μ) (C : ChainExt H K r p) {D : G → Matrix ι ι ℂ} {Δ : ℕ → G → Matrix ι ι ℂ}
    (hgood : ∀ q < p, GoodOn K μ (Δ q)) (hsub : ∀ q < p, ∀ s ∈ H, Δ q s = D s)
    (hroot : ∀ q < p, Δ q r = (Complex.exp (2 * Complex.I * Real.pi * q / p))⁻¹ • Δ 0 r)
    {Γ : G → Matrix κ κ ℂ} (hΓ : RepOn K μ Γ) (h1Γ : Γ 1 = 1) (hΓi : IsIrreducible (res K Γ))
    {X : Matrix κ ι ℂ} (hX0 : X ≠ 0) (hX : ∀ s ∈ H, Γ s * X = X * D s) :
    ∃ q < p, AreEquivalent (res K Γ) (res K (Δ q)) := by
  have hp0 : 0 < p := by have := C.hp; omega
  have hg0 := hgood 0 hp0
  have h1Δ : Δ 0 1 = 1 := hg0.map_one hμ
  -- the operator X ↦ Γ(r) X Δ(r)† on the intertwiners over H
  let V := homSub (res H Γ) (res H D)
  have hVX : X ∈ V := fun a => hX a a.2
  have hru := hg0.uni r C.r_mem
  have hru' : (Δ 0 r).conjTranspose * Δ 0 r = 1 := mul_eq_one_comm.1 hru
  have hinv : ∀ Y ∈ V, Γ r * Y * (Δ 0 r).conjTranspose ∈ V := by
    intro Y hY a
    have e1 := rep_comm hμ C hΓ a.2
    have e2 := rep_comm hμ C hg0.rep a.2
    have e3 := hY ⟨_, C.norm a a.2⟩
    simp only [res] at e3 ⊢
    have e4 : D a * Δ 0 r = indc μ a r r • (Δ 0 r * D (r⁻¹ * a * r)) := by
      rw [hsub 0 hp0 _ a.2, hsub 0 hp0 _ (C.norm a a.2)] at e2
      exact e2
    have e5 : indc μ a r r • (D (r⁻¹ * a * r) * (Δ 0 r).conjTranspose) = (Δ 0 r).conjTranspose * D a := by
      calc indc μ a r r • (D (r⁻¹ * a * r) * (Δ 0 r).conjTranspose)
          = (Δ 0 r).conjTranspose * (indc μ a r r • (Δ 0 r * D (r⁻¹ * a * r))) * (Δ 0 r).conjTranspose := by
            rw [Matrix.mul_smul, Matrix.smul_mul, ← Matrix.mul_assoc, hru', Matrix.one_mul]
        _ = _ := by rw [← e4, Matrix.mul_assoc, Matrix.mul_assoc, hru, Matrix.mul_one]
    rw [← Matrix.mul_assoc, ← Matrix.mul_assoc, e1, Matrix.smul_mul, Matrix.smul_mul, Matrix.mul_assoc (Γ r), e3,
      Matrix.mul_assoc (Γ r * Y), ← e5, Matrix.mul_smul]
    simp only [Matrix.mul_assoc]
  let τ : V →ₗ[ℂ] V :=
    { toFun := fun Y => ⟨Γ r * Y.1 * (Δ 0 r).conjTranspose, hinv Y.1 Y.2⟩
      map_add' := by intro a b; apply Subtype.ext; simp [Matrix.mul_add, Matrix.add_mul]
      map_smul' := by intro c a; apply Subtype.ext; simp }
  have : Nontrivial V := ⟨⟨⟨X, hVX⟩, 0, fun h => hX0 (congrArg Subtype.val h)⟩⟩
  obtain ⟨c, hc⟩ := Module.End.exists_eigenvalue (K := ℂ) (V := V) τ
  obtain ⟨⟨Y, hYV⟩, hY⟩ := hc.exists_hasEigenvector
  have hY0 : Y ≠ 0 := fun h => hY.2 (Subtype.ext h)
  have hYr : Γ r * Y = c • (Y * Δ 0 r) := by
    have h1 := congrArg Subtype.val hY.apply_eq_smul
    change Γ r * Y * (Δ 0 r).conjTranspose = c • Y at h1
    have h2 := congrArg (· * Δ 0 r) h1
    simp only [Matrix.mul_assoc, hru', Matrix.mul_one, Matrix.smul_mul] at h2
    exact h2
  have hYpow : ∀ m, Γ r ^ m * Y = c ^ m • (Y * Δ 0 r ^ m) := by
    intro m
    induction m with
    | zero => simp
    | succ m ih =>
      rw [pow_succ', Matrix.mul_assoc, ih, Matrix.mul_smul, ← Matrix.mul_assoc, hYr, Matrix.smul_mul, smul_smul,
        pow_succ (c), pow_succ' (Δ 0 r), ← Matrix.mul_assoc]
  have hcp : c ^ p = 1 := by
    have h1 := hYpow p
    rw [rep_pow hμ C hΓ h1Γ, rep_pow hμ C hg0.rep h1Δ, C.hone, h1Γ, h1Δ, Matrix.smul_mul, Matrix.one_mul,
      Matrix.mul_smul, Matrix.mul_one, smul_comm] at h1
    have h2 : Y = c ^ p • Y := by
      have := congrArg ((rprod μ r p)⁻¹ • ·) h1
      simpa [smul_smul, rprod_ne hμ p] using this
    by_contra hne
    apply hY0
    have h3 : (c ^ p - 1) • Y = 0 := by rw [sub_smul, one_smul, ← h2, sub_self]
    exact (smul_eq_zero.1 h3).resolve_left (sub_ne_zero.2 hne)
  have hprim := Complex.isPrimitiveRoot_exp p hp0.ne'
  have hcinv : c⁻¹ ^ p = 1 := by rw [inv_pow, hcp, inv_one]
  have : NeZero p := ⟨hp0.ne'⟩
  obtain ⟨q, hq, hqc⟩ := hprim.eq_pow_of_pow_eq_one hcinv
  have hexp : Complex.exp (2 * Complex.I * Real.pi * q / p) = c⁻¹ := by
    rw [← hqc, ← Complex.exp_nat_mul]
    congr 1; ring
  refine ⟨q, hq, ?_⟩
  have hall := intertwine_of_gen hμ C hΓ (hgood q hq).rep h1Γ ((hgood q hq).map_one hμ) (X := Y)
    (fun s hs => by rw [hsub q hq s hs]; exact hYV ⟨s, hs⟩)
    (by rw [hroot q hq, hexp, inv_inv, hYr, Matrix.mul_smul])
  obtain ⟨S', h1, h2⟩ := schur_equiv hΓi (hgood q hq).irr (S := Y) (fun a => hall a a.2) hY0
  exact ⟨Y, S', h1, h2, fun a => hall a a.2⟩

/-- From any invertible intertwiner with the conjugate representation to an extension matrix: the `p`-th power
is a scalar; after rescaling, the powers and unitarity are right. -/
theorem intertwiner_pow (hμ : Cocy μ) (C : ChainExt H K r p) {D : G → Matrix ι ι ℂ} (hD : GoodOn H μ D)
    {U : Matrix ι ι ℂ} (hU : ∀ s ∈ H, D s * U = U * cj μ D r s) : ∃ c : ℂ, U ^ p = c • 1 := by
  apply schur_scalar hD.irr
  intro a
  have hU' : ∀ s ∈ H, D s * U = indc μ s r r • (U * D (r⁻¹ * s * r)) := by
    intro s hs; rw [hU s hs, cj, Matrix.mul_smul]
  have := comm_pow hμ C hU' p a.2
  rw [C.hone, indc_one hμ, one_smul, inv_one, one_mul, mul_one] at this
  exact this

theorem extMat_of_intertwiner (hμ : Cocy μ) (C : ChainExt H K r p) {D : G → Matrix ι ι ℂ} (hD : GoodOn H μ D)
    {U : Matrix ι ι ℂ} (hU : ∀ s ∈ H, D s * U = U * cj μ D r s) (hU0 : U ≠ 0)
    {w : ℂ} (hw : w ≠ 0) (hpow : (w • U) ^ p = rprod μ r p • (1 : Matrix ι ι ℂ)) :
    ExtMat H μ r p D (w • U) := by
  have hp0 : 0 < p := by have := C.hp; omega
  have hcomm : ∀ s ∈ H, D s * (w • U) = indc μ s r r • (w • U * D (r⁻¹ * s * r)) := by
    intro s hs
    rw [Matrix.mul_smul, hU s hs, cj, Matrix.mul_smul, Matrix.smul_mul, smul_comm]
  refine ⟨hcomm, hpow, ?_⟩
  have hne := hD.irr.1
  set A := w • U with hAdef
  have hA0 : A ≠ 0 := smul_ne_zero hw hU0
  -- A Aᴴ commutes with D
  have h1 : ∀ s ∈ H, D s * (A * A.conjTranspose) = A * A.conjTranspose * D s := by
    intro s hs
    have hs' := C.norm s hs
    have u1 := hD.uni s hs
    have u2 : (D (r⁻¹ * s * r)).conjTranspose * D (r⁻¹ * s * r) = 1 := mul_eq_one_comm.1 (hD.uni _ hs')
    have u3 := hD.uni _ hs'
    have hi := star_mul_self_of_norm (indc_norm hμ s r r)
    have e1 : (D s * A) * (D s * A).conjTranspose = A * A.conjTranspose := by
      rw [hcomm s hs, Matrix.conjTranspose_smul, Matrix.smul_mul, Matrix.mul_smul, smul_smul, hi, one_smul,
        Matrix.conjTranspose_mul, Matrix.mul_assoc, ← Matrix.mul_assoc (D _), u3, Matrix.one_mul]
    have u1' : (D s).conjTranspose * D s = 1 := mul_eq_one_comm.1 u1
    calc D s * (A * A.conjTranspose) = D s * (A * A.conjTranspose) * ((D s).conjTranspose * D s) := by
          rw [u1', Matrix.mul_one]
      _ = (D s * A) * (D s * A).conjTranspose * D s := by
          rw [Matrix.conjTranspose_mul]; simp only [Matrix.mul_assoc]
      _ = _ := by rw [e1]
  obtain ⟨a, ha⟩ := schur_scalar hD.irr (M := A * A.conjTranspose) fun s => h1 s s.2
  -- a is a non-negative real with a^p = 1
  obtain ⟨i0⟩ := hne
  have hare : a = ((∑ k, ‖A i0 k‖ ^ 2 : ℝ) : ℂ) := by
    have := congrFun (congrFun ha i0) i0
    simp only [Matrix.mul_apply, Matrix.conjTranspose_apply, Matrix.smul_apply, Matrix.one_apply_eq, smul_eq_mul,
      mul_one] at this
    rw [← this]
    push_cast
    apply Finset.sum_congr rfl
    intro k _
    have := Complex.mul_conj (A i0 k)
    rw [Complex.normSq_eq_norm_sq] at this
    simpa using this
  have hapow : ∀ m, A ^ m * (A ^ m).conjTranspose = a ^ m • 1 := by
    intro m
    induction m with
    | zero => simp
    | succ m ih =>
      rw [pow_succ, Matrix.conjTranspose_mul, Matrix.mul_assoc, ← Matrix.mul_assoc A, ha, Matrix.smul_mul,
        Matrix.one_mul, Matrix.mul_smul, ih, smul_smul, pow_succ']
  have hap : a ^ p = 1 := by
    have := hapow p
    rw [hpow] at this
    have e := smul_unitary (rprod_norm hμ p) (A := (1 : Matrix ι ι ℂ)) (by simp) (z := rprod μ r p)
    rw [e] at this
    have h := congrFun (congrFun this i0) i0
    simpa using h.symm
  have ha1 : a = 1 := by
    set x : ℝ := ∑ k, ‖A i0 k‖ ^ 2
    have hx0 : 0 ≤ x := Finset.sum_nonneg fun _ _ => sq_nonneg _
    have hxp : x ^ p = 1 := by
      rw [hare] at hap
      exact_mod_cast hap
    have := (pow_eq_one_iff_of_nonneg hx0 hp0.ne').1 hxp
    rw [hare, this]; simp
  rw [ha, ha1, one_smul]

end Spgrep
