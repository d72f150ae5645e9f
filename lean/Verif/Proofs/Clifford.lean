/-
One step of the chain construction: from the irreps of a normal subgroup `H` to those of
`K = ⋃ r^m H` (conjugate, extended and induced projective representations).
-/
import Verif.Proofs.Twisted
import Mathlib.RingTheory.RootsOfUnity.Complex
import Mathlib.Algebra.Group.Subgroup.Lattice

set_option linter.unusedSectionVars false

namespace Spgrep

open Spec Matrix

variable {G : Type} [Group G] [Fintype G] [DecidableEq G] {μ : G → G → ℂ}
variable {ι κ : Type} [Fintype ι] [Fintype κ] [DecidableEq ι] [DecidableEq κ]

/-- Representation on a subgroup. -/
def RepOn (H : Subgroup G) (μ : G → G → ℂ) (D : G → Matrix ι ι ℂ) : Prop :=
  ∀ g ∈ H, ∀ h ∈ H, D g * D h = μ g h • D (g * h)

/-- Restriction of a family to a subgroup. -/
def res (H : Subgroup G) (D : G → Matrix ι ι ℂ) : H → Matrix ι ι ℂ := fun a => D a

/-- Restriction of a factor system. -/
def resμ (H : Subgroup G) (μ : G → G → ℂ) : H → H → ℂ := fun a b => μ a b

theorem RepOn.toRes {H : Subgroup G} {D : G → Matrix ι ι ℂ} (h : RepOn H μ D) :
    IsProjRep (· * ·) (resμ H μ) (res H D) := fun a b => h a a.2 b b.2

theorem RepOn.of_res {H : Subgroup G} {D : G → Matrix ι ι ℂ}
    (h : IsProjRep (· * ·) (resμ H μ) (res H D)) : RepOn H μ D := fun g hg k hk => h ⟨g, hg⟩ ⟨k, hk⟩

/-- Unitary irreducible projective representation on a subgroup. -/
structure GoodOn (H : Subgroup G) (μ : G → G → ℂ) (D : G → Matrix ι ι ℂ) : Prop where
  rep : RepOn H μ D
  uni : ∀ g ∈ H, D g * (D g).conjTranspose = 1
  irr : IsIrreducible (res H D)

theorem GoodOn.uniRes {H : Subgroup G} {D : G → Matrix ι ι ℂ} (h : GoodOn H μ D) :
    IsUnitaryRep (res H D) := fun a => h.uni a a.2

theorem GoodOn.map_one {H : Subgroup G} {D : G → Matrix ι ι ℂ} (hμ : Cocy μ) (h : GoodOn H μ D) :
    D 1 = 1 := by
  have : Fintype H := Fintype.ofFinite H
  have := projRep_one (μ := resμ H μ) h.rep.toRes (IsUnitaryRep.isUnit h.uniRes 1)
  have h2 : resμ H μ 1 1 = 1 := hμ.one
  rw [h2, one_smul] at this
  exact this

/-- `K = ⋃_{m<p} r^m H`, `r` normalises `H`, has order `p` and no smaller power in `H`. -/
structure ChainExt (H K : Subgroup G) (r : G) (p : ℕ) : Prop where
  hp : 2 ≤ p
  hone : r ^ p = 1
  hout : ∀ m, 0 < m → m < p → r ^ m ∉ H
  norm : ∀ h ∈ H, r⁻¹ * h * r ∈ H
  mem : ∀ g, g ∈ K ↔ ∃ m < p, ∃ h ∈ H, g = r ^ m * h
  prime : H = ⊥ ∨ p.Prime

namespace ChainExt

variable {H K : Subgroup G} {r : G} {p : ℕ} (C : ChainExt H K r p)
include C

theorem norm_pow (m : ℕ) {h : G} (hh : h ∈ H) : (r ^ m)⁻¹ * h * r ^ m ∈ H := by
  induction m with
  | zero => simpa using hh
  | succ m ih =>
    have := C.norm _ ih
    rwa [show r⁻¹ * ((r ^ m)⁻¹ * h * r ^ m) * r = (r ^ (m + 1))⁻¹ * h * r ^ (m + 1) by
      rw [pow_succ]; group] at this

theorem pow_mod (m : ℕ) : r ^ (m % p) = r ^ m := by
  conv_rhs => rw [← Nat.mod_add_div m p, pow_add, pow_mul, C.hone, one_pow, mul_one]

theorem mul_pow_compl {j : ℕ} (hj : j ≤ p) : r ^ j * r ^ (p - j) = 1 := by
  rw [← pow_add, Nat.add_sub_cancel' hj, C.hone]

theorem inv_pow {j : ℕ} (hj : j ≤ p) : (r ^ j)⁻¹ = r ^ (p - j) :=
  inv_eq_of_mul_eq_one_right (C.mul_pow_compl hj)

theorem norm_pow' (m : ℕ) {h : G} (hh : h ∈ H) : r ^ m * h * (r ^ m)⁻¹ ∈ H := by
  have h1 : (m % p) ≤ p := (Nat.mod_lt _ (by have := C.hp; omega)).le
  have h2 := C.norm_pow (p - m % p) hh
  rwa [← C.inv_pow h1, inv_inv, C.pow_mod] at h2

theorem le : H ≤ K := fun h hh => (C.mem h).2 ⟨0, by have := C.hp; omega, h, hh, by simp⟩

theorem r_mem : r ∈ K := (C.mem r).2 ⟨1, by have := C.hp; omega, 1, H.one_mem, by simp⟩

theorem pow_mem_iff {i k : ℕ} (hi : i < p) (hk : k < p) : (r ^ i)⁻¹ * r ^ k ∈ H ↔ i = k := by
  constructor
  · intro h
    rcases lt_trichotomy i k with hik | hik | hik
    · exfalso
      refine C.hout (k - i) (by omega) (by omega) ?_
      rwa [show r ^ k = r ^ i * r ^ (k - i) by rw [← pow_add]; congr 1; omega, inv_mul_cancel_left] at h
    · exact hik
    · exfalso
      refine C.hout (i - k) (by omega) (by omega) ?_
      have h2 := H.inv_mem h
      rwa [_root_.mul_inv_rev, inv_inv, show r ^ i = r ^ k * r ^ (i - k) by rw [← pow_add]; congr 1; omega,
        inv_mul_cancel_left] at h2
  · rintro rfl
    simp

/-- Which blocks of the induced representation are non-zero. -/
theorem block_iff {m i j : ℕ} {s : G} (hs : s ∈ H) (hi : i < p) :
    (r ^ i)⁻¹ * (r ^ m * s) * r ^ j ∈ H ↔ i = (j + m) % p := by
  have e : (r ^ i)⁻¹ * (r ^ m * s) * r ^ j = (r ^ i)⁻¹ * r ^ ((j + m) % p) * ((r ^ j)⁻¹ * s * r ^ j) := by
    rw [C.pow_mod, add_comm, pow_add]; group
  rw [e, H.mul_mem_cancel_right (C.norm_pow j hs), C.pow_mem_iff hi (Nat.mod_lt _ (by have := C.hp; omega))]

theorem exists_row {g : G} (hg : g ∈ K) (j : Fin p) : ∃ i : Fin p, (r ^ (i : ℕ))⁻¹ * g * r ^ (j : ℕ) ∈ H := by
  obtain ⟨m, hm, s, hs, rfl⟩ := (C.mem g).1 hg
  have hlt : (j + m) % p < p := Nat.mod_lt _ (by have := C.hp; omega)
  exact ⟨⟨(j + m) % p, hlt⟩, (C.block_iff hs hlt).2 rfl⟩

theorem row_unique {g : G} {i i' j : Fin p} (h : (r ^ (i : ℕ))⁻¹ * g * r ^ (j : ℕ) ∈ H)
    (h' : (r ^ (i' : ℕ))⁻¹ * g * r ^ (j : ℕ) ∈ H) : i = i' := by
  have h2 := H.mul_mem h (H.inv_mem h')
  rw [show (r ^ (i : ℕ))⁻¹ * g * r ^ (j : ℕ) * ((r ^ (i' : ℕ))⁻¹ * g * r ^ (j : ℕ))⁻¹ =
    (r ^ (i : ℕ))⁻¹ * r ^ (i' : ℕ) by group, C.pow_mem_iff i.2 i'.2] at h2
  exact Fin.ext h2

theorem exists_col {g : G} (hg : g ∈ K) (i : Fin p) : ∃ j : Fin p, (r ^ (i : ℕ))⁻¹ * g * r ^ (j : ℕ) ∈ H := by
  obtain ⟨j, hj⟩ := C.exists_row (K.inv_mem hg) i
  refine ⟨j, ?_⟩
  have := H.inv_mem hj
  rwa [show ((r ^ (j : ℕ))⁻¹ * g⁻¹ * r ^ (i : ℕ))⁻¹ = (r ^ (i : ℕ))⁻¹ * g * r ^ (j : ℕ) by group] at this

theorem col_unique {g : G} {i j j' : Fin p} (h : (r ^ (i : ℕ))⁻¹ * g * r ^ (j : ℕ) ∈ H)
    (h' : (r ^ (i : ℕ))⁻¹ * g * r ^ (j' : ℕ) ∈ H) : j = j' := by
  have h2 := H.mul_mem (H.inv_mem h) h'
  rw [show ((r ^ (i : ℕ))⁻¹ * g * r ^ (j : ℕ))⁻¹ * ((r ^ (i : ℕ))⁻¹ * g * r ^ (j' : ℕ)) =
    (r ^ (j : ℕ))⁻¹ * r ^ (j' : ℕ) by group, C.pow_mem_iff j.2 j'.2] at h2
  exact Fin.ext h2

end ChainExt

/-! ### Conjugate representations -/

/-- Conjugate of a representation by `g`. -/
noncomputable def cj (μ : G → G → ℂ) (D : G → Matrix ι ι ℂ) (g : G) : G → Matrix ι ι ℂ :=
  fun s => indc μ s g g • D (g⁻¹ * s * g)

theorem cj_cj (hμ : Cocy μ) (D : G → Matrix ι ι ℂ) (g h : G) : cj μ (cj μ D g) h = cj μ D (h * g) := by
  funext s
  unfold cj
  rw [smul_smul, indc_comp hμ]
  congr 2; group

theorem cj_one (hμ : Cocy μ) (D : G → Matrix ι ι ℂ) : cj μ D 1 = D := by
  funext s
  simp [cj, indc_one hμ]

theorem cj_rep (hμ : Cocy μ) {H : Subgroup G} {D : G → Matrix ι ι ℂ} (hD : RepOn H μ D) {g : G}
    (hg : ∀ h ∈ H, g⁻¹ * h * g ∈ H) : RepOn H μ (cj μ D g) := by
  intro s hs t ht
  unfold cj
  rw [Matrix.smul_mul, Matrix.mul_smul, hD _ (hg s hs) _ (hg t ht), smul_smul, smul_smul, smul_smul,
    indc_mul hμ s t g g g]
  congr 2; group

theorem star_mul_self_of_norm {z : ℂ} (h : ‖z‖ = 1) : z * star z = 1 := by
  have := Complex.mul_conj z
  rw [Complex.normSq_eq_norm_sq, h] at this
  simpa using this

theorem smul_unitary {z : ℂ} (h : ‖z‖ = 1) {A : Matrix ι ι ℂ} (hA : A * A.conjTranspose = 1) :
    (z • A) * (z • A).conjTranspose = 1 := by
  rw [Matrix.conjTranspose_smul, Matrix.smul_mul, Matrix.mul_smul, smul_smul, hA,
    star_mul_self_of_norm h, one_smul]

/-- Equivalence and irreducibility pass to the conjugates. -/
theorem cj_equiv {H : Subgroup G} {D : G → Matrix ι ι ℂ} {E : G → Matrix κ κ ℂ} {g : G}
    (hg : ∀ h ∈ H, g⁻¹ * h * g ∈ H) (h : AreEquivalent (res H D) (res H E)) :
    AreEquivalent (res H (cj μ D g)) (res H (cj μ E g)) := by
  obtain ⟨S, S', h1, h2, h3⟩ := h
  refine ⟨S, S', h1, h2, fun a => ?_⟩
  have := h3 ⟨g⁻¹ * a * g, hg a a.2⟩
  simp only [res, cj] at this ⊢
  rw [Matrix.smul_mul, this, Matrix.mul_smul]

theorem cj_irr (hμ : Cocy μ) {H : Subgroup G} {D : G → Matrix ι ι ℂ} {g : G}
    (hg' : ∀ h ∈ H, g * h * g⁻¹ ∈ H) (h : IsIrreducible (res H D)) :
    IsIrreducible (res H (cj μ D g)) := by
  refine ⟨h.1, fun W hW => h.2 W fun a v hv => ?_⟩
  have h1 := hW ⟨g * a * g⁻¹, hg' a a.2⟩ v hv
  simp only [res, cj] at h1 ⊢
  rw [Matrix.smul_mulVec, show g⁻¹ * (g * (a : G) * g⁻¹) * g = a by group] at h1
  exact (W.smul_mem_iff (indc_ne hμ _ _ _)).1 h1

theorem cj_good (hμ : Cocy μ) {H : Subgroup G} {D : G → Matrix ι ι ℂ} (hD : GoodOn H μ D) {g : G}
    (hg : ∀ h ∈ H, g⁻¹ * h * g ∈ H) (hg' : ∀ h ∈ H, g * h * g⁻¹ ∈ H) : GoodOn H μ (cj μ D g) :=
  ⟨cj_rep hμ hD.rep hg, fun s hs => smul_unitary (indc_norm hμ _ _ _) (hD.uni _ (hg s hs)),
    cj_irr hμ hg' hD.irr⟩

end Spgrep
