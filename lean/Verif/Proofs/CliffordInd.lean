/-
Induced case: pairwise inequivalent conjugates.
-/
import Verif.Proofs.CliffordSelf

set_option linter.unusedSectionVars false

namespace Spgrep

open Spec Matrix

variable {G : Type} [Group G] [Fintype G] [DecidableEq G] {μ : G → G → ℂ}
variable {ι κ : Type} [Fintype ι] [Fintype κ] [DecidableEq ι] [DecidableEq κ]
variable {H K : Subgroup G} {r : G} {p : ℕ}

open Classical in
/-- The induced family. -/
noncomputable def ind (H : Subgroup G) (μ : G → G → ℂ) (r : G) (p : ℕ) (D : G → Matrix ι ι ℂ) (g : G) :
    Matrix (Fin p × ι) (Fin p × ι) ℂ :=
  Matrix.of fun x y => if (r ^ (x.1 : ℕ))⁻¹ * g * r ^ (y.1 : ℕ) ∈ H then
    indc μ g (r ^ (x.1 : ℕ)) (r ^ (y.1 : ℕ)) * D ((r ^ (x.1 : ℕ))⁻¹ * g * r ^ (y.1 : ℕ)) x.2 y.2 else 0

theorem ind_pos {D : G → Matrix ι ι ℂ} {g : G} {i j : Fin p} (h : (r ^ (i : ℕ))⁻¹ * g * r ^ (j : ℕ) ∈ H) (a b : ι) :
    ind H μ r p D g (i, a) (j, b) =
      indc μ g (r ^ (i : ℕ)) (r ^ (j : ℕ)) * D ((r ^ (i : ℕ))⁻¹ * g * r ^ (j : ℕ)) a b := if_pos h

theorem ind_neg {D : G → Matrix ι ι ℂ} {g : G} {i j : Fin p} (h : (r ^ (i : ℕ))⁻¹ * g * r ^ (j : ℕ) ∉ H) (a b : ι) :
    ind H μ r p D g (i, a) (j, b) = 0 := if_neg h

section

variable (hμ : Cocy μ) (C : ChainExt H K r p) {D : G → Matrix ι ι ℂ} (hD : GoodOn H μ D)
include hμ C hD

theorem ind_rep : RepOn K μ (ind H μ r p D) := by
  intro g hg h hh
  ext ⟨i, a⟩ ⟨k, c⟩
  obtain ⟨j, hj⟩ := C.exists_col hg i
  rw [Matrix.mul_apply, Fintype.sum_prod_type, Finset.sum_eq_single j]
  · rw [Matrix.smul_apply, smul_eq_mul]
    have hsplit : (r ^ (i : ℕ))⁻¹ * (g * h) * r ^ (k : ℕ) =
        ((r ^ (i : ℕ))⁻¹ * g * r ^ (j : ℕ)) * ((r ^ (j : ℕ))⁻¹ * h * r ^ (k : ℕ)) := by group
    by_cases hk : (r ^ (j : ℕ))⁻¹ * h * r ^ (k : ℕ) ∈ H
    · have hik : (r ^ (i : ℕ))⁻¹ * (g * h) * r ^ (k : ℕ) ∈ H := by rw [hsplit]; exact H.mul_mem hj hk
      rw [ind_pos hik]
      have := hD.rep _ hj _ hk
      have h2 := congrFun (congrFun this a) c
      rw [← hsplit, Matrix.mul_apply, Matrix.smul_apply, smul_eq_mul] at h2
      have h3 : ∑ b, ind H μ r p D g (i, a) (j, b) * ind H μ r p D h (j, b) (k, c) =
          indc μ g (r ^ (i : ℕ)) (r ^ (j : ℕ)) * indc μ h (r ^ (j : ℕ)) (r ^ (k : ℕ)) *
          ∑ b, D ((r ^ (i : ℕ))⁻¹ * g * r ^ (j : ℕ)) a b * D ((r ^ (j : ℕ))⁻¹ * h * r ^ (k : ℕ)) b c := by
        rw [Finset.mul_sum]
        apply Finset.sum_congr rfl
        intro b _
        rw [ind_pos hj, ind_pos hk]; ring
      rw [h3, h2, ← mul_assoc, indc_mul hμ, mul_assoc]
    · have hik : (r ^ (i : ℕ))⁻¹ * (g * h) * r ^ (k : ℕ) ∉ H := by
        rw [hsplit, H.mul_mem_cancel_left hj]; exact hk
      rw [ind_neg hik, mul_zero]
      exact Finset.sum_eq_zero fun b _ => by rw [ind_neg hk, mul_zero]
  · intro j' _ hj'
    refine Finset.sum_eq_zero fun b _ => ?_
    rw [ind_neg (fun h' => hj' (C.col_unique h' hj)), zero_mul]
  · intro h; exact absurd (Finset.mem_univ _) h

theorem ind_uni (g : G) (hg : g ∈ K) : ind H μ r p D g * (ind H μ r p D g).conjTranspose = 1 := by
  ext ⟨i, a⟩ ⟨k, c⟩
  obtain ⟨j, hj⟩ := C.exists_col hg i
  simp only [Matrix.mul_apply, Matrix.conjTranspose_apply]
  rw [Fintype.sum_prod_type, Finset.sum_eq_single j]
  · by_cases hik : i = k
    · subst hik
      have h2 := congrFun (congrFun (hD.uni _ hj) a) c
      rw [Matrix.mul_apply] at h2
      simp only [Matrix.conjTranspose_apply] at h2
      have h3 : ∑ b, ind H μ r p D g (i, a) (j, b) * star (ind H μ r p D g (i, c) (j, b)) =
          (indc μ g (r ^ (i : ℕ)) (r ^ (j : ℕ)) * star (indc μ g (r ^ (i : ℕ)) (r ^ (j : ℕ)))) *
          ∑ b, D ((r ^ (i : ℕ))⁻¹ * g * r ^ (j : ℕ)) a b * star (D ((r ^ (i : ℕ))⁻¹ * g * r ^ (j : ℕ)) c b) := by
        rw [Finset.mul_sum]
        apply Finset.sum_congr rfl
        intro b _
        rw [ind_pos hj, ind_pos hj, star_mul']; ring
      rw [h3, h2, star_mul_self_of_norm (indc_norm hμ _ _ _), one_mul]
      simp [Matrix.one_apply, Prod.mk.injEq]
    · have hk : (r ^ (k : ℕ))⁻¹ * g * r ^ (j : ℕ) ∉ H := fun h' => hik (C.row_unique hj h')
      rw [Matrix.one_apply_ne (by intro h; exact hik (congrArg Prod.fst h))]
      exact Finset.sum_eq_zero fun b _ => by rw [ind_neg hk, star_zero, mul_zero]
  · intro j' _ hj'
    refine Finset.sum_eq_zero fun b _ => ?_
    rw [ind_neg (fun h' => hj' (C.col_unique h' hj)), zero_mul]
  · intro h; exact absurd (Finset.mem_univ _) h

/-- Pairwise inequivalence of the conjugates. -/
theorem conj_inequiv (hne : ¬ AreEquivalent (res H D) (res H (cj μ D r))) {i j : ℕ} (hi : i < p) (hj : j < p)
    (h : AreEquivalent (res H (cj μ D (r ^ i))) (res H (cj μ D (r ^ j)))) : i = j := by
  -- D ≅ D_k forces D ≅ D_{mk} for all m
  have hnorm : ∀ m : ℕ, ∀ h ∈ H, (r ^ m)⁻¹ * h * r ^ m ∈ H := fun m h hh => C.norm_pow m hh
  have hmul : ∀ k : ℕ, AreEquivalent (res H D) (res H (cj μ D (r ^ k))) →
      ∀ m : ℕ, AreEquivalent (res H D) (res H (cj μ D (r ^ (m * k)))) := by
    intro k hk m
    induction m with
    | zero => rw [zero_mul, pow_zero, cj_one hμ]; exact AreEquivalent.refl _
    | succ m ih =>
      have h1 := cj_equiv (μ := μ) (hnorm k) ih
      rw [cj_cj hμ, ← pow_add] at h1
      have := AreEquivalent.trans hk h1
      rwa [show k + m * k = (m + 1) * k by ring] at this
  have hcontra : ∀ k : ℕ, 0 < k → k < p → ¬ AreEquivalent (res H D) (res H (cj μ D (r ^ k))) := by
    intro k hk0 hkp hk
    rcases C.prime with hbot | hprime
    · apply hne
      have : res H D = res H (cj μ D r) := by
        funext a
        obtain ⟨a, ha⟩ := a
        subst hbot
        have ha1 : a = 1 := Subgroup.mem_bot.1 ha
        subst ha1
        simp [res, cj, indc, hμ.one_left, hμ.one_right]
      rw [← this]
      exact AreEquivalent.refl _
    · have hcop : Nat.Coprime k p :=
        (Nat.coprime_comm.1 ((Nat.Prime.coprime_iff_not_dvd hprime).2 fun hd => by
          have := Nat.le_of_dvd hk0 hd; omega))
      obtain ⟨m, hm⟩ := Nat.exists_mul_mod_eq_one_of_coprime hcop hprime.one_lt
      have h1 := hmul k hk m
      rw [← C.pow_mod (m * k), mul_comm, hm.2, pow_one] at h1
      exact hne h1
  have key : ∀ i j : ℕ, i < j → j < p →
      ¬ AreEquivalent (res H (cj μ D (r ^ i))) (res H (cj μ D (r ^ j))) := by
    intro i j hij hjp h
    have h1 := cj_equiv (μ := μ) (hnorm (p - i)) h
    rw [cj_cj hμ, cj_cj hμ, ← pow_add, ← pow_add, show p - i + i = p by omega, C.hone, cj_one hμ,
      show p - i + j = (j - i) + p by omega, pow_add, C.hone, mul_one] at h1
    exact hcontra (j - i) (by omega) (by omega) h1
  rcases lt_trichotomy i j with hij | hij | hij
  · exact absurd h (key i j hij hj)
  · exact hij
  · exact absurd (AreEquivalent.symm h) (key j i hij hi)

theorem ind_sub {s : G} (hs : s ∈ H) (i j : Fin p) (a b : ι) :
    ind H μ r p D s (i, a) (j, b) = if i = j then cj μ D (r ^ (i : ℕ)) s a b else 0 := by
  split_ifs with hij
  · subst hij
    rw [ind_pos (C.norm_pow _ hs)]
    rfl
  · exact ind_neg (fun h => hij (C.row_unique h (C.norm_pow _ hs))) a b

theorem ind_irr (hne : ¬ AreEquivalent (res H D) (res H (cj μ D r))) : IsIrreducible (res K (ind H μ r p D)) := by
  classical
  have : Fintype K := Fintype.ofFinite K
  have hp0 : 0 < p := by have := C.hp; omega
  obtain ⟨a0⟩ := hD.irr.1
  have hu : IsUnit (res K (ind H μ r p D) 1) :=
    IsUnitaryRep.isUnit (D := res K (ind H μ r p D)) (fun a => ind_uni hμ C hD a a.2) 1
  refine irreducible_of_finrank_one (μ := resμ K μ) (fun a b => hμ.ne a b) (ind_rep hμ C hD).toRes hu ?_
  have h1 : (1 : Matrix (Fin p × ι) (Fin p × ι) ℂ) ∈ homSub (res K (ind H μ r p D)) (res K (ind H μ r p D)) := by
    intro g; simp
  rw [finrank_eq_one_iff_of_nonzero' (⟨1, h1⟩ : homSub (res K (ind H μ r p D)) (res K (ind H μ r p D)))]
  swap
  · intro h
    have := congrFun (congrFun (congrArg Subtype.val h) (⟨0, hp0⟩, a0)) (⟨0, hp0⟩, a0)
    simp at this
  rintro ⟨M, hM⟩
  have hgoodj : ∀ i : ℕ, GoodOn H μ (cj μ D (r ^ i)) := fun i =>
    cj_good hμ hD (fun h hh => C.norm_pow i hh) (fun h hh => C.norm_pow' i hh)
  -- blocks
  let B : Fin p → Fin p → Matrix ι ι ℂ := fun i j => Matrix.of fun a b => M (i, a) (j, b)
  have hB : ∀ i j : Fin p, B i j ∈ homSub (res H (cj μ D (r ^ (i : ℕ)))) (res H (cj μ D (r ^ (j : ℕ)))) := by
    intro i j s
    ext a b
    have h := congrFun (congrFun (hM ⟨s, C.le s.2⟩) (i, a)) (j, b)
    simp only [res, Matrix.mul_apply, Fintype.sum_prod_type] at h ⊢
    simp only [ind_sub hμ C hD s.2, ite_mul, zero_mul, mul_ite, mul_zero] at h
    rw [Finset.sum_eq_single i (by
        intro i' _ hi'
        exact Finset.sum_eq_zero fun b _ => if_neg fun h => hi' h.symm) (by simp),
      Finset.sum_eq_single j (by
        intro i' _ hi'
        exact Finset.sum_eq_zero fun b _ => if_neg fun h => hi' h) (by simp)] at h
    simpa [B] using h
  have hoff : ∀ i j, i ≠ j → B i j = 0 := by
    intro i j hij
    have h := hB i j
    rw [homSub_eq_bot_of_not_equiv (hgoodj i).irr (hgoodj j).irr
      (fun h => hij (Fin.ext (conj_inequiv hμ C hD hne i.2 j.2 h))), Submodule.mem_bot] at h
    exact h
  have hdiag : ∀ i, ∃ c : ℂ, B i i = c • 1 := fun i => schur_scalar (hgoodj i).irr (hB i i)
  choose c hc using hdiag
  have hMe : ∀ i a j b, M (i, a) (j, b) = if i = j ∧ a = b then c i else 0 := by
    intro i a j b
    by_cases hij : i = j
    · subst hij
      have := congrFun (congrFun (hc i) a) b
      simp only [B, Matrix.of_apply, Matrix.smul_apply, Matrix.one_apply, smul_eq_mul, mul_ite, mul_one,
        mul_zero] at this
      rw [this]; simp
    · have := congrFun (congrFun (hoff i j hij) a) b
      simp only [B, Matrix.of_apply, Matrix.zero_apply] at this
      rw [this]; simp [hij]
  -- all scalars agree
  have hstep : ∀ i j : Fin p, (r ^ (i : ℕ))⁻¹ * r * r ^ (j : ℕ) ∈ H → c i = c j := by
    intro i j hij
    have hu := IsUnitaryRep.isUnit (D := res H D) hD.uniRes ⟨_, hij⟩
    -- some entry of D is non-zero
    obtain ⟨a, b, hab⟩ : ∃ a b, D ((r ^ (i : ℕ))⁻¹ * r * r ^ (j : ℕ)) a b ≠ 0 := by
      by_contra hno
      push Not at hno
      have h0 : D ((r ^ (i : ℕ))⁻¹ * r * r ^ (j : ℕ)) = 0 := by ext a b; exact hno a b
      have := hD.uni _ hij
      rw [h0, Matrix.zero_mul] at this
      have := congrFun (congrFun this a0) a0
      simp at this
    have h := congrFun (congrFun (hM ⟨r, C.r_mem⟩) (i, a)) (j, b)
    simp only [res, Matrix.mul_apply, hMe, Fintype.sum_prod_type] at h
    have e1 : ∑ x, ∑ y, ind H μ r p D r (i, a) (x, y) * (if x = j ∧ y = b then c x else 0) =
        ind H μ r p D r (i, a) (j, b) * c j := by
      rw [Finset.sum_eq_single j (by
        intro x _ hx
        exact Finset.sum_eq_zero fun y _ => by rw [if_neg (fun h => hx h.1), mul_zero]) (by simp),
        Finset.sum_eq_single b (by
          intro y _ hy
          rw [if_neg (fun h => hy h.2), mul_zero]) (by simp), if_pos ⟨rfl, rfl⟩]
    have e2 : ∑ x, ∑ y, (if i = x ∧ a = y then c i else 0) * ind H μ r p D r (x, y) (j, b) =
        c i * ind H μ r p D r (i, a) (j, b) := by
      rw [Finset.sum_eq_single i (by
        intro x _ hx
        exact Finset.sum_eq_zero fun y _ => by rw [if_neg (fun h => hx h.1.symm), zero_mul]) (by simp),
        Finset.sum_eq_single a (by
          intro y _ hy
          rw [if_neg (fun h => hy h.2.symm), zero_mul]) (by simp), if_pos ⟨rfl, rfl⟩]
    rw [e1, e2, ind_pos hij] at h
    have hne' := mul_ne_zero (indc_ne hμ r (r ^ (i : ℕ)) (r ^ (j : ℕ))) hab
    rw [mul_comm] at h
    exact (mul_right_cancel₀ hne' h).symm
  have hall : ∀ (j : ℕ) (hj : j < p), c ⟨j, hj⟩ = c ⟨0, hp0⟩ := by
    intro j
    induction j with
    | zero => intro _; rfl
    | succ j ih =>
      intro hj
      rw [← ih (by omega)]
      apply hstep
      have : (r ^ (j + 1))⁻¹ * r * r ^ j = 1 := by rw [pow_succ']; group
      simp only [this]
      exact H.one_mem
  refine ⟨c ⟨0, hp0⟩, Subtype.ext ?_⟩
  ext ⟨i, a⟩ ⟨j, b⟩
  change (c ⟨0, hp0⟩ • (1 : Matrix (Fin p × ι) (Fin p × ι) ℂ)) (i, a) (j, b) = M (i, a) (j, b)
  rw [hMe, hall i i.2, Matrix.smul_apply, Matrix.one_apply, smul_eq_mul]
  simp [Prod.mk.injEq]

theorem ind_good (hne : ¬ AreEquivalent (res H D) (res H (cj μ D r))) : GoodOn K μ (ind H μ r p D) :=
  ⟨ind_rep hμ C hD, ind_uni hμ C hD, ind_irr hμ C hD hne⟩

/-- Completeness in the induced case. -/
theorem ind_complete (hne : ¬ AreEquivalent (res H D) (res H (cj μ D r))) {Γ : G → Matrix κ κ ℂ}
    (hΓ : RepOn K μ Γ) (h1Γ : Γ 1 = 1) (hΓi : IsIrreducible (res K Γ)) {X : Matrix κ ι ℂ} (hX0 : X ≠ 0)
    (hX : ∀ s ∈ H, Γ s * X = X * D s) : AreEquivalent (res K Γ) (res K (ind H μ r p D)) := by
  have hp0 : 0 < p := by have := C.hp; omega
  let F : Matrix κ (Fin p × ι) ℂ := Matrix.of fun x y => (Γ (r ^ (y.1 : ℕ)) * X) x y.2
  have hF0 : F ≠ 0 := by
    intro h
    apply hX0
    ext x b
    have := congrFun (congrFun h x) (⟨0, hp0⟩, b)
    simpa [F, h1Γ] using this
  have hF : ∀ g : K, res K Γ g * F = F * res K (ind H μ r p D) g := by
    rintro ⟨g, hg⟩
    ext x ⟨j, b⟩
    obtain ⟨i, hi⟩ := C.exists_row hg j
    simp only [res]
    have hpw : ∀ m : ℕ, r ^ m ∈ K := fun m => K.pow_mem C.r_mem m
    have e1 : Γ g * Γ (r ^ (j : ℕ)) = indc μ g (r ^ (i : ℕ)) (r ^ (j : ℕ)) •
        (Γ (r ^ (i : ℕ)) * Γ ((r ^ (i : ℕ))⁻¹ * g * r ^ (j : ℕ))) := by
      rw [hΓ g hg _ (hpw _), hΓ _ (hpw _) _ (C.le hi), smul_smul, indc, div_mul_cancel₀ _ (hμ.ne _ _)]
      congr 2; group
    have e2 : (Γ g * F) x (j, b) = (Γ g * (Γ (r ^ (j : ℕ)) * X)) x b := by
      simp only [Matrix.mul_apply, F, Matrix.of_apply]
    rw [e2, ← Matrix.mul_assoc, e1, Matrix.smul_mul, Matrix.mul_assoc, hX _ hi, ← Matrix.mul_assoc,
      Matrix.mul_apply, Fintype.sum_prod_type, Finset.sum_eq_single i]
    · rw [Matrix.smul_apply, Matrix.mul_apply, smul_eq_mul, Finset.mul_sum]
      apply Finset.sum_congr rfl
      intro a _
      rw [ind_pos hi]
      simp only [F, Matrix.of_apply]
      ring
    · intro i' _ hi'
      exact Finset.sum_eq_zero fun a _ => by
        rw [ind_neg (fun h => hi' (C.row_unique h hi)), mul_zero]
    · simp
  obtain ⟨S', h1, h2⟩ := schur_equiv hΓi (ind_irr hμ C hD hne) hF hF0
  exact ⟨F, S', h1, h2, hF⟩

end

end Spgrep
