/-
The entries of ordinary irreps built along the chain of a point group: zero or a fourth or sixth root of unity.
This file has the representation theory of one step.
-/
import Verif.Proofs.ChainMain

set_option linter.unusedSectionVars false

namespace Spgrep

open Spec Matrix

variable {G : Type} [Group G] [Fintype G] [DecidableEq G]
variable {ι κ : Type} [Fintype ι] [Fintype κ] [DecidableEq ι] [DecidableEq κ]
variable {H K : Subgroup G} {r : G} {p : ℕ}

/-- The trivial factor system. -/
def triv (G : Type) : G → G → ℂ := fun _ _ => 1

omit [Fintype G] [DecidableEq G] in
theorem triv_cocy : Cocy (triv G) := ⟨fun _ _ => by simp [triv], fun _ _ _ => by simp [triv], rfl⟩

theorem triv_rprod (m : ℕ) : rprod (triv G) r m = 1 := by simp [rprod, triv]

theorem triv_bmat (A : Matrix ι ι ℂ) (m : ℕ) : bmat (triv G) r A m = A ^ m := by
  simp [bmat, triv_rprod]

theorem triv_indc (g x y : G) : indc (triv G) g x y = 1 := by simp [indc, triv]

theorem triv_cj (D : G → Matrix ι ι ℂ) (g s : G) : cj (triv G) D g s = D (g⁻¹ * s * g) := by
  simp [cj, triv_indc]

theorem triv_rep {D : G → Matrix ι ι ℂ} (hD : GoodOn H (triv G) D) {a b : G} (ha : a ∈ H) (hb : b ∈ H) :
    D a * D b = D (a * b) := by
  have := hD.rep a ha b hb
  simpa [triv] using this

/-- Zero, or a fourth or sixth root of unity. -/
def Listed (z : ℂ) : Prop := z = 0 ∨ z ^ 4 = 1 ∨ z ^ 6 = 1

theorem Listed.neg {z : ℂ} (h : Listed z) : Listed (-z) := by
  rcases h with h | h | h
  · left; simp [h]
  · right; left; rw [Even.neg_pow (by decide), h]
  · right; right; rw [Even.neg_pow (by decide), h]

theorem Listed.of_sq {z : ℂ} (h : z * z = 1) : Listed z := by
  right; left
  calc z ^ 4 = (z * z) * (z * z) := by ring
    _ = 1 := by rw [h, one_mul]

theorem triv_pow {D : G → Matrix ι ι ℂ} (hD : GoodOn H (triv G) D) {a : G} (ha : a ∈ H) (k : ℕ) :
    D a ^ k = D (a ^ k) := by
  induction k with
  | zero => rw [pow_zero, pow_zero, hD.map_one triv_cocy]
  | succ k ih => rw [pow_succ, ih, triv_rep hD (H.pow_mem ha k) ha, pow_succ]

/-- Values of one-dimensional representations. -/
theorem listed_of_one_dim {D : G → Matrix ι ι ℂ} (hD : GoodOn H (triv G) D) (h1 : Fintype.card ι = 1)
    (hord : ∀ g : G, g ^ 4 = 1 ∨ g ^ 6 = 1) {g : G} (hg : g ∈ H) (i j : ι) : Listed (D g i j) := by
  have hs : Subsingleton ι := (Fintype.card_le_one_iff_subsingleton).1 h1.le
  obtain rfl := Subsingleton.elim i j
  have hpow : ∀ (M : Matrix ι ι ℂ) (k : ℕ), (M ^ k) i i = M i i ^ k := by
    intro M k
    induction k with
    | zero => simp
    | succ k ih =>
      rw [pow_succ, Matrix.mul_apply, Fintype.sum_subsingleton _ i, ih, pow_succ]
  right
  rcases hord g with h | h
  · left
    rw [← hpow, triv_pow hD hg, h, hD.map_one triv_cocy, Matrix.one_apply_eq]
  · right
    rw [← hpow, triv_pow hD hg, h, hD.map_one triv_cocy, Matrix.one_apply_eq]

/-- Irreps of a commutative group are one-dimensional. -/
theorem card_of_comm {D : G → Matrix ι ι ℂ} (hD : GoodOn H (triv G) D) (hc : ∀ a ∈ H, ∀ b ∈ H, a * b = b * a) :
    Fintype.card ι = 1 := by
  have hsc : ∀ a ∈ H, ∃ c : ℂ, D a = c • 1 := fun a ha =>
    schur_scalar hD.irr fun g => by
      change D g * D a = D a * D g
      rw [triv_rep hD g.2 ha, triv_rep hD ha g.2, hc _ g.2 _ ha]
  obtain ⟨i⟩ := hD.irr.1
  rcases hD.irr.2 (Submodule.span ℂ {Pi.single i 1}) (by
    intro g v hv
    obtain ⟨c, hc⟩ := hsc g g.2
    change (D g).mulVec v ∈ _
    rw [hc, Matrix.smul_mulVec, Matrix.one_mulVec]
    exact Submodule.smul_mem _ _ hv) with h | h
  · exfalso
    have h0 : (Pi.single i 1 : ι → ℂ) ∈ (⊥ : Submodule ℂ (ι → ℂ)) := by
      rw [← h]; exact Submodule.mem_span_singleton_self _
    have := congrFun ((Submodule.mem_bot ℂ).1 h0) i
    simp at this
  · rw [Fintype.card_eq_one_iff]
    refine ⟨i, fun j => ?_⟩
    by_contra hj
    have h0 : (Pi.single j 1 : ι → ℂ) ∈ Submodule.span ℂ {(Pi.single i 1 : ι → ℂ)} := by rw [h]; trivial
    obtain ⟨c, hc⟩ := Submodule.mem_span_singleton.1 h0
    have := congrFun hc j
    simp [hj] at this

/-- Induction does not produce new entries. -/
theorem listed_ind {D : G → Matrix ι ι ℂ} (hD : ∀ h ∈ H, ∀ i j, Listed (D h i j)) (g : G) (x y : Fin p × ι) :
    Listed (ind H (triv G) r p D g x y) := by
  obtain ⟨i, a⟩ := x
  obtain ⟨j, b⟩ := y
  by_cases h : (r ^ (i : ℕ))⁻¹ * g * r ^ (j : ℕ) ∈ H
  · rw [ind_pos h, triv_indc, one_mul]
    exact hD _ h a b
  · rw [ind_neg h]; exact Or.inl rfl

/-- Extension by an involution that commutes with the subgroup. -/
theorem ext_comm_sign {D : G → Matrix ι ι ℂ} (hD : GoodOn H (triv G) D) {A : Matrix ι ι ℂ}
    (hA : ExtMat H (triv G) r 2 D A) (hc : ∀ s ∈ H, s * r = r * s) : A = 1 ∨ A = -1 := by
  obtain ⟨a, ha⟩ := schur_scalar hD.irr (M := A) fun g => by
    have h1 := hA.comm g g.2
    rw [triv_indc, one_smul, mul_assoc, hc _ g.2, inv_mul_cancel_left] at h1
    exact h1
  obtain ⟨i⟩ := hD.irr.1
  have h2 := hA.pow
  rw [triv_rprod, one_smul, ha, smul_pow, one_pow] at h2
  have h3 := congrFun (congrFun h2 i) i
  rw [Matrix.smul_apply, Matrix.one_apply_eq, smul_eq_mul, mul_one] at h3
  have h5 : (a - 1) * (a + 1) = 0 := by linear_combination h3
  rcases mul_eq_zero.1 h5 with h | h
  · exact Or.inl (by rw [ha, sub_eq_zero.1 h, one_smul])
  · exact Or.inr (by rw [ha, eq_neg_of_add_eq_zero_left h, neg_smul, one_smul])

theorem listed_ext_comm {D : G → Matrix ι ι ℂ} (hD : GoodOn H (triv G) D) {A : Matrix ι ι ℂ}
    (hA : ExtMat H (triv G) r 2 D A) (hc : ∀ s ∈ H, s * r = r * s) (hL : ∀ h ∈ H, ∀ i j, Listed (D h i j)) (m : ℕ)
    (hm : m < 2) {s : G} (hs : s ∈ H) (i j : ι) : Listed ((A ^ m * D s) i j) := by
  interval_cases m
  · rw [pow_zero, Matrix.one_mul]; exact hL s hs i j
  · rw [pow_one]
    rcases ext_comm_sign hD hA hc with rfl | rfl
    · rw [Matrix.one_mul]; exact hL s hs i j
    · rw [Matrix.neg_mul, Matrix.one_mul]; exact (hL s hs i j).neg

/-- Zero or plus or minus one. -/
def Sign (z : ℂ) : Prop := z = 0 ∨ z = 1 ∨ z = -1

theorem Listed.mul_sign {z w : ℂ} (hz : Listed z) (hw : Sign w) : Listed (z * w) := by
  rcases hw with rfl | rfl | rfl
  · rw [mul_zero]; exact Or.inl rfl
  · rwa [mul_one]
  · rw [mul_neg_one]; exact hz.neg

theorem sign_of_sq {z : ℂ} (h : z * z = 1) : Sign z := by
  have h5 : (z - 1) * (z + 1) = 0 := by linear_combination h
  rcases mul_eq_zero.1 h5 with h | h
  · exact Or.inr (Or.inl (sub_eq_zero.1 h))
  · exact Or.inr (Or.inr (eq_neg_of_add_eq_zero_left h))

section monomial

variable {V : Subgroup G} {c : G} {q : ℕ}

/-- The induced representation of an elementary abelian subgroup has entries zero and plus or minus one. -/
theorem sign_ind {D : G → Matrix (Fin 1) (Fin 1) ℂ} (hD : GoodOn V (triv G) D) (hsq : ∀ v ∈ V, v * v = 1) (g : G)
    (x y : Fin q × Fin 1) : Sign (ind V (triv G) c q D g x y) := by
  obtain ⟨i, a⟩ := x
  obtain ⟨j, b⟩ := y
  by_cases h : (c ^ (i : ℕ))⁻¹ * g * c ^ (j : ℕ) ∈ V
  · rw [ind_pos h, triv_indc, one_mul]
    apply sign_of_sq
    have h2 := triv_rep hD h h
    rw [hsq _ h, hD.map_one triv_cocy] at h2
    have h3 := congrFun (congrFun h2 a) b
    obtain rfl := Subsingleton.elim a b
    rw [Matrix.mul_apply, Fintype.sum_subsingleton _ a, Matrix.one_apply_eq] at h3
    exact h3
  · rw [ind_neg h]; exact Or.inl rfl

/-- Extension of a representation induced from an elementary abelian subgroup by an involution normalising it. -/
theorem ext_monomial (C : ChainExt V H c q) {D : G → Matrix (Fin 1) (Fin 1) ℂ} (hD : GoodOn V (triv G) D)
    (hne : ¬ AreEquivalent (res V D) (res V (cj (triv G) D c))) (hsq : ∀ v ∈ V, v * v = 1)
    (hr : r * r = 1) (hn : ∀ v ∈ V, r⁻¹ * v * r ∈ V) {A : Matrix (Fin q × Fin 1) (Fin q × Fin 1) ℂ}
    (hA : ExtMat H (triv G) r 2 (ind V (triv G) c q D) A) :
    (∀ x y y', A x y ≠ 0 → A x y' ≠ 0 → y = y') ∧ A * A = 1 ∧
    ∀ x y z w, A x y ≠ 0 → A z w ≠ 0 → A x y = A z w ∨ A x y = -A z w := by
  classical
  set F := ind V (triv G) c q D with hF
  have hsign : ∀ g x y, Sign (F g x y) := fun g x y => sign_ind hD hsq g x y
  -- characters of the subgroup
  let χ : Fin q × Fin 1 → G → ℂ := fun x v => D ((c ^ (x.1 : ℕ))⁻¹ * v * c ^ (x.1 : ℕ)) x.2 x.2
  have hdiag : ∀ v ∈ V, ∀ x y, F v x y = if x = y then χ x v else 0 := by
    intro v hv x y
    obtain ⟨i, a⟩ := x
    obtain ⟨j, b⟩ := y
    obtain rfl := Subsingleton.elim a b
    rw [hF, ind_sub triv_cocy C hD hv]
    by_cases hij : i = j
    · subst hij
      rw [if_pos rfl, if_pos rfl, triv_cj]
    · rw [if_neg hij, if_neg (fun h => hij (Prod.mk.inj h).1)]
  have hχ : ∀ x y, (∀ v ∈ V, χ x v = χ y v) → x = y := by
    rintro ⟨i, a⟩ ⟨j, b⟩ h
    obtain rfl := Subsingleton.elim a b
    have := conj_inequiv triv_cocy C hD hne i.2 j.2 ⟨1, 1, by simp, by simp, fun g => by
      rw [Matrix.mul_one, Matrix.one_mul]
      ext a' b'
      obtain rfl := Subsingleton.elim a' a
      obtain rfl := Subsingleton.elim b' a'
      have := h g g.2
      simp only [res, triv_cj]
      exact this⟩
    rw [Fin.ext this]
  have hcomm : ∀ s ∈ H, F s * A = A * F (r⁻¹ * s * r) := by
    intro s hs
    have := hA.comm s hs
    rwa [triv_indc, one_smul] at this
  have hent : ∀ v ∈ V, ∀ x y, χ x v * A x y = A x y * χ y (r⁻¹ * v * r) := by
    intro v hv x y
    have h1 := congrFun (congrFun (hcomm v (C.le hv)) x) y
    rw [Matrix.mul_apply, Matrix.mul_apply, Finset.sum_eq_single x, Finset.sum_eq_single y,
      hdiag v hv, if_pos rfl, hdiag _ (hn v hv), if_pos rfl] at h1
    · exact h1
    · intro z _ hz
      rw [hdiag _ (hn v hv), if_neg hz, mul_zero]
    · intro h; exact absurd (Finset.mem_univ _) h
    · intro z _ hz
      rw [hdiag v hv, if_neg (Ne.symm hz), zero_mul]
    · intro h; exact absurd (Finset.mem_univ _) h
  have hent' : ∀ v ∈ V, ∀ x y, A x y ≠ 0 → χ x v = χ y (r⁻¹ * v * r) := by
    intro v hv x y h
    have := hent v hv x y
    rw [mul_comm] at this
    exact mul_left_cancel₀ h this
  have hcol : ∀ x x' y, A x y ≠ 0 → A x' y ≠ 0 → x = x' := fun x x' y h h' =>
    hχ x x' fun v hv => (hent' v hv x y h).trans (hent' v hv x' y h').symm
  have hrow : ∀ x y y', A x y ≠ 0 → A x y' ≠ 0 → y = y' := fun x y y' h h' =>
    hχ y y' fun v hv => by
      have hrr : r⁻¹ = r := inv_eq_of_mul_eq_one_left hr
      have e1 : r⁻¹ * (r⁻¹ * v * r) * r = v := by
        rw [hrr]
        calc r * (r * v * r) * r = (r * r) * v * (r * r) := by group
          _ = v := by rw [hr, one_mul, mul_one]
      have h1 := hent' _ (hn v hv) x y h
      have h2 := hent' _ (hn v hv) x y' h'
      rw [e1] at h1 h2
      rw [← h1, ← h2]
  have hsq2 : A * A = 1 := by
    have := hA.pow
    rwa [triv_rprod, one_smul, sq] at this
  -- the non-zero entries differ by signs
  refine ⟨hrow, hsq2, ?_⟩
  · intro x y z w h1 h2
    -- an element that maps the coordinate x to z
    obtain ⟨s, hs, hzx⟩ : ∃ s ∈ H, F s z x ≠ 0 := by
      have hmem : c ^ (z.1 : ℕ) * (c ^ (x.1 : ℕ))⁻¹ ∈ H :=
        H.mul_mem (H.pow_mem C.r_mem _) (H.inv_mem (H.pow_mem C.r_mem _))
      refine ⟨_, hmem, ?_⟩
      have e1 : (c ^ (z.1 : ℕ))⁻¹ * (c ^ (z.1 : ℕ) * (c ^ (x.1 : ℕ))⁻¹) * c ^ (x.1 : ℕ) = 1 := by group
      have h3 : (c ^ (z.1 : ℕ))⁻¹ * (c ^ (z.1 : ℕ) * (c ^ (x.1 : ℕ))⁻¹) * c ^ (x.1 : ℕ) ∈ V := by
        rw [e1]; exact V.one_mem
      have h4 := ind_pos (μ := triv G) (D := D) h3 z.2 x.2
      rw [triv_indc, one_mul, e1, hD.map_one triv_cocy, Subsingleton.elim z.2 x.2, Matrix.one_apply_eq] at h4
      have h5 : F (c ^ (z.1 : ℕ) * (c ^ (x.1 : ℕ))⁻¹) (z.1, x.2) (x.1, x.2) = 1 := h4
      have h6 : z = (z.1, x.2) := Prod.ext rfl (Subsingleton.elim _ _)
      rw [h6]
      change F _ (z.1, x.2) (x.1, x.2) ≠ 0
      rw [h5]; exact one_ne_zero
    have h3 := congrFun (congrFun (hcomm s hs) z) y
    rw [Matrix.mul_apply, Matrix.mul_apply, Finset.sum_eq_single x, Finset.sum_eq_single w] at h3
    · have hl : F s z x * A x y ≠ 0 := mul_ne_zero hzx h1
      rcases hsign s z x with h | h | h
      · exact absurd h hzx
      · rcases hsign (r⁻¹ * s * r) w y with h' | h' | h'
        · rw [h3, h', mul_zero] at hl; exact absurd rfl hl
        · left; rw [h, h', one_mul, mul_one] at h3; exact h3
        · right; rw [h, h', one_mul, mul_neg_one] at h3; exact h3
      · rcases hsign (r⁻¹ * s * r) w y with h' | h' | h'
        · rw [h3, h', mul_zero] at hl; exact absurd rfl hl
        · right; rw [h, h', neg_one_mul, mul_one] at h3; rw [← h3, neg_neg]
        · left; rw [h, h', neg_one_mul, mul_neg_one] at h3; exact neg_injective h3
    · intro z' _ hz'
      by_contra h4
      exact hz' (hrow z z' w (left_ne_zero_of_mul h4) h2)
    · intro h; exact absurd (Finset.mem_univ _) h
    · intro z' _ hz'
      by_contra h4
      exact hz' (hcol z' x y (right_ne_zero_of_mul h4) h1)
    · intro h; exact absurd (Finset.mem_univ _) h

theorem listed_ext_monomial (C : ChainExt V H c q) {D : G → Matrix (Fin 1) (Fin 1) ℂ} (hD : GoodOn V (triv G) D)
    (hne : ¬ AreEquivalent (res V D) (res V (cj (triv G) D c))) (hsq : ∀ v ∈ V, v * v = 1)
    (hr : r * r = 1) (hn : ∀ v ∈ V, r⁻¹ * v * r ∈ V) {A : Matrix (Fin q × Fin 1) (Fin q × Fin 1) ℂ}
    (hA : ExtMat H (triv G) r 2 (ind V (triv G) c q D) A) (m : ℕ)
    (hm : m < 2) (s : G) (i j : Fin q × Fin 1) :
    Listed ((A ^ m * ind V (triv G) c q D s) i j) := by
  set F := ind V (triv G) c q D with hF
  have hsign : ∀ g x y, Sign (F g x y) := fun g x y => sign_ind hD hsq g x y
  obtain ⟨hrow, hsq2, hratio⟩ := ext_monomial C hD hne hsq hr hn hA
  have hfour : ∀ x y, Listed (A x y) := by
    intro x y
    by_cases h : A x y = 0
    · exact Or.inl h
    have h1 := congrFun (congrFun hsq2 x) x
    rw [Matrix.mul_apply, Matrix.one_apply_eq, Finset.sum_eq_single y] at h1
    · have h2 : A y x ≠ 0 := fun h0 => by rw [h0, mul_zero] at h1; exact zero_ne_one h1
      right; left
      rcases hratio y x x y h2 h with h3 | h3
      · rw [h3] at h1
        linear_combination (A x y ^ 2 + 1) * h1
      · rw [h3] at h1
        linear_combination (-A x y ^ 2 + 1) * h1
    · intro z _ hz
      by_contra h4
      exact hz (hrow x z y (left_ne_zero_of_mul h4) h)
    · intro h; exact absurd (Finset.mem_univ _) h
  interval_cases m
  · rw [pow_zero, Matrix.one_mul]
    rcases hsign s i j with h | h | h
    · exact Or.inl h
    · exact Or.inr (Or.inl (by rw [h]; norm_num))
    · exact Or.inr (Or.inl (by rw [h]; norm_num))
  · rw [pow_one, Matrix.mul_apply]
    by_cases h : ∃ y, A i y ≠ 0
    · obtain ⟨y, hy⟩ := h
      rw [Finset.sum_eq_single y]
      · exact (hfour i y).mul_sign (hsign s y j)
      · intro z _ hz
        by_contra h4
        exact hz (hrow i z y (left_ne_zero_of_mul h4) hy)
      · intro h; exact absurd (Finset.mem_univ _) h
    · push Not at h
      left
      exact Finset.sum_eq_zero fun y _ => by rw [h y, zero_mul]

omit [Fintype G] [DecidableEq G] in
theorem inv3 : ∀ σ : Fin 3 → Fin 3, (∀ x, σ (σ x) = x) → ∃ x, σ x = x := by decide

/-- In dimension three the extension is real. -/
theorem sign_ext_monomial (C : ChainExt V H c q) {D : G → Matrix (Fin 1) (Fin 1) ℂ} (hD : GoodOn V (triv G) D)
    (hne : ¬ AreEquivalent (res V D) (res V (cj (triv G) D c))) (hsq : ∀ v ∈ V, v * v = 1)
    (hr : r * r = 1) (hn : ∀ v ∈ V, r⁻¹ * v * r ∈ V) {A : Matrix (Fin q × Fin 1) (Fin q × Fin 1) ℂ}
    (hA : ExtMat H (triv G) r 2 (ind V (triv G) c q D) A) (hq : q = 3) (x y : Fin q × Fin 1) : Sign (A x y) := by
  classical
  obtain ⟨hrow, hsq2, hratio⟩ := ext_monomial C hD hne hsq hr hn hA
  subst hq
  have hex : ∀ x, ∃ y, A x y ≠ 0 := by
    intro x
    by_contra h
    push Not at h
    have h1 := congrFun (congrFun hsq2 x) x
    rw [Matrix.mul_apply, Matrix.one_apply_eq, Finset.sum_eq_zero fun y _ => by rw [h y, zero_mul]] at h1
    exact zero_ne_one h1
  choose σ hσ using hex
  have hprod : ∀ x, A x (σ x) * A (σ x) x = 1 := by
    intro x
    have h1 := congrFun (congrFun hsq2 x) x
    rw [Matrix.mul_apply, Matrix.one_apply_eq, Finset.sum_eq_single (σ x)] at h1
    · exact h1
    · intro z _ hz
      by_contra h4
      exact hz (hrow x z (σ x) (left_ne_zero_of_mul h4) (hσ x))
    · intro h; exact absurd (Finset.mem_univ _) h
  have hσσ : ∀ x, σ (σ x) = x := by
    intro x
    have h2 : A (σ x) x ≠ 0 := fun h0 => by
      have := hprod x
      rw [h0, mul_zero] at this; exact zero_ne_one this
    exact hrow (σ x) _ _ (hσ (σ x)) h2
  obtain ⟨i, hi⟩ := inv3 (fun i => (σ (i, 0)).1) fun i => by
    have h1 : ((σ (i, 0)).1, (0 : Fin 1)) = σ (i, 0) := Prod.ext rfl (Subsingleton.elim _ _)
    rw [h1, hσσ]
  have hfix : σ (i, 0) = (i, 0) := Prod.ext hi (Subsingleton.elim _ _)
  have h1 := hprod (i, 0)
  rw [hfix] at h1
  have h2 := sign_of_sq h1
  have h3 := hσ (i, 0)
  rw [hfix] at h3
  by_cases h : A x y = 0
  · exact Or.inl h
  · rcases hratio x y _ _ h h3 with h4 | h4
    · rw [h4]; exact h2
    · rw [h4]
      rcases h2 with h2 | h2 | h2
      · exact absurd h2 h3
      · rw [h2]; exact Or.inr (Or.inr rfl)
      · rw [h2, neg_neg]; exact Or.inr (Or.inl rfl)

end monomial

end Spgrep
