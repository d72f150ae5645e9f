/-
Representations indRep from the stabiliser of a character of a normal subgroup.
-/
import Verif.Proofs.RepChar

set_option linter.unusedSectionVars false

namespace Spgrep

open Spec Matrix

variable {G : Type*} [Group G] {H : Subgroup G}
variable {ι A ε : Type*} [Fintype ι] [DecidableEq ι] [Fintype A] [DecidableEq A] [Fintype ε] [DecidableEq ε]

/-- `D` multiplies on the subgroup `H`. -/
structure IndRepOn (H : Subgroup G) (D : G → Matrix ι ι ℂ) : Prop where
  one : D 1 = 1
  mul : ∀ g ∈ H, ∀ h ∈ H, D (g * h) = D g * D h

/-- `c` contains one element of each coset `g H`. -/
structure CosetReps (H : Subgroup G) (c : A → G) : Prop where
  ex : ∀ g, ∃ α, (c α)⁻¹ * g ∈ H
  inj : ∀ α β, (c α)⁻¹ * c β ∈ H → α = β

open Classical in
/-- The induced representation. -/
noncomputable def indRep (H : Subgroup G) (c : A → G) (D : G → Matrix ι ι ℂ) (g : G) : Matrix (A × ι) (A × ι) ℂ :=
  fun p q => if (c p.1)⁻¹ * g * c q.1 ∈ H then D ((c p.1)⁻¹ * g * c q.1) p.2 q.2 else 0

variable {c : A → G} {D : G → Matrix ι ι ℂ}

theorem cosetReps_next (hc : CosetReps H c) (g : G) (α : A) : ∃ β, (c α)⁻¹ * g * c β ∈ H := by
  obtain ⟨β, hβ⟩ := hc.ex (g⁻¹ * c α)
  refine ⟨β, ?_⟩
  have := H.inv_mem hβ
  simpa [mul_assoc] using this

theorem cosetReps_unique (hc : CosetReps H c) {g : G} {α β γ : A} (h1 : (c α)⁻¹ * g * c β ∈ H) (h2 : (c α)⁻¹ * g * c γ ∈ H) : β = γ := by
  apply hc.inj
  have := H.mul_mem (H.inv_mem h1) h2
  simpa [mul_assoc] using this

theorem indRep_apply (hc : CosetReps H c) {g : G} {α β : A} (h : (c α)⁻¹ * g * c β ∈ H) (v : A × ι → ℂ) (x : ι) :
    (indRep H c D g).mulVec v (α, x) = (D ((c α)⁻¹ * g * c β)).mulVec (fun y => v (β, y)) x := by
  simp only [Matrix.mulVec, dotProduct, Fintype.sum_prod_type, indRep]
  rw [Finset.sum_eq_single β]
  · simp [h]
  · intro γ _ hγ
    refine Finset.sum_eq_zero fun y _ => ?_
    rw [if_neg fun h' => hγ (cosetReps_unique hc h' h), zero_mul]
  · simp

theorem indRep_one (hc : CosetReps H c) (hD : IndRepOn H D) : indRep H c D 1 = 1 := by
  refine Matrix.mulVec_injective (funext fun v => funext fun ⟨α, x⟩ => ?_)
  rw [indRep_apply hc (β := α) (by simp [H.one_mem])]
  simp [hD.one]

theorem indRep_mul (hc : CosetReps H c) (hD : IndRepOn H D) (g h : G) :
    indRep H c D (g * h) = indRep H c D g * indRep H c D h := by
  refine Matrix.mulVec_injective (funext fun v => funext fun ⟨α, x⟩ => ?_)
  obtain ⟨β, hβ⟩ := cosetReps_next hc g α
  obtain ⟨γ, hγ⟩ := cosetReps_next hc h β
  have e1 : (c α)⁻¹ * (g * h) * c γ = (c α)⁻¹ * g * c β * ((c β)⁻¹ * h * c γ) := by group
  rw [← Matrix.mulVec_mulVec, indRep_apply hc hβ, indRep_apply hc (β := γ) (by rw [e1]; exact H.mul_mem hβ hγ), e1,
    hD.mul _ hβ _ hγ, ← Matrix.mulVec_mulVec]
  congr 2
  funext y
  rw [indRep_apply hc hγ]

/-- `N` acts by the character `χ` on `D`, `H` is its stabiliser. -/
structure IsOverChar (H : Subgroup G) (N : Set G) (χ : G → ℂ) (D : G → Matrix ι ι ℂ) : Prop where
  scalar : ∀ t ∈ N, D t = χ t • 1
  le : ∀ t ∈ N, t ∈ H
  normal : ∀ (g : G), ∀ t ∈ N, g⁻¹ * t * g ∈ N
  moved : ∀ g, g ∉ H → ∃ t ∈ N, χ (g⁻¹ * t * g) ≠ χ t

variable {N : Set G} {χ : G → ℂ}

theorem indRep_scalar (hc : CosetReps H c) (ho : IsOverChar H N χ D) {t : G} (ht : t ∈ N) (v : A × ι → ℂ) (p : A × ι) :
    (indRep H c D t).mulVec v p = χ ((c p.1)⁻¹ * t * c p.1) * v p := by
  obtain ⟨α, x⟩ := p
  have h1 := ho.normal (c α) t ht
  rw [indRep_apply hc (ho.le _ h1), ho.scalar _ h1, Matrix.smul_mulVec, Matrix.one_mulVec]
  rfl

theorem moved_cosetRep (hc : CosetReps H c) (ho : IsOverChar H N χ D) {α₀ α : A} (h0 : c α₀ = 1) (hα : α ≠ α₀) :
    ∃ t ∈ N, χ ((c α)⁻¹ * t * c α) ≠ χ t := by
  apply ho.moved
  intro h
  apply hα
  apply (hc.inj α₀ α _).symm
  rw [h0]
  simpa using h

/-- The induced representation is irreducible. -/
theorem indRep_irreducible (hc : CosetReps H c) (hD : IndRepOn H D) (ho : IsOverChar H N χ D) {α₀ : A} (h0 : c α₀ = 1)
    (hi : Nonempty ι ∧ ∀ W : Submodule ℂ (ι → ℂ), (∀ g ∈ H, ∀ v ∈ W, (D g).mulVec v ∈ W) → W = ⊥ ∨ W = ⊤) :
    IsIrreducible (indRep H c D) := by
  obtain ⟨⟨x0⟩, hi⟩ := hi
  refine ⟨⟨(α₀, x0)⟩, fun U hU => ?_⟩
  by_cases hbot : U = ⊥
  · exact .inl hbot
  right
  -- an element of `U` which does not vanish on the first block
  obtain ⟨u, hu, hu0⟩ : ∃ u ∈ U, ∃ x, u (α₀, x) ≠ 0 := by
    obtain ⟨u, hu, hne⟩ := (Submodule.ne_bot_iff U).1 hbot
    obtain ⟨⟨α, x⟩, hx⟩ : ∃ p, u p ≠ 0 := by
      by_contra hall
      push Not at hall
      exact hne (funext hall)
    refine ⟨_, hU (c α)⁻¹ u hu, x, ?_⟩
    have e1 : (c α₀)⁻¹ * (c α)⁻¹ * c α = 1 := by rw [h0]; simp
    rw [indRep_apply hc (β := α) (by rw [e1]; exact H.one_mem), e1, hD.one, Matrix.one_mulVec]
    exact hx
  -- remove the other blocks
  obtain ⟨u, hu, ⟨x1, hx1⟩, hz⟩ : ∃ u ∈ U, (∃ x, u (α₀, x) ≠ 0) ∧ ∀ α ≠ α₀, ∀ x, u (α, x) = 0 := by
    have key : ∀ s : Finset A, α₀ ∉ s → ∃ u ∈ U, (∃ x, u (α₀, x) ≠ 0) ∧ ∀ α ∈ s, ∀ x, u (α, x) = 0 := by
      intro s
      induction s using Finset.induction_on with
      | empty => exact fun _ => ⟨u, hu, hu0, by simp⟩
      | insert β s hβ ih =>
        intro hs
        simp only [Finset.mem_insert, not_or] at hs
        obtain ⟨w, hw, ⟨x, hx⟩, hws⟩ := ih hs.2
        obtain ⟨t, ht, hne⟩ := moved_cosetRep hc ho h0 (α := β) (fun h => hs.1 h.symm)
        refine ⟨(indRep H c D t).mulVec w - χ ((c β)⁻¹ * t * c β) • w, U.sub_mem (hU t w hw) (U.smul_mem _ hw), ⟨x, ?_⟩, ?_⟩
        · rw [Pi.sub_apply, indRep_scalar hc ho ht, Pi.smul_apply, smul_eq_mul, ← sub_mul]
          refine mul_ne_zero ?_ hx
          rw [h0]
          simpa [sub_eq_zero] using fun h : χ t = _ => hne h.symm
        · intro α hα y
          rw [Pi.sub_apply, indRep_scalar hc ho ht, Pi.smul_apply, smul_eq_mul, ← sub_mul]
          rcases Finset.mem_insert.1 hα with rfl | h
          · simp
          · rw [hws α h y, mul_zero]
    obtain ⟨w, h1, h2, h3⟩ := key (Finset.univ.erase α₀) (by simp)
    exact ⟨w, h1, h2, fun α hα x => h3 α (by simp [hα]) x⟩
  -- the part of `U` in the first block
  let W : Submodule ℂ (ι → ℂ) :=
    { carrier := {v | (fun p : A × ι => if p.1 = α₀ then v p.2 else 0) ∈ U}
      add_mem' := by
        intro a b ha hb
        have := U.add_mem ha hb
        refine (congrArg (· ∈ U) (funext fun p => ?_)).mp this
        by_cases hp : p.1 = α₀ <;> simp [hp]
      zero_mem' := by
        refine (congrArg (· ∈ U) (funext fun p => ?_)).mp U.zero_mem
        simp
      smul_mem' := by
        intro z a ha
        have := U.smul_mem z ha
        refine (congrArg (· ∈ U) (funext fun p => ?_)).mp this
        by_cases hp : p.1 = α₀ <;> simp [hp] }
  have hWmem : ∀ v, v ∈ W ↔ (fun p : A × ι => if p.1 = α₀ then v p.2 else 0) ∈ U := fun v => Iff.rfl
  have hblock : ∀ (α : A) (v : ι → ℂ) (h : G), h ∈ H → v ∈ W →
      (fun p : A × ι => if p.1 = α then (D h).mulVec v p.2 else 0) ∈ U := by
    intro α v h hh hv
    have := hU (c α * h) _ ((hWmem v).1 hv)
    refine (congrArg (· ∈ U) (funext fun ⟨β, x⟩ => ?_)).mp this
    by_cases hβ : β = α
    · subst hβ
      have e1 : (c β)⁻¹ * (c β * h) * c α₀ = h := by rw [h0]; group
      rw [indRep_apply hc (β := α₀) (by rw [e1]; exact hh), e1]
      simp
    · obtain ⟨γ, hγ⟩ := cosetReps_next hc (c α * h) β
      have hne : γ ≠ α₀ := by
        rintro rfl
        rw [h0, mul_one, ← mul_assoc] at hγ
        exact hβ (hc.inj β α ((H.mul_mem_cancel_right hh).1 hγ))
      rw [indRep_apply hc hγ]
      simp [hβ, hne]
      exact congrFun (Matrix.mulVec_zero _) x
  have hW : W = ⊤ := by
    refine (hi W fun g hg v hv => ?_).resolve_left ?_
    · exact (hWmem _).2 (hblock α₀ v g hg hv)
    · intro hb
      have h1 : (fun x => u (α₀, x)) ∈ W := by
        rw [hWmem]
        refine (congrArg (· ∈ U) (funext fun ⟨β, x⟩ => ?_)).mp hu
        by_cases hβ : β = α₀
        · simp [hβ]
        · simp [hβ, hz β hβ x]
      rw [hb, Submodule.mem_bot] at h1
      exact hx1 (congrFun h1 x1)
  rw [eq_top_iff]
  rintro v -
  have h1 : v = ∑ α, fun p : A × ι => if p.1 = α then v (α, p.2) else 0 := by
    funext ⟨β, x⟩
    simp
  rw [h1]
  refine U.sum_mem fun α _ => ?_
  have := hblock α (fun x => v (α, x)) 1 H.one_mem (by rw [hW]; trivial)
  rw [hD.one] at this
  simpa using this

/-- A map from `D` to a representation of the whole group extends to the induced representation. -/
theorem indRep_hom (hc : CosetReps H c) {α₀ : A} (h0 : c α₀ = 1) {E : G → Matrix ε ε ℂ} (hE1 : E 1 = 1)
    (hE : ∀ g h, E (g * h) = E g * E h) {X : Matrix ε ι ℂ} (hX : X ≠ 0) (hint : ∀ h ∈ H, E h * X = X * D h) :
    ∃ Y : Matrix ε (A × ι) ℂ, Y ≠ 0 ∧ ∀ g, E g * Y = Y * indRep H c D g := by
  refine ⟨Matrix.of fun i p => (E (c p.1) * X) i p.2, fun h => hX ?_, fun g => ?_⟩
  · ext i x
    have := congrFun (congrFun h i) (α₀, x)
    simpa [h0, hE1] using this
  · ext i ⟨β, y⟩
    have e0 : (E g * Matrix.of fun i (p : A × ι) => (E (c p.1) * X) i p.2) i (β, y) = (E g * (E (c β) * X)) i y := rfl
    rw [e0, ← Matrix.mul_assoc, ← hE]
    obtain ⟨α, hα⟩ := hc.ex (g * c β)
    have e1 : g * c β = c α * ((c α)⁻¹ * g * c β) := by group
    have hα' : (c α)⁻¹ * g * c β ∈ H := by rwa [mul_assoc]
    rw [e1, hE, Matrix.mul_assoc, hint _ hα', ← Matrix.mul_assoc, Matrix.mul_apply, Matrix.mul_apply,
      Fintype.sum_prod_type, Finset.sum_eq_single α]
    · refine Finset.sum_congr rfl fun x _ => ?_
      simp [indRep, hα']
    · intro γ _ hγ
      refine Finset.sum_eq_zero fun x _ => ?_
      have : ¬ (c γ)⁻¹ * g * c β ∈ H := fun h' => hγ (hc.inj γ α (by
        have := H.mul_mem h' (H.inv_mem hα')
        simpa [mul_assoc] using this))
      simp [indRep, this]
    · simp

/-- Equivalent induced representations come from equivalent representations. -/
theorem indRep_separates {κ : Type*} [Fintype κ] [DecidableEq κ] {F : G → Matrix κ κ ℂ} (hc : CosetReps H c) (hD : IndRepOn H D)
    (ho : IsOverChar H N χ D) (hF : IndRepOn H F) (hoF : IsOverChar H N χ F) {α₀ : A} (h0 : c α₀ = 1) [Nonempty ι]
    (heq : AreEquivalent (indRep H c D) (indRep H c F)) :
    ∃ X : Matrix κ ι ℂ, X ≠ 0 ∧ ∀ h ∈ H, F h * X = X * D h := by
  obtain ⟨Y', Y, h1, h2, hY'⟩ := heq
  have hY : ∀ g, indRep H c F g * Y = Y * indRep H c D g := fun g => by
    calc indRep H c F g * Y = Y * Y' * indRep H c F g * Y := by rw [h2, Matrix.one_mul]
      _ = Y * (indRep H c D g * Y') * Y := by rw [hY', Matrix.mul_assoc Y]
      _ = Y * indRep H c D g * (Y' * Y) := by simp only [Matrix.mul_assoc]
      _ = _ := by rw [h1, Matrix.mul_one]
  -- the images of the first block stay in the first block
  have hz : ∀ β ≠ α₀, ∀ x y, Y (β, x) (α₀, y) = 0 := by
    intro β hβ x y
    obtain ⟨t, ht, hne⟩ := moved_cosetRep hc hoF h0 hβ
    have e1 := congrArg (fun M : Matrix (A × κ) (A × ι) ℂ => M.mulVec (Pi.single (α₀, y) 1) (β, x)) (hY t)
    simp only [← Matrix.mulVec_mulVec] at e1
    have e2 : (indRep H c D t).mulVec (Pi.single (α₀, y) 1) = χ t • Pi.single (α₀, y) 1 := by
      funext p
      rw [indRep_scalar hc ho ht, Pi.smul_apply, smul_eq_mul]
      by_cases hp : p = (α₀, y)
      · subst hp
        simp [h0]
      · simp [hp]
    rw [indRep_scalar hc hoF ht, e2, Matrix.mulVec_smul, Pi.smul_apply, smul_eq_mul, Matrix.mulVec_single_one,
      Matrix.col_apply] at e1
    by_contra hne0
    exact hne (mul_right_cancel₀ hne0 e1)
  refine ⟨Matrix.of fun x y => Y (α₀, x) (α₀, y), fun hX => ?_, fun h hh => ?_⟩
  · obtain ⟨y⟩ := ‹Nonempty ι›
    have e1 : Y.mulVec (Pi.single (α₀, y) 1) = 0 := by
      funext ⟨β, x⟩
      rw [Matrix.mulVec_single_one, Matrix.col_apply]
      by_cases hβ : β = α₀
      · subst hβ
        exact congrFun (congrFun hX x) y
      · exact hz β hβ x y
    have e2 := congrArg (Y'.mulVec) e1
    rw [Matrix.mulVec_mulVec, h1, Matrix.one_mulVec, Matrix.mulVec_zero] at e2
    have := congrFun e2 (α₀, y)
    simp at this
  · ext x y
    have e1 := congrFun (congrFun (hY h) (α₀, x)) (α₀, y)
    rw [Matrix.mul_apply, Matrix.mul_apply, Fintype.sum_prod_type, Fintype.sum_prod_type, Finset.sum_eq_single α₀,
      Finset.sum_eq_single α₀] at e1
    · rw [Matrix.mul_apply, Matrix.mul_apply]
      simpa [indRep, h0, hh] using e1
    · intro β _ hβ
      refine Finset.sum_eq_zero fun z _ => ?_
      have : ¬ (c β)⁻¹ * h * c α₀ ∈ H := fun h' => hβ (hc.inj β α₀ (by
        rw [h0, mul_one] at h' ⊢
        exact (H.mul_mem_cancel_right hh).1 h'))
      simp [indRep, this]
    · simp
    · intro β _ hβ
      exact Finset.sum_eq_zero fun z _ => by rw [hz β hβ, mul_zero]
    · simp

/-- The character does not change by conjugation with elements of its stabiliser. -/
theorem overChar_conj [Nonempty ι] (hD : IndRepOn H D) (ho : IsOverChar H N χ D) {s t : G} (hs : s ∈ H) (ht : t ∈ N) :
    χ (s⁻¹ * t * s) = χ t := by
  have h1 := ho.normal s t ht
  have e1 : s * (s⁻¹ * t * s) = t * s := by group
  have e2 := hD.mul s hs _ (ho.le _ h1)
  rw [e1, hD.mul t (ho.le _ ht) s hs, ho.scalar _ h1, ho.scalar _ ht, Matrix.smul_mul, Matrix.one_mul, Matrix.mul_smul,
    Matrix.mul_one] at e2
  have h3 : D s * D s⁻¹ = 1 := by rw [← hD.mul s hs _ (H.inv_mem hs), mul_inv_cancel, hD.one]
  have h4 : D s ≠ 0 := by
    intro h0
    rw [h0, Matrix.zero_mul] at h3
    exact zero_ne_one h3
  have h5 : (χ t - χ (s⁻¹ * t * s)) • D s = 0 := by rw [sub_smul, e2, sub_self]
  exact (sub_eq_zero.1 ((smul_eq_zero.1 h5).resolve_right h4)).symm

/-- A basis of a subspace as the columns of a matrix. -/
theorem basis_matrix (W : Submodule ℂ (ε → ℂ)) (hW : W ≠ ⊥) :
    ∃ (w : ℕ) (X : Matrix ε (Fin w) ℂ), 0 < w ∧
      (∀ {τ : Type} [Fintype τ] (A B : Matrix (Fin w) τ ℂ), X * A = X * B → A = B) ∧
      (∀ j, (fun i => X i j) ∈ W) ∧
      ∀ f : Matrix ε ε ℂ, (∀ v ∈ W, f.mulVec v ∈ W) → ∃ F : Matrix (Fin w) (Fin w) ℂ, f * X = X * F := by
  let b := Module.finBasis ℂ W
  let X : Matrix ε (Fin (Module.finrank ℂ W)) ℂ := Matrix.of fun i j => (b j : ε → ℂ) i
  have hX : ∀ y, X.mulVec y = ((∑ j, y j • b j : W) : ε → ℂ) := by
    intro y
    funext i
    simp only [Matrix.mulVec, dotProduct, X, Matrix.of_apply, Submodule.coe_sum, Submodule.coe_smul, Finset.sum_apply,
      Pi.smul_apply, smul_eq_mul]
    exact Finset.sum_congr rfl fun j _ => mul_comm _ _
  refine ⟨Module.finrank ℂ W, X, ?_, ?_, fun j => (b j).2, fun f hf => ?_⟩
  · exact Nat.pos_of_ne_zero fun h0 => hW (Submodule.finrank_eq_zero.1 h0)
  · intro τ _ A B hAB
    ext j t
    have h1 : X.mulVec (fun j => A j t) = X.mulVec (fun j => B j t) := by
      funext i
      exact congrFun (congrFun hAB i) t
    rw [hX, hX] at h1
    have h2 := Subtype.ext h1
    have h3 := congrFun (congrArg (fun z => (b.repr z : Fin (Module.finrank ℂ W) → ℂ)) h2) j
    simp only [b.repr_sum_self] at h3
    exact h3
  · refine ⟨Matrix.of fun j l => b.repr ⟨f.mulVec (b l), hf _ (b l).2⟩ j, ?_⟩
    ext i l
    have h1 := hX (fun j => b.repr ⟨f.mulVec (b l), hf _ (b l).2⟩ j)
    rw [b.sum_repr] at h1
    exact (congrFun h1 i).symm

/-- The first block of the induced representation. -/
theorem indRep_block (hc : CosetReps H c) {α₀ : A} (h0 : c α₀ = 1) [Nonempty ι] :
    ∃ X : Matrix (A × ι) ι ℂ, X ≠ 0 ∧ ∀ h ∈ H, indRep H c D h * X = X * D h := by
  refine ⟨Matrix.of fun p y => if p = (α₀, y) then 1 else 0, fun hz => ?_, fun h hh => ?_⟩
  · obtain ⟨x⟩ := ‹Nonempty ι›
    have := congrFun (congrFun hz (α₀, x)) x
    simp at this
  · ext ⟨α, x⟩ y
    rw [Matrix.mul_apply, Matrix.mul_apply]
    simp only [Matrix.of_apply, mul_ite, mul_one, mul_zero, Finset.sum_ite_eq', Finset.mem_univ, if_true, ite_mul, one_mul,
      zero_mul, Prod.mk.injEq]
    by_cases hα : α = α₀
    · subst hα
      simp [indRep, h0, hh]
    · have : ¬ (c α)⁻¹ * h * c α₀ ∈ H := fun h' => hα (hc.inj α α₀ (by
        rw [h0, mul_one] at h' ⊢
        exact (H.mul_mem_cancel_right hh).1 h'))
      simp only [indRep, this, if_false]
      simp [hα]

end Spgrep
