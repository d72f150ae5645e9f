/-
The symmetry-adapted basis tensors form a basis of all tensors.
-/
import Verif.Proofs.Tensor
import Verif.Props.ProjectBasis

namespace Spgrep

open Spec Matrix

variable {n D d p : ℕ} {T : Fin n → Fin n → Fin n}

theorem list_sum_fin {α M : Type*} [AddCommMonoid M] (L : List α) (f : α → M) :
    (L.map f).sum = ∑ i : Fin L.length, f (L.get i) := by
  rw [← List.sum_ofFn]
  refine congrArg List.sum ?_
  conv_lhs => rw [← List.ofFn_get L, List.map_ofFn]
  rfl

/-- The character of the regular representation. -/
theorem sum_dim_char (hT : IsGroupTable T) {L : List (AnyRep n)} (hL : IsCompleteIrreps T (fun _ _ => 1) L) {e : Fin n}
    (he : ∀ g, T e g = g) (g : Fin n) :
    (L.map fun E => (E.1 : ℂ) * (E.2 g).trace).sum = if g = e then (n : ℂ) else 0 := by
  classical
  have hμ : ∀ g h : Fin n, (fun _ _ => (1 : ℂ) : Fin n → Fin n → ℂ) g h ≠ 0 := fun _ _ => one_ne_zero
  have hsq := IsCompleteIrreps.sum_sq hT hμ (fun _ _ _ => rfl) hL
  have hmem : ∀ i : Fin L.length, L.get i ∈ L := fun i => List.get_mem L i
  have hineq : ∀ i j : Fin L.length, AreEquivalent (L.get i).2 (L.get j).2 → i = j := by
    intro i j hij
    have hd := List.pairwise_iff_get.1 hL.inequiv
    rcases lt_trichotomy i j with h1 | h1 | h1
    · exact absurd hij (hd i j h1)
    · exact h1
    · exact absurd (AreEquivalent.symm hij) (hd j i h1)
  have hn : (n : ℂ) ≠ 0 := by exact_mod_cast (table_pos hT).ne'
  let F : (Σ i : Fin L.length, Fin (L.get i).1 × Fin (L.get i).1) → Fin n → ℂ :=
    fun x g => (L.get x.1).2 g x.2.1 x.2.2
  have hspan : Submodule.span ℂ (Set.range F) = ⊤ := by
    let _ := TG.group hT
    have hF : IrrepFamily (G := TG T) (A := Fin L.length) (d := fun i => (L.get i).1) (fun _ _ => 1)
        (fun i => (L.get i).2) :=
      ⟨fun i => hL.rep _ (hmem i), fun i => IsUnitaryRep.isUnit (hL.unitary _ (hmem i)),
        fun i => hL.irred _ (hmem i), hineq⟩
    have hs : ∑ i : Fin L.length, (L.get i).1 ^ 2 = Fintype.card (TG T) := by
      rw [list_sum_fin] at hsq
      exact hsq.trans (Fintype.card_fin n).symm
    have key := coeffs_span_of_card (G := TG T) hμ hF hs
    exact key
  have hmemF : (fun g => if g = e then (n : ℂ) else 0) ∈ Submodule.span ℂ (Set.range F) := by rw [hspan]; trivial
  obtain ⟨c, hc⟩ := (Submodule.mem_span_range_iff_exists_fun ℂ).1 hmemF
  have hone : ∀ i, (L.get i).2 e = 1 := by
    intro i
    have h1 := hL.rep _ (hmem i) e e
    rw [he, one_smul] at h1
    have hu := IsUnitaryRep.isUnit (hL.unitary _ (hmem i)) e
    exact hu.mul_left_cancel (by rw [h1, Matrix.mul_one])
  have hcv : ∀ i j k, c ⟨i, j, k⟩ = if j = k then ((L.get i).1 : ℂ) else 0 := by
    intro i j k
    have hd : ((L.get i).1 : ℂ) ≠ 0 := by
      obtain ⟨⟨x, hx⟩⟩ := (hL.irred _ (hmem i)).1
      exact_mod_cast (lt_of_le_of_lt (Nat.zero_le _) hx).ne'
    have h1 : ∑ g, (∑ x, c x • F x) g * star ((L.get i).2 g j k) = n * star ((1 : Matrix _ _ ℂ) j k) := by
      rw [hc, Finset.sum_eq_single e]
      · beta_reduce
        rw [if_pos rfl, hone]
      · intro g _ hg
        beta_reduce
        rw [if_neg hg, zero_mul]
      · intro h; exact absurd (Finset.mem_univ _) h
    simp only [Finset.sum_apply, Pi.smul_apply, smul_eq_mul, Finset.sum_mul] at h1
    rw [Finset.sum_comm, Finset.sum_eq_single (⟨i, j, k⟩ : Σ i : Fin L.length, Fin (L.get i).1 × Fin (L.get i).1)] at h1
    · simp only [mul_assoc] at h1
      rw [← Finset.mul_sum, table_schur_orthogonality_self hT hμ (hL.rep _ (hmem i)) (hL.irred _ (hmem i))
        (hL.unitary _ (hmem i)), if_pos ⟨rfl, rfl⟩, Fintype.card_fin, Matrix.one_apply] at h1
      split_ifs at h1 ⊢
      · rw [star_one, mul_one] at h1
        field_simp at h1
        exact h1
      · rw [star_zero, mul_zero] at h1
        rcases mul_eq_zero.1 h1 with h | h
        · exact h
        · exact absurd h (div_ne_zero hn hd)
    · rintro ⟨i', j', k'⟩ _ hne
      simp only [mul_assoc]
      rw [← Finset.mul_sum]
      by_cases hii : i' = i
      · subst hii
        rw [table_schur_orthogonality_self hT hμ (hL.rep _ (hmem i')) (hL.irred _ (hmem i')) (hL.unitary _ (hmem i')),
          if_neg, mul_zero]
        rintro ⟨rfl, rfl⟩
        exact hne rfl
      · rw [table_schur_orthogonality_ne hT hμ (hL.rep _ (hmem i')) (hL.rep _ (hmem i)) (hL.irred _ (hmem i'))
          (hL.irred _ (hmem i)) (hL.unitary _ (hmem i)) (fun h => hii (hineq _ _ h)), mul_zero]
    · intro h; exact absurd (Finset.mem_univ _) h
  have h2 := congrFun hc g
  rw [← h2, list_sum_fin, Finset.sum_apply, Fintype.sum_sigma]
  refine Finset.sum_congr rfl fun i _ => ?_
  rw [Fintype.sum_prod_type]
  simp only [Pi.smul_apply, smul_eq_mul, hcv, ite_mul, zero_mul, Finset.sum_ite_eq, Finset.mem_univ, if_true, F]
  rw [← Finset.mul_sum]
  rfl

theorem sum_dim_char_star (hT : IsGroupTable T) {L : List (AnyRep n)} (hL : IsCompleteIrreps T (fun _ _ => 1) L)
    {e : Fin n} (he : ∀ g, T e g = g) (g : Fin n) :
    (L.map fun E => (E.1 : ℂ) * star (E.2 g).trace).sum = if g = e then (n : ℂ) else 0 := by
  have h := congrArg star (sum_dim_char hT hL he g)
  rw [list_sum_fin, star_sum] at h
  rw [list_sum_fin]
  refine Eq.trans (Finset.sum_congr rfl fun i _ => ?_) (h.trans ?_)
  · simp
  · split_ifs <;> simp

theorem rep_one {N : ℕ} {F : RepArr n N} (hF : IsProjRep T (fun _ _ => 1) F) (hu : IsUnitaryRep F) {e : Fin n}
    (he : ∀ g, T e g = g) : F e = 1 := by
  have h1 := hF e e
  rw [he, one_smul] at h1
  exact (IsUnitaryRep.isUnit hu e).mul_left_cancel (by rw [h1, Matrix.mul_one])

/-- Projections of one representation to all irreps together give a basis, if each is complete. -/
theorem stage_of (hT : IsGroupTable T) {L : List (AnyRep n)} (hL : IsCompleteIrreps T (fun _ _ => 1) L) {N : ℕ}
    {F : RepArr n N} (hF : IsProjRep T (fun _ _ => 1) F) (hF1 : ∀ e, (∀ g, T e g = g) → F e = 1)
    (bs : ∀ E : AnyRep n, List (Matrix (Fin E.1) (Fin N) ℂ))
    (h57 : ∀ E ∈ L, (bs E).length = Module.finrank ℂ (homSub F E.2) ∧ ∀ b : Matrix (Fin E.1) (Fin N) ℂ,
      (∀ g i m, ∑ m', F g m m' * b i m' = ∑ l, b l m * E.2 g l i) →
      ∃ c : Fin (bs E).length → ℂ, b = ∑ i, c i • (bs E).get i) :
    (∀ c : Fin N, (Pi.single c 1 : Fin N → ℂ) ∈
      Submodule.span ℂ {v | ∃ E ∈ L, ∃ b ∈ bs E, ∃ i, v = b.row i}) ∧
    (L.map fun E => (bs E).length * E.1).sum = N := by
  obtain ⟨e, he, _⟩ := hT.one_inv
  have hμ : ∀ g h : Fin n, (fun _ _ => (1 : ℂ) : Fin n → Fin n → ℂ) g h ≠ 0 := fun _ _ => one_ne_zero
  have hn : (n : ℂ) ≠ 0 := by exact_mod_cast (table_pos hT).ne'
  constructor
  · intro c
    have h1 : (Pi.single c 1 : Fin N → ℂ) = (L.map fun E => ∑ j, (projBlock F E.2 c j).row j).sum := by
      funext m
      have h2 : ∀ E : AnyRep n, (∑ j, (projBlock F E.2 c j).row j) m =
          (n : ℂ)⁻¹ * ∑ k, ((E.1 : ℂ) * star (E.2 k).trace) * F k m c := by
        intro E
        simp only [Finset.sum_apply, Matrix.row, projBlock, Matrix.of_apply, Matrix.trace, Matrix.diag_apply, star_sum]
        rw [← Finset.mul_sum, Finset.sum_comm, Finset.mul_sum, Finset.mul_sum]
        refine Finset.sum_congr rfl fun k _ => ?_
        rw [← Finset.sum_mul, div_eq_mul_inv]
        ring
      rw [list_sum_fin, Finset.sum_apply]
      simp only [h2]
      rw [← Finset.mul_sum, Finset.sum_comm]
      have h3 : ∀ k, ∑ i : Fin L.length, (((L.get i).1 : ℂ) * star ((L.get i).2 k).trace) * F k m c =
          (if k = e then (n : ℂ) else 0) * F k m c := by
        intro k
        rw [← Finset.sum_mul, ← sum_dim_char_star hT hL he k, list_sum_fin]
      simp only [h3, ite_mul, zero_mul, Finset.sum_ite_eq', Finset.mem_univ, if_true]
      rw [hF1 e he, inv_mul_cancel_left₀ hn, Matrix.one_apply, Pi.single_apply]
    rw [h1]
    refine list_sum_mem fun v hv => ?_
    obtain ⟨E, hE, rfl⟩ := List.mem_map.1 hv
    refine Submodule.sum_mem _ fun j _ => ?_
    obtain ⟨a, ha⟩ := (h57 E hE).2 (projBlock F E.2 c j) (by
      intro g i m
      have := congrFun (congrFun (projBlock_intertwines hT hμ hF (hL.rep E hE) (hL.unitary E hE) c j g) m) i
      simpa [Matrix.mul_apply] using this)
    rw [ha]
    have h5 : (∑ i, a i • (bs E).get i).row j = ∑ i, a i • ((bs E).get i).row j := by
      funext m
      simp [Matrix.row, Matrix.sum_apply]
    rw [h5]
    exact Submodule.sum_mem _ fun i _ => Submodule.smul_mem _ _
      (Submodule.subset_span ⟨E, hE, _, List.get_mem _ _, j, rfl⟩)
  · have h6 : ∀ E ∈ L, (n : ℂ) * ((bs E).length * E.1 : ℕ) = ∑ g, (F g).trace * ((E.1 : ℂ) * star (E.2 g).trace) := by
      intro E hE
      rw [(h57 E hE).1, Nat.cast_mul, ← mul_assoc, ← table_sum_char_conj hT hμ hF (hL.rep E hE) (hL.unitary E hE), Finset.sum_mul]
      exact Finset.sum_congr rfl fun g _ => by ring
    have h10 : (n : ℂ) * (((L.map fun E => (bs E).length * E.1).sum : ℕ) : ℂ) = n * (N : ℂ) := by
      rw [list_sum_fin, Nat.cast_sum, Finset.mul_sum]
      rw [Finset.sum_congr rfl fun i _ => h6 _ (List.get_mem L i), Finset.sum_comm]
      have h11 : ∀ g, ∑ i : Fin L.length, (F g).trace * (((L.get i).1 : ℂ) * star ((L.get i).2 g).trace) =
          (F g).trace * (if g = e then (n : ℂ) else 0) := by
        intro g
        rw [← Finset.mul_sum, ← sum_dim_char_star hT hL he g, list_sum_fin]
      simp only [h11, mul_ite, mul_zero, Finset.sum_ite_eq', Finset.mem_univ, if_true]
      rw [hF1 e he, Matrix.trace_one, Fintype.card_fin, mul_comm]
    exact_mod_cast mul_left_cancel₀ hn h10

/-- Projections of one representation to all irreps together give a basis. -/
theorem stage (hT : IsGroupTable T) {L : List (AnyRep n)} (hL : IsCompleteIrreps T (fun _ _ => 1) L) {N : ℕ}
    {F : RepArr n N} (hF : IsProjRep T (fun _ _ => 1) F) (hu : IsUnitaryRep F) {la : LinAlg} (hla : la.Contract)
    {atol : ℝ} (bs : ∀ E : AnyRep n, List (Matrix (Fin E.1) (Fin N) ℂ))
    (hbs : ∀ E ∈ L, projectToIrrep la F E.2 atol = .ok (bs E, false)) :
    (∀ c : Fin N, (Pi.single c 1 : Fin N → ℂ) ∈
      Submodule.span ℂ {v | ∃ E ∈ L, ∃ b ∈ bs E, ∃ i, v = b.row i}) ∧
    (L.map fun E => (bs E).length * E.1).sum = N := by
  refine stage_of hT hL hF (fun e he => rep_one hF hu he) bs fun E hE => ?_
  obtain ⟨_, h7, h8, h4⟩ := (c57_projection_basis hT (fun _ _ => one_ne_zero) hF hu (hL.rep E hE) (hL.unitary E hE)
    (hL.irred E hE) la hla atol 10).2 _ _ (hbs E hE)
  have : ¬ (bs E).length < Module.finrank ℂ (homSub F E.2) := fun h => by simpa using h8.2 h
  exact ⟨by omega, h4 rfl⟩

/-- The bases span all tensors, and there are as many as the dimension. -/
structure FullBasis (tbs : List (TensorBasis n D p)) : Prop where
  span : Submodule.span ℂ {v : Tensor D p | ∃ t ∈ tbs, ∃ i, v = t.basis i} = ⊤
  card : (tbs.map fun t => t.dim).sum = D ^ p

theorem mapM_flatten_sum {α β : Type} {f : α → Except PyErr (List β × Bool)} {size : β → ℕ} {s : α → ℕ} {l : List α}
    {ls : List (List β × Bool)} (h : List.Forall₂ (fun a r => f a = .ok r) l ls)
    (hs : ∀ a ∈ l, ∀ r, f a = .ok r → (r.1.map size).sum = s a) :
    ((ls.map Prod.fst).flatten.map size).sum = (l.map s).sum := by
  induction h with
  | nil => rfl
  | cons h1 _ ih =>
    simp only [List.map_cons, List.flatten_cons, List.map_append, List.sum_append, List.sum_cons]
    rw [ih fun a ha => hs a (List.mem_cons_of_mem _ ha), hs _ (List.mem_cons_self ..) _ h1]

theorem mapM_flatten_mem {α β : Type} {f : α → Except PyErr (List β × Bool)} {l : List α}
    {ls : List (List β × Bool)} (h : List.Forall₂ (fun a r => f a = .ok r) l ls) {a : α} (ha : a ∈ l) {r : List β × Bool}
    (hr : f a = .ok r) {b : β} (hb : b ∈ r.1) : b ∈ (ls.map Prod.fst).flatten := by
  obtain ⟨r', hr', he⟩ := forall₂_left h ha
  rw [hr] at he
  cases he
  exact List.mem_flatten.2 ⟨r.1, List.mem_map.2 ⟨r, hr', rfl⟩, hb⟩

theorem any_false {α β : Type} {f : α → Except PyErr (List β × Bool)} {l : List α}
    {ls : List (List β × Bool)} (h : List.Forall₂ (fun a r => f a = .ok r) l ls) (hw : ls.any Prod.snd = false) {a : α}
    (ha : a ∈ l) : ∃ b, f a = .ok (b, false) := by
  obtain ⟨⟨b, w⟩, hr', he⟩ := forall₂_left h ha
  rw [List.any_eq_false] at hw
  have := hw _ hr'
  simp only [Bool.not_eq_true] at this
  subst this
  exact ⟨b, he⟩

open Classical in
/-- The blocks of one projection (empty on failure). -/
noncomputable def projBs (la : LinAlg) {N : ℕ} (F : RepArr n N) (atol : ℝ) (E : AnyRep n) :
    List (Matrix (Fin E.1) (Fin N) ℂ) :=
  match projectToIrrep la F E.2 atol with
  | .ok (b, _) => b
  | .error _ => []

/-- The common shape of the inner loops over irreps. -/
theorem irrepLoop {N : ℕ} {F : RepArr n N} {la : LinAlg} {atol : ℝ} {L : List (AnyRep n)} {β : Type}
    {mk : ∀ E : AnyRep n, Matrix (Fin E.1) (Fin N) ℂ → β} {ls : List (List β × Bool)}
    (h : (L.mapM fun E => do
      let (bs, w) ← projectToIrrep la F E.2 atol
      return (bs.map (mk E), w)) = .ok ls) (hw : ls.any Prod.snd = false) :
    (∀ E ∈ L, projectToIrrep la F E.2 atol = .ok (projBs la F atol E, false)) ∧
    (∀ E ∈ L, ∀ b ∈ projBs la F atol E, mk E b ∈ (ls.map Prod.fst).flatten) ∧
    (∀ size : β → ℕ, (∀ E b, size (mk E b) = E.1) → ((ls.map Prod.fst).flatten.map size).sum =
      (L.map fun E => (projBs la F atol E).length * E.1).sum) := by
  have h2 := mapM_forall₂ h
  have h3 : ∀ E ∈ L, projectToIrrep la F E.2 atol = .ok (projBs la F atol E, false) := by
    intro E hE
    obtain ⟨b, hb⟩ := any_false h2 hw hE
    simp only [bind, Except.bind, pure, Except.pure] at hb
    unfold projBs
    split at hb
    · cases hb
    · rename_i x hx
      obtain ⟨x1, x2⟩ := x
      cases hb
      rw [hx]
  refine ⟨h3, ?_, ?_⟩
  · intro E hE b hb
    refine mapM_flatten_mem h2 hE (r := ((projBs la F atol E).map (mk E), false)) ?_ (List.mem_map.2 ⟨b, hb, rfl⟩)
    rw [h3 E hE]
    rfl
  · intro size hsize
    refine mapM_flatten_sum h2 ?_
    intro E hE r hr
    rw [h3 E hE] at hr
    cases hr
    rw [List.map_map]
    have : (size ∘ mk E) = fun _ => E.1 := funext fun b => hsize E b
    rw [this]
    simp

theorem vectorBasis_full_of {L : List (AnyRep n)} {rep : RepArr n D} {la : LinAlg} {atol : ℝ}
    {vbs : List (TensorBasis n D 1)}
    (hst : (∀ E ∈ L, projectToIrrep la rep E.2 atol = .ok (projBs la rep atol E, false)) →
      (∀ c : Fin D, (Pi.single c 1 : Fin D → ℂ) ∈
        Submodule.span ℂ {v | ∃ E ∈ L, ∃ b ∈ projBs la rep atol E, ∃ i, v = b.row i}) ∧
      (L.map fun E => (projBs la rep atol E).length * E.1).sum = D)
    (h : vectorBasis la rep L atol = .ok (vbs, false)) : FullBasis vbs := by
  unfold vectorBasis at h
  simp only [bind, Except.bind] at h
  split at h
  · cases h
  · rename_i ls hls
    have h' := Except.ok.inj h
    rw [Prod.mk.injEq] at h'
    obtain ⟨rfl, hw⟩ := h'
    obtain ⟨h1, h2, h3⟩ := irrepLoop (mk := fun E b => ({ dim := E.1, irrep := E.2, basis := fun i a => b i (a 0) } :
      TensorBasis n D 1)) hls hw
    obtain ⟨h4, h5⟩ := hst h1
    refine ⟨?_, ?_⟩
    · rw [eq_top_iff]
      intro t _
      let φ : (Fin D → ℂ) →ₗ[ℂ] Tensor D 1 := LinearMap.funLeft ℂ ℂ fun a : Fin 1 → Fin D => a 0
      have h6 : t = φ fun x => t fun _ => x := by
        funext a
        show t a = t fun _ => a 0
        congr 1
        funext k
        rw [Subsingleton.elim k 0]
      have h7 : (fun x => t fun _ => x) ∈ Submodule.span ℂ {v | ∃ E ∈ L, ∃ b ∈ projBs la rep atol E, ∃ i, v = b.row i} := by
        have h8 : (fun x => t fun _ => x : Fin D → ℂ) = ∑ x, (t fun _ => x) • (Pi.single x 1 : Fin D → ℂ) := by
          funext y
          simp [Finset.sum_apply, Pi.single_apply]
        rw [h8]
        exact Submodule.sum_mem _ fun x _ => Submodule.smul_mem _ _ (h4 x)
      rw [h6]
      have h9 := Submodule.mem_map_of_mem (f := φ) h7
      rw [Submodule.map_span] at h9
      refine Submodule.span_mono ?_ h9
      rintro _ ⟨v, ⟨E, hE, b, hb, i, rfl⟩, rfl⟩
      exact ⟨_, h2 E hE b hb, i, rfl⟩
    · rw [h3 _ fun _ _ => rfl, h5, pow_one]

theorem vectorBasis_full (hT : IsGroupTable T) {L : List (AnyRep n)} (hL : IsCompleteIrreps T (fun _ _ => 1) L)
    {rep : RepArr n D} (hrep : IsProjRep T (fun _ _ => 1) rep) (hru : IsUnitaryRep rep) {la : LinAlg}
    (hla : la.Contract) {atol : ℝ} {vbs : List (TensorBasis n D 1)}
    (h : vectorBasis la rep L atol = .ok (vbs, false)) : FullBasis vbs :=
  vectorBasis_full_of (stage hT hL hrep hru hla _) h

/-- Outer product with a vector, the new index last. -/
def outer (t : Tensor D p) (v : Tensor D 1) : Tensor D (p + 1) := fun a => t (Fin.init a) * v fun _ => a (Fin.last p)

theorem tensorPair_full (hT : IsGroupTable T) {L : List (AnyRep n)} (hL : IsCompleteIrreps T (fun _ _ => 1) L)
    {la : LinAlg} (hla : la.Contract) {atol : ℝ} {t : TensorBasis n D p} {v : TensorBasis n D 1}
    (ht : (⟨t.dim, t.irrep⟩ : AnyRep n) ∈ L) (hv : (⟨v.dim, v.irrep⟩ : AnyRep n) ∈ L)
    {r : List (TensorBasis n D (p + 1))} (h : tensorPair la L atol t v = .ok (r, false)) :
    (∀ j k, outer (t.basis j) (v.basis k) ∈ Submodule.span ℂ {x : Tensor D (p + 1) | ∃ t ∈ r, ∃ i, x = t.basis i}) ∧
    (r.map fun t => t.dim).sum = t.dim * v.dim := by
  have h1 := hL.rep _ ht
  have h2 := hL.rep _ hv
  unfold tensorPair at h
  simp only [bind, Except.bind] at h
  split at h
  · cases h
  · rename_i F hF
    obtain ⟨F', hF', hFe, hFr, hFu, _⟩ := c23_direct_product.2 t.irrep v.irrep
    rw [hF] at hF'
    cases hF'
    split at h
    · cases h
    · rename_i ls hls
      have h' := Except.ok.inj h
      rw [Prod.mk.injEq] at h'
      obtain ⟨rfl, hw⟩ := h'
      obtain ⟨i1, i2, i3⟩ := irrepLoop (mk := fun E c =>
        ({ dim := E.1, irrep := E.2, basis := contractBasis c t.basis v.basis } : TensorBasis n D (p + 1))) hls hw
      have hFr' : IsProjRep T (fun _ _ => 1) F := by
        have := hFr T _ _ h1 h2
        simpa using this
      obtain ⟨h4, h5⟩ := stage hT hL hFr' (hFu (hL.unitary _ ht) (hL.unitary _ hv)) hla _ i1
      refine ⟨?_, ?_⟩
      · intro j k
        let φ : (Fin (t.dim * v.dim) → ℂ) →ₗ[ℂ] Tensor D (p + 1) :=
          { toFun := fun c a => ∑ j, ∑ k, c (finProdFinEquiv (j, k)) * t.basis j (Fin.init a) *
              v.basis k fun _ => a (Fin.last p)
            map_add' := by
              intro x y
              funext a
              simp only [Pi.add_apply, add_mul, Finset.sum_add_distrib]
            map_smul' := by
              intro c x
              funext a
              simp only [Pi.smul_apply, smul_eq_mul, Finset.mul_sum, RingHom.id_apply, mul_assoc] }
        have h6 : outer (t.basis j) (v.basis k) = φ (Pi.single (finProdFinEquiv (j, k)) 1) := by
          funext a
          show _ = ∑ j' : Fin t.dim, ∑ k' : Fin v.dim,
            (Pi.single (finProdFinEquiv (j, k)) 1 : Fin (t.dim * v.dim) → ℂ) (finProdFinEquiv (j', k')) *
              t.basis j' (Fin.init a) * v.basis k' fun _ => a (Fin.last p)
          rw [Finset.sum_eq_single j, Finset.sum_eq_single k]
          · simp [outer]
          · intro k' _ hk
            rw [Pi.single_apply, if_neg, zero_mul, zero_mul]
            simpa using hk
          · intro h; exact absurd (Finset.mem_univ _) h
          · intro j' _ hj
            refine Finset.sum_eq_zero fun k' _ => ?_
            rw [Pi.single_apply, if_neg, zero_mul, zero_mul]
            simp [hj]
          · intro h; exact absurd (Finset.mem_univ _) h
        rw [h6]
        have h9 := Submodule.mem_map_of_mem (f := φ) (h4 (finProdFinEquiv (j, k)))
        rw [Submodule.map_span] at h9
        refine Submodule.span_mono ?_ h9
        rintro _ ⟨x, ⟨E, hE, b, hb, i, rfl⟩, rfl⟩
        exact ⟨_, i2 E hE b hb, i, rfl⟩
      · rw [i3 _ fun _ _ => rfl, h5]

theorem tensorStep_full (hT : IsGroupTable T) {L : List (AnyRep n)} (hL : IsCompleteIrreps T (fun _ _ => 1) L)
    {la : LinAlg} (hla : la.Contract) {atol : ℝ} {tbs : List (TensorBasis n D p)} {vbs : List (TensorBasis n D 1)}
    (ht : ∀ t ∈ tbs, (⟨t.dim, t.irrep⟩ : AnyRep n) ∈ L) (hv : ∀ v ∈ vbs, (⟨v.dim, v.irrep⟩ : AnyRep n) ∈ L)
    (htf : FullBasis tbs) (hvf : FullBasis vbs)
    {r : List (TensorBasis n D (p + 1))} (h : tensorStep la L atol tbs vbs = .ok (r, false)) : FullBasis r := by
  unfold tensorStep at h
  simp only [bind, Except.bind] at h
  split at h
  · cases h
  · rename_i ls hls
    have h' := Except.ok.inj h
    rw [Prod.mk.injEq] at h'
    obtain ⟨rfl, hw⟩ := h'
    have h2 := mapM_forall₂ hls
    have hpair : ∀ t ∈ tbs, ∀ v ∈ vbs, (t, v) ∈ tbs.flatMap fun t => vbs.map fun v => (t, v) := fun t ht' v hv' =>
      List.mem_flatMap.2 ⟨t, ht', List.mem_map.2 ⟨v, hv', rfl⟩⟩
    have hpair' : ∀ x ∈ tbs.flatMap fun t => vbs.map fun v => (t, v), x.1 ∈ tbs ∧ x.2 ∈ vbs := by
      intro x hx
      obtain ⟨t, ht', hx⟩ := List.mem_flatMap.1 hx
      obtain ⟨v, hv', rfl⟩ := List.mem_map.1 hx
      exact ⟨ht', hv'⟩
    set W := Submodule.span ℂ {x : Tensor D (p + 1) | ∃ t ∈ (ls.map Prod.fst).flatten, ∃ i, x = t.basis i} with hW
    have h3 : ∀ t ∈ tbs, ∀ v ∈ vbs, ∀ j k, outer (t.basis j) (v.basis k) ∈ W := by
      intro t ht' v hv' j k
      obtain ⟨b, hb⟩ := any_false h2 hw (hpair t ht' v hv')
      refine Submodule.span_mono ?_ ((tensorPair_full hT hL hla (ht t ht') (hv v hv') hb).1 j k)
      rintro _ ⟨x, hx, i, rfl⟩
      exact ⟨x, mapM_flatten_mem h2 (hpair t ht' v hv') hb hx, i, rfl⟩
    have h4 : ∀ t ∈ tbs, ∀ j (y : Tensor D 1), outer (t.basis j) y ∈ W := by
      intro t ht' j y
      have hy : y ∈ Submodule.span ℂ {x : Tensor D 1 | ∃ v ∈ vbs, ∃ i, x = v.basis i} := by rw [hvf.span]; trivial
      induction hy using Submodule.span_induction with
      | mem x hx => obtain ⟨v, hv', k, rfl⟩ := hx; exact h3 t ht' v hv' j k
      | zero =>
        have : outer (t.basis j) (0 : Tensor D 1) = 0 := by funext a; simp [outer]
        rw [this]; exact Submodule.zero_mem _
      | add x y _ _ hx hy =>
        have : outer (t.basis j) (x + y) = outer (t.basis j) x + outer (t.basis j) y := by
          funext a; simp [outer, mul_add]
        rw [this]; exact Submodule.add_mem _ hx hy
      | smul c x _ hx =>
        have : outer (t.basis j) (c • x) = c • outer (t.basis j) x := by
          funext a; simp [outer]; ring
        rw [this]; exact Submodule.smul_mem _ _ hx
    have h5 : ∀ (x : Tensor D p) (y : Tensor D 1), outer x y ∈ W := by
      intro x y
      have hx : x ∈ Submodule.span ℂ {x : Tensor D p | ∃ t ∈ tbs, ∃ i, x = t.basis i} := by rw [htf.span]; trivial
      induction hx using Submodule.span_induction with
      | mem x hx => obtain ⟨t, ht', j, rfl⟩ := hx; exact h4 t ht' j y
      | zero =>
        have : outer (0 : Tensor D p) y = 0 := by funext a; simp [outer]
        rw [this]; exact Submodule.zero_mem _
      | add x x' _ _ hx hy =>
        have : outer (x + x') y = outer x y + outer x' y := by
          funext a; simp [outer, add_mul]
        rw [this]; exact Submodule.add_mem _ hx hy
      | smul c x _ hx =>
        have : outer (c • x) y = c • outer x y := by
          funext a; simp [outer]; ring
        rw [this]; exact Submodule.smul_mem _ _ hx
    refine ⟨?_, ?_⟩
    · rw [eq_top_iff]
      intro x _
      have h6 : x = ∑ a : Fin (p + 1) → Fin D, x a • outer (Pi.single (Fin.init a) 1 : Tensor D p)
          (Pi.single (fun _ => a (Fin.last p)) 1 : Tensor D 1) := by
        funext b
        rw [Finset.sum_apply, Finset.sum_eq_single b]
        · simp [outer]
        · intro a _ hab
          simp only [Pi.smul_apply, outer, smul_eq_mul, Pi.single_apply]
          by_cases h7 : Fin.init b = Fin.init a
          · by_cases h8 : (fun _ : Fin 1 => b (Fin.last p)) = fun _ => a (Fin.last p)
            · exfalso
              apply hab
              rw [← Fin.snoc_init_self a, ← Fin.snoc_init_self b, h7, congrFun h8 0]
            · rw [if_neg h8, mul_zero, mul_zero]
          · rw [if_neg h7, zero_mul, mul_zero]
        · intro h; exact absurd (Finset.mem_univ _) h
      rw [h6]
      exact Submodule.sum_mem _ fun a _ => Submodule.smul_mem _ _ (h5 _ _)
    · rw [mapM_flatten_sum (s := fun x : TensorBasis n D p × TensorBasis n D 1 => x.1.dim * x.2.dim) h2]
      · have h9 : ∀ (l : List (TensorBasis n D p)), ((l.flatMap fun t => vbs.map fun v => (t, v)).map
            fun x : TensorBasis n D p × TensorBasis n D 1 => x.1.dim * x.2.dim).sum =
            (l.map fun t => t.dim).sum * (vbs.map fun v => v.dim).sum := by
          intro l
          induction l with
          | nil => simp
          | cons t l ih =>
            simp only [List.flatMap_cons, List.map_append, List.sum_append, ih, List.map_cons, List.sum_cons, add_mul,
              List.map_map, Function.comp_def, List.sum_map_mul_left]
        rw [h9, htf.card, hvf.card, pow_one, pow_succ]
      · intro x hx r hr
        obtain ⟨b, hb⟩ := any_false h2 hw hx
        rw [hb] at hr
        cases hr
        exact (tensorPair_full hT hL hla (ht _ (hpair' x hx).1) (hv _ (hpair' x hx).2) hb).2

theorem tensorLoop_full (hT : IsGroupTable T) {L : List (AnyRep n)} (hL : IsCompleteIrreps T (fun _ _ => 1) L)
    {la : LinAlg} (hla : la.Contract) {atol : ℝ} {rep : RepArr n D} {vbs : List (TensorBasis n D 1)}
    (hv : ∀ v ∈ vbs, v.Good rep L) (hvf : FullBasis vbs) (hE : ∀ E ∈ L, GoodIrrep T E.2) :
    ∀ (q : ℕ) {r : List (TensorBasis n D (q + 1))}, tensorLoop la L atol vbs q = .ok (r, false) → FullBasis r
  | 0, r, h => by
    have h' := Except.ok.inj h
    rw [Prod.mk.injEq] at h'
    rw [← h'.1]
    exact hvf
  | q + 1, r, h => by
    unfold tensorLoop at h
    simp only [bind, Except.bind, pure, Except.pure] at h
    split at h
    · cases h
    · rename_i y hy
      split at h
      · cases h
      · rename_i z hz
        have h' := Except.ok.inj h
        rw [Prod.mk.injEq, Bool.or_eq_false_iff] at h'
        obtain ⟨rfl, hw1, hw2⟩ := h'
        obtain ⟨y1, y2⟩ := y
        obtain ⟨z1, z2⟩ := z
        simp only at hw1 hw2 hz
        subst hw1 hw2
        exact tensorStep_full hT hL hla (fun t ht => (tensorLoop_good hT hE hv q hy t ht).2) (fun v hv' => (hv v hv').2)
          (tensorLoop_full hT hL hla hv hvf hE q hy) hvf hz

/-! ### The invariant tensors -/

/-- The test of tensor.py:74-77. -/
def TensorBasis.Trivial (t : TensorBasis n D p) : Prop :=
  t.dim ≤ 1 ∧ IsEquivalentIrrep (charList t.irrep) (List.replicate n 1)

/-- The first basis tensor. -/
noncomputable def TensorBasis.first (t : TensorBasis n D p) : Tensor D p := if h : 0 < t.dim then t.basis ⟨0, h⟩ else 0

open Classical in
theorem takeInvariant_eq : ∀ (tbs : List (TensorBasis n D p)) (acc : List (Tensor D p)), (∀ t ∈ tbs, 0 < t.dim) →
    tbs.foldlM invariantStep acc =
      .ok (acc ++ (tbs.filter fun t => decide t.Trivial).map TensorBasis.first)
  | [], acc, _ => by simp [pure, Except.pure]
  | t :: tbs, acc, h => by
    rw [List.foldlM_cons]
    have ht : 0 < t.dim := h t (List.mem_cons_self ..)
    have ih := fun acc => takeInvariant_eq tbs acc fun x hx => h x (List.mem_cons_of_mem _ hx)
    by_cases h1 : t.dim > 1
    · have h2 : ¬ t.Trivial := fun h => by have := h.1; omega
      rw [List.filter_cons_of_neg (by simpa using h2)]
      simp only [invariantStep, if_pos h1, bind, Except.bind]
      exact ih acc
    · by_cases h3 : IsEquivalentIrrep (charList t.irrep) (List.replicate n 1)
      · have h2 : t.Trivial := ⟨by omega, h3⟩
        rw [List.filter_cons_of_pos (by simpa using h2)]
        simp only [invariantStep, if_neg h1, if_pos h3, dif_pos ht, bind, Except.bind, List.map_cons]
        rw [ih, List.append_assoc]
        simp [TensorBasis.first, ht]
      · have h2 : ¬ t.Trivial := fun h => h3 h.2
        rw [List.filter_cons_of_neg (by simpa using h2)]
        simp only [invariantStep, if_neg h1, if_neg h3, bind, Except.bind]
        exact ih acc

theorem fullBasis_indep {tbs : List (TensorBasis n D p)} (h : FullBasis tbs) :
    LinearIndependent ℂ fun x : (Σ i : Fin tbs.length, Fin (tbs.get i).dim) => (tbs.get x.1).basis x.2 := by
  apply linearIndependent_of_top_le_span_of_card_eq_finrank
  · rw [← h.span]
    apply Submodule.span_mono
    rintro _ ⟨t, ht, i, rfl⟩
    obtain ⟨k, rfl⟩ := List.get_of_mem ht
    exact ⟨⟨k, i⟩, rfl⟩
  · have h1 := h.card
    rw [list_sum_fin] at h1
    rw [Fintype.card_sigma]
    simp only [Fintype.card_fin]
    rw [h1]
    simp [Tensor]

/-- The average over the group. -/
noncomputable def avgTensor (rep : RepArr n D) : Tensor D p →ₗ[ℂ] Tensor D p where
  toFun t := fun a => (n : ℂ)⁻¹ * ∑ g, actTensor (rep g) t a
  map_add' := by
    intro x y
    funext a
    simp only [actTensor, Pi.add_apply, mul_add, Finset.sum_add_distrib]
  map_smul' := by
    intro c x
    funext a
    simp only [actTensor_smul, Pi.smul_apply, smul_eq_mul, RingHom.id_apply]
    rw [← Finset.mul_sum]
    ring

theorem test_of_equiv_one {E : RepArr n d} (h : AreEquivalent E (fun _ => (1 : Matrix (Fin 1) (Fin 1) ℂ))) :
    d ≤ 1 ∧ IsEquivalentIrrep (charList E) (List.replicate n 1) := by
  obtain ⟨S, S', h1, h2, h3⟩ := h
  have hE : ∀ g, E g = 1 := by
    intro g
    have h4 := h3 g
    rw [Matrix.mul_one] at h4
    calc E g = E g * (S * S') := by rw [h1, Matrix.mul_one]
      _ = 1 := by rw [← Matrix.mul_assoc, h4, h1]
  have hd : (d : ℂ) = 1 := by
    have h5 : (S * S').trace = (S' * S).trace := Matrix.trace_mul_comm _ _
    rw [h1, h2, Matrix.trace_one, Matrix.trace_one] at h5
    simpa using h5
  have hd' : d = 1 := by exact_mod_cast hd
  refine ⟨hd'.le, ?_⟩
  have h6 : (List.replicate n 1 : List ℂ) = List.ofFn fun _ : Fin n => 1 := by rw [List.ofFn_const]
  unfold charList
  rw [h6, isEquivalentIrrep_ofFn]
  have h7 : ∑ k, star (getCharacter E k) * 1 = ((n : ℕ) : ℂ) := by
    have : ∀ k, star (getCharacter E k) * 1 = 1 := by
      intro k
      rw [getCharacter_eq_trace, hE, Matrix.trace_one, Fintype.card_fin, hd]
      simp
    rw [Finset.sum_congr rfl fun k _ => this k]
    simp
  rw [h7, rintC_natCast]

theorem invariants_basis (hT : IsGroupTable T) {L : List (AnyRep n)} (hL : IsCompleteIrreps T (fun _ _ => 1) L)
    {rep : RepArr n D} {tbs : List (TensorBasis n D p)} (hg : ∀ t ∈ tbs, t.Good rep L) (hf : FullBasis tbs)
    {ts : List (Tensor D p)} (h : takeInvariant tbs = .ok ts) :
    LinearIndependent ℂ ts.get ∧
    ∀ t : Tensor D p, (∀ g, actTensor (rep g) t = t) → t ∈ Submodule.span ℂ (Set.range ts.get) := by
  classical
  have hn : (n : ℂ) ≠ 0 := by exact_mod_cast (table_pos hT).ne'
  have hμ : ∀ g h : Fin n, (fun _ _ => (1 : ℂ) : Fin n → Fin n → ℂ) g h ≠ 0 := fun _ _ => one_ne_zero
  have hdim : ∀ t ∈ tbs, 0 < t.dim := by
    intro t ht
    obtain ⟨⟨x, hx⟩⟩ := (hL.irred _ (hg t ht).2).1
    exact lt_of_le_of_lt (Nat.zero_le _) hx
  unfold takeInvariant at h
  rw [takeInvariant_eq tbs [] hdim] at h
  have hts := Except.ok.inj h
  rw [List.nil_append] at hts
  constructor
  · obtain ⟨f, hf'⟩ := List.sublist_iff_exists_fin_orderEmbedding_get_eq.1
      (List.filter_sublist (p := fun t : TensorBasis n D p => decide t.Trivial) (l := tbs))
    have hlen : ts.length = (tbs.filter fun t => decide t.Trivial).length := by rw [← hts, List.length_map]
    have hcomp := (fullBasis_indep hf).comp (fun i : Fin ts.length => (⟨f (Fin.cast hlen i), ⟨0, hdim _ (List.get_mem _ _)⟩⟩ :
      Σ i : Fin tbs.length, Fin (tbs.get i).dim)) (by
        intro i j hij
        have := congrArg Sigma.fst hij
        simpa using f.injective this)
    have he : ts.get = (fun x : (Σ i : Fin tbs.length, Fin (tbs.get i).dim) => (tbs.get x.1).basis x.2) ∘
        (fun i : Fin ts.length => (⟨f (Fin.cast hlen i), ⟨0, hdim _ (List.get_mem _ _)⟩⟩ :
      Σ i : Fin tbs.length, Fin (tbs.get i).dim)) := by
      funext i
      have h1 : ts.get i = TensorBasis.first ((tbs.filter fun t => decide t.Trivial).get (Fin.cast hlen i)) := by
        subst hts
        simp
      rw [h1, hf']
      unfold TensorBasis.first
      rw [dif_pos (hdim _ (List.get_mem _ _))]
      rfl
    rw [he]
    exact hcomp
  · intro t ht
    have h1 : t = avgTensor rep t := by
      funext a
      show t a = (n : ℂ)⁻¹ * ∑ g, actTensor (rep g) t a
      simp only [ht]
      rw [Finset.sum_const, Finset.card_univ, Fintype.card_fin, nsmul_eq_mul, inv_mul_cancel_left₀ hn]
    have h2 : t ∈ Submodule.span ℂ {v : Tensor D p | ∃ t ∈ tbs, ∃ i, v = t.basis i} := by rw [hf.span]; trivial
    have h3 := Submodule.mem_map_of_mem (f := avgTensor rep) h2
    rw [← h1, Submodule.map_span] at h3
    refine Submodule.span_le.2 ?_ h3
    rintro _ ⟨_, ⟨x, hx, i, rfl⟩, rfl⟩
    obtain ⟨hxt, hxm⟩ := hg x hx
    have h4 : avgTensor rep (x.basis i) = fun a => ∑ l, x.basis l a * ((n : ℂ)⁻¹ * ∑ g, x.irrep g l i) := by
      funext a
      show (n : ℂ)⁻¹ * ∑ g, actTensor (rep g) (x.basis i) a = _
      simp only [hxt _ i]
      rw [Finset.sum_comm, Finset.mul_sum]
      refine Finset.sum_congr rfl fun l _ => ?_
      rw [← Finset.mul_sum]
      ring
    rw [h4]
    by_cases htriv : x.Trivial
    · have hmem : x.first ∈ ts := by
        rw [← hts]
        exact List.mem_map.2 ⟨x, List.mem_filter.2 ⟨hx, by simpa using htriv⟩, rfl⟩
      obtain ⟨k, hk⟩ := List.get_of_mem hmem
      have h5 : (fun a => ∑ l, x.basis l a * ((n : ℂ)⁻¹ * ∑ g, x.irrep g l i)) = x.first := by
        have hpos := hdim x hx
        have hr := hL.rep _ hxm
        have hu := hL.unitary _ hxm
        clear hk hmem hxm h4 hxt hx
        obtain ⟨d, E, B⟩ := x
        obtain rfl : d = 1 := by have := htriv.1; simp only at this hpos; omega
        have hE : ∀ g, E g = 1 := eq_one_of_test hT hr hu htriv.2
        funext a
        obtain rfl : i = 0 := Subsingleton.elim _ _
        simp [hE, TensorBasis.first, hn]
      rw [h5]
      exact Submodule.subset_span ⟨k, hk⟩
    · have hne : ¬ AreEquivalent x.irrep (fun _ => (1 : Matrix (Fin 1) (Fin 1) ℂ)) := fun h =>
        htriv (test_of_equiv_one h)
      have hO : IsProjRep T (fun _ _ => 1) (fun _ => 1 : RepArr n 1) := fun _ _ => by simp
      have hOu : IsUnitaryRep (fun _ => 1 : RepArr n 1) := fun _ => by simp
      have h5 : ∀ l, ∑ g, x.irrep g l i = 0 := by
        intro l
        have := table_schur_orthogonality_ne hT hμ (hL.rep _ hxm) hO (hL.irred _ hxm) (irreducible_dim_one _) hOu hne
          l i 0 0
        simpa using this
      have h6 : (fun a => ∑ l, x.basis l a * ((n : ℂ)⁻¹ * ∑ g, x.irrep g l i)) = 0 := by
        funext a
        simp [h5]
      rw [h6]
      exact Submodule.zero_mem _

end Spgrep
