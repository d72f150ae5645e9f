/-
The entries of ordinary irreps built along the chain of a point group: the loop.
-/
import Verif.Proofs.ExactEntries
import Verif.Proofs.Nice

set_option linter.unusedSectionVars false

namespace Spgrep

open Spec Matrix

variable {n : ℕ} {G : Type} [Group G] [Fintype G] [DecidableEq G] (e : Fin n ≃ G) {T : Fin n → Fin n → Fin n}
variable (hT : ∀ i j, e (T i j) = e i * e j)
variable {ι κ : Type} [Fintype ι] [Fintype κ] [DecidableEq ι] [DecidableEq κ]
variable {μ : Fin n → Fin n → ℂ} {H K : Subgroup G} {r : G} {p : ℕ}

/-! ### The form of the new irreps -/

/-- The new irrep extends an irrep of the subgroup or is induced from one. -/
def StepForm (e : Fin n ≃ G) (μ : Fin n → Fin n → ℂ) (H K : Subgroup G) (r : G) (p : ℕ) (D E : AnyRep n) : Prop :=
  (∃ (D' : RepArr n D.1), E = ⟨D.1, D'⟩ ∧ ∃ A : Matrix (Fin D.1) (Fin D.1) ℂ, ExtMat H (pb2 e μ) r p (pb e D.2) A ∧
    ∀ m < p, ∀ s ∈ H, pb e D' (r ^ m * s) = (pb2 e μ (r ^ m) s)⁻¹ • (bmat (pb2 e μ) r A m * pb e D.2 s)) ∨
  (¬ AreEquivalent (res H (pb e D.2)) (res H (cj (pb2 e μ) (pb e D.2) r)) ∧
    ∃ D' : RepArr n (p * D.1), E = ⟨p * D.1, D'⟩ ∧ ∀ g ∈ K, pb e D' g =
      (ind H (pb2 e μ) r p (pb e D.2) g).submatrix finProdFinEquiv.symm finProdFinEquiv.symm)

include hT

theorem chainInner_form (hμ : Cocy (pb2 e μ)) (C : ChainExt H K r p) {S : List (Fin n)} (hnd : S.Nodup)
    (hmem : ∀ g, e.symm g ∈ S ↔ g ∈ H) (random : ∀ d, ℕ → Matrix (Fin d) (Fin d) ℂ) {atol : ℝ} (ha : 0 ≤ atol)
    (maxGen : ℕ) (D : AnyRep n) (hD : GoodOn H (pb2 e μ) (pb e D.2))
    (hw : (chainInner random T μ (e.symm 1) (e.symm r) (e.symm r⁻¹) p S atol maxGen D).2 = false) :
    ∀ E ∈ (chainInner random T μ (e.symm 1) (e.symm r) (e.symm r⁻¹) p S atol maxGen D).1,
      StepForm e μ H K r p D E := by
  classical
  obtain ⟨d, D⟩ := D
  have hp0 : 0 < p := by have := C.hp; omega
  have hd : 0 < d := by
    obtain ⟨i⟩ := hD.irr.1
    exact Nat.lt_of_le_of_lt (Nat.zero_le _) i.2
  have e0 : pb e (conjSub T μ (e.symm 1) (e.symm r) (e.symm r⁻¹) D 0) = pb e D := by
    rw [conjSub_eq e hT, pow_zero, cj_one hμ]
  have e1 : pb e (conjSub T μ (e.symm 1) (e.symm r) (e.symm r⁻¹) D 1) = cj (pb2 e μ) (pb e D) r := by
    rw [conjSub_eq e hT, pow_one]
  have g1 : GoodOn H (pb2 e μ) (cj (pb2 e μ) (pb e D) r) :=
    cj_good hμ hD (fun h hh => C.norm h hh) (fun h hh => by simpa using C.norm_pow' 1 hh)
  have g0' : GoodOn H (pb2 e μ) (pb e (conjSub T μ (e.symm 1) (e.symm r) (e.symm r⁻¹) D 0)) := by rw [e0]; exact hD
  have g1' : GoodOn H (pb2 e μ) (pb e (conjSub T μ (e.symm 1) (e.symm r) (e.symm r⁻¹) D 1)) := by rw [e1]; exact g1
  have hiff := isEquiv_pb e hμ hnd hmem g0' g1'
  rw [e0, e1] at hiff
  unfold chainInner at hw ⊢
  dsimp only at hw ⊢
  by_cases hself : AreEquivalent (res H (pb e D)) (res H (cj (pb2 e μ) (pb e D) r))
  · rw [if_pos (hiff.2 hself)] at hw ⊢
    dsimp only at hw ⊢
    obtain ⟨hU0, hU⟩ := subIntertwiner_spec e hμ hnd hmem g0' g1' (random d) ha maxGen hw
    rw [e0, e1] at hU
    generalize (subIntertwiner (random d) S (conjSub T μ (e.symm 1) (e.symm r) (e.symm r⁻¹) D 0)
      (conjSub T μ (e.symm 1) (e.symm r) (e.symm r⁻¹) D 1) atol maxGen).1 = U at hU0 hU ⊢
    obtain ⟨c, hc⟩ := intertwiner_pow hμ C hD hU
    have hc0 : c ≠ 0 := by
      obtain ⟨S', h1, _⟩ := schur_equiv hD.irr g1.irr (S := U) (fun a => hU a a.2) hU0
      intro h0
      rw [h0, zero_smul] at hc
      have h2 := congrArg Matrix.det hc
      have : Nonempty (Fin d) := ⟨⟨0, hd⟩⟩
      rw [Matrix.det_pow, Matrix.det_zero] at h2
      have h3 := congrArg Matrix.det h1
      rw [Matrix.det_mul, Matrix.det_one, pow_eq_zero_iff hp0.ne' |>.1 h2, zero_mul] at h3
      exact zero_ne_one h3
    have hroot0 : c ^ ((1 : ℂ) / p) ≠ 0 := by
      intro h0
      exact hc0 ((Complex.cpow_eq_zero_iff _ _).1 h0).1
    have hrootp : (c ^ ((1 : ℂ) / p)) ^ p = c := by rw [one_div, Complex.cpow_nat_inv_pow _ hp0.ne']
    rw [scaleIntertwiner_eq hd U C.hp hc]
    set U' := (c ^ ((1 : ℂ) / p))⁻¹ • U with hU'
    let A : ℕ → Matrix (Fin d) (Fin d) ℂ := fun q => (omegaQ T μ (e.symm 1) (e.symm r) p q)⁻¹ • U'
    have hA : ∀ q, ExtMat H (pb2 e μ) r p (pb e D) (A q) := by
      intro q
      obtain ⟨h1, h2⟩ := omegaQ_spec e hT (r := r) hμ C.hp q
      have hAq : A q = ((omegaQ T μ (e.symm 1) (e.symm r) p q)⁻¹ * (c ^ ((1 : ℂ) / p))⁻¹) • U := by
        simp only [A, hU', smul_smul]
      rw [hAq]
      refine extMat_of_intertwiner hμ C hD hU hU0 (mul_ne_zero (inv_ne_zero h2) (inv_ne_zero hroot0)) ?_
      rw [smul_pow, mul_pow, h1, inv_pow, hrootp, hc, smul_smul, mul_assoc, inv_mul_cancel₀ hc0, mul_one]
    intro E hE
    obtain ⟨q, _, rfl⟩ := List.mem_map.1 hE
    exact Or.inl ⟨_, rfl, A q, hA q, fun m hm s hs => nextSelf_apply e hT C hnd hmem D U' q hm hs⟩
  · rw [if_neg (fun h => hself (hiff.1 h))]
    intro E hE
    rw [List.mem_singleton] at hE
    subst hE
    exact Or.inr ⟨hself, _, rfl, fun g hg => nextInduced_sub e hT C hnd hmem D hg⟩

omit hT in
theorem dedupe_subset (grp : List (Fin n)) (L : List (AnyRep n)) : ∀ D ∈ dedupe grp L, D ∈ L := by
  classical
  have key : ∀ (L acc : List (AnyRep n)), ∀ D ∈ L.foldl (fun acc D => if acc.any fun E => decide (IsEquivalentIrrep
      (grp.map (getCharacter D.2)) (grp.map (getCharacter E.2))) then acc else acc ++ [D]) acc, D ∈ acc ∨ D ∈ L := by
    intro L
    induction L with
    | nil => intro acc D h; exact Or.inl h
    | cons F L ih =>
      intro acc D h
      rw [List.foldl_cons] at h
      rcases ih _ D h with h1 | h1
      · split at h1
        · exact Or.inl h1
        · rcases List.mem_append.1 h1 with h2 | h2
          · exact Or.inl h2
          · right; rw [List.mem_singleton.1 h2]; exact List.mem_cons_self
      · exact Or.inr (List.mem_cons_of_mem _ h1)
  intro D hD
  rcases key L [] D hD with h | h
  · cases h
  · exact h

/-- Where the irreps after one step come from. -/
theorem chainStep_form (hμ : Cocy (pb2 e μ)) (C : ChainExt H K r p) (random : ∀ d, ℕ → Matrix (Fin d) (Fin d) ℂ)
    {atol : ℝ} (ha : 0 ≤ atol) (maxGen : ℕ) {st st' : ChainState n} (hnd : st.grp.Nodup)
    (hmem : ∀ g, e.symm g ∈ st.grp ↔ g ∈ H) (hst : st.warned = false → IrrepsOn e μ H st.irreps)
    (h : chainStep random T μ (e.symm 1) atol maxGen st (e.symm r) = .ok st') (hw : st'.warned = false) :
    st.warned = false ∧ ∀ E ∈ st'.irreps, ∃ D ∈ st.irreps, StepForm e μ H K r p D E := by
  classical
  have hp := C.hp
  have hord : orderOf r = p := by
    rw [orderOf_eq_iff (by omega)]
    refine ⟨C.hone, fun m hm hm0 h => C.hout m hm0 hm ?_⟩
    rw [h]; exact H.one_mem
  have ho : getOrder T (e.symm r) = .ok p := by rw [getOrder_eq e hT, e.apply_symm_apply, hord]
  have hi : getInverseIndex T (e.symm r) = .ok (e.symm r⁻¹) := by rw [getInverseIndex_eq e hT, e.apply_symm_apply]
  have hconj : ∀ j < p, ∀ s ∈ st.grp, conjElt T (e.symm 1) (e.symm r) (e.symm r⁻¹) j s ∈ st.grp := by
    intro j _ s hs
    obtain ⟨s, rfl⟩ := e.symm.surjective s
    rw [conjElt_eq e hT, hmem]
    exact C.norm_pow j ((hmem s).1 hs)
  have hp1 : p ≠ 1 := by omega
  unfold chainStep at h
  simp only [ho, hi, bind, Except.bind] at h
  rw [if_neg (not_not.2 hconj), if_neg hp1] at h
  cases h
  dsimp only at hw ⊢
  rw [Bool.or_eq_false_iff] at hw
  refine ⟨hw.1, fun E hE => ?_⟩
  obtain ⟨x, hx, hEx⟩ := List.mem_flatMap.1 (dedupe_subset _ _ E hE)
  obtain ⟨D, hD, rfl⟩ := List.mem_map.1 hx
  refine ⟨D, hD, chainInner_form e hT hμ C hnd hmem random ha maxGen D ((hst hw.1).good D hD) ?_ E hEx⟩
  by_contra hne
  rw [Bool.not_eq_false] at hne
  have := hw.2
  rw [List.any_eq_false] at this
  exact this _ (List.mem_map_of_mem hD) hne

/-! ### The loop -/

omit hT in
/-- Elements generated by commuting ones commute. -/
theorem comm_of_gens {L : List G} (hL : ∀ a ∈ L, ∀ b ∈ L, a * b = b * a) (hH : H ≤ Subgroup.closure {g | g ∈ L}) :
    ∀ a ∈ H, ∀ b ∈ H, a * b = b * a := by
  have h1 : ∀ a ∈ L, ∀ b ∈ Subgroup.closure {g | g ∈ L}, a * b = b * a := by
    intro a ha b hb
    induction hb using Subgroup.closure_induction with
    | mem x hx => exact hL a ha x hx
    | one => rw [mul_one, one_mul]
    | mul x y _ _ hx hy => rw [← mul_assoc, hx, mul_assoc, hy, mul_assoc]
    | inv x _ hx => rw [mul_inv_eq_iff_eq_mul, mul_assoc, hx, inv_mul_cancel_left]
  intro a ha b hb
  replace ha := hH ha
  replace hb := hH hb
  induction ha using Subgroup.closure_induction with
  | mem x hx => exact h1 x hx b hb
  | one => rw [mul_one, one_mul]
  | mul x y _ _ hx hy => rw [mul_assoc, hy, ← mul_assoc, hx, mul_assoc]
  | inv x _ hx => rw [inv_mul_eq_iff_eq_mul, ← mul_assoc, hx, mul_inv_cancel_right]

omit hT in
theorem comm_gen {L : List G} {r : G} (hL : ∀ a ∈ L, a * r = r * a) (hH : H ≤ Subgroup.closure {g | g ∈ L}) :
    ∀ a ∈ H, a * r = r * a := by
  intro a ha
  replace ha := hH ha
  induction ha using Subgroup.closure_induction with
  | mem x hx => exact hL x hx
  | one => rw [mul_one, one_mul]
  | mul x y _ _ hx hy => rw [mul_assoc, hy, ← mul_assoc, hx, mul_assoc]
  | inv x _ hx => rw [inv_mul_eq_iff_eq_mul, ← mul_assoc, hx, mul_inv_cancel_right]

omit hT in
theorem sq_of_gens {L : List G} (h1 : ∀ a ∈ L, ∀ b ∈ L, a * b = b * a) (h2 : ∀ a ∈ L, a * a = 1) {V : Subgroup G}
    (hV : V ≤ Subgroup.closure {g | g ∈ L}) : ∀ v ∈ V, v * v = 1 := by
  intro v hv
  have hc := comm_of_gens h1 (le_refl (Subgroup.closure {g | g ∈ L}))
  replace hv := hV hv
  induction hv using Subgroup.closure_induction with
  | mem x hx => exact h2 x hx
  | one => rw [mul_one]
  | mul x y hx' hy' hx hy =>
    calc x * y * (x * y) = x * (y * x) * y := by group
      _ = (x * x) * (y * y) := by rw [hc y hy' x hx']; group
      _ = 1 := by rw [hx, hy, mul_one]
  | inv x _ hx => rw [← _root_.mul_inv_rev, hx, inv_one]

omit hT in
theorem norm_of_gens {L : List G} {r : G} {V : Subgroup G} (hV : V ≤ Subgroup.closure {g | g ∈ L})
    (hVmem : ∀ a ∈ L, a ∈ V) (h2 : ∀ a ∈ L, ∃ u ∈ L, ∃ v ∈ L, a * r = r * u ∨ a * r = r * (u * v)) :
    ∀ v ∈ V, r⁻¹ * v * r ∈ V := by
  intro v hv
  replace hv := hV hv
  induction hv using Subgroup.closure_induction with
  | mem x hx =>
    obtain ⟨u, hu, v, hv, h | h⟩ := h2 x hx
    · rw [mul_assoc, h, inv_mul_cancel_left]; exact hVmem u hu
    · rw [mul_assoc, h, inv_mul_cancel_left]; exact V.mul_mem (hVmem u hu) (hVmem v hv)
  | one => rw [mul_one, inv_mul_cancel]; exact V.one_mem
  | mul x y _ _ hx hy =>
    have := V.mul_mem hx hy
    rwa [show r⁻¹ * x * r * (r⁻¹ * y * r) = r⁻¹ * (x * y) * r by group] at this
  | inv x _ hx =>
    have := V.inv_mem hx
    rwa [show (r⁻¹ * x * r)⁻¹ = r⁻¹ * x⁻¹ * r by group] at this

/-- The irreps of the last but one kind of subgroup: one-dimensional or induced from a one-dimensional one. -/
def IndForm (e : Fin n ≃ G) (V H : Subgroup G) (c : G) (q : ℕ) (E : AnyRep n) : Prop :=
  E.1 = 1 ∨ ∃ D0 : G → Matrix (Fin 1) (Fin 1) ℂ, GoodOn V (triv G) D0 ∧
    ¬ AreEquivalent (res V D0) (res V (cj (triv G) D0 c)) ∧ ∃ f : Fin E.1 ≃ Fin q × Fin 1,
      ∀ g ∈ H, pb e E.2 g = (ind V (triv G) c q D0 g).submatrix f f

omit hT in
theorem pow_submatrix (f : ι ≃ κ) (A : Matrix ι ι ℂ) (m : ℕ) :
    (A.submatrix f.symm f.symm) ^ m = (A ^ m).submatrix f.symm f.symm := by
  induction m with
  | zero => rw [pow_zero, pow_zero, Matrix.submatrix_one_equiv]
  | succ m ih => rw [pow_succ, pow_succ, ih, Matrix.submatrix_mul_equiv]

omit hT in
theorem ext_submatrix {D : G → Matrix ι ι ℂ} {F : G → Matrix κ κ ℂ} (f : ι ≃ κ)
    (hDF : ∀ g ∈ H, D g = (F g).submatrix f f) (hn : ∀ h ∈ H, r⁻¹ * h * r ∈ H) {A : Matrix ι ι ℂ}
    (hA : ExtMat H (triv G) r p D A) : ExtMat H (triv G) r p F (A.submatrix f.symm f.symm) := by
  have hF : ∀ g ∈ H, F g = (D g).submatrix f.symm f.symm := by
    intro g hg
    rw [hDF g hg, Matrix.submatrix_submatrix]
    simp
  have hpow := pow_submatrix f A
  refine ⟨fun s hs => ?_, ?_, ?_⟩
  · rw [hF s hs, hF _ (hn s hs), Matrix.submatrix_mul_equiv, Matrix.submatrix_mul_equiv, hA.comm s hs,
      Matrix.submatrix_smul]
    rfl
  · rw [hpow, hA.pow, Matrix.submatrix_smul]
    change rprod (triv G) r p • (1 : Matrix ι ι ℂ).submatrix f.symm f.symm = _
    rw [Matrix.submatrix_one_equiv]
  · rw [Matrix.conjTranspose_submatrix, Matrix.submatrix_mul_equiv, hA.uni, Matrix.submatrix_one_equiv]

omit hT in
theorem two_of_sq (C : ChainExt H K r p) (hr : r * r = 1) : p = 2 := by
  by_contra h
  have := C.hp
  refine C.hout 2 (by omega) (by omega) ?_
  rw [sq, hr]; exact H.one_mem

omit hT in
/-- Entries after one step. -/
theorem step_listed (C : ChainExt H K r p) (hord : ∀ g : G, g ^ 4 = 1 ∨ g ^ 6 = 1) {L : List G}
    (hHL : H ≤ Subgroup.closure {g | g ∈ L}) (hN : NiceStep (· * ·) 1 r L) {D E : AnyRep n}
    (hD : GoodOn H (triv G) (pb e D.2)) (hE : GoodOn K (triv G) (pb e E.2))
    (hform : StepForm e (fun _ _ => 1) H K r p D E) (hL : ∀ h ∈ H, ∀ i j, Listed (pb e D.2 h i j))
    (hInd : ∀ c rest, L = c :: rest → (∀ a ∈ rest, ∀ b ∈ rest, a * b = b * a) → ∃ (V : Subgroup G) (q : ℕ),
      ChainExt V H c q ∧ V ≤ Subgroup.closure {g | g ∈ rest} ∧ (∀ a ∈ rest, a ∈ V) ∧ IndForm e V H c q D) :
    ∀ g ∈ K, ∀ i j, Listed (pb e E.2 g i j) := by
  have hone : E.1 = 1 → ∀ g ∈ K, ∀ i j, Listed (pb e E.2 g i j) := fun h g hg i j =>
    listed_of_one_dim hE (by rw [Fintype.card_fin, h]) hord hg i j
  rcases hform with ⟨D', hE1, A, hA, hval⟩ | ⟨hne, D', rfl, hval⟩
  · have hE0 : E.1 = D.1 := by rw [hE1]
    have hcomm : (∀ a ∈ L, ∀ b ∈ L, a * b = b * a) → E.1 = 1 := by
      intro h
      have := card_of_comm hD (comm_of_gens h hHL)
      rw [Fintype.card_fin] at this
      rw [hE0, this]
    subst hE1
    have hA' : ExtMat H (triv G) r p (pb e D.2) A := hA
    have hval' : ∀ m < p, ∀ s ∈ H, pb e D' (r ^ m * s) = A ^ m * pb e D.2 s := by
      intro m hm s hs
      rw [hval m hm s hs]
      change (triv G (r ^ m) s)⁻¹ • (bmat (triv G) r A m * pb e D.2 s) = _
      rw [triv_bmat, triv, inv_one, one_smul]
    rcases hN with ⟨h, -⟩ | ⟨hr, h⟩ | ⟨hr, h1, h2, -⟩
    · exact hone (hcomm h)
    · obtain rfl := two_of_sq C hr
      intro g hg i j
      obtain ⟨m, hm, s, hs, rfl⟩ := (C.mem g).1 hg
      change Listed (pb e D' (r ^ m * s) i j)
      rw [hval' m hm s hs]
      exact listed_ext_comm hD hA' (comm_gen h hHL) hL m hm hs i j
    · match L, h1, h2, hInd, hcomm with
      | [], _, _, _, hcomm => exact hone (hcomm (by simp))
      | c :: rest, h1, h2, hInd, _ =>
        obtain rfl := two_of_sq C hr
        obtain ⟨V, q, CV, hV, hVmem, hform⟩ := hInd c rest rfl h1
        rcases hform with h | ⟨D0, hD0, hne, f, hf⟩
        · exact hone h
        · rw [List.tail_cons] at h1 h2
          have hsq := sq_of_gens h1 (fun a ha => (h2 a ha).1) hV
          have hn := norm_of_gens hV hVmem fun a ha => (h2 a ha).2
          have hA2 := ext_submatrix f hf C.norm hA'
          intro g hg i j
          obtain ⟨m, hm, s, hs, rfl⟩ := (C.mem g).1 hg
          change Listed (pb e D' (r ^ m * s) i j)
          have := listed_ext_monomial CV hD0 hne hsq hr hn hA2 m hm s (f i) (f j)
          have hpow := pow_submatrix f A m
          have h5 : ind V (triv G) c q D0 s = (pb e D.2 s).submatrix f.symm f.symm := by
            rw [hf s hs, Matrix.submatrix_submatrix]; simp
          rw [hpow, h5, Matrix.submatrix_mul_equiv, Matrix.submatrix_apply, f.symm_apply_apply, f.symm_apply_apply] at this
          rw [hval' m hm s hs]
          exact this
  · intro g hg i j
    change Listed (pb e D' g i j)
    rw [hval g hg, Matrix.submatrix_apply]
    exact listed_ind hL g _ _

/-! ### Which irreps are real up to equivalence -/

/-- One-dimensional, or with real entries, or of dimension two and conjugated by exchanging the two basis vectors. -/
def RealShape (H : Subgroup G) {d : ℕ} (F : G → Matrix (Fin d) (Fin d) ℂ) : Prop :=
  d = 1 ∨ (∀ g ∈ H, ∀ i j, star (F g i j) = F g i j) ∨ (d = 2 ∧ ∀ g ∈ H, ∀ i j, F g i.rev j.rev = star (F g i j))

omit hT in
theorem Sign.real {z : ℂ} (h : Sign z) : star z = z := by
  rcases h with rfl | rfl | rfl <;> simp

omit hT in
theorem real_ind {D : G → Matrix ι ι ℂ} (hD : ∀ h ∈ H, ∀ i j, star (D h i j) = D h i j) (g : G) (x y : Fin p × ι) :
    star (ind H (triv G) r p D g x y) = ind H (triv G) r p D g x y := by
  obtain ⟨i, a⟩ := x
  obtain ⟨j, b⟩ := y
  by_cases h : (r ^ (i : ℕ))⁻¹ * g * r ^ (j : ℕ) ∈ H
  · rw [ind_pos h, triv_indc, one_mul]
    exact hD _ h a b
  · rw [ind_neg h, star_zero]

omit hT in
theorem swap_ind (hr : r * r = 1) (hn : ∀ h ∈ H, r⁻¹ * h * r ∈ H) {D : G → Matrix (Fin 1) (Fin 1) ℂ}
    (hstar : ∀ h ∈ H, D (r⁻¹ * h * r) 0 0 = star (D h 0 0)) (g : G) (i j : Fin 2) :
    ind H (triv G) r 2 D g (i.rev, 0) (j.rev, 0) = star (ind H (triv G) r 2 D g (i, 0) (j, 0)) := by
  have hinv : r⁻¹ = r := inv_eq_of_mul_eq_one_left hr
  have key : (r ^ (i.rev : ℕ))⁻¹ * g * r ^ (j.rev : ℕ) = r⁻¹ * ((r ^ (i : ℕ))⁻¹ * g * r ^ (j : ℕ)) * r := by
    have h2 : r * (g * r) * r = r * g := by rw [mul_assoc, mul_assoc g, hr, mul_one]
    have h3 : r * (r * g) * r = g * r := by rw [← mul_assoc, hr, one_mul]
    have h4 : r * (r * (g * r)) * r = g := by rw [← mul_assoc r r, hr, one_mul, mul_assoc, hr, mul_one]
    fin_cases i <;> fin_cases j <;> simp [Fin.rev, hinv, mul_assoc, hr]
    all_goals simp [← mul_assoc, hr]
  by_cases h : (r ^ (i : ℕ))⁻¹ * g * r ^ (j : ℕ) ∈ H
  · have h' : (r ^ (i.rev : ℕ))⁻¹ * g * r ^ (j.rev : ℕ) ∈ H := by rw [key]; exact hn _ h
    rw [ind_pos h, ind_pos h', triv_indc, triv_indc, one_mul, one_mul, key, hstar _ h]
  · have h' : (r ^ (i.rev : ℕ))⁻¹ * g * r ^ (j.rev : ℕ) ∉ H := by
      rw [key]
      intro h1
      have h2 := hn _ h1
      rw [show r⁻¹ * (r⁻¹ * ((r ^ (i : ℕ))⁻¹ * g * r ^ (j : ℕ)) * r) * r =
        (r * r)⁻¹ * ((r ^ (i : ℕ))⁻¹ * g * r ^ (j : ℕ)) * (r * r) by group, hr, inv_one, one_mul, mul_one] at h2
      exact h h2
    rw [ind_neg h, ind_neg h', star_zero]

omit hT in
theorem rev_prod : ∀ i : Fin (2 * 1), (finProdFinEquiv.symm i.rev : Fin 2 × Fin 1) =
    ((finProdFinEquiv.symm i : Fin 2 × Fin 1).1.rev, 0) ∧ (finProdFinEquiv.symm i : Fin 2 × Fin 1).2 = 0 := by decide

omit hT in
theorem one_dim_star {D : G → Matrix (Fin 1) (Fin 1) ℂ} (hD : GoodOn H (triv G) D) {a b : G} (ha : a ∈ H) (hb : b ∈ H)
    (h : D (b * a) 0 0 = 1) : D b 0 0 = star (D a 0 0) := by
  have h1 := congrFun (congrFun (hD.uni a ha) 0) 0
  rw [← triv_rep hD hb ha] at h
  simp only [Matrix.mul_apply, Fin.sum_univ_one, Matrix.conjTranspose_apply, Matrix.one_apply_eq] at h h1
  calc D b 0 0 = D b 0 0 * (D a 0 0 * star (D a 0 0)) := by rw [h1, mul_one]
    _ = (D b 0 0 * D a 0 0) * star (D a 0 0) := by ring
    _ = _ := by rw [h, one_mul]

omit hT in
theorem one_dim_mul {D : G → Matrix (Fin 1) (Fin 1) ℂ} (hD : GoodOn H (triv G) D) {a b : G} (ha : a ∈ H) (hb : b ∈ H) :
    D (a * b) 0 0 = D a 0 0 * D b 0 0 := by
  rw [← triv_rep hD ha hb, Matrix.mul_apply, Fin.sum_univ_one]

omit hT in
theorem one_dim_ne {D : G → Matrix (Fin 1) (Fin 1) ℂ} (hD : GoodOn H (triv G) D) {a : G} (ha : a ∈ H) :
    D a 0 0 ≠ 0 := by
  intro h
  have h1 := congrFun (congrFun (hD.uni a ha) 0) 0
  rw [Matrix.mul_apply, Fin.sum_univ_one, h, zero_mul, Matrix.one_apply_eq] at h1
  exact zero_ne_one h1

omit hT in
theorem shape_ind_one (C : ChainExt H K r p) (hr : r * r = 1) {d : ℕ} (hd : d = 1) {D : G → Matrix (Fin d) (Fin d) ℂ}
    {E : G → Matrix (Fin (p * d)) (Fin (p * d)) ℂ}
    (hstar : ∀ h ∈ H, ∀ i j, D (r⁻¹ * h * r) i j = star (D h i j))
    (hval : ∀ g ∈ K, E g = (ind H (triv G) r p D g).submatrix finProdFinEquiv.symm finProdFinEquiv.symm) :
    RealShape K E := by
  subst hd
  obtain rfl := two_of_sq C hr
  refine Or.inr (Or.inr ⟨rfl, fun g hg i j => ?_⟩)
  rw [hval g hg, Matrix.submatrix_apply, Matrix.submatrix_apply, (rev_prod i).1, (rev_prod j).1,
    swap_ind hr C.norm fun h hh => hstar h hh 0 0]
  congr 2
  · exact Prod.ext rfl (rev_prod i).2.symm
  · exact Prod.ext rfl (rev_prod j).2.symm

omit hT in
/-- The shape after one step. -/
theorem step_shape (C : ChainExt H K r p) {L : List G}
    (hHL : H ≤ Subgroup.closure {g | g ∈ L}) (hN : NiceStep (· * ·) 1 r L) {D E : AnyRep n}
    (hD : GoodOn H (triv G) (pb e D.2))
    (hform : StepForm e (fun _ _ => 1) H K r p D E) (hS : RealShape H (pb e D.2))
    (hInd : ∀ c rest, L = c :: rest → (∀ a ∈ rest, ∀ b ∈ rest, a * b = b * a) → ∃ (V : Subgroup G) (q : ℕ),
      ChainExt V H c q ∧ V ≤ Subgroup.closure {g | g ∈ rest} ∧ (∀ a ∈ rest, a ∈ V) ∧ IndForm e V H c q D) :
    RealShape K (pb e E.2) := by
  rcases hform with ⟨D', hE1, A, hA, hval⟩ | ⟨hne, D', rfl, hval⟩
  · have hE0 : E.1 = D.1 := by rw [hE1]
    have hcomm : (∀ a ∈ L, ∀ b ∈ L, a * b = b * a) → E.1 = 1 := by
      intro h
      have := card_of_comm hD (comm_of_gens h hHL)
      rw [Fintype.card_fin] at this
      rw [hE0, this]
    subst hE1
    have hA' : ExtMat H (triv G) r p (pb e D.2) A := hA
    have hval' : ∀ m < p, ∀ s ∈ H, pb e D' (r ^ m * s) = A ^ m * pb e D.2 s := by
      intro m hm s hs
      rw [hval m hm s hs]
      change (triv G (r ^ m) s)⁻¹ • (bmat (triv G) r A m * pb e D.2 s) = _
      rw [triv_bmat, triv, inv_one, one_smul]
    rcases hN with ⟨h, -⟩ | ⟨hr, h⟩ | ⟨hr, h1, h2, h3⟩
    · exact Or.inl (hcomm h)
    · obtain rfl := two_of_sq C hr
      have hpm : ∀ g ∈ K, ∃ s ∈ H, pb e D' g = pb e D.2 s ∨ pb e D' g = -pb e D.2 s := by
        intro g hg
        obtain ⟨m, hm, s, hs, rfl⟩ := (C.mem g).1 hg
        refine ⟨s, hs, ?_⟩
        rw [hval' m hm s hs]
        interval_cases m
        · left; rw [pow_zero, Matrix.one_mul]
        · rw [pow_one]
          rcases ext_comm_sign hD hA' (comm_gen h hHL) with rfl | rfl
          · left; rw [Matrix.one_mul]
          · right; rw [Matrix.neg_mul, Matrix.one_mul]
      rcases hS with h1 | h1 | ⟨h1, h2⟩
      · exact Or.inl h1
      · refine Or.inr (Or.inl fun g hg i j => ?_)
        obtain ⟨s, hs, h4 | h4⟩ := hpm g hg
        · change star (pb e D' g i j) = pb e D' g i j
          rw [h4]; exact h1 s hs i j
        · change star (pb e D' g i j) = pb e D' g i j
          rw [h4, Matrix.neg_apply, star_neg]; exact congrArg _ (h1 s hs i j)
      · refine Or.inr (Or.inr ⟨h1, fun g hg i j => ?_⟩)
        change pb e D' g i.rev j.rev = star (pb e D' g i j)
        obtain ⟨s, hs, h4 | h4⟩ := hpm g hg
        · rw [h4]; exact h2 s hs i j
        · rw [h4, Matrix.neg_apply, Matrix.neg_apply, star_neg]; exact congrArg _ (h2 s hs i j)
    · match L, h1, h2, h3, hInd, hcomm with
      | [], _, _, _, _, hcomm => exact Or.inl (hcomm (by simp))
      | c :: rest, h1, h2, h3, hInd, _ =>
        obtain rfl := two_of_sq C hr
        obtain ⟨V, q, CV, hV, hVmem, hform⟩ := hInd c rest rfl h1
        rcases hform with h | ⟨D0, hD0, hne, f, hf⟩
        · exact Or.inl h
        · rw [List.tail_cons] at h1 h2
          have hsq := sq_of_gens h1 (fun a ha => (h2 a ha).1) hV
          have hn := norm_of_gens hV hVmem fun a ha => (h2 a ha).2
          have hA2 := ext_submatrix f hf C.norm hA'
          have hc3 : c * (c * c) = 1 := (h3 c (by simp)).1
          have hq : q = 3 := by
            have hq2 := CV.hp
            by_contra hq3
            rcases Nat.lt_or_ge q 3 with h | h
            · obtain rfl : q = 2 := by omega
              have h4 := CV.hone
              rw [sq] at h4
              rw [h4, mul_one] at hc3
              refine CV.hout 1 (by omega) (by omega) ?_
              rw [pow_one, hc3]; exact V.one_mem
            · refine CV.hout 3 (by omega) (by omega) ?_
              rw [pow_succ, sq, mul_assoc, hc3]; exact V.one_mem
          have hAr : ∀ x y, star (A x y) = A x y := by
            intro x y
            have := sign_ext_monomial CV hD0 hne hsq hr hn hA2 hq (f x) (f y)
            rw [Matrix.submatrix_apply, f.symm_apply_apply, f.symm_apply_apply] at this
            exact this.real
          have hDr : ∀ s ∈ H, ∀ x y, star (pb e D.2 s x y) = pb e D.2 s x y := by
            intro s hs x y
            rw [hf s hs, Matrix.submatrix_apply]
            exact (sign_ind hD0 hsq s (f x) (f y)).real
          refine Or.inr (Or.inl fun g hg i j => ?_)
          obtain ⟨m, hm, s, hs, rfl⟩ := (C.mem g).1 hg
          change star (pb e D' (r ^ m * s) i j) = pb e D' (r ^ m * s) i j
          rw [hval' m hm s hs]
          interval_cases m
          · rw [pow_zero, Matrix.one_mul]; exact hDr s hs i j
          · rw [pow_one, Matrix.mul_apply, star_sum]
            exact Finset.sum_congr rfl fun x _ => by rw [star_mul', hAr, hDr s hs]
  · have hval' : ∀ g ∈ K, pb e D' g =
      (ind H (triv G) r p (pb e D.2) g).submatrix finProdFinEquiv.symm finProdFinEquiv.symm := hval
    have hnc : (∀ a ∈ L, a * r = r * a) → False := by
      intro h
      apply hne
      have : res H (cj (pb2 e fun _ _ => 1) (pb e D.2) r) = res H (pb e D.2) := by
        funext a
        change cj (triv G) (pb e D.2) r a = pb e D.2 a
        rw [triv_cj, mul_assoc, comm_gen h hHL _ a.2, inv_mul_cancel_left]
      rw [this]
      exact AreEquivalent.refl _
    have hreal : (∀ h ∈ H, ∀ i j, star (pb e D.2 h i j) = pb e D.2 h i j) → RealShape K (pb e D') := by
      intro h
      refine Or.inr (Or.inl fun g hg i j => ?_)
      rw [hval' g hg, Matrix.submatrix_apply]
      exact real_ind h g _ _
    change RealShape K (pb e D')
    obtain ⟨d, D⟩ := D
    rcases hN with ⟨h, h1 | h1 | ⟨hr, h1⟩⟩ | ⟨hr, h⟩ | ⟨hr, h1, h2, h3⟩
    · exact (hnc h1).elim
    · have hd : d = 1 := by
        have := card_of_comm hD (comm_of_gens h hHL)
        rwa [Fintype.card_fin] at this
      subst hd
      apply hreal
      intro g hg i j
      obtain rfl := Subsingleton.elim i 0
      obtain rfl := Subsingleton.elim j 0
      refine (one_dim_star hD hg hg ?_).symm
      rw [sq_of_gens h h1 hHL g hg, hD.map_one triv_cocy, Matrix.one_apply_eq]
    · have hd : d = 1 := by
        have := card_of_comm hD (comm_of_gens h hHL)
        rwa [Fintype.card_fin] at this
      subst hd
      refine shape_ind_one C hr rfl (fun g hg i j => ?_) hval'
      obtain rfl := Subsingleton.elim i 0
      obtain rfl := Subsingleton.elim j 0
      have hrg : ∀ g ∈ H, g * (r * g) = r := by
        intro g hg
        replace hg := hHL hg
        have hc := comm_of_gens h (le_refl (Subgroup.closure {g | g ∈ L}))
        induction hg using Subgroup.closure_induction with
        | mem x hx => exact h1 x hx
        | one => rw [mul_one, one_mul]
        | mul x y hx' hy' hx hy =>
          rw [hc x hx' y hy', show y * x * (r * (y * x)) = y * (x * (r * (y * x))) by group, hc y hy' x hx',
            show y * (x * (r * (x * y))) = y * ((x * (r * x)) * y) by group, hx, hy]
        | inv x _ hx =>
          rw [inv_mul_eq_iff_eq_mul, mul_inv_eq_iff_eq_mul, mul_assoc, hx]
      refine one_dim_star hD hg (C.norm g hg) ?_
      rw [mul_assoc, mul_assoc, hrg g hg, inv_mul_cancel, hD.map_one triv_cocy, Matrix.one_apply_eq]
    · exact (hnc h).elim
    · match L, h1, h2, h3, hInd, hnc with
      | [], _, _, _, _, hnc => exact (hnc (by simp)).elim
      | c :: rest, h1, h2, h3, hInd, _ =>
        obtain ⟨V, q, CV, hV, hVmem, hform⟩ := hInd c rest rfl h1
        rw [List.tail_cons] at h1 h2 h3
        have hsq := sq_of_gens h1 (fun a ha => (h2 a ha).1) hV
        rcases hform with hd | ⟨D0, hD0, hne, f, hf⟩
        · change d = 1 at hd
          subst hd
          have hcH : c ∈ H := CV.r_mem
          have hrest : ∀ a ∈ rest, a ∈ H := fun a ha => CV.le (hVmem a ha)
          have hle : Subgroup.closure {g | g ∈ c :: rest} ≤ H := by
            rw [Subgroup.closure_le]
            intro x hx
            rcases List.mem_cons.1 hx with rfl | hx
            · exact hcH
            · exact hrest x hx
          have hone : ∀ a ∈ rest, pb e D a 0 0 = 1 := by
            intro a ha
            obtain ⟨-, -, h5⟩ := h3 c (by simp)
            obtain ⟨u, hu, v, hv, h6 | h6⟩ := h5 a ha
            · have h7 : a * (u * c) = c * u := h6
              have h8 := congrArg (fun x => pb e D x 0 0) h7
              have hu' := hrest u hu
              rw [one_dim_mul hD (hrest a ha) (H.mul_mem hu' hcH), one_dim_mul hD hu' hcH, one_dim_mul hD hcH hu'] at h8
              have h9 := mul_ne_zero (one_dim_ne hD hu') (one_dim_ne hD hcH)
              apply mul_right_cancel₀ h9
              rw [h8]; ring
            · have h7 : a * (u * v * c) = c * (u * v) := h6
              have h8 := congrArg (fun x => pb e D x 0 0) h7
              have hu' := H.mul_mem (hrest u hu) (hrest v hv)
              rw [one_dim_mul hD (hrest a ha) (H.mul_mem hu' hcH), one_dim_mul hD hu' hcH, one_dim_mul hD hcH hu'] at h8
              have h9 := mul_ne_zero (one_dim_ne hD hu') (one_dim_ne hD hcH)
              apply mul_right_cancel₀ h9
              rw [h8]; ring
          have hkey : ∀ g ∈ H, pb e D (r⁻¹ * g * r) 0 0 * pb e D g 0 0 = 1 := by
            intro g hg
            replace hg := hHL hg
            induction hg using Subgroup.closure_induction with
            | mem x hx =>
              rcases List.mem_cons.1 hx with rfl | hx
              · rw [← one_dim_mul hD (C.norm _ hcH) hcH, mul_assoc, mul_assoc]
                obtain ⟨-, h5, -⟩ := h3 x (by simp)
                rcases h5 with h5 | ⟨u, hu, v, hv, h5 | h5⟩
                · have h5' : x * (r * x) = r := h5
                  rw [h5', inv_mul_cancel, hD.map_one triv_cocy, Matrix.one_apply_eq]
                · have h5' : x * (r * x) = r * u := h5
                  rw [h5', inv_mul_cancel_left, hone u hu]
                · have h5' : x * (r * x) = r * (u * v) := h5
                  rw [h5', inv_mul_cancel_left, one_dim_mul hD (hrest u hu) (hrest v hv), hone u hu, hone v hv, one_mul]
              · obtain ⟨-, u, hu, v, hv, h5 | h5⟩ := h2 x hx
                · have h5' : x * r = r * u := h5
                  rw [mul_assoc, h5', inv_mul_cancel_left, hone u hu, hone x hx, one_mul]
                · have h5' : x * r = r * (u * v) := h5
                  rw [mul_assoc, h5', inv_mul_cancel_left, one_dim_mul hD (hrest u hu) (hrest v hv), hone u hu,
                    hone v hv, hone x hx, one_mul, one_mul]
            | one => rw [mul_one, inv_mul_cancel, hD.map_one triv_cocy, Matrix.one_apply_eq, one_mul]
            | mul x y hx' hy' hx hy =>
              have hxH := hle hx'
              have hyH := hle hy'
              rw [show r⁻¹ * (x * y) * r = r⁻¹ * x * r * (r⁻¹ * y * r) by group,
                one_dim_mul hD (C.norm x hxH) (C.norm y hyH), one_dim_mul hD hxH hyH]
              calc _ = (pb e D (r⁻¹ * x * r) 0 0 * pb e D x 0 0) * (pb e D (r⁻¹ * y * r) 0 0 * pb e D y 0 0) := by ring
                _ = 1 := by rw [hx, hy, one_mul]
            | inv x hx' hx =>
              have hxH := hle hx'
              have e1 := one_dim_mul hD hxH (H.inv_mem hxH)
              have e2 := one_dim_mul hD (C.norm x hxH) (C.norm _ (H.inv_mem hxH))
              rw [mul_inv_cancel, hD.map_one triv_cocy, Matrix.one_apply_eq] at e1
              rw [show r⁻¹ * x * r * (r⁻¹ * x⁻¹ * r) = 1 by group, hD.map_one triv_cocy, Matrix.one_apply_eq] at e2
              calc _ = (pb e D (r⁻¹ * x * r) 0 0 * pb e D x 0 0) * (pb e D (r⁻¹ * x⁻¹ * r) 0 0 * pb e D x⁻¹ 0 0) := by
                    rw [hx, one_mul]
                _ = (pb e D (r⁻¹ * x * r) 0 0 * pb e D (r⁻¹ * x⁻¹ * r) 0 0) * (pb e D x 0 0 * pb e D x⁻¹ 0 0) := by ring
                _ = 1 := by rw [← e1, ← e2, one_mul]
          refine shape_ind_one C hr rfl (fun g hg i j => ?_) hval'
          obtain rfl := Subsingleton.elim i 0
          obtain rfl := Subsingleton.elim j 0
          refine one_dim_star hD hg (C.norm g hg) ?_
          rw [one_dim_mul hD (C.norm g hg) hg]
          exact hkey g hg
        · apply hreal
          intro g hg i j
          rw [hf g hg, Matrix.submatrix_apply]
          exact (sign_ind hD0 hsq g (f i) (f j)).real

/-- The whole loop for ordinary irreps. -/
theorem chainLoop_nice (hord : ∀ g : G, g ^ 4 = 1 ∨ g ^ 6 = 1) (random : ∀ d, ℕ → Matrix (Fin d) (Fin d) ℂ) {atol : ℝ}
    (ha : 0 ≤ atol) (maxGen : ℕ) {gens : List (Fin n)} {S : Set (Fin n)} (hc : IsSolvableChain T (e.symm 1) gens S)
    (hN : Nice (· * ·) 1 (gens.map e)) :
    ∃ (H : Subgroup G) (st : ChainState n), (∀ g, g ∈ H ↔ e.symm g ∈ S) ∧
      gens.reverse.foldlM (chainStep random T (fun _ _ => 1) (e.symm 1) atol maxGen) (chainInit (e.symm 1)) = .ok st ∧
      st.grp.Nodup ∧ (∀ g, e.symm g ∈ st.grp ↔ g ∈ H) ∧ H ≤ Subgroup.closure {g | g ∈ gens.map e} ∧
      (∀ a ∈ gens.map e, a ∈ H) ∧
      (st.warned = false → IrrepsOn e (fun _ _ => 1) H st.irreps ∧
        (∀ E ∈ st.irreps, ∀ g ∈ H, ∀ i j, Listed (pb e E.2 g i j)) ∧
        (∀ E ∈ st.irreps, RealShape H (pb e E.2)) ∧
        ∀ c rest, gens.map e = c :: rest → (∀ a ∈ rest, ∀ b ∈ rest, a * b = b * a) →
          ∃ (V : Subgroup G) (q : ℕ), ChainExt V H c q ∧ V ≤ Subgroup.closure {g | g ∈ rest} ∧ (∀ a ∈ rest, a ∈ V) ∧
            ∀ E ∈ st.irreps, IndForm e V H c q E) := by
  classical
  have hμ : Cocy (pb2 e fun _ _ : Fin n => (1 : ℂ)) := triv_cocy (G := G)
  revert hN
  generalize hone : e.symm 1 = e1 at hc
  induction hc with
  | nil =>
    subst hone
    intro _
    refine ⟨⊥, chainInit (e.symm 1), fun g => ?_, rfl, List.nodup_singleton _, fun g => ?_, bot_le, by simp,
      fun _ => ⟨irrepsOn_bot e hμ, ?_, ?_, by simp⟩⟩
    · rw [Subgroup.mem_bot, Set.mem_singleton_iff, e.symm.injective.eq_iff]
    · rw [chainInit, List.mem_singleton, Subgroup.mem_bot, e.symm.injective.eq_iff]
    · intro E hE g hg i j
      have h1 : E.1 = 1 := by
        rw [chainInit, List.mem_singleton] at hE
        rw [hE]
      exact listed_of_one_dim ((irrepsOn_bot e hμ).good E hE) (by rw [Fintype.card_fin, h1]) hord hg i j
    · intro E hE
      rw [chainInit, List.mem_singleton] at hE
      left; rw [hE]
  | @cons gens S r p hH hp h1 hout hnorm hprime ih =>
    subst hone
    intro hN
    obtain ⟨hN1, hN2⟩ := hN
    obtain ⟨H, st, hHS, hst, hnd, hmem, hHc, hHg, hinv⟩ := ih hN2
    obtain ⟨r, rfl⟩ := e.symm.surjective r
    rw [power_eq e hT, e.symm.injective.eq_iff] at h1
    have hout' : ∀ m, 0 < m → m < p → r ^ m ∉ H := by
      intro m hm0 hm h
      apply hout m hm0 hm
      rw [power_eq e hT]
      exact (hHS _).1 h
    have hnorm' : ∀ h ∈ H, r⁻¹ * h * r ∈ H := by
      intro h hh
      obtain ⟨h', hh', heq⟩ := hnorm _ ((hHS h).1 hh)
      obtain ⟨h', rfl⟩ := e.symm.surjective h'
      rw [tg_mul e hT, tg_mul e hT, e.symm.injective.eq_iff] at heq
      rw [mul_assoc, heq, inv_mul_cancel_left]
      exact (hHS h').2 hh'
    have hprime' : H = ⊥ ∨ p.Prime := by
      rcases hprime with h | h
      · left
        rw [Subgroup.eq_bot_iff_forall]
        intro x hx
        have := (hHS x).1 hx
        rw [h, Set.mem_singleton_iff, e.symm.injective.eq_iff] at this
        exact this
      · exact Or.inr h
    obtain ⟨K, C⟩ := exists_chainExt hp h1 hout' hnorm' hprime'
    obtain ⟨st', hst', hnd', -, hmem', hinv', -⟩ := chainStep_ok e hT hμ C random ha maxGen st hnd hmem
      (fun hw => (hinv hw).1)
    rw [e.apply_symm_apply] at hN1
    rw [List.map_cons, e.apply_symm_apply]
    refine ⟨K, st', fun g => ?_, ?_, hnd', hmem', ?_, ?_, fun hw => ?_⟩
    · rw [C.mem]
      constructor
      · rintro ⟨m, hm, h, hh, rfl⟩
        exact ⟨m, hm, e.symm h, (hHS h).1 hh, by rw [power_eq e hT, tg_mul e hT]⟩
      · rintro ⟨m, hm, h, hh, heq⟩
        obtain ⟨h, rfl⟩ := e.symm.surjective h
        rw [power_eq e hT, tg_mul e hT, e.symm.injective.eq_iff] at heq
        exact ⟨m, hm, h, (hHS h).2 hh, heq⟩
    · rw [List.reverse_cons, List.foldlM_append, hst]
      simp only [bind, Except.bind, List.foldlM_cons, List.foldlM_nil, hst']
      rfl
    · intro g hg
      obtain ⟨m, _, h, hh, rfl⟩ := (C.mem g).1 hg
      refine Subgroup.mul_mem _ (Subgroup.pow_mem _ (Subgroup.subset_closure
        (show r ∈ {g | g ∈ r :: gens.map e} from List.mem_cons_self)) _) ?_
      exact Subgroup.closure_mono (fun x hx => List.mem_cons_of_mem _ hx) (hHc hh)
    · intro a ha
      rcases List.mem_cons.1 ha with rfl | ha
      · exact C.r_mem
      · exact C.le (hHg a ha)
    · obtain ⟨hw0, hform⟩ := chainStep_form e hT hμ C random ha maxGen hnd hmem (fun hw => (hinv hw).1) hst' hw
      obtain ⟨hI, hLst, hSh, hInd⟩ := hinv hw0
      have hI' := hinv' hw
      refine ⟨hI', fun E hE => ?_, fun E hE => ?_, ?_⟩
      · obtain ⟨D, hD, hDE⟩ := hform E hE
        refine step_listed e C hord hHc hN1 (hI.good D hD) (hI'.good E hE) hDE (hLst D hD) fun c rest h1 h2 => ?_
        obtain ⟨V, q, a1, a2, a3, a4⟩ := hInd c rest h1 h2
        exact ⟨V, q, a1, a2, a3, a4 D hD⟩
      · obtain ⟨D, hD, hDE⟩ := hform E hE
        refine step_shape e C hHc hN1 (hI.good D hD) hDE (hSh D hD) fun c rest h1 h2 => ?_
        obtain ⟨V, q, a1, a2, a3, a4⟩ := hInd c rest h1 h2
        exact ⟨V, q, a1, a2, a3, a4 D hD⟩
      · intro c rest hcr hcomm
        obtain ⟨rfl, rfl⟩ := List.cons.inj hcr
        refine ⟨H, p, C, hHc, hHg, fun E hE => ?_⟩
        obtain ⟨⟨d, D⟩, hD, hDE⟩ := hform E hE
        have hd : d = 1 := by
          have := card_of_comm (hI.good _ hD) (comm_of_gens hcomm hHc)
          rwa [Fintype.card_fin] at this
        subst hd
        rcases hDE with ⟨D', rfl, _⟩ | ⟨hne, D', rfl, hval⟩
        · exact Or.inl rfl
        · exact Or.inr ⟨pb e D, hI.good _ hD, hne, finProdFinEquiv.symm, hval⟩

end Spgrep
