/-
Multiplicities in direct products, and the number of invariant tensors.
-/
import Verif.Props.Tensor
import Verif.Props.ProjectCount
import Verif.Proofs.Corep

namespace Spgrep

open Spec

variable {n D p : ℕ} {T : Fin n → Fin n → Fin n}

/-- An irrep occurs at most (dimension of the representation) / (dimension of the irrep) times. -/
theorem mult_dim_le (hT : IsGroupTable T) {L : List (AnyRep n)} (hL : IsCompleteIrreps T (fun _ _ => 1) L) {N : ℕ}
    {F : RepArr n N} (hF : IsProjRep T (fun _ _ => 1) F) (hu : IsUnitaryRep F) {E : AnyRep n} (hE : E ∈ L) :
    Module.finrank ℂ (homSub F E.2) * E.1 ≤ N := by
  obtain ⟨e, he, _⟩ := hT.one_inv
  have hμ : ∀ g h : Fin n, (fun _ _ => (1 : ℂ) : Fin n → Fin n → ℂ) g h ≠ 0 := fun _ _ => one_ne_zero
  have hn : (n : ℂ) ≠ 0 := by exact_mod_cast (table_pos hT).ne'
  have h6 : ∀ E ∈ L, (n : ℂ) * (Module.finrank ℂ (homSub F E.2) * E.1 : ℕ) =
      ∑ g, (F g).trace * ((E.1 : ℂ) * star (E.2 g).trace) := by
    intro E hE
    rw [Nat.cast_mul, ← mul_assoc, ← table_sum_char_conj hT hμ hF (hL.rep E hE) (hL.unitary E hE), Finset.sum_mul]
    exact Finset.sum_congr rfl fun g _ => by ring
  have h10 : (n : ℂ) * (((L.map fun E => Module.finrank ℂ (homSub F E.2) * E.1).sum : ℕ) : ℂ) = n * (N : ℂ) := by
    rw [list_sum_fin, Nat.cast_sum, Finset.mul_sum]
    rw [Finset.sum_congr rfl fun i _ => h6 _ (List.get_mem L i), Finset.sum_comm]
    have h11 : ∀ g, ∑ i : Fin L.length, (F g).trace * (((L.get i).1 : ℂ) * star ((L.get i).2 g).trace) =
        (F g).trace * (if g = e then (n : ℂ) else 0) := by
      intro g
      rw [← Finset.mul_sum, ← sum_dim_char_star hT hL he g, list_sum_fin]
    simp only [h11, mul_ite, mul_zero, Finset.sum_ite_eq', Finset.mem_univ, if_true]
    rw [rep_one hF hu he, Matrix.trace_one, Fintype.card_fin, mul_comm]
  have h12 : (L.map fun E => Module.finrank ℂ (homSub F E.2) * E.1).sum = N := by
    exact_mod_cast mul_left_cancel₀ hn h10
  refine le_of_le_of_eq ?_ h12
  exact List.le_sum_of_mem (List.mem_map.2 ⟨E, hE, rfl⟩)

/-- The complex conjugate of a representation. -/
theorem conj_ordinary {d : ℕ} {V : RepArr n d} (hV : IsProjRep T (fun _ _ => 1) V) :
    IsProjRep T (fun _ _ => 1) (fun g => (V g).map star : RepArr n d) := by
  intro g h
  have := hV g h
  rw [one_smul] at this
  show (V g).map star * (V h).map star = (1 : ℂ) • (V (T g h)).map star
  rw [one_smul, ← this, map_star_mul]

theorem conj_unitaryRep {d : ℕ} {V : RepArr n d} (hV : IsUnitaryRep V) : IsUnitaryRep (fun g => (V g).map star : RepArr n d) :=
  fun g => by
  have := congrArg (fun M => M.map star) (hV g)
  simp only [map_star_mul, map_star_one] at this
  exact this

theorem trace_map_star {d : ℕ} (A : Matrix (Fin d) (Fin d) ℂ) : (A.map star).trace = star A.trace := by
  simp [Matrix.trace]

/-- In the direct product of an irrep with a representation of dimension `d` no irrep occurs more than `d` times. -/
theorem mult_tensor_le (hT : IsGroupTable T) {L : List (AnyRep n)} (hL : IsCompleteIrreps T (fun _ _ => 1) L)
    {t : AnyRep n} (ht : t ∈ L) {d : ℕ} {V : RepArr n d} (hV : IsProjRep T (fun _ _ => 1) V) (hVu : IsUnitaryRep V)
    {F : RepArr n (t.1 * d)} (hF : getDirectProduct t.2 V = .ok F) {E : AnyRep n} (hE : E ∈ L) :
    Module.finrank ℂ (homSub F E.2) ≤ d := by
  have hμ : ∀ g h : Fin n, (fun _ _ => (1 : ℂ) : Fin n → Fin n → ℂ) g h ≠ 0 := fun _ _ => one_ne_zero
  have hn : (n : ℂ) ≠ 0 := by exact_mod_cast (table_pos hT).ne'
  obtain ⟨F', hF', -, hFr, hFu, hFc⟩ := c23_direct_product.2 t.2 V
  rw [hF] at hF'
  obtain rfl := Except.ok.inj hF'
  have hFr' : IsProjRep T (fun _ _ => 1) F := by simpa using hFr T _ _ (hL.rep _ ht) hV
  have hFu' := hFu (hL.unitary _ ht) hVu
  obtain ⟨G, -, -, hGr, hGu, hGc⟩ := c23_direct_product.2 E.2 (fun g => (V g).map star : RepArr n d)
  have hGr' : IsProjRep T (fun _ _ => 1) G := by simpa using hGr T _ _ (hL.rep _ hE) (conj_ordinary hV)
  have hGu' := hGu (hL.unitary _ hE) (conj_unitaryRep hVu)
  have hFc' : ∀ g, (F g).trace = (t.2 g).trace * (V g).trace := hFc
  have hGc' : ∀ g, (G g).trace = (E.2 g).trace * star (V g).trace := fun g => by
    rw [← trace_map_star]
    exact hGc g
  have h1 := table_sum_char_conj hT hμ hFr' (hL.rep _ hE) (hL.unitary _ hE)
  have h2 := table_sum_char_conj hT hμ hGr' (hL.rep _ ht) (hL.unitary _ ht)
  have h3 : (Module.finrank ℂ (homSub F E.2) : ℂ) = Module.finrank ℂ (homSub G t.2) := by
    apply mul_left_cancel₀ hn
    rw [← h2]
    have h4 := congrArg star h1
    have h5 : star ((n : ℂ) * (Module.finrank ℂ (homSub F E.2) : ℂ)) = (n : ℂ) * (Module.finrank ℂ (homSub F E.2) : ℂ) := by
      simp
    rw [← h5, ← h4, star_sum]
    refine Finset.sum_congr rfl fun g _ => ?_
    rw [hFc', hGc']
    simp only [star_mul', star_star]
    ring
  have h4 : Module.finrank ℂ (homSub F E.2) = Module.finrank ℂ (homSub G t.2) := by exact_mod_cast h3
  have h5 := mult_dim_le hT hL hFr' hFu' hE
  have h6 := mult_dim_le hT hL hGr' hGu' ht
  rw [← h4] at h6
  have ht0 : 0 < t.1 := by
    obtain ⟨i⟩ := (hL.irred _ ht).1
    exact lt_of_le_of_lt (Nat.zero_le _) i.2
  have hE0 : 0 < E.1 := by
    obtain ⟨i⟩ := (hL.irred _ hE).1
    exact lt_of_le_of_lt (Nat.zero_le _) i.2
  by_contra hcon
  push Not at hcon
  rcases le_total t.1 E.1 with h | h
  · have : t.1 * d < Module.finrank ℂ (homSub F E.2) * E.1 := by
      calc t.1 * d ≤ E.1 * d := Nat.mul_le_mul_right _ h
        _ = d * E.1 := Nat.mul_comm ..
        _ < _ := Nat.mul_lt_mul_of_pos_right hcon hE0
    omega
  · have : E.1 * d < Module.finrank ℂ (homSub F E.2) * t.1 := by
      calc E.1 * d ≤ t.1 * d := Nat.mul_le_mul_right _ h
        _ = d * t.1 := Nat.mul_comm ..
        _ < _ := Nat.mul_lt_mul_of_pos_right hcon ht0
    omega

/-! ### The number of invariant tensors -/

/-- The action on tensors as a family of matrices. -/
noncomputable def tensorPow (p : ℕ) (A : Matrix (Fin D) (Fin D) ℂ) : Matrix (Fin p → Fin D) (Fin p → Fin D) ℂ :=
  Matrix.of fun a b => ∏ s, A (a s) (b s)

theorem tensorPow_mul (A B : Matrix (Fin D) (Fin D) ℂ) : tensorPow p (A * B) = tensorPow p A * tensorPow p B := by
  ext a c
  simp only [tensorPow, Matrix.of_apply, Matrix.mul_apply, ← Finset.prod_mul_distrib]
  rw [Finset.prod_univ_sum, Fintype.piFinset_univ]

theorem tensorPow_trace (A : Matrix (Fin D) (Fin D) ℂ) : (tensorPow p A).trace = A.trace ^ p := by
  simp only [tensorPow, Matrix.trace, Matrix.diag_apply, Matrix.of_apply]
  rw [← Fintype.piFinset_univ, ← Finset.prod_univ_sum (fun _ : Fin p => Finset.univ) fun (_ : Fin p) (x : Fin D) => A x x]
  simp

/-- The invariant tensors. -/
noncomputable def invTensors (p : ℕ) (rep : RepArr n D) : Submodule ℂ (Tensor D p) where
  carrier := {t | ∀ g, actTensor (rep g) t = t}
  add_mem' := by
    intro x y hx hy g
    funext a
    rw [Pi.add_apply, ← congrFun (hx g) a, ← congrFun (hy g) a]
    simp only [actTensor, Pi.add_apply, mul_add, Finset.sum_add_distrib]
  zero_mem' := by
    intro g
    funext a
    simp [actTensor]
  smul_mem' := by
    intro c x hx g
    funext a
    rw [Pi.smul_apply, ← congrFun (hx g) a]
    simp only [actTensor, Pi.smul_apply, smul_eq_mul, Finset.mul_sum]
    exact Finset.sum_congr rfl fun b _ => by ring

/-- The dimension of the space of invariant tensors, from the character. -/
theorem finrank_invTensors (hT : IsGroupTable T) {rep : RepArr n D} (hrep : IsProjRep T (fun _ _ => 1) rep) :
    (n : ℂ) * Module.finrank ℂ (invTensors p rep) = ∑ g, (rep g).trace ^ p := by
  have hμ : ∀ g h : Fin n, (fun _ _ => (1 : ℂ) : Fin n → Fin n → ℂ) g h ≠ 0 := fun _ _ => one_ne_zero
  have h1 := table_sum_char_conj (D := fun g => tensorPow p (rep g)) (E := fun _ : Fin n => (1 : Matrix (Fin 1) (Fin 1) ℂ))
    hT hμ (by
      intro g h
      have := hrep g h
      rw [one_smul] at this
      rw [one_smul]
      show tensorPow p (rep g) * tensorPow p (rep h) = tensorPow p (rep (T g h))
      rw [← tensorPow_mul, this]) (by intro g h; simp) (by intro g; simp)
  simp only [tensorPow_trace, Matrix.trace_one, Fintype.card_fin, Nat.cast_one, star_one, mul_one] at h1
  rw [h1]
  congr 2
  refine LinearEquiv.finrank_eq
    { toFun := fun t => ⟨Matrix.of fun a _ => t.1 a, ?_⟩, invFun := fun S => ⟨fun a => S.1 a 0, ?_⟩,
      map_add' := ?_, map_smul' := ?_, left_inv := ?_, right_inv := ?_ }
  · intro g
    ext a i
    have := congrFun (t.2 g) a
    obtain rfl := Subsingleton.elim i 0
    simpa [Matrix.mul_apply, tensorPow, actTensor] using this
  · rintro ⟨x, hx⟩ ⟨y, hy⟩
    rfl
  · rintro c ⟨x, hx⟩
    rfl
  · intro g
    funext a
    have := congrFun (congrFun (S.2 g) a) 0
    simpa [Matrix.mul_apply, tensorPow, actTensor] using this
  · rintro ⟨x, hx⟩
    rfl
  · rintro ⟨x, hx⟩
    ext a i
    obtain rfl := Subsingleton.elim i 0
    rfl

/-- A basis of the invariant tensors has that many members. -/
theorem basis_count (hT : IsGroupTable T) {rep : RepArr n D} (hrep : IsProjRep T (fun _ _ => 1) rep)
    {ts : List (Tensor D p)} (h1 : ∀ t ∈ ts, ∀ g, actTensor (rep g) t = t) (h2 : LinearIndependent ℂ ts.get)
    (h3 : ∀ t : Tensor D p, (∀ g, actTensor (rep g) t = t) → t ∈ Submodule.span ℂ (Set.range ts.get)) :
    (n : ℂ) * ts.length = ∑ g, (rep g).trace ^ p := by
  rw [← finrank_invTensors hT hrep]
  congr 2
  have h4 : invTensors p rep = Submodule.span ℂ (Set.range ts.get) := by
    apply le_antisymm
    · intro t ht
      exact h3 t ht
    · rw [Submodule.span_le]
      rintro _ ⟨i, rfl⟩
      exact h1 _ (List.get_mem _ _)
  rw [h4, finrank_span_eq_card h2, Fintype.card_fin]

/-! ### Runs -/

theorem pgDataset_length : ∀ s : PgSymbol, ∀ std ∈ pgDataset s, std.length ≤ 48 := by
  intro s
  cases s <;> decide +kernel

theorem contract_order {spg : PgSymbol × Matrix (Fin 3) (Fin 3) ℝ} {rots : Fin n → M3} (h : PointgroupContract spg rots) :
    n ≤ 48 := by
  obtain ⟨_, std, hstd, σ, _⟩ := h
  have h1 := Fintype.card_congr σ
  rw [Fintype.card_fin, Fintype.card_fin] at h1
  rw [h1]
  exact pgDataset_length _ _ hstd

/-- An irrep with a vector basis occurs in the representation. -/
theorem vectorBasis_occurs (hT : IsGroupTable T) {L : List (AnyRep n)} (hL : IsCompleteIrreps T (fun _ _ => 1) L)
    {rep : RepArr n D} (hrep : IsProjRep T (fun _ _ => 1) rep) (hru : IsUnitaryRep rep) {la : LinAlg}
    (hla : la.Contract) {atol : ℝ} {vbs : List (TensorBasis n D 1)} {w : Bool}
    (h : vectorBasis la rep L atol = .ok (vbs, w)) :
    ∀ v ∈ vbs, 0 < Module.finrank ℂ (homSub rep v.irrep) := by
  have hμ : ∀ g h : Fin n, (fun _ _ => (1 : ℂ) : Fin n → Fin n → ℂ) g h ≠ 0 := fun _ _ => one_ne_zero
  unfold vectorBasis at h
  simp only [bind, Except.bind, pure, Except.pure] at h
  split at h
  · cases h
  · rename_i ls hls
    cases h
    intro v hv
    obtain ⟨E, hEm, r, hr, hvr⟩ := mem_mapM_flatten hls hv
    split at hr
    · cases hr
    · rename_i x hx
      cases hr
      obtain ⟨b, hb, rfl⟩ := List.mem_map.1 hvr
      obtain ⟨bs, w'⟩ := x
      exact lt_of_lt_of_le (List.length_pos_of_mem hb)
        ((c57_projection_basis hT hμ hrep hru (hL.rep E hEm) (hL.unitary E hEm) (hL.irred E hEm) la hla atol 10).2 _ _ hx).2.1

/-- For groups of order at most 48, if the vectors transform and belong to irreps of dimension at most three, no later
projection warns. -/
theorem tensorsFrom_small_of (hT : IsGroupTable T) {L : List (AnyRep n)} (hL : IsCompleteIrreps T (fun _ _ => 1) L)
    (hn : n ≤ 48) {rep : RepArr n D} {la : LinAlg} (hla : la.Contract) (rank : ℕ) (atol : ℝ)
    {vbs : List (TensorBasis n D 1)} {w : Bool} (hv : vectorBasis la rep L atol = .ok (vbs, w))
    (hvg : ∀ v ∈ vbs, v.Good rep L) (hv3 : ∀ v ∈ vbs, v.dim ≤ 3) :
    ∃ ts, tensorsFrom la rep L rank atol = .ok (ts, w) := by
  have hμ : ∀ g h : Fin n, (fun _ _ => (1 : ℂ) : Fin n → Fin n → ℂ) g h ≠ 0 := fun _ _ => one_ne_zero
  have hE : ∀ E ∈ L, GoodIrrep T E.2 := fun E hE => ⟨hL.rep E hE, hL.unitary E hE, .inl (hL.irred E hE)⟩
  have ha0 : min (max atol 1e-10) 1e-2 ≤ (1e-2 : ℝ) := min_le_right _ _
  have hpos : ∀ E ∈ L, 0 < E.1 := fun E hE => by
    obtain ⟨i⟩ := (hL.irred _ hE).1
    exact lt_of_le_of_lt (Nat.zero_le _) i.2
  have hsix : ∀ E ∈ L, E.1 ≤ 6 := fun E hE => by
    have := IsCompleteIrreps.dim_le hT hμ (fun _ _ _ => rfl) hL hE
    by_contra h
    push Not at h
    nlinarith
  have hloop : ∀ q, ∃ tbs, tensorLoop la L atol vbs q = .ok (tbs, false) := by
    intro q
    induction q with
    | zero => exact ⟨vbs, rfl⟩
    | succ q ih =>
      obtain ⟨tbs, ht⟩ := ih
      have htg := tensorLoop_good hT hE hvg q ht
      obtain ⟨ls, h1, h2⟩ := mapM_all_ok (l := tbs.flatMap fun t => vbs.map fun v => (t, v))
        (f := fun tv => tensorPair la L atol tv.1 tv.2) (by
          intro x hx
          obtain ⟨t, ht', hx⟩ := List.mem_flatMap.1 hx
          obtain ⟨v, hv', rfl⟩ := List.mem_map.1 hx
          have ht2 := (htg t ht').2
          have hv2 := (hvg v hv').2
          obtain ⟨F, hF, _, hFr, hFu, _⟩ := c23_direct_product.2 t.irrep v.irrep
          have hFr' : IsProjRep T (fun _ _ => 1) F := by
            have := hFr T _ _ (hE _ ht2).rep (hE _ hv2).rep
            simpa using this
          obtain ⟨ls, h1, h2⟩ := mapM_all_ok (l := L) (f := fun E => do
            let (cs, w) ← projectToIrrep la F E.2 atol
            return (cs.map fun c =>
              ({ dim := E.1, irrep := E.2, basis := contractBasis c t.basis v.basis } : TensorBasis n D (q + 1 + 1)), w)) (by
              intro E hEm
              have hm : Module.finrank ℂ (homSub F E.2) ≤ 3 :=
                (mult_tensor_le hT hL ht2 (hL.rep _ hv2) (hL.unitary _ hv2) hF hEm).trans (hv3 v hv')
              have hd : t.dim * v.dim ≤ 18 := by
                calc t.dim * v.dim ≤ 6 * 3 := Nat.mul_le_mul (hsix _ ht2) (hv3 v hv')
                  _ = 18 := by norm_num
              have hdr : ((t.dim * v.dim : ℕ) : ℝ) ≤ 18 := by exact_mod_cast hd
              obtain ⟨bs, hbs, _⟩ := c75_all_blocks_found_partial hT hμ hFr' (hFu (hE _ ht2).unitary (hE _ hv2).unitary)
                (hL.rep E hEm) (hL.unitary E hEm) (hL.irred E hEm) la hla atol 10 (by norm_num) (.inl ⟨hm, by
                calc ((t.dim * v.dim : ℕ) : ℝ) * min (max atol 1e-10) 1e-2 ≤ ((t.dim * v.dim : ℕ) : ℝ) * 1e-2 := by gcongr
                  _ ≤ 18 * 1e-2 := by gcongr
                  _ < 1 / 2 := by norm_num⟩)
              rw [hbs]
              exact ⟨_, rfl⟩)
          refine ⟨(ls.map Prod.fst).flatten, ?_⟩
          unfold tensorPair
          rw [hF]
          simp only [bind, Except.bind] at h1 ⊢
          rw [h1]
          show Except.ok (_, _) = _
          rw [h2])
      refine ⟨(ls.map Prod.fst).flatten, ?_⟩
      unfold tensorLoop tensorStep
      rw [ht]
      simp only [bind, Except.bind]
      rw [h1]
      show Except.ok (_, _ || _) = _
      rw [h2]
      rfl
  obtain ⟨tbs, ht⟩ := hloop (rank - 1)
  have hdim : ∀ t ∈ tbs, 0 < t.dim := fun t ht' => hpos _ (tensorLoop_good hT hE hvg _ ht t ht').2
  unfold tensorsFrom takeInvariant
  rw [hv]
  simp only [bind, Except.bind, ht, takeInvariant_eq tbs [] hdim]
  exact ⟨_, congrArg Except.ok (Prod.ext rfl (Bool.or_false w))⟩


/-- For groups of order at most 48, if the projections of the given representation give no warning and the irreps in it
have dimension at most three, no later projection warns. -/
theorem tensorsFrom_small (hT : IsGroupTable T) {L : List (AnyRep n)} (hL : IsCompleteIrreps T (fun _ _ => 1) L)
    (hn : n ≤ 48) {rep : RepArr n D} (hrep : IsProjRep T (fun _ _ => 1) rep) (hru : IsUnitaryRep rep)
    {la : LinAlg} (hla : la.Contract) (rank : ℕ) (atol : ℝ)
    (hvec : ∀ E ∈ L, ∃ bs, projectToIrrep la rep E.2 atol = .ok (bs, false))
    (hocc : ∀ E ∈ L, 0 < Module.finrank ℂ (homSub rep E.2) → E.1 ≤ 3) :
    ∃ ts, tensorsFrom la rep L rank atol = .ok (ts, false) := by
  have hE : ∀ E ∈ L, GoodIrrep T E.2 := fun E hE => ⟨hL.rep E hE, hL.unitary E hE, .inl (hL.irred E hE)⟩
  have hv : ∃ vbs, vectorBasis la rep L atol = .ok (vbs, false) := by
    obtain ⟨ls, h1, h2⟩ := mapM_all_ok (l := L) (f := fun E => do
      let (bs, w) ← projectToIrrep la rep E.2 atol
      return (bs.map fun b => ({ dim := E.1, irrep := E.2, basis := fun i a => b i (a 0) } : TensorBasis n D 1), w)) (by
        intro E hEm
        obtain ⟨bs, hbs⟩ := hvec E hEm
        rw [hbs]
        exact ⟨_, rfl⟩)
    refine ⟨(ls.map Prod.fst).flatten, ?_⟩
    unfold vectorBasis
    rw [h1]
    show Except.ok (_, _) = _
    rw [h2]
  obtain ⟨vbs, hv⟩ := hv
  have hvg := vectorBasis_good hT hrep hru hE hv
  have hvo := vectorBasis_occurs hT hL hrep hru hla hv
  have hv3 : ∀ v ∈ vbs, v.dim ≤ 3 := fun v hvm => hocc _ (hvg v hvm).2 (hvo v hvm)
  exact tensorsFrom_small_of hT hL hn hla rank atol hv hvg hv3

end Spgrep
