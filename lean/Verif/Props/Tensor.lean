/-
Properties C24, C25, C58: tensors.
-/
import Verif.Proofs.TensorBasis
import Verif.Props.SmallReal
import Verif.Props.Exact
import Verif.Props.RealIrreps
import Verif.Proofs.RealRefine

namespace Spgrep

open Spec

variable {n D p : ℕ} {T : Fin n → Fin n → Fin n}

theorem tensors_run {o : Oracles} {la : LinAlg} {rep : RepArr n D} {rots : Fin n → M3} {rank : ℕ} {real : Bool}
    {atol : ℝ} {ts : List (Tensor D (rank - 1 + 1))} {w : Bool}
    (h : getSymmetryAdaptedTensors o la rep rots rank real atol = .ok (ts, w)) :
    ∃ out w1 w2, enumerateUnitaryIrreps o rots none real .neto 1e-5 atol = .ok (out, w1) ∧
      tensorsFrom la rep out.irreps rank atol = .ok (ts, w2) ∧ w = (w1 || w2) := by
  unfold getSymmetryAdaptedTensors at h
  simp only [bind, Except.bind, pure, Except.pure] at h
  split at h
  · cases h
  · rename_i x hx
    split at h
    · cases h
    · rename_i y hy
      obtain ⟨h1, h2⟩ := Prod.mk.inj (Except.ok.inj h)
      subst h1
      exact ⟨x.1, x.2, y.2, hx, hy, h2.symm⟩

/-- Exact irreps give invariant tensors. -/
theorem tensors_invariant_of_exact {rots : Fin n → M3} (hTg : IsGroupTable T)
    {rep : RepArr n D} (hrep : IsProjRep T (fun _ _ => 1) rep) (hru : IsUnitaryRep rep) (o : Oracles) (la : LinAlg)
    (rank : ℕ) (real : Bool) (atol : ℝ)
    (hexact : ∀ out w, enumerateUnitaryIrreps o rots none real .neto 1e-5 atol = .ok (out, w) →
      ∀ E ∈ out.irreps, GoodIrrep T E.2)
    {ts : List (Tensor D (rank - 1 + 1))} {w : Bool}
    (hrun : getSymmetryAdaptedTensors o la rep rots rank real atol = .ok (ts, w)) :
    ∀ t ∈ ts, ∀ g, actTensor (rep g) t = t := by
  obtain ⟨out, w1, w2, h1, h2, _⟩ := tensors_run hrun
  exact tensorsFrom_invariant hTg hrep hru (hexact out w1 h1) h2

/-- The irreps inside `get_symmetry_adapted_tensors` with `real=False` are exact and complete, by C64. -/
theorem tensors_irreps_exact {rots : Fin n → M3} (h : EnumeratesGroup rots) (hT : getCayleyTable rots = .ok T)
    (o : Oracles) (ho : PointgroupContract o.pointgroup rots) {atol : ℝ} (ha : 0 ≤ atol) (ha2 : atol ≤ 1 / 2)
    {out : IrrepsOut n} {w : Bool} (hw : w = false ∨ RichDraws n o.random atol 4)
    (h1 : enumerateUnitaryIrreps o rots none false .neto 1e-5 atol = .ok (out, w)) :
    IsCompleteIrreps T (fun _ _ => 1) out.irreps := by
  obtain ⟨L, w', hraw, hr, hok⟩ := c64_exact_entries h hT o ho 1e-5 ha ha2 4
  have hw' : w' = false := by
    rcases hw with rfl | hw
    · unfold enumerateUnitaryIrreps at h1
      simp only [Option.getD_none, hraw, bind, Except.bind, pure, Except.pure, Bool.false_eq_true, if_false] at h1
      split at h1
      · cases h1
      · exact (Prod.mk.inj (Except.ok.inj h1)).2
    · exact hr hw
  obtain ⟨l, h2, -, h3, -⟩ := hok hw'
  rw [h2] at h1
  obtain ⟨rfl, -⟩ := Prod.mk.inj (Except.ok.inj h1)
  exact h3

/-- The real irreps inside `get_symmetry_adapted_tensors` with `real=True` are exact, by C69. -/
theorem tensors_real_irreps_exact {rots : Fin n → M3} (h : EnumeratesGroup rots) (hT : getCayleyTable rots = .ok T)
    (o : Oracles) (ho : PointgroupContract o.pointgroup rots) (heig : EigContract o.eig) {atol : ℝ} (ha : 0 ≤ atol)
    (ha2 : atol ≤ 1 / 10) {out : IrrepsOut n} {w : Bool}
    (hw : (w = false ∧ ∀ L w', rawIrreps o rots (fun _ _ => 1) .neto 1e-5 atol 4 = .ok (L, w') →
      ∀ E ∈ L, frobeniusSchur E.2 = .ok 1 →
        (getIntertwiner (o.random E.1) E.2 (fun g => (E.2 g).map star) atol 4).2 = false) ∨ RichDraws n o.random atol 4)
    (h1 : enumerateUnitaryIrreps o rots none true .neto 1e-5 atol = .ok (out, w)) :
    ∃ l : List (AnyReal n × ℤ), out = .real l ∧ IsCompleteRealIrreps T (fun _ _ => 1) (l.map Prod.fst) := by
  obtain ⟨L, w', hraw, hr, hok⟩ := c69_real_irreps h hT o ho heig 1e-5 ha ha2 4
  have hw' : w' = false ∧ ∀ D ∈ L, frobeniusSchur D.2 = .ok 1 →
      (getIntertwiner (o.random D.1) D.2 (fun g => (D.2 g).map star) atol 4).2 = false := by
    rcases hw with ⟨rfl, hw⟩ | hw
    · refine ⟨?_, hw L w' hraw⟩
      unfold enumerateUnitaryIrreps at h1
      simp only [Option.getD_none, hraw, bind, Except.bind, pure, Except.pure, if_true] at h1
      split at h1
      · cases h1
      · exact (Prod.mk.inj (Except.ok.inj h1)).2
    · exact hr hw
  obtain ⟨l, h2, h3, -⟩ := hok hw'.1 hw'.2
  rw [h2] at h1
  obtain ⟨rfl, -⟩ := Prod.mk.inj (Except.ok.inj h1)
  exact ⟨l, rfl, h3⟩

theorem goodIrrep_of_real {L : List (AnyReal n)} (hL : IsCompleteRealIrreps T (fun _ _ => 1) L) {R : AnyReal n}
    (hR : R ∈ L) : GoodIrrep T fun g => (R.2 g).map Complex.ofReal := by
  refine ⟨fun g k => ?_, fun g => ?_, .inr ⟨R.2, fun _ => rfl, hL.irred R hR⟩⟩
  · have h1 := congrArg (fun M : Matrix _ _ ℝ => M.map Complex.ofRealHom) (hL.rep R hR g k)
    rw [Matrix.map_mul, one_smul] at h1
    rw [one_smul]
    exact h1
  · have h1 := congrArg (fun M : Matrix _ _ ℝ => M.map Complex.ofRealHom) (hL.orthogonal R hR g)
    rw [Matrix.map_mul, Matrix.map_one _ (map_zero _) (map_one _)] at h1
    rw [← h1]
    congr 1
    ext i j
    simp

/-- **C24.** Let `rep` be a unitary representation of the group of the given rotations.  Then every tensor
returned by `get_symmetry_adapted_tensors` is invariant under every matrix acting on all its indices, whatever the
rank, the linear-algebra routines, the tolerance (up to one half, for `real=True` one tenth) and the warnings of the
projections, as long as no search for an intertwiner gave up on all its random draws (for example, if the draws are
rich enough).  For `real=True` the eigen-solver has to satisfy its contract. -/
theorem c24_tensors_invariant {rots : Fin n → M3} (h : EnumeratesGroup rots) (hT : getCayleyTable rots = .ok T)
    {rep : RepArr n D} (hrep : IsProjRep T (fun _ _ => 1) rep) (hru : IsUnitaryRep rep) (o : Oracles)
    (ho : PointgroupContract o.pointgroup rots) (la : LinAlg) (rank : ℕ) (real : Bool) {atol : ℝ} (ha : 0 ≤ atol)
    (ha2 : atol ≤ 1 / 2) (hreal : real = true → EigContract o.eig ∧ atol ≤ 1 / 10)
    {ts : List (Tensor D (rank - 1 + 1))} {w : Bool}
    (hw : (w = false ∧ (real = true → ∀ L w', rawIrreps o rots (fun _ _ => 1) .neto 1e-5 atol 4 = .ok (L, w') →
      ∀ E ∈ L, frobeniusSchur E.2 = .ok 1 →
        (getIntertwiner (o.random E.1) E.2 (fun g => (E.2 g).map star) atol 4).2 = false)) ∨ RichDraws n o.random atol 4)
    (hrun : getSymmetryAdaptedTensors o la rep rots rank real atol = .ok (ts, w)) :
    ∀ t ∈ ts, ∀ g, actTensor (rep g) t = t := by
  obtain ⟨T', hT', -, hTg⟩ := c01_cayley_table_ordinary h
  rw [hT] at hT'
  obtain rfl := Except.ok.inj hT'
  obtain ⟨out, w1, w2, h1, h2, h3⟩ := tensors_run hrun
  cases real with
  | true =>
    obtain ⟨heig, ha3⟩ := hreal rfl
    obtain ⟨l, rfl, hL⟩ := tensors_real_irreps_exact h hT o ho heig ha ha3 (w := w1) (by
      rcases hw with ⟨rfl, hw⟩ | hw
      · exact .inl ⟨((Bool.or_eq_false_iff).1 h3.symm).1, hw rfl⟩
      · exact .inr hw) h1
    refine tensorsFrom_invariant hTg hrep hru (fun E hE => ?_) h2
    obtain ⟨x, hx, rfl⟩ := List.mem_map.1 hE
    exact goodIrrep_of_real hL (List.mem_map_of_mem hx)
  | false =>
    have hw1 : w1 = false ∨ RichDraws n o.random atol 4 := by
      rcases hw with ⟨rfl, hw⟩ | hw
      · exact .inl ((Bool.or_eq_false_iff).1 h3.symm).1
      · exact .inr hw
    have hL := tensors_irreps_exact h hT o ho ha ha2 hw1 h1
    exact tensorsFrom_invariant hTg hrep hru (fun E hE => ⟨hL.rep E hE, hL.unitary E hE, .inl (hL.irred E hE)⟩) h2

/-- If every element is conjugate to its inverse, the irreps inside `get_symmetry_adapted_tensors` with `real=True` are
a complete list of complex irreps too. -/
theorem tensors_real_irreps_complete {rots : Fin n → M3} (h : EnumeratesGroup rots) (hT : getCayleyTable rots = .ok T)
    (o : Oracles) (ho : PointgroupContract o.pointgroup rots) (heig : EigContract o.eig)
    (hamb : ∀ g, ∃ g' k, rots g' * rots g = 1 ∧ rots k * rots g = rots g' * rots k) {atol : ℝ} (ha : 0 ≤ atol)
    (ha2 : atol ≤ 1 / 10) {out : IrrepsOut n} {w : Bool}
    (hw : (w = false ∧ ∀ L w', rawIrreps o rots (fun _ _ => 1) .neto 1e-5 atol 4 = .ok (L, w') →
      ∀ E ∈ L, frobeniusSchur E.2 = .ok 1 →
        (getIntertwiner (o.random E.1) E.2 (fun g => (E.2 g).map star) atol 4).2 = false) ∨ RichDraws n o.random atol 4)
    (h1 : enumerateUnitaryIrreps o rots none true .neto 1e-5 atol = .ok (out, w)) :
    IsCompleteIrreps T (fun _ _ => 1) out.irreps := by
  obtain ⟨hTg, L, w', hraw, hr, hok⟩ := real_run h hT o ho heig 1e-5 ha ha2 4
  have hw' : w' = false ∧ ∀ D ∈ L, frobeniusSchur D.2 = .ok 1 →
      (getIntertwiner (o.random D.1) D.2 (fun g => (D.2 g).map star) atol 4).2 = false := by
    rcases hw with ⟨rfl, hw⟩ | hw
    · refine ⟨?_, hw L w' hraw⟩
      unfold enumerateUnitaryIrreps at h1
      simp only [Option.getD_none, hraw, bind, Except.bind, pure, Except.pure, if_true] at h1
      split at h1
      · cases h1
      · exact (Prod.mk.inj (Except.ok.inj h1)).2
    · exact hr hw
  obtain ⟨hL, l, h2, hF⟩ := hok hw'.1 hw'.2
  rw [h2] at h1
  obtain ⟨rfl, -⟩ := Prod.mk.inj (Except.ok.inj h1)
  obtain ⟨T', hT', hs, -⟩ := c01_cayley_table_ordinary h
  rw [hT] at hT'
  obtain rfl := Except.ok.inj hT'
  obtain ⟨e, he⟩ : ∃ e, rots e = 1 := by
    obtain ⟨_, H, hH⟩ := h
    have : (1 : M3) ∈ Set.range rots := by rw [hH]; exact ⟨1, H.one_mem, rfl⟩
    exact this
  have heT : ∀ g, T e g = g := fun g => (hs e g g).2 (by rw [he, one_mul])
  have hambT : ∀ g, ∃ g' k, T g' g = e ∧ T k g = T g' k := by
    intro g
    obtain ⟨g', k, h3, h4⟩ := hamb g
    exact ⟨g', k, (hs _ _ _).2 (by rw [h3, he]), (hs _ _ _).2 (by rw [h4, (hs g' k _).1 rfl])⟩
  have hfs0 : ∀ D ∈ L, frobeniusSchur D.2 ≠ .ok 0 := by
    intro D hD h0
    obtain ⟨s, h3, -, h4, -⟩ := c17_frobenius_schur hTg (μ := fun _ _ => 1) (fun _ _ => .inl rfl) (hL.rep D hD)
      (hL.unitary D hD) (hL.irred D hD)
    rw [h0] at h3
    exact h4.1 (Except.ok.inj h3).symm
      (conj_equiv_of_ambivalent hTg heT hambT (hL.rep D hD) (hL.unitary D hD) (hL.irred D hD))
  have hmem : ∀ j : Fin L.length, L.get j ∈ L := fun j => List.get_mem L j
  have hx1 : ∀ p (x : AnyReal n × ℤ), frobeniusSchur (L.get p).2 = .ok x.2 →
      (x.2 = 1 ∨ (x.2 = 0 ∧ x.1.1 = 2 ∧ (L.get p).1 = 1)) → x.2 = 1 := by
    rintro p x h3 (h4 | ⟨h4, -⟩)
    · exact h4
    · rw [h4] at h3
      exact absurd h3 (hfs0 _ (hmem p))
  refine complexified_complete hTg hL (fun D hD => ?_) (hF.imp fun p x hx => ⟨hx.1, hx.2.2.2.2 (hx1 _ x hx.2.2.1 hx.2.2.2.1)⟩)
  obtain ⟨_, L2, w2, hraw2, -, hp⟩ := point_run h hT o ho 1e-5 ha (ha2.trans (by norm_num)) 4
  rw [hraw] at hraw2
  obtain ⟨rfl, rfl⟩ := Prod.mk.inj (Except.ok.inj hraw2)
  rcases shape_indicator hTg (hL.rep D hD) (hL.unitary D hD) (hL.irred D hD) ((hp hw'.1).2.1 D hD).2 with h3 | ⟨h3, -⟩
  · exact h3
  · exact absurd h3 (hfs0 D hD)

/-- The real irreps inside `get_symmetry_adapted_tensors` with `real=True` split into a complete list of complex
irreps. -/
theorem tensors_real_irreps_split {rots : Fin n → M3} (h : EnumeratesGroup rots) (hT : getCayleyTable rots = .ok T)
    (o : Oracles) (ho : PointgroupContract o.pointgroup rots) (heig : EigContract o.eig) {atol : ℝ} (ha : 0 ≤ atol)
    (ha2 : atol ≤ 1 / 10) {out : IrrepsOut n} {w : Bool}
    (hw : (w = false ∧ ∀ L w', rawIrreps o rots (fun _ _ => 1) .neto 1e-5 atol 4 = .ok (L, w') →
      ∀ E ∈ L, frobeniusSchur E.2 = .ok 1 →
        (getIntertwiner (o.random E.1) E.2 (fun g => (E.2 g).map star) atol 4).2 = false) ∨ RichDraws n o.random atol 4)
    (h1 : enumerateUnitaryIrreps o rots none true .neto 1e-5 atol = .ok (out, w)) :
    ∃ Ls : List (List (AnyRep n)), IsCompleteIrreps T (fun _ _ => 1) Ls.flatten ∧
      List.Forall₂ (fun E M => M = [E] ∨ SplitsInto T E M) out.irreps Ls := by
  obtain ⟨hTg, L, w', hraw, hr, hok⟩ := real_run h hT o ho heig 1e-5 ha ha2 4
  have hw' : w' = false ∧ ∀ D ∈ L, frobeniusSchur D.2 = .ok 1 →
      (getIntertwiner (o.random D.1) D.2 (fun g => (D.2 g).map star) atol 4).2 = false := by
    rcases hw with ⟨rfl, hw⟩ | hw
    · refine ⟨?_, hw L w' hraw⟩
      unfold enumerateUnitaryIrreps at h1
      simp only [Option.getD_none, hraw, bind, Except.bind, pure, Except.pure, if_true] at h1
      split at h1
      · cases h1
      · exact (Prod.mk.inj (Except.ok.inj h1)).2
    · exact hr hw
  obtain ⟨hL, l, h2, hF⟩ := hok hw'.1 hw'.2
  rw [h2] at h1
  obtain ⟨rfl, -⟩ := Prod.mk.inj (Except.ok.inj h1)
  exact refined_complete hTg hL hF

/-- A complete list of irreps, no warning, and vectors that transform and form a basis: the tensors are a basis of the
invariant tensors. -/
theorem tensorsFrom_basis_of (hTg : IsGroupTable T) {L : List (AnyRep n)} (hL : IsCompleteIrreps T (fun _ _ => 1) L)
    {rep : RepArr n D} {la : LinAlg} (hla : la.Contract) {rank : ℕ} {atol : ℝ}
    (hvg : ∀ x, vectorBasis la rep L atol = .ok x → ∀ v ∈ x.1, v.Good rep L)
    (hvf : ∀ x, vectorBasis la rep L atol = .ok (x, false) → FullBasis x) {ts : List (Tensor D (rank - 1 + 1))}
    (h2 : tensorsFrom la rep L rank atol = .ok (ts, false)) :
    (∀ t ∈ ts, ∀ g, actTensor (rep g) t = t) ∧ LinearIndependent ℂ ts.get ∧
    ∀ t : Tensor D (rank - 1 + 1), (∀ g, actTensor (rep g) t = t) → t ∈ Submodule.span ℂ (Set.range ts.get) := by
  have hE : ∀ E ∈ L, GoodIrrep T E.2 := fun E hE => ⟨hL.rep E hE, hL.unitary E hE, .inl (hL.irred E hE)⟩
  refine ⟨tensorsFrom_invariant_of hTg hE hvg h2, ?_⟩
  unfold tensorsFrom at h2
  simp only [bind, Except.bind, pure, Except.pure] at h2
  split at h2
  · cases h2
  · rename_i x hx
    split at h2
    · cases h2
    · rename_i y hy
      split at h2
      · cases h2
      · rename_i z hz
        obtain ⟨h6, h7⟩ := Prod.mk.inj (Except.ok.inj h2)
        subst h6
        obtain ⟨x1, x2⟩ := x
        obtain ⟨y1, y2⟩ := y
        obtain ⟨rfl, rfl⟩ := (Bool.or_eq_false_iff).1 h7
        have hvg' := hvg _ hx
        exact invariants_basis hTg hL (tensorLoop_good hTg hE hvg' _ hy)
          (tensorLoop_full hTg hL hla hvg' (hvf _ hx) hE _ hy) hz

/-- A complete list of irreps and no warning: the tensors are a basis of the invariant tensors. -/
theorem tensorsFrom_basis (hTg : IsGroupTable T) {L : List (AnyRep n)} (hL : IsCompleteIrreps T (fun _ _ => 1) L)
    {rep : RepArr n D} (hrep : IsProjRep T (fun _ _ => 1) rep) (hru : IsUnitaryRep rep) {la : LinAlg}
    (hla : la.Contract) {rank : ℕ} {atol : ℝ} {ts : List (Tensor D (rank - 1 + 1))}
    (h2 : tensorsFrom la rep L rank atol = .ok (ts, false)) :
    (∀ t ∈ ts, ∀ g, actTensor (rep g) t = t) ∧ LinearIndependent ℂ ts.get ∧
    ∀ t : Tensor D (rank - 1 + 1), (∀ g, actTensor (rep g) t = t) → t ∈ Submodule.span ℂ (Set.range ts.get) := by
  have hE : ∀ E ∈ L, GoodIrrep T E.2 := fun E hE => ⟨hL.rep E hE, hL.unitary E hE, .inl (hL.irred E hE)⟩
  exact tensorsFrom_basis_of hTg hL hla (fun _ hx => vectorBasis_good hTg hrep hru hE hx)
    (fun _ hx => vectorBasis_full hTg hL hrep hru hla hx) h2

/-- **C58 (partial).** With routines that satisfy their contracts, a run of `get_symmetry_adapted_tensors` that gives no
warnings returns a basis of the space of all invariant tensors, for `real=False`, and for `real=True` if the
representation is real or every rotation is conjugate to its inverse in the group.  Missing from the full statement:
`real=True` with complex matrices for other groups, where it is false (`c58_tensors_basis_refuted`). -/
theorem c58_tensors_basis_partial {rots : Fin n → M3} (h : EnumeratesGroup rots) (hT : getCayleyTable rots = .ok T)
    {rep : RepArr n D} (hrep : IsProjRep T (fun _ _ => 1) rep) (hru : IsUnitaryRep rep) (o : Oracles)
    (ho : PointgroupContract o.pointgroup rots) (la : LinAlg) (hla : la.Contract) (rank : ℕ) (real : Bool) {atol : ℝ}
    (ha : 0 ≤ atol) (ha2 : atol ≤ 1 / 2) (hreal : real = true → EigContract o.eig ∧ atol ≤ 1 / 10 ∧
      ((∀ g i j, (rep g i j).im = 0) ∨ ∀ g, ∃ g' k, rots g' * rots g = 1 ∧ rots k * rots g = rots g' * rots k) ∧
      ((∀ L w', rawIrreps o rots (fun _ _ => 1) .neto 1e-5 atol 4 = .ok (L, w') → ∀ E ∈ L, frobeniusSchur E.2 = .ok 1 →
        (getIntertwiner (o.random E.1) E.2 (fun g => (E.2 g).map star) atol 4).2 = false) ∨ RichDraws n o.random atol 4))
    {ts : List (Tensor D (rank - 1 + 1))}
    (hrun : getSymmetryAdaptedTensors o la rep rots rank real atol = .ok (ts, false)) :
    (∀ t ∈ ts, ∀ g, actTensor (rep g) t = t) ∧ LinearIndependent ℂ ts.get ∧
    ∀ t : Tensor D (rank - 1 + 1), (∀ g, actTensor (rep g) t = t) → t ∈ Submodule.span ℂ (Set.range ts.get) := by
  obtain ⟨out, w1, w2, h1, h2, h3⟩ := tensors_run hrun
  obtain ⟨rfl, rfl⟩ := (Bool.or_eq_false_iff).1 h3.symm
  obtain ⟨T', hT', -, hTg⟩ := c01_cayley_table_ordinary h
  rw [hT] at hT'
  obtain rfl := Except.ok.inj hT'
  cases real with
  | false => exact tensorsFrom_basis hTg (tensors_irreps_exact h hT o ho ha ha2 (.inl rfl) h1) hrep hru hla h2
  | true =>
    obtain ⟨heig, ha3, hc, hno⟩ := hreal rfl
    have hno' := hno.imp_left fun h => (⟨rfl, h⟩ : false = false ∧ _)
    rcases hc with hc | hamb
    · obtain ⟨Ls, hL, hS⟩ := tensors_real_irreps_split h hT o ho heig ha ha3 hno' h1
      obtain ⟨l, rfl, hR⟩ := tensors_real_irreps_exact h hT o ho heig ha ha3 hno' h1
      have hE : ∀ E ∈ (IrrepsOut.real l).irreps, GoodIrrep T E.2 := by
        intro E hE
        obtain ⟨x, hx, rfl⟩ := List.mem_map.1 hE
        exact goodIrrep_of_real hR (List.mem_map_of_mem hx)
      refine tensorsFrom_basis hTg hL hrep hru hla (tensorsFrom_refine hTg hrep hru
        (fun g i j => Complex.conj_eq_iff_im.2 (hc g i j)) hla hS (fun E hE' => ?_) hE h2)
      refine ⟨(hE E hE').rep, (hE E hE').unitary, ?_⟩
      obtain ⟨x, hx, rfl⟩ := List.mem_map.1 hE'
      exact fun g => realEntries_ofReal _
    · exact tensorsFrom_basis hTg (tensors_real_irreps_complete h hT o ho heig hamb ha ha3 hno' h1) hrep hru hla h2

/-! ### An instance -/

theorem project_one_dim (hT : IsGroupTable T) {N d : ℕ} (hN : N = 1) (hd : d = 1) {F : RepArr n N} {E : RepArr n d}
    (hF : IsProjRep T (fun _ _ => 1) F) (hFu : IsUnitaryRep F) (hE : IsProjRep T (fun _ _ => 1) E)
    (hEu : IsUnitaryRep E) (la : LinAlg) (atol : ℝ) : ∃ bs, projectToIrrep la F E atol = .ok (bs, false) := by
  subst hN hd
  have hn : (n : ℂ) ≠ 0 := by exact_mod_cast (table_pos hT).ne'
  have hnum := numBasis_eq hT (fun _ _ => one_ne_zero) hF hE hEu
  unfold projectToIrrep
  by_cases h0 : numBasis F E = 0
  · exact ⟨[], by simp only [h0, if_true]⟩
  have hbot : homSub F E ≠ ⊥ := by
    intro hb
    rw [hb, finrank_bot] at hnum
    exact h0 (by simpa using hnum)
  obtain ⟨S, hS, hS0⟩ := Submodule.exists_mem_ne_zero_of_ne_bot hbot
  have hS00 : S 0 0 ≠ 0 := fun h => hS0 (by ext i j; rw [Subsingleton.elim i 0, Subsingleton.elim j 0, h]; rfl)
  have hFE : ∀ g, F g 0 0 = E g 0 0 := by
    intro g
    have := congrFun (congrFun (hS g) 0) 0
    simp only [Matrix.mul_apply, Fin.sum_univ_one] at this
    rw [mul_comm (S 0 0)] at this
    exact mul_right_cancel₀ hS00 this
  have hFE' : F = E := by
    funext g
    ext i j
    rw [Subsingleton.elim i 0, Subsingleton.elim j 0, hFE]
  subst hFE'
  rw [finrank_homSub_self (irreducible_dim_one F)] at hnum
  have hb : projBlock F F 0 0 0 0 = 1 := by
    unfold projBlock
    rw [Matrix.of_apply]
    have : ∀ k, star (F k 0 0) * F k 0 0 = 1 := by
      intro k
      have := congrFun (congrFun (hFu k) 0) 0
      rw [mul_comm]
      simpa [Matrix.mul_apply] using this
    simp only [this]
    simp [hn]
  have hin : ∀ a : ℝ, a ≤ 1e-2 → projInner la F F a = .ok [normalizeRows (projBlock F F 0 0)] := by
    intro a ha
    unfold projInner
    have hl : ((List.finRange 1).flatMap fun c => (List.finRange 1).map fun j => (c, j)) = [((0 : Fin 1), (0 : Fin 1))] := by
      decide
    rw [hl, List.foldlM_cons]
    unfold projStep
    dsimp only
    rw [if_neg, if_neg]
    · rfl
    · simp
    · intro h
      have := h 0 0
      rw [hb] at this
      unfold IsCloseC at this
      norm_num at this
      linarith
  refine ⟨[normalizeRows (projBlock F F 0 0)], ?_⟩
  have ha0 : min (max atol 1e-10) 1e-2 ≤ (1e-2 : ℝ) := min_le_right _ _
  have hs : searchTolerance (fun a => do let b ← projInner la F F a; return (b, b.length)) (numBasis F F) atol 10 =
      .ok ([normalizeRows (projBlock F F 0 0)], false, [min (max atol 1e-10) 1e-2]) := by
    unfold searchTolerance retryLoop
    simp only [hin _ ha0, bind, Except.bind, pure, Except.pure, hnum]
    simp
  simp only [h0, if_false, hs]
  rfl

theorem mapM_all_ok {α β : Type} {f : α → Except PyErr (List β × Bool)} : ∀ {l : List α},
    (∀ a ∈ l, ∃ b, f a = .ok (b, false)) → ∃ ls, l.mapM f = .ok ls ∧ ls.any Prod.snd = false
  | [], _ => ⟨[], rfl, rfl⟩
  | a :: l, h => by
    obtain ⟨b, hb⟩ := h a (List.mem_cons_self ..)
    obtain ⟨ls, h1, h2⟩ := mapM_all_ok fun a ha => h a (List.mem_cons_of_mem _ ha)
    refine ⟨(b, false) :: ls, ?_, by simpa using h2⟩
    rw [List.mapM_cons, hb, h1]
    rfl

/-- For one-dimensional representations and irreps no warning is given. -/
theorem tensorsFrom_one_dim (hT : IsGroupTable T) {L : List (AnyRep n)} (hE : ∀ E ∈ L, GoodIrrep T E.2)
    (hd : ∀ E ∈ L, E.1 = 1) {rep : RepArr n 1} (hrep : IsProjRep T (fun _ _ => 1) rep) (hru : IsUnitaryRep rep)
    (la : LinAlg) (rank : ℕ) (atol : ℝ) : ∃ ts, tensorsFrom la rep L rank atol = .ok (ts, false) := by
  have hv : ∃ vbs, vectorBasis la rep L atol = .ok (vbs, false) := by
    obtain ⟨ls, h1, h2⟩ := mapM_all_ok (l := L) (f := fun E => do
      let (bs, w) ← projectToIrrep la rep E.2 atol
      return (bs.map fun b => ({ dim := E.1, irrep := E.2, basis := fun i a => b i (a 0) } : TensorBasis n 1 1), w)) (by
        intro E hEm
        obtain ⟨bs, hbs⟩ := project_one_dim hT rfl (hd E hEm) hrep hru (hE E hEm).rep (hE E hEm).unitary la atol
        rw [hbs]
        exact ⟨_, rfl⟩)
    refine ⟨(ls.map Prod.fst).flatten, ?_⟩
    unfold vectorBasis
    rw [h1]
    show Except.ok (_, _) = _
    rw [h2]
  obtain ⟨vbs, hv⟩ := hv
  have hvg := vectorBasis_good hT hrep hru hE hv
  have hloop : ∀ q, ∃ tbs, tensorLoop la L atol vbs q = .ok (tbs, false) := by
    intro q
    induction q with
    | zero => exact ⟨vbs, rfl⟩
    | succ q ih =>
      obtain ⟨tbs, ht⟩ := ih
      have htg := tensorLoop_good hT hE hvg q ht
      obtain ⟨ls, h1, h2⟩ := mapM_all_ok (l := tbs.flatMap fun t => vbs.map fun v => (t, v))
        (f := fun tv => tensorPair la L atol tv.1 tv.2) (by
          intro x hx
          obtain ⟨t, ht', hx⟩ := List.mem_flatMap.1 hx
          obtain ⟨v, hv', rfl⟩ := List.mem_map.1 hx
          have ht2 := (htg t ht').2
          have hv2 := (hvg v hv').2
          obtain ⟨F, hF, _, hFr, hFu, _⟩ := c23_direct_product.2 t.irrep v.irrep
          have hFr' : IsProjRep T (fun _ _ => 1) F := by
            have := hFr T _ _ (hE _ ht2).rep (hE _ hv2).rep
            simpa using this
          obtain ⟨ls, h1, h2⟩ := mapM_all_ok (l := L) (f := fun E => do
            let (cs, w) ← projectToIrrep la F E.2 atol
            return (cs.map fun c =>
              ({ dim := E.1, irrep := E.2, basis := contractBasis c t.basis v.basis } : TensorBasis n 1 (q + 1 + 1)), w)) (by
              intro E hEm
              have h3 : t.dim * v.dim = 1 := by
                have h4 : t.dim = 1 := hd _ ht2
                have h5 : v.dim = 1 := hd _ hv2
                rw [h4, h5]
              obtain ⟨bs, hbs⟩ := project_one_dim hT h3 (hd E hEm) hFr' (hFu (hE _ ht2).unitary (hE _ hv2).unitary)
                (hE E hEm).rep (hE E hEm).unitary la atol
              rw [hbs]
              exact ⟨_, rfl⟩)
          refine ⟨(ls.map Prod.fst).flatten, ?_⟩
          unfold tensorPair
          rw [hF]
          simp only [bind, Except.bind] at h1 ⊢
          rw [h1]
          show Except.ok (_, _) = _
          rw [h2])
      refine ⟨(ls.map Prod.fst).flatten, ?_⟩
      unfold tensorLoop tensorStep
      rw [ht]
      simp only [bind, Except.bind]
      rw [h1]
      show Except.ok (_, _ || _) = _
      rw [h2]
      rfl
  obtain ⟨tbs, ht⟩ := hloop (rank - 1)
  have hdim : ∀ t ∈ tbs, 0 < t.dim := by
    intro t ht'
    have : t.dim = 1 := hd _ (tensorLoop_good hT hE hvg _ ht t ht').2
    omega
  unfold tensorsFrom takeInvariant
  rw [hv]
  simp only [bind, Except.bind, ht, takeInvariant_eq tbs [] hdim]
  exact ⟨_, rfl⟩

/-- Non-vacuity of C24 and C58: the group C3 acting on a line by third roots of unity.  There is a run without
warnings that meets all hypotheses, and the tensors of rank 3, all of which are invariant, are spanned by the one
tensor that is returned. -/
example : ∃ (o : Oracles) (la : LinAlg) (ts : List (Tensor 1 3)), PointgroupContract o.pointgroup rotsP3 ∧ la.Contract ∧
    getCayleyTable rotsP3 = .ok tblC3 ∧ IsGroupTable tblC3 ∧ IsProjRep tblC3 (fun _ _ => 1) repC3 ∧ IsUnitaryRep repC3 ∧
    getSymmetryAdaptedTensors o la repC3 rotsP3 3 = .ok (ts, false) ∧ ts.length = 1 := by
  obtain ⟨la, hla⟩ := exists_linAlg_contract
  obtain ⟨random, hr⟩ := exists_richDraws 1e-8 3 4 fun d hd => hd.trans (by norm_num)
  let o : Oracles := { random := random, eig := fun d _ => (fun _ => 0, 0), eigh := fun d _ => (fun _ => 0, 0),
                       qr := fun _ _ _ => 0,
                       pointgroup := (PgSymbol.pg_3, (1 : M3).map fun x : ℤ => (x : ℝ)) }
  have ho : PointgroupContract o.pointgroup rotsP3 := pointgroup_C3
  obtain ⟨L, w, hraw, hw2, hw⟩ := c64_exact_entries rotsP3_group cayley_C3 o ho 1e-5 (atol := 1e-8) (by norm_num) (by norm_num) 4
  obtain ⟨l, henum, hlfst, hL, -⟩ := hw (hw2 hr)
  rw [hlfst] at hL
  have hgood : ∀ E ∈ L, GoodIrrep tblC3 E.2 := fun E hE =>
    ⟨hL.rep E hE, hL.unitary E hE, .inl (hL.irred E hE)⟩
  obtain ⟨ts, hts⟩ := tensorsFrom_one_dim tblC3_group hgood (fun E hE => by
    obtain ⟨E', rfl, _⟩ := complete_C3 hL tblC3_group hE
    rfl) repC3_proj repC3_unitary la 3 1e-8
  have hrun : getSymmetryAdaptedTensors o la repC3 rotsP3 3 = .ok (ts, false) := by
    unfold getSymmetryAdaptedTensors
    have h1 : (IrrepsOut.complex l).irreps = L := hlfst
    simp only [henum, bind, Except.bind, h1, hts]
    rfl
  refine ⟨o, la, ts, ho, hla, cayley_C3, tblC3_group, repC3_proj, repC3_unitary, hrun, ?_⟩
  · obtain ⟨_, h2, h3⟩ := c58_tensors_basis_partial rotsP3_group cayley_C3 repC3_proj repC3_unitary o ho la hla 3 false
      (by norm_num) (by norm_num) (by simp) hrun
    have hall : ∀ t : Tensor 1 3, ∀ g, actTensor (repC3 g) t = t := by
      intro t g
      funext a
      have h1 : ∀ c : Fin (3 - 1 + 1) → Fin 1, c = 0 := fun c => by funext i; exact Subsingleton.elim _ _
      have h2 := ω3_sq
      have h3 := ω3_norm
      unfold actTensor
      rw [Fintype.sum_eq_single (0 : Fin (3 - 1 + 1) → Fin 1) (fun c hc => absurd (h1 c) hc), h1 a]
      have h4 : ω3 * ω3 * ω3 = 1 := by rw [h2, mul_comm, h3]
      have h5 : star ω3 * star ω3 * star ω3 = 1 := by
        have := congrArg star h4
        simpa [mul_assoc] using this
      have h6 : ∏ i : Fin (3 - 1 + 1), repC3 g ((0 : Fin (3 - 1 + 1) → Fin 1) i) ((0 : Fin (3 - 1 + 1) → Fin 1) i) = 1 := by
        show ∏ i : Fin 3, repC3 g 0 0 = 1
        rw [Fin.prod_univ_three]
        fin_cases g
        · simp [repC3]
        · simpa [repC3] using h4
        · simpa [repC3] using h5
      rw [h6, one_mul]
    have h4 : ⊤ ≤ Submodule.span ℂ (Set.range ts.get) := fun t _ => h3 t (hall t)
    have h5 := Module.finrank_eq_card_basis (Module.Basis.mk h2 h4)
    simpa [Tensor] using h5.symm

end Spgrep
