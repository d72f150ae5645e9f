/-
`get_symmetry_adapted_tensors` for representations that are not unitary.
-/
import Verif.Props.NonUnitary
import Verif.Props.TensorReal

namespace Spgrep

open Spec

variable {n d D : ℕ} {T : Fin n → Fin n → Fin n}

/-- Blocks found in a representation by commuting matrices: the irrep has dimension one and they transform. -/
theorem commuting_blocks (hT : IsGroupTable T) {rep : RepArr n D} (hrep : IsProjRep T (fun _ _ => 1) rep)
    (hcomm : ∀ g h, rep g * rep h = rep h * rep g) {E : RepArr n d} (hE : IsProjRep T (fun _ _ => 1) E)
    (hEu : IsUnitaryRep E) (hEi : Spec.IsIrreducible E) {la : LinAlg} (hla : la.Contract) {atol : ℝ}
    {bs : List (Matrix (Fin d) (Fin D) ℂ)} {w : Bool} (h : projectToIrrep la rep E atol = .ok (bs, w)) :
    ∀ b ∈ bs, d = 1 ∧ ∀ g i m, ∑ m', rep g m m' * b i m' = ∑ l, b l m * E g l i := by
  obtain ⟨hli, -, -, hb⟩ := (c78_nonunitary_partial hT (fun _ _ => one_ne_zero) hrep hE hEu hEi la hla atol 10).2 _ _ h
  intro b hbm
  obtain ⟨-, ⟨c, hc, hs⟩, h1⟩ := hb b hbm
  obtain ⟨k, rfl⟩ := List.get_of_mem hbm
  have hrow : LinearIndependent ℂ fun i => (bs.get k i : Fin D → ℂ) :=
    hli.comp (fun i => (k, i)) fun i j hij => (Prod.mk.inj hij).2
  let C : Matrix (Fin D) (Fin d) ℂ := Matrix.of fun m i => (c i : ℂ) * bs.get k i m
  have hC : ∀ g, rep g * C = C * E g := by
    intro g
    ext m i
    rw [Matrix.mul_apply, Matrix.mul_apply]
    exact hs g i m
  have hinj : ∀ M N : Matrix (Fin d) (Fin d) ℂ, C * M = C * N → M = N := by
    intro M N hMN
    ext i j
    have h2 := (Fintype.linearIndependent_iff.1 hrow) (fun l => (c l : ℂ) * (M l j - N l j)) (by
      funext m
      have h3 := congrFun (congrFun hMN m) j
      rw [Matrix.mul_apply, Matrix.mul_apply] at h3
      rw [Finset.sum_apply]
      show ∑ l, (c l : ℂ) * (M l j - N l j) * bs.get k l m = 0
      rw [← sub_eq_zero, ← Finset.sum_sub_distrib] at h3
      rw [← h3]
      refine Finset.sum_congr rfl fun l _ => ?_
      show _ = (c l : ℂ) * bs.get k l m * M l j - (c l : ℂ) * bs.get k l m * N l j
      ring) i
    exact sub_eq_zero.1 ((mul_eq_zero.1 h2).resolve_left (by exact_mod_cast (hc i).ne'))
  have hd : d = 1 := dim_one_of_comm hEi fun g h => hinj _ _ (by
    rw [← Matrix.mul_assoc, ← hC g, Matrix.mul_assoc, ← hC h, ← Matrix.mul_assoc, hcomm,
      Matrix.mul_assoc, hC g, ← Matrix.mul_assoc, hC h, Matrix.mul_assoc])
  exact ⟨hd, h1 hd⟩

theorem commuting_vectors (hT : IsGroupTable T) {rep : RepArr n D} (hrep : IsProjRep T (fun _ _ => 1) rep)
    (hcomm : ∀ g h, rep g * rep h = rep h * rep g) {L : List (AnyRep n)} (hL : IsCompleteIrreps T (fun _ _ => 1) L)
    {la : LinAlg} (hla : la.Contract) {atol : ℝ} (x : List (TensorBasis n D 1) × Bool)
    (h : vectorBasis la rep L atol = .ok x) : ∀ v ∈ x.1, v.Good rep L ∧ v.dim = 1 := by
  unfold vectorBasis at h
  simp only [bind, Except.bind, pure, Except.pure] at h
  split at h
  · cases h
  · rename_i ls hls
    cases h
    intro v hv
    obtain ⟨E, hEm, r, hr, hvr⟩ := mem_mapM_flatten hls hv
    split at hr
    · cases hr
    · rename_i y hy
      cases hr
      obtain ⟨b, hb, rfl⟩ := List.mem_map.1 hvr
      have hc := commuting_blocks hT hrep hcomm (hL.rep E hEm) (hL.unitary E hEm) (hL.irred E hEm) hla hy b hb
      refine ⟨⟨fun g i => ?_, hEm⟩, hc.1⟩
      funext a
      rw [actTensor_one]
      exact hc.2 g i (a 0)

theorem commuting_vectors_good (hT : IsGroupTable T) {rep : RepArr n D} (hrep : IsProjRep T (fun _ _ => 1) rep)
    (hcomm : ∀ g h, rep g * rep h = rep h * rep g) {L : List (AnyRep n)} (hL : IsCompleteIrreps T (fun _ _ => 1) L)
    {la : LinAlg} (hla : la.Contract) {atol : ℝ} (x : List (TensorBasis n D 1) × Bool)
    (h : vectorBasis la rep L atol = .ok x) : ∀ v ∈ x.1, v.Good rep L :=
  fun v hv => (commuting_vectors hT hrep hcomm hL hla x h v hv).1

theorem commuting_vectors_full (hT : IsGroupTable T) {rep : RepArr n D} (hrep : IsProjRep T (fun _ _ => 1) rep)
    (hinv : ∀ g, IsUnit (rep g)) (hcomm : ∀ g h, rep g * rep h = rep h * rep g) {L : List (AnyRep n)}
    (hL : IsCompleteIrreps T (fun _ _ => 1) L) {la : LinAlg} (hla : la.Contract) {atol : ℝ}
    (x : List (TensorBasis n D 1)) (h : vectorBasis la rep L atol = .ok (x, false)) : FullBasis x := by
  refine vectorBasis_full_of (fun hbs => stage_of hT hL hrep (fun e he => ?_) _ fun E hE => ?_) h
  · have h1 := hrep e e
    rw [he, one_smul] at h1
    exact (hinv e).mul_left_cancel (by rw [h1, Matrix.mul_one])
  · have hb := hbs E hE
    obtain ⟨hli, hle, hw, -⟩ := (c78_nonunitary_partial hT (fun _ _ => one_ne_zero) hrep (hL.rep E hE) (hL.unitary E hE)
      (hL.irred E hE) la hla atol 10).2 _ _ hb
    have htr := commuting_blocks hT hrep hcomm (hL.rep E hE) (hL.unitary E hE) (hL.irred E hE) hla hb
    obtain ⟨i0⟩ := (hL.irred E hE).1
    have hd : 0 < E.1 := lt_of_le_of_lt (Nat.zero_le _) i0.2
    have hlen : (projBs la rep atol E).length = Module.finrank ℂ (homSub rep E.2) := by
      have : ¬ (projBs la rep atol E).length < Module.finrank ℂ (homSub rep E.2) := fun h => by simpa using hw.2 h
      omega
    have hhom : ∀ b ∈ projBs la rep atol E, BlockHom rep E.2 b := by
      intro b hb g
      ext m i
      simpa [Matrix.mul_apply] using (htr b hb).2 g i m
    refine ⟨hlen, fun b hbt => ?_⟩
    have hcard := blocks_card hd (⟨hli, hhom⟩ : GoodBlocks rep E.2 (projBs la rep atol E))
    have hspan := hcard.span_eq_top_of_card_eq_finrank' (by simpa using hlen)
    have hbm : b.transpose ∈ homSub rep E.2 := by
      intro g
      ext m i
      simpa [Matrix.mul_apply] using hbt g i m
    have hmem : (⟨b.transpose, hbm⟩ : homSub rep E.2) ∈ Submodule.span ℂ (Set.range fun i =>
        (⟨((projBs la rep atol E).get i).transpose, hhom _ (List.get_mem _ _)⟩ : homSub rep E.2)) := by
      rw [hspan]; trivial
    obtain ⟨c, hc⟩ := (Submodule.mem_span_range_iff_exists_fun ℂ).1 hmem
    refine ⟨c, ?_⟩
    have h3 := congrArg Matrix.transpose (congrArg Subtype.val hc)
    rw [Matrix.transpose_transpose] at h3
    rw [← h3]
    ext i m
    simp [Matrix.sum_apply]

end Spgrep
