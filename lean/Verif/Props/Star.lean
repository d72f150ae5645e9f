/-
C108: the k-points of one star, and opposite k-points.
-/
import Verif.Props.SpinorFrame
import Verif.Props.Setting
import Verif.Props.CoreSpinor
import Verif.Props.ConvRuns
import Verif.Props.Exact

namespace Spgrep

open Spec

variable {n : ℕ}

/-! ### k-points in a primitive basis -/

theorem fixesKLattice_one {R : M3} {k : V3} : FixesKLattice 1 R k ↔ FixesK R k := by
  rw [fixesKLattice_generators]
  exact forall_congr' fun a => by simp [Matrix.one_apply, residual]

theorem inLittle_primitive {rots : Fin n → M3} {k : V3} {atol : ℝ} (ha : 0 ≤ atol) (hnm : NoNearMiss 1 rots k atol)
    {i : Fin n} : InLittle (rots i) k atol ↔ FixesK (rots i) k :=
  inLittle_of_noNearMiss ha hnm (by rw [Matrix.one_mul, Matrix.mul_one]) (fun a => by simp [Matrix.one_apply])
    fixesKLattice_one

/-- For `N k` integral every tolerance below `1 / N` will do. -/
theorem noNearMiss_primitive (rots : Fin n → M3) {k : V3} {N : ℕ} (hN : 0 < N) (hkN : ∀ a, ∃ c : ℤ, (N : ℝ) * k a = c)
    {atol : ℝ} (ha : 0 ≤ atol) (hat : atol < 1 / N) : NoNearMiss 1 rots k atol :=
  noNearMiss_of_rational (fun i => ⟨rots i, by rw [Matrix.mul_one, Matrix.one_mul]⟩) hN
    (fun a => by simpa [Matrix.one_apply] using hkN a) ha hat

/-! ### Opposite k-points -/

/-- The complex conjugate of a family of matrices. -/
def conjAny (X : AnyRep n) : AnyRep n := ⟨X.1, fun g => (X.2 g).map star⟩

theorem conj_law {rots : Fin n → M3} {trans : Fin n → V3} {k : V3} {z : Fin n → Fin n → ℂ} {d : ℕ} {Γ : RepArr n d}
    (h : SpaceGroupLaw rots trans k z Γ) :
    SpaceGroupLaw rots trans (fun a => -k a) (fun i j => star (z i j)) fun g => (Γ g).map star := by
  intro i j l hl
  show (Γ i).map star * (Γ j).map star = _ • (Γ l).map star
  rw [← map_star_mul, h i j l hl, map_star_smul, star_mul', ← starRingEnd_apply (Complex.exp _), ← Complex.exp_conj]
  congr 3
  simp only [map_mul, map_neg, Complex.conj_I, Complex.conj_ofReal, map_ofNat, neg_mul, Finset.sum_neg_distrib]
  push_cast
  ring

theorem conj_any_equiv {d e : ℕ} {Γ : RepArr n d} {Δ : RepArr n e} (h : AreEquivalent Γ Δ) :
    AreEquivalent (fun g => (Γ g).map star) fun g => (Δ g).map star := by
  obtain rfl := AreEquivalent.dim_eq h
  obtain ⟨A, B, h1, h2, h3⟩ := h
  refine ⟨A.map star, B.map star, ?_, ?_, fun g => ?_⟩
  · rw [← map_star_mul, h1, map_star_one]
  · rw [← map_star_mul, h2, map_star_one]
  · dsimp only
    rw [← map_star_mul, ← map_star_mul, h3]

theorem conj_any_twice {d : ℕ} (Γ : RepArr n d) : (fun g => ((Γ g).map star).map star) = Γ :=
  funext fun g => map_star_map_star (Γ g)

/-- The conjugates of a complete list are complete at the opposite k-point. -/
theorem conj_complete {rots : Fin n → M3} {trans : Fin n → V3} {k : V3} {z : Fin n → Fin n → ℂ} {S : List (AnyRep n)}
    (hS : IsCompleteSmall rots trans k z S) :
    IsCompleteSmall rots trans (fun a => -k a) (fun i j => star (z i j)) (S.map conjAny) where
  law := by
    intro X hX
    obtain ⟨Γ, hΓ, rfl⟩ := List.mem_map.1 hX
    obtain ⟨h1, h2, h3⟩ := hS.law Γ hΓ
    exact ⟨conj_law h1, conj_unitary h2, conj_irreducible h3⟩
  inequiv := by
    rw [List.pairwise_map]
    refine hS.inequiv.imp fun {a b} hab hne => hab ?_
    have := conj_any_equiv (Γ := fun g => (a.2 g).map star) (Δ := fun g => (b.2 g).map star) hne
    rwa [conj_any_twice a.2, conj_any_twice b.2] at this
  complete := by
    intro e E hE hu hi
    have h1 := conj_law hE
    simp only [neg_neg, star_star] at h1
    obtain ⟨Γ, hΓ, heq⟩ := hS.complete e (fun g => (E g).map star) h1 (fun g => by
        obtain ⟨u, hu⟩ := hu g
        refine IsUnit.of_mul_eq_one ((u⁻¹ : (Matrix (Fin e) (Fin e) ℂ)ˣ).1.map star) ?_
        rw [← map_star_mul, ← hu, Units.mul_inv, map_star_one]) (conj_irreducible hi)
    refine ⟨conjAny Γ, List.mem_map_of_mem hΓ, ?_⟩
    have := conj_any_equiv heq
    rwa [conj_any_twice E] at this
  sum_sq := by
    rw [List.map_map]
    exact hS.sum_sq

theorem conj_near {ε : ℝ} {S l : List (AnyRep n)} (h : List.Forall₂ (NearRep ε) S l) :
    List.Forall₂ (NearRep ε) (S.map conjAny) (l.map conjAny) := by
  rw [List.forall₂_map_left_iff, List.forall₂_map_right_iff]
  refine h.imp fun X Y hXY => ?_
  obtain ⟨F, rfl, hF⟩ := hXY
  refine ⟨fun g => (F g).map star, rfl, fun g i j => ?_⟩
  show ‖star (X.2 g i j) - star (F g i j)‖ ≤ ε
  rw [← star_sub, norm_star]
  exact hF g i j

/-- Lists of arrays that agree up to conjugation: a bijection that preserves dimensions and conjugates characters up to
the tolerance, and that the character test recognises. -/
def AgreeConj (l l' : List (AnyRep n)) (ε : ℝ) : Prop :=
  ∃ σ : Fin l.length ≃ Fin l'.length,
    (∀ a, (l'.get (σ a)).1 = (l.get a).1 ∧ ∀ g, ‖star ((l.get a).2 g).trace - ((l'.get (σ a)).2 g).trace‖ ≤ (l.get a).1 * ε) ∧
    ∀ a b, IsEquivalentIrrep (List.ofFn fun g => star ((l.get a).2 g).trace) (List.ofFn fun g => ((l'.get b).2 g).trace) ↔ b = σ a

theorem agree_conj {rots : Fin n → M3} (h : EnumeratesGroup rots) (hn : n ≤ 48) {trans : Fin n → V3} {k : V3}
    {z : Fin n → Fin n → ℂ} (hz : ∀ i j, ‖z i j‖ = 1) {S S' l l' : List (AnyRep n)} (hS : IsCompleteSmall rots trans k z S)
    (hS' : IsCompleteSmall rots trans (fun a => -k a) (fun i j => star (z i j)) S') {ε ε' : ℝ} (hε : ε ≤ 1e-4) (hε' : ε' ≤ 1e-4)
    (h1 : List.Forall₂ (NearRep ε) S l) (h1' : List.Forall₂ (NearRep ε') S' l') : AgreeConj l l' (ε + ε') := by
  obtain ⟨σ, g1, g2⟩ := near_agree h hn (z := fun i j => star (z i j)) (fun i j => by rw [norm_star]; exact hz i j)
    (conj_complete hS) hS' hε hε' (conj_near h1) h1'
  have hlen : (l.map conjAny).length = l.length := List.length_map _
  have hget : ∀ a : Fin l.length, (l.map conjAny).get (a.cast hlen.symm) = conjAny (l.get a) := fun a => by simp
  have htr : ∀ (a : Fin l.length) (g : Fin n), getCharacter ((l.map conjAny).get (a.cast hlen.symm)).2 g =
      star ((l.get a).2 g).trace := by
    intro a g
    rw [hget]
    exact trace_map_star ((l.get a).2 g)
  refine ⟨(finCongr hlen.symm).trans σ, fun a => ?_, fun a b => ?_⟩
  · obtain ⟨e1, e2⟩ := g1 (a.cast hlen.symm)
    simp only [htr] at e2
    rw [hget] at e1 e2
    exact ⟨e1, e2⟩
  · have := g2 (a.cast hlen.symm) b
    rw [show getCharacter ((l.map conjAny).get (a.cast hlen.symm)).2 = fun g => star ((l.get a).2 g).trace from
      funext (htr a)] at this
    exact this

theorem primitive_ok {o : Oracles} {rots : Fin n → M3} {trans : Fin n → V3} {k : V3} {real : Bool} {method : IrrepMethod}
    {rtol atol : ℝ} {maxGen : ℕ} {M : List (Fin n)} {out : IrrepsOut M.length} {w : Bool}
    (h : irrepsFromPrimitive o rots trans k real method rtol atol maxGen = .ok ⟨M, out, w⟩) :
    M = littleMapping rots k atol ∧ enumerateSmallReps o (fun i => rots (M.get i)) (fun i => trans (M.get i)) k real
      method rtol atol maxGen = .ok (out, w) := by
  unfold irrepsFromPrimitive at h
  simp only [bind, Except.bind, pure, Except.pure] at h
  split at h
  · cases h
  · split at h
    · cases h
    · rename_i v' hv
      obtain ⟨rfl, h3⟩ := Sigma.mk.inj (Except.ok.inj h)
      rw [eq_of_heq h3] at hv
      exact ⟨rfl, hv⟩

/-- The little groups of `k` and `-k` coincide, for every tolerance. -/
theorem c108_little_group (rots : Fin n → M3) (k : V3) (atol : ℝ) :
    littleMapping rots (fun a => -k a) atol = littleMapping rots k atol := by
  unfold littleMapping
  refine List.filter_congr fun i _ => ?_
  rw [decide_eq_decide, inLittle_iff, inLittle_iff]
  have hres : ∀ a, residual (rots i) (fun a => -k a) a = -residual (rots i) k a := by
    intro a
    unfold residual
    simp only [mul_neg, Finset.sum_neg_distrib]
    ring
  constructor
  · rintro ⟨m, hm⟩
    refine ⟨fun a => -m a, fun a => ?_⟩
    have := hm a
    rw [hres, abs_sub_comm] at this
    push_cast
    rwa [sub_neg_eq_add, add_comm, ← sub_neg_eq_add]
  · rintro ⟨m, hm⟩
    refine ⟨fun a => -m a, fun a => ?_⟩
    have := hm a
    rw [hres]
    push_cast
    rwa [← neg_sub_neg, neg_neg, neg_neg, abs_sub_comm]

theorem fixesK_neg {R : M3} {k : V3} (h : FixesK R k) : FixesK R fun a => -k a := by
  intro a
  obtain ⟨m, hm⟩ := h a
  refine ⟨-m, ?_⟩
  push_cast
  rw [← hm]
  simp only [mul_neg, Finset.sum_neg_distrib]
  ring

/-- **C108, opposite k-points**: two runs of `enumerate_small_representations` without warnings at `k` and at `-k`, with
any methods, draws and answers of the outside routines, return complex conjugate representations. -/
theorem c108_minus_k {rots : Fin n → M3} {trans : Fin n → V3} {k : V3} (h : IsSpaceGroup rots trans)
    (hk : ∀ i, FixesK (rots i) k) (hn : n ≤ 48) {o o' : Oracles} {method method' : IrrepMethod} {rtol rtol' : ℝ}
    (ho : MethodContract o method rtol rots) (ho' : MethodContract o' method' rtol' rots) {atol atol' : ℝ} (ha : 0 < atol)
    (ha' : 0 < atol') (hle : atol ≤ 1e-4) (hle' : atol' ≤ 1e-4) {maxGen maxGen' : ℕ} {out out' : IrrepsOut n}
    (hrun : enumerateSmallReps o rots trans k false method rtol atol maxGen = .ok (out, false))
    (hrun' : enumerateSmallReps o' rots trans (fun a => -k a) false method' rtol' atol' maxGen' = .ok (out', false)) :
    ∃ l l' : List (AnyRep n × ℤ), out = .complex l ∧ out' = .complex l' ∧
      AgreeConj (l.map Prod.fst) (l'.map Prod.fst) (atol + atol') := by
  obtain ⟨l, S, hout, h1, h2, h3, h4, h5⟩ := small_reps_complete h hk o ho ha (hle.trans (by norm_num)) maxGen hrun
  obtain ⟨l', S', hout', h1', h2', h3', h4', h5'⟩ :=
    small_reps_complete h (fun i => fixesK_neg (hk i)) o' ho' ha' (hle'.trans (by norm_num)) maxGen' hrun'
  refine ⟨l, l', hout, hout', agree_conj h.1 hn (z := fun _ _ => 1) (by simp) ⟨h2, h3, h4, h5⟩ ?_ hle hle'
    (List.forall₂_map_right_iff.2 h1 : List.Forall₂ (NearRep atol) S (l.map Prod.fst))
    (List.forall₂_map_right_iff.2 h1' : List.Forall₂ (NearRep atol') S' (l'.map Prod.fst))⟩
  simp only [star_one]
  exact ⟨h2', h3', h4', h5'⟩

/-- **C108, opposite k-points** with spin, for one lattice. -/
theorem c108_minus_k_spinor {rots : Fin n → M3} {trans : Fin n → V3} {k : V3} (h : IsSpaceGroup rots trans)
    (hk : ∀ i, FixesK (rots i) k) (hn : n ≤ 48) {o o' : Oracles} (he : SymmEigContract o.eig) (he' : SymmEigContract o'.eig)
    {L : R3} (hL : L.det ≠ 0) (hm : ∀ i, PreservesMetric L (rots i)) {method method' : IrrepMethod} {rtol rtol' : ℝ}
    (ho : MethodContract o method rtol rots) (ho' : MethodContract o' method' rtol' rots) {atol atol' : ℝ} (ha : 0 < atol)
    (ha' : 0 < atol') (hle : atol ≤ 1e-4) (hle' : atol' ≤ 1e-4) {maxGen maxGen' : ℕ} {l l' : List (AnyRep n)}
    {z z' : Fin n → Fin n → ℂ} {U U' : Fin n → Matrix (Fin 2) (Fin 2) ℂ}
    (hrun : enumerateSpinorSmallReps o L rots trans k method rtol atol maxGen = .ok ((l, z, U), false))
    (hrun' : enumerateSpinorSmallReps o' L rots trans (fun a => -k a) method' rtol' atol' maxGen' = .ok ((l', z', U'), false)) :
    z' = z ∧ U' = U ∧ AgreeConj l l' (atol + atol') := by
  obtain ⟨hzU, S, h1, h2, h3, h4, h5⟩ := c45_spinor_small_reps h hk he hL hm ho ha (hle.trans (by norm_num)) hrun
  obtain ⟨hzU', S', h1', h2', h3', h4', h5'⟩ :=
    c45_spinor_small_reps h (fun i => fixesK_neg (hk i)) he' hL hm ho' ha' (hle'.trans (by norm_num)) hrun'
  rw [c107_factor_solver_free he he' hL hm, hzU'] at hzU
  obtain ⟨rfl, rfl⟩ := Prod.mk.inj (Except.ok.inj hzU)
  obtain ⟨z1, U1, hr1, -, hsign, -⟩ := c44_spinor_factor_system he' hL h.1 hm
  obtain ⟨rfl, rfl⟩ := Prod.mk.inj (Except.ok.inj (hzU'.symm.trans hr1))
  refine ⟨rfl, rfl, agree_conj h.1 hn (fun i j => by rcases hsign i j with h | h <;> simp [h]) ⟨h2, h3, h4, h5⟩ ?_ hle hle'
    h1 h1'⟩
  have hreal : (fun i j => star (z' i j)) = z' := by
    funext i j
    rcases hsign i j with h | h <;> simp [h]
  rw [hreal]
  exact ⟨h2', h3', h4', h5'⟩

/-- **C108, opposite k-points**, for `get_spacegroup_irreps_from_primitive_symmetry`: the mappings of the little group are equal
and the irreps complex conjugate. -/
theorem c108_minus_k_primitive {rots : Fin n → M3} {trans : Fin n → V3} {k : V3} (h : IsSpaceGroup rots trans) (hn : n ≤ 48)
    {o o' : Oracles} {method method' : IrrepMethod}
    {rtol rtol' atol : ℝ} (ha : 0 < atol) (hnm : NoNearMiss 1 rots k atol) (hle : atol ≤ 1e-4)
    (ho : MethodContract o method rtol fun i => rots ((littleMapping rots k atol).get i))
    (ho' : MethodContract o' method' rtol' fun i => rots ((littleMapping rots k atol).get i)) {maxGen maxGen' : ℕ}
    {M M' : List (Fin n)} {out : IrrepsOut M.length} {out' : IrrepsOut M'.length}
    (hrun : irrepsFromPrimitive o rots trans k false method rtol atol maxGen = .ok ⟨M, out, false⟩)
    (hrun' : irrepsFromPrimitive o' rots trans (fun a => -k a) false method' rtol' atol maxGen' = .ok ⟨M', out', false⟩) :
    ∃ l l' : List (AnyRep M.length × ℤ), out = .complex l ∧
      irrepsFromPrimitive o' rots trans (fun a => -k a) false method' rtol' atol maxGen' = .ok ⟨M, .complex l', false⟩ ∧
      AgreeConj (l.map Prod.fst) (l'.map Prod.fst) (atol + atol) := by
  obtain ⟨rfl, e1⟩ := primitive_ok hrun
  obtain ⟨hM', e1'⟩ := primitive_ok hrun'
  rw [c108_little_group] at hM'
  subst hM'
  have hlen : (littleMapping rots k atol).length ≤ 48 := by
    have := (littleMapping_nodup rots k atol).length_le_card
    rw [Fintype.card_fin] at this
    exact this.trans hn
  obtain ⟨l, l', hl, hl', hag⟩ := c108_minus_k
    ⟨little_enumerates h.1 fun _ => inLittle_primitive ha.le hnm, fun _ _ _ hl => h.2 _ _ _ hl⟩
    (fun i => (inLittle_primitive ha.le hnm).1 (mem_littleMapping.1 (List.get_mem _ i))) hlen ho ho' ha ha hle hle e1 e1'
  exact ⟨l, l', hl, by rw [hrun', hl'], hag⟩

/-! ### The points of one star -/

theorem enum_mul {rots : Fin n → M3} (h : EnumeratesGroup rots) (i j : Fin n) : ∃ l, rots l = rots i * rots j := by
  obtain ⟨T, hT, -, -⟩ := c01_cayley_table_ordinary h
  exact ⟨T i j, (cayley_none_spec hT i j).1⟩

theorem enum_inv {rots : Fin n → M3} (h : EnumeratesGroup rots) (i : Fin n) : ∃ j, rots i * rots j = 1 := by
  obtain ⟨-, H, hH⟩ := h
  obtain ⟨g, hg, hgi⟩ := hH.le ⟨i, rfl⟩
  obtain ⟨j, hj⟩ := hH.ge ⟨g⁻¹, H.inv_mem hg, rfl⟩
  refine ⟨j, ?_⟩
  rw [hj, ← hgi]
  exact g.mul_inv

/-- Conjugation carries operations that fix `k` to operations that fix `Sᵀ k + G`. -/
theorem fixesK_conj {S V : M3} (hSV : S * V = 1) {k k' : V3} {G : Fin 3 → ℤ}
    (hk' : ∀ a, k' a = (∑ b, (S b a : ℝ) * k b) + G a) {R : M3} (h : FixesK R k) : FixesK (V * R * S) k' := by
  have hc : ChangeOfSetting (fun _ : Fin 1 => R) (fun _ _ => 0) k (fun _ => V * R * S) (fun _ _ => 0) k' S V (fun _ => 0)
      (Equiv.refl _) (fun _ _ => 0) G := ⟨hSV, fun _ => rfl, fun _ _ => by simp, hk'⟩
  exact hc.fixesK (fun _ => h) 0

theorem kpt_back {S V : M3} (hSV : S * V = 1) {k k' : V3} {G : Fin 3 → ℤ}
    (hk' : ∀ a, k' a = (∑ b, (S b a : ℝ) * k b) + G a) (a : Fin 3) :
    k a = (∑ b, (V b a : ℝ) * k' b) + ((-∑ b, V b a * G b : ℤ) : ℝ) := by
  have h1 : ∀ c, (∑ b, (V b a : ℝ) * (S c b : ℝ)) = if c = a then 1 else 0 := by
    intro c
    have := congrFun (congrFun hSV c) a
    rw [Matrix.mul_apply, Matrix.one_apply] at this
    have h2 : ((∑ b, S c b * V b a : ℤ) : ℝ) = ((if c = a then 1 else 0 : ℤ) : ℝ) := by rw [this]
    push_cast at h2
    rw [← h2]
    exact Finset.sum_congr rfl fun b _ => mul_comm _ _
  simp only [hk', mul_add, Finset.sum_add_distrib]
  push_cast
  rw [add_neg_cancel_right]
  simp only [Finset.mul_sum, ← mul_assoc]
  rw [Finset.sum_comm]
  simp only [← Finset.sum_mul, h1, ite_mul, one_mul, zero_mul, Finset.sum_ite_eq', Finset.mem_univ, if_true]

theorem fixesK_conj_back {S V : M3} (hSV : S * V = 1) {k k' : V3} {G : Fin 3 → ℤ}
    (hk' : ∀ a, k' a = (∑ b, (S b a : ℝ) * k b) + G a) {R : M3} (h : FixesK R k') : FixesK (S * R * V) k :=
  fixesK_conj (mul_eq_one_comm.1 hSV) (kpt_back hSV hk') h

/-- `M` lists the operations that fix `k`, each one once. -/
def ListsLittle (rots : Fin n → M3) (k : V3) (M : List (Fin n)) : Prop :=
  M.Nodup ∧ ∀ i, i ∈ M ↔ FixesK (rots i) k

theorem little_lists {rots : Fin n → M3} {k : V3} {atol : ℝ} (ha : 0 ≤ atol) (hnm : NoNearMiss 1 rots k atol) :
    ListsLittle rots k (littleMapping rots k atol) :=
  ⟨littleMapping_nodup rots k atol, fun _ => mem_littleMapping.trans (inLittle_primitive ha hnm)⟩

/-- Conjugation by the operation `s` matches the little groups of `k` and of `k' = R_sᵀ k + G`; the matched operations
satisfy `{R_s|w_s} g' = {1|m} g {R_s|w_s}` with a lattice vector `m`. -/
theorem little_conj {rots : Fin n → M3} {trans : Fin n → V3} (h : IsSpaceGroup rots trans) (s : Fin n) {k k' : V3}
    {G : Fin 3 → ℤ} (hk' : ∀ a, k' a = (∑ b, (rots s b a : ℝ) * k b) + G a) {M M' : List (Fin n)}
    (hM : ListsLittle rots k M) (hM' : ListsLittle rots k' M') :
    ∃ (π : Fin M'.length ≃ Fin M.length) (m : Fin M'.length → Fin 3 → ℤ),
      (∀ i, rots s * rots (M'.get i) = rots (M.get (π i)) * rots s) ∧
      ∀ i a, (∑ b, (rots s a b : ℝ) * trans (M'.get i) b) + trans s a =
        (∑ b, (rots (M.get (π i)) a b : ℝ) * trans s b) + trans (M.get (π i)) a + m i a := by
  obtain ⟨v, hv⟩ := enum_inv h.1 s
  have hv' := mul_eq_one_comm.1 hv
  have hinj : ∀ {M : List (Fin n)}, M.Nodup → ∀ {i j : Fin M.length}, rots (M.get i) = rots (M.get j) → i = j :=
    fun hM i j hij => List.nodup_iff_injective_get.1 hM (h.1.1 hij)
  have f : ∀ i : Fin M'.length, ∃ j : Fin M.length, rots (M.get j) = rots s * rots (M'.get i) * rots v := by
    intro i
    obtain ⟨p, hp⟩ := enum_mul h.1 s (M'.get i)
    obtain ⟨q, hq⟩ := enum_mul h.1 p v
    have hmem : q ∈ M := by
      rw [hM.2, hq, hp]
      exact fixesK_conj_back hv hk' ((hM'.2 _).1 (List.get_mem M' i))
    obtain ⟨j, hj⟩ := List.get_of_mem hmem
    exact ⟨j, by rw [hj, hq, hp]⟩
  have g : ∀ j : Fin M.length, ∃ i : Fin M'.length, rots (M'.get i) = rots v * rots (M.get j) * rots s := by
    intro j
    obtain ⟨p, hp⟩ := enum_mul h.1 v (M.get j)
    obtain ⟨q, hq⟩ := enum_mul h.1 p s
    have hmem : q ∈ M' := by
      rw [hM'.2, hq, hp]
      exact fixesK_conj hv hk' ((hM.2 _).1 (List.get_mem M j))
    obtain ⟨i, hi⟩ := List.get_of_mem hmem
    exact ⟨i, by rw [hi, hq, hp]⟩
  choose f hf using f
  choose g hg using g
  have hrot : ∀ i, rots s * rots (M'.get i) = rots (M.get (f i)) * rots s := by
    intro i
    rw [hf, Matrix.mul_assoc, hv', Matrix.mul_one]
  have hm : ∀ i a, ∃ m : ℤ, (∑ b, (rots s a b : ℝ) * trans (M'.get i) b) + trans s a =
      (∑ b, (rots (M.get (f i)) a b : ℝ) * trans s b) + trans (M.get (f i)) a + m := by
    intro i a
    obtain ⟨p, hp⟩ := enum_mul h.1 s (M'.get i)
    obtain ⟨m1, h1⟩ := h.2 _ _ _ hp.symm a
    obtain ⟨m2, h2⟩ := h.2 _ _ _ ((hrot i).symm.trans hp.symm) a
    refine ⟨m1 - m2, ?_⟩
    push_cast
    rw [← h1, ← h2]
    ring
  choose m hm using hm
  refine ⟨⟨f, g, fun i => hinj hM'.1 ?_, fun j => hinj hM.1 ?_⟩, m, hrot, hm⟩
  · rw [hg, hf]
    simp only [← Matrix.mul_assoc]
    rw [hv', Matrix.one_mul, Matrix.mul_assoc, hv', Matrix.mul_one]
  · rw [hf, hg]
    simp only [← Matrix.mul_assoc]
    rw [hv, Matrix.one_mul, Matrix.mul_assoc, hv, Matrix.mul_one]

theorem little_spaceGroup {rots : Fin n → M3} {trans : Fin n → V3} (h : IsSpaceGroup rots trans) {k : V3} {atol : ℝ} (ha : 0 ≤ atol)
    (hnm : NoNearMiss 1 rots k atol) :
    IsSpaceGroup (fun i => rots ((littleMapping rots k atol).get i)) fun i => trans ((littleMapping rots k atol).get i) :=
  ⟨little_enumerates h.1 fun _ => inLittle_primitive ha hnm, fun _ _ _ hl => h.2 _ _ _ hl⟩

theorem matched_setting {u : ℕ} {R R' : Fin u → M3} {w w' : Fin u → V3} {k k' : V3} {S V : M3} {x₀ : V3}
    (π : Equiv.Perm (Fin u)) {m : Fin u → Fin 3 → ℤ} {G : Fin 3 → ℤ} (hSV : S * V = 1) (hrot : ∀ i, S * R' i = R (π i) * S)
    (htr : ∀ i a, (∑ b, (S a b : ℝ) * w' i b) + x₀ a = (∑ b, (R (π i) a b : ℝ) * x₀ b) + w (π i) a + m i a)
    (hk' : ∀ a, k' a = (∑ b, (S b a : ℝ) * k b) + G a) : ChangeOfSetting R w k R' w' k' S V x₀ π m G := by
  have hVS := mul_eq_one_comm.1 hSV
  refine ⟨hSV, fun i => ?_, fun i a => ?_, hk'⟩
  · rw [Matrix.mul_assoc, ← hrot, ← Matrix.mul_assoc, hVS, Matrix.one_mul]
  · have e1 : (fun b => w (π i) b + m i b + (∑ c, (R (π i) b c : ℝ) * x₀ c) - x₀ b) =
        (S.map fun x : ℤ => (x : ℝ)).mulVec (w' i) := by
      funext b
      have := castMat_mulVec S (w' i) b
      linarith [htr i b]
    have e2 : (∑ b, (V a b : ℝ) * (w (π i) b + m i b + (∑ c, (R (π i) b c : ℝ) * x₀ c) - x₀ b)) =
        (V.map fun x : ℤ => (x : ℝ)).mulVec
          (fun b => w (π i) b + m i b + (∑ c, (R (π i) b c : ℝ) * x₀ c) - x₀ b) a :=
      (castMat_mulVec _ _ _).symm
    rw [e2, e1, Matrix.mulVec_mulVec, ← castMat_mul, hVS, castMat_one, Matrix.one_mulVec]

/-- C65 for two lists of operations matched by a bijection. -/
theorem setting_matched {u u' : ℕ} {R : Fin u → M3} {w : Fin u → V3} {k : V3} {R' : Fin u' → M3} {w' : Fin u' → V3} {k' : V3}
    {S V : M3} {x₀ : V3} (π : Fin u' ≃ Fin u) {m : Fin u' → Fin 3 → ℤ} {G : Fin 3 → ℤ} (hSV : S * V = 1)
    (hrot : ∀ i, S * R' i = R (π i) * S)
    (htr : ∀ i a, (∑ b, (S a b : ℝ) * w' i b) + x₀ a = (∑ b, (R (π i) a b : ℝ) * x₀ b) + w (π i) a + m i a)
    (hk' : ∀ a, k' a = (∑ b, (S b a : ℝ) * k b) + G a)
    (hs : IsSpaceGroup R w) (hk : ∀ i, FixesK (R i) k) {o o' : Oracles} {method method' : IrrepMethod}
    {rtol rtol' : ℝ} (ho : MethodContract o method rtol R) (ho' : MethodContract o' method' rtol' R')
    {atol atol' : ℝ} (ha : 0 < atol) (ha5 : atol ≤ 1 / 5) (ha' : 0 < atol') (ha5' : atol' ≤ 1 / 5) {maxGen maxGen' : ℕ}
    {out : IrrepsOut u} {out' : IrrepsOut u'}
    (hrun : enumerateSmallReps o R w k false method rtol atol maxGen = .ok (out, false))
    (hrun' : enumerateSmallReps o' R' w' k' false method' rtol' atol' maxGen' = .ok (out', false)) :
    ∃ l l', out = .complex l ∧ out' = .complex l' ∧ ∃ σ : Fin l.length ≃ Fin l'.length, ∀ j,
      (l.get j).1.1 = (l'.get (σ j)).1.1 ∧
      (∃ (Γ : RepArr u (l.get j).1.1) (Γ' : RepArr u' (l'.get (σ j)).1.1),
        (∀ g a b, ‖Γ g a b - (l.get j).1.2 g a b‖ ≤ atol) ∧ (∀ g a b, ‖Γ' g a b - (l'.get (σ j)).1.2 g a b‖ ≤ atol') ∧
        Spec.IsIrreducible Γ ∧ IsUnitaryRep Γ ∧ SpaceGroupLaw R w k (fun _ _ => 1) Γ ∧
        AreEquivalent (fun i => Complex.exp (-2 * Real.pi * Complex.I * ((∑ a, k a * (m i a : ℝ) : ℝ) : ℂ)) • Γ (π i)) Γ') ∧
      ∀ i, ‖((l'.get (σ j)).1.2 i).trace -
        Complex.exp (-2 * Real.pi * Complex.I * ((∑ a, k a * (m i a : ℝ) : ℝ) : ℂ)) * ((l.get j).1.2 (π i)).trace‖ ≤
          (l.get j).1.1 * (atol + atol') := by
  obtain rfl : u = u' := by simpa using (Fintype.card_congr π).symm
  have hc := matched_setting π hSV hrot htr hk'
  exact c65_setting_independent hc hs hk ho ho' ha ha5 ha' ha5' hrun hrun'

/-- What the results at `k` (little group `M`, irreps `l`) and at another point of its star (`M'`, `l'`) have to do with
each other, for the operation `s` that carries one point to the other: conjugation by `s` is a bijection of the
little groups, and the representations correspond to each other with equal characters, up to the phase of the lattice
vector by which `s g' s⁻¹` differs from the operation listed for `k`. -/
def StarRelated (rots : Fin n → M3) (trans : Fin n → V3) (k : V3) (s : Fin n) (M M' : List (Fin n))
    (l : List (AnyRep M.length)) (l' : List (AnyRep M'.length)) (ε : ℝ) : Prop :=
  ∃ (π : Fin M'.length ≃ Fin M.length) (m : Fin M'.length → Fin 3 → ℤ),
    (∀ i, rots s * rots (M'.get i) = rots (M.get (π i)) * rots s) ∧
    (∀ i a, (∑ b, (rots s a b : ℝ) * trans (M'.get i) b) + trans s a =
        (∑ b, (rots (M.get (π i)) a b : ℝ) * trans s b) + trans (M.get (π i)) a + m i a) ∧
    ∃ σ : Fin l.length ≃ Fin l'.length, ∀ j, (l'.get (σ j)).1 = (l.get j).1 ∧
      ∀ i, ‖((l'.get (σ j)).2 i).trace -
        Complex.exp (-2 * Real.pi * Complex.I * ((∑ a, k a * (m i a : ℝ) : ℝ) : ℂ)) * ((l.get j).2 (π i)).trace‖ ≤
          (l.get j).1 * ε

/-- **C108, the points of a star**: the irreps that `get_spacegroup_irreps_from_primitive_symmetry` returns without warnings
at `k` and at `R_sᵀ k + G`, for an operation `s` of the space group and a reciprocal lattice vector `G`, are those of
conjugate little groups and are carried to each other by conjugation with `s`, whatever the methods, draws and answers
of the outside routines are. -/
theorem c108_star {rots : Fin n → M3} {trans : Fin n → V3} (h : IsSpaceGroup rots trans) (s : Fin n) {k k' : V3}
    {G : Fin 3 → ℤ} (hk' : ∀ a, k' a = (∑ b, (rots s b a : ℝ) * k b) + G a)
    {o o' : Oracles} {method method' : IrrepMethod} {rtol rtol' atol atol' : ℝ}
    (ha : 0 < atol) (ha' : 0 < atol') (hle : atol ≤ 1 / 5) (hle' : atol' ≤ 1 / 5)
    (hnm : NoNearMiss 1 rots k atol) (hnm' : NoNearMiss 1 rots k' atol')
    (ho : MethodContract o method rtol fun i => rots ((littleMapping rots k atol).get i))
    (ho' : MethodContract o' method' rtol' fun i => rots ((littleMapping rots k' atol').get i)) {maxGen maxGen' : ℕ}
    {M M' : List (Fin n)} {out : IrrepsOut M.length} {out' : IrrepsOut M'.length}
    (hrun : irrepsFromPrimitive o rots trans k false method rtol atol maxGen = .ok ⟨M, out, false⟩)
    (hrun' : irrepsFromPrimitive o' rots trans k' false method' rtol' atol' maxGen' = .ok ⟨M', out', false⟩) :
    (∀ i, i ∈ M ↔ FixesK (rots i) k) ∧ (∀ i, i ∈ M' ↔ FixesK (rots i) k') ∧
    ∃ l l', out = .complex l ∧ out' = .complex l' ∧
      StarRelated rots trans k s M M' (l.map Prod.fst) (l'.map Prod.fst) (atol + atol') := by
  obtain ⟨rfl, e1⟩ := primitive_ok hrun
  obtain ⟨rfl, e1'⟩ := primitive_ok hrun'
  have hM := little_lists (rots := rots) ha.le hnm
  have hM' := little_lists (rots := rots) ha'.le hnm'
  obtain ⟨π, m, hrot, htr⟩ := little_conj h s hk' hM hM'
  obtain ⟨v, hv⟩ := enum_inv h.1 s
  obtain ⟨l, l', hl, hl', σ, hσ⟩ := setting_matched π hv hrot htr hk' (little_spaceGroup h ha.le hnm)
    (fun i => (hM.2 _).1 (List.get_mem _ i)) ho ho' ha hle ha' hle' e1 e1'
  have q : (l.map Prod.fst).length = l.length := List.length_map _
  have q' : (l'.map Prod.fst).length = l'.length := List.length_map _
  have hget : ∀ j : Fin (l.map Prod.fst).length, (l.map Prod.fst).get j = (l.get (j.cast q)).1 := fun j => by simp
  have hget' : ∀ j : Fin l'.length, (l'.map Prod.fst).get (j.cast q'.symm) = (l'.get j).1 := fun j => by simp
  refine ⟨hM.2, hM'.2, l, l', hl, hl', π, m, hrot, htr, (finCongr q).trans (σ.trans (finCongr q'.symm)), fun j => ?_⟩
  obtain ⟨s1, -, s2⟩ := hσ (j.cast q)
  have t : (l'.map Prod.fst).get (((finCongr q).trans (σ.trans (finCongr q'.symm))) j) = (l'.get (σ (j.cast q))).1 :=
    hget' (σ (j.cast q))
  rw [t, hget j]
  exact ⟨s1.symm, s2⟩

/-! ### The points of one star, with spin -/

/-- Complete lists for two matched lists of operations, whose factor systems agree up to signs, are carried to each other. -/
theorem twisted_matched {u u' : ℕ} {R : Fin u → M3} {w : Fin u → V3} {k : V3} {R' : Fin u' → M3} {w' : Fin u' → V3} {k' : V3}
    {S V : M3} {x₀ : V3} (π : Fin u' ≃ Fin u) {m : Fin u' → Fin 3 → ℤ} {G : Fin 3 → ℤ} (hSV : S * V = 1)
    (hrot : ∀ i, S * R' i = R (π i) * S)
    (htr : ∀ i a, (∑ b, (S a b : ℝ) * w' i b) + x₀ a = (∑ b, (R (π i) a b : ℝ) * x₀ b) + w (π i) a + m i a)
    (hk' : ∀ a, k' a = (∑ b, (S b a : ℝ) * k b) + G a)
    (hs : IsSpaceGroup R w) (hk : ∀ i, FixesK (R i) k) {z : Fin u → Fin u → ℂ} {z' : Fin u' → Fin u' → ℂ} {ε : Fin u' → ℂ}
    (hε : ∀ i, ε i = 1 ∨ ε i = -1)
    (hz : ∀ i j l, R' i * R' j = R' l → z' i j * ε l = ε i * ε j * z (π i) (π j))
    {L l : List (AnyRep u)} {L' l' : List (AnyRep u')} (hL : IsCompleteSmall R w k z L) (hL' : IsCompleteSmall R' w' k' z' L')
    {δ δ' : ℝ} (hl : List.Forall₂ (NearRep δ) L l) (hl' : List.Forall₂ (NearRep δ') L' l') :
    ∃ σ : Fin l.length ≃ Fin l'.length, ∀ j, (l'.get (σ j)).1 = (l.get j).1 ∧
      ∀ i, ‖((l'.get (σ j)).2 i).trace - ε i *
        Complex.exp (-2 * Real.pi * Complex.I * ((∑ a, k a * (m i a : ℝ) : ℝ) : ℂ)) * ((l.get j).2 (π i)).trace‖ ≤
          (l.get j).1 * (δ + δ') := by
  obtain rfl : u = u' := by simpa using (Fintype.card_congr π).symm
  have hc := matched_setting π hSV hrot htr hk'
  obtain ⟨σ, hσ⟩ := bijection_of_sum_sq (S := L) (S' := L') (fun {d} Γ => fun i => ε i • settingRep k π m Γ i)
    (fun {d e Γ Δ} h => settingRep_equiv (k := k) (π := π) (m := m) (by
      have := signTwist_equiv (s := ε) (Γ := fun i => ε i • settingRep k π m Γ i)
        (Δ := fun i => ε i • settingRep k π m Δ i) h
      rwa [signTwist_twice hε, signTwist_twice hε] at this)) hL.inequiv
    (fun Γ hΓ => hL'.complete _ _ (signTwist_law hz (hc.law_factor hs hk (hL.law Γ hΓ).1))
      (fun g => (settingRep_unit (hL.law Γ hΓ).2.1 g).smul (Units.mk0 (ε g) (by rcases hε g with h | h <;> simp [h])))
      (signTwist_irred hε (settingRep_irreducible (hL.law Γ hΓ).2.2)))
    (fun Γ hΓ => Fin.pos_iff_nonempty.2 (hL'.law Γ hΓ).2.2.1) (hL.sum_sq.trans hL'.sum_sq.symm)
  rw [List.forall₂_iff_get] at hl hl'
  obtain ⟨q1, q2⟩ := hl
  obtain ⟨q1', q2'⟩ := hl'
  refine ⟨(finCongr q1.symm).trans (σ.trans (finCongr q1')), fun j => ?_⟩
  have hb := (σ (Fin.cast q1.symm j)).2
  obtain ⟨A, hA, hA1⟩ := q2 j.1 (by rw [q1]; exact j.2) j.2
  obtain ⟨A', hA', hA1'⟩ := q2' (σ (Fin.cast q1.symm j)).1 hb (by rw [← q1']; exact hb)
  have hpair : ∀ {X Y Γ Γ' : AnyRep u} {A : RepArr u Γ.1} {A' : RepArr u Γ'.1}, X = ⟨_, A⟩ → Y = ⟨_, A'⟩ →
      (∀ g a b, ‖Γ.2 g a b - A g a b‖ ≤ δ) → (∀ g a b, ‖Γ'.2 g a b - A' g a b‖ ≤ δ') →
      AreEquivalent (fun i => ε i • settingRep k π m Γ.2 i) Γ'.2 → Y.1 = X.1 ∧
      ∀ i, ‖(Y.2 i).trace - ε i * settingPhase k m i * (X.2 (π i)).trace‖ ≤ X.1 * (δ + δ') := by
    intro X Y Γ Γ' A A' hX hY hA hA' heq
    subst hX hY
    have hd : Γ.1 = Γ'.1 := AreEquivalent.dim_eq heq
    refine ⟨hd.symm, fun i => ?_⟩
    have h1 := AreEquivalent.trace heq i
    have h2 := trace_near (hA (π i))
    have h3 := trace_near (hA' i)
    have e : (A' i).trace - ε i * settingPhase k m i * (A (π i)).trace =
        -((Γ'.2 i).trace - (A' i).trace) + ε i * settingPhase k m i * ((Γ.2 (π i)).trace - (A (π i)).trace) := by
      rw [← h1]
      unfold settingRep
      rw [Matrix.trace_smul, Matrix.trace_smul, smul_eq_mul, smul_eq_mul]
      ring
    change ‖(A' i).trace - ε i * settingPhase k m i * (A (π i)).trace‖ ≤ Γ.1 * (δ + δ')
    rw [e]
    refine (norm_add_le _ _).trans ?_
    rw [norm_neg, norm_mul, norm_mul, settingPhase_norm, sign_norm hε, one_mul, one_mul, mul_add, add_comm]
    have hd' : (Γ.1 : ℝ) = Γ'.1 := by exact_mod_cast hd
    exact add_le_add h2 (h3.trans_eq (by rw [hd']))
  exact hpair hA hA' hA1 hA1' (hσ (Fin.cast q1.symm j))

theorem spinor_primitive_ok {o : Oracles} {L : R3} {rots : Fin n → M3} {trans : Fin n → V3} {k : V3} {method : IrrepMethod}
    {rtol atol : ℝ} {maxGen : ℕ} {M : List (Fin n)} {out} {w : Bool}
    (h : spinorIrrepsFromPrimitive o L rots trans k method rtol atol maxGen = .ok ⟨M, out, w⟩) :
    M = littleMapping rots k atol ∧ enumerateSpinorSmallReps o L (fun i => rots (M.get i)) (fun i => trans (M.get i)) k
      method rtol atol maxGen = .ok (out, w) := by
  obtain ⟨out', w', h1, h2⟩ := spinorPrimitive_ok h
  obtain ⟨rfl, h3⟩ := Sigma.mk.inj h2
  obtain ⟨rfl, rfl⟩ := Prod.mk.inj (eq_of_heq h3)
  exact ⟨rfl, h1⟩

/-- **C108, the points of a star**, with spin: as `c108_star`, the characters agree up to the phase of the lattice vector and
the sign by which `U_s U' U_s⁻¹` differs from the SU(2) matrix listed for `k`. -/
theorem c108_star_spinor {rots : Fin n → M3} {trans : Fin n → V3} (h : IsSpaceGroup rots trans) (s : Fin n) {k k' : V3}
    {G : Fin 3 → ℤ} (hk' : ∀ a, k' a = (∑ b, (rots s b a : ℝ) * k b) + G a)
    {o o' : Oracles} (he : SymmEigContract o.eig) (he' : SymmEigContract o'.eig)
    {L : R3} (hL : L.det ≠ 0) (hm : ∀ i, PreservesMetric L (rots i)) {method method' : IrrepMethod}
    {rtol rtol' atol atol' : ℝ} (ha : 0 < atol) (ha' : 0 < atol') (hle : atol ≤ 1 / 5) (hle' : atol' ≤ 1 / 5)
    (hnm : NoNearMiss 1 rots k atol) (hnm' : NoNearMiss 1 rots k' atol')
    (ho : MethodContract o method rtol fun i => rots ((littleMapping rots k atol).get i))
    (ho' : MethodContract o' method' rtol' fun i => rots ((littleMapping rots k' atol').get i)) {maxGen maxGen' : ℕ}
    {M M' : List (Fin n)} {l : List (AnyRep M.length)} {l' : List (AnyRep M'.length)} {z : Fin M.length → Fin M.length → ℂ}
    {z' : Fin M'.length → Fin M'.length → ℂ} {U : Fin M.length → Matrix (Fin 2) (Fin 2) ℂ}
    {U' : Fin M'.length → Matrix (Fin 2) (Fin 2) ℂ}
    (hrun : spinorIrrepsFromPrimitive o L rots trans k method rtol atol maxGen = .ok ⟨M, (l, z, U), false⟩)
    (hrun' : spinorIrrepsFromPrimitive o' L rots trans k' method' rtol' atol' maxGen' = .ok ⟨M', (l', z', U'), false⟩) :
    ∃ (Us : Matrix (Fin 2) (Fin 2) ℂ) (π : Fin M'.length ≃ Fin M.length) (m : Fin M'.length → Fin 3 → ℤ)
      (ε : Fin M'.length → ℂ),
      getSpinorUnitaryRotation o.eig L (rots s) = .ok Us ∧ IsSU2 Us ∧
      (∀ i, rots s * rots (M'.get i) = rots (M.get (π i)) * rots s) ∧
      (∀ i a, (∑ b, (rots s a b : ℝ) * trans (M'.get i) b) + trans s a =
        (∑ b, (rots (M.get (π i)) a b : ℝ) * trans s b) + trans (M.get (π i)) a + m i a) ∧
      (∀ i, (ε i = 1 ∨ ε i = -1) ∧ Us * U' i = ε i • (U (π i) * Us)) ∧
      (∀ i j p, rots (M'.get i) * rots (M'.get j) = rots (M'.get p) → z' i j * ε p = ε i * ε j * z (π i) (π j)) ∧
      ∃ σ : Fin l.length ≃ Fin l'.length, ∀ j, (l'.get (σ j)).1 = (l.get j).1 ∧
        ∀ i, ‖((l'.get (σ j)).2 i).trace - ε i *
          Complex.exp (-2 * Real.pi * Complex.I * ((∑ a, k a * (m i a : ℝ) : ℝ) : ℂ)) * ((l.get j).2 (π i)).trace‖ ≤
            (l.get j).1 * (atol + atol') := by
  obtain ⟨rfl, e1⟩ := spinor_primitive_ok hrun
  obtain ⟨rfl, e1'⟩ := spinor_primitive_ok hrun'
  have hM := little_lists (rots := rots) ha.le hnm
  have hM' := little_lists (rots := rots) ha'.le hnm'
  have hG := little_spaceGroup h ha.le hnm
  have hG' := little_spaceGroup h ha'.le hnm'
  obtain ⟨π, m, hrot, htr⟩ := little_conj h s hk' hM hM'
  obtain ⟨v, hv⟩ := enum_inv h.1 s
  have hfix := fun i => (hM.2 _).1 (List.get_mem (littleMapping rots k atol) i)
  have hfix' := fun i => (hM'.2 _).1 (List.get_mem (littleMapping rots k' atol') i)
  obtain ⟨f1, S, g1, g2, g3, g4, g5⟩ := c45_spinor_small_reps hG hfix he hL (fun i => hm _) ho ha hle e1
  obtain ⟨f1', S', g1', g2', g3', g4', g5'⟩ := c45_spinor_small_reps hG' hfix' he' hL (fun i => hm _) ho' ha' hle' e1'
  obtain ⟨zf, Uf, -, hUf, hzf, hmulf, -⟩ := c44_spinor_factor_system he hL h.1 hm
  obtain ⟨z1, U1, r1, hU, -, hmul, -⟩ := c44_spinor_factor_system he hL hG.1 fun i => hm _
  obtain ⟨rfl, rfl⟩ := Prod.mk.inj (Except.ok.inj (f1.symm.trans r1))
  obtain ⟨z1, U1, r1', hU', -, hmul', -⟩ := c44_spinor_factor_system he' hL hG'.1 fun i => hm _
  obtain ⟨rfl, rfl⟩ := Prod.mk.inj (Except.ok.inj (f1'.symm.trans r1'))
  have hUeq : ∀ i, U i = Uf ((littleMapping rots k atol).get i) := fun i =>
    Except.ok.inj ((hU i).2.symm.trans (hUf _).2)
  have hUeq' : ∀ i, U' i = Uf ((littleMapping rots k' atol').get i) := fun i =>
    Except.ok.inj ((hU' i).2.symm.trans ((c107_solver_free he' he hL (hm _)).trans (hUf _).2))
  have hsgn : ∀ i, ∃ e : ℂ, (e = 1 ∨ e = -1) ∧ Uf s * U' i = e • (U (π i) * Uf s) := by
    intro i
    obtain ⟨p, hp⟩ := enum_mul h.1 s ((littleMapping rots k' atol').get i)
    have h1 := hmulf _ _ _ hp.symm
    have h2 := hmulf _ _ _ ((hrot i).symm.trans hp.symm)
    refine ⟨zf s ((littleMapping rots k' atol').get i) * zf ((littleMapping rots k atol).get (π i)) s, ?_, ?_⟩
    · rcases hzf s ((littleMapping rots k' atol').get i) with h | h <;>
        rcases hzf ((littleMapping rots k atol).get (π i)) s with h' | h' <;> rw [h, h'] <;> norm_num
    · rw [hUeq, hUeq', h1, h2, smul_smul, mul_assoc]
      congr 1
      rcases hzf ((littleMapping rots k atol).get (π i)) s with h' | h' <;> rw [h'] <;> ring
  choose ε hε hεU using hsgn
  have hz : ∀ i j p, rots ((littleMapping rots k' atol').get i) * rots ((littleMapping rots k' atol').get j) =
      rots ((littleMapping rots k' atol').get p) → z' i j * ε p = ε i * ε j * z (π i) (π j) := by
    intro i j p hp
    have hp' : rots ((littleMapping rots k atol).get (π i)) * rots ((littleMapping rots k atol).get (π j)) =
        rots ((littleMapping rots k atol).get (π p)) := by
      have : rots ((littleMapping rots k atol).get (π i)) * rots ((littleMapping rots k atol).get (π j)) * rots s =
          rots ((littleMapping rots k atol).get (π p)) * rots s := by
        rw [Matrix.mul_assoc, ← hrot, ← Matrix.mul_assoc, ← hrot, Matrix.mul_assoc, hp, hrot]
      have h2 := congrArg (· * rots v) this
      simpa only [Matrix.mul_assoc, hv, Matrix.mul_one] using h2
    have a1 : Uf s * (U' i * U' j) = (z' i j * ε p) • (U (π p) * Uf s) := by
      rw [hmul' i j p hp, Matrix.mul_smul, hεU, smul_smul]
    have a2 : Uf s * (U' i * U' j) = (ε i * ε j * z (π i) (π j)) • (U (π p) * Uf s) := by
      rw [← Matrix.mul_assoc, hεU, Matrix.smul_mul, Matrix.mul_assoc, hεU, Matrix.mul_smul, ← Matrix.mul_assoc,
        hmul _ _ _ hp', Matrix.smul_mul, smul_smul, smul_smul, mul_assoc]
    have hne : U (π p) * Uf s ≠ 0 := by
      intro h0
      have hsu := su2_mul (hU (π p)).1 (hUf s).1
      rw [h0] at hsu
      have := hsu.1
      rw [Matrix.zero_mul] at this
      exact zero_ne_one this
    exact smul_left_injective ℂ hne (a1.symm.trans a2)
  exact ⟨Uf s, π, m, ε, (hUf s).2, (hUf s).1, hrot, htr, fun i => ⟨hε i, hεU i⟩, hz,
    twisted_matched π hv hrot htr hk' hG hfix hε hz ⟨g2, g3, g4, g5⟩ ⟨g2', g3', g4', g5'⟩ g1 g1'⟩

/-! ### Non-vacuity -/

/-- The point at a quarter of the reciprocal basis vector `c`, up to the sign `t`. -/
noncomputable def kAxis (t : ℤ) (c : Fin 3) : V3 := fun a => if a = c then t / 4 else 0

/-- Position in `rots23` of the twofold rotation around the axis `c`. -/
def axisOp : Fin 3 → Fin 12 := ![3, 2, 1]

theorem fixesK_axis {t : ℤ} (ht : t = 1 ∨ t = -1) (c : Fin 3) (i : Fin 12) :
    FixesK (rots23 i) (kAxis t c) ↔ i = 0 ∨ i = axisOp c := by
  have h1 : FixesK (rots23 i) (kAxis t c) ↔ ∀ a, (4 : ℤ) ∣ rots23 i c a - if a = c then 1 else 0 := by
    unfold FixesK
    refine forall_congr' fun a => ?_
    have e : (∑ b, (rots23 i b a : ℝ) * kAxis t c b) - kAxis t c a = ((rots23 i c a - if a = c then 1 else 0 : ℤ) : ℝ) * t / 4 := by
      unfold kAxis
      simp only [mul_ite, mul_zero, Finset.sum_ite_eq', Finset.mem_univ, if_true]
      split <;> push_cast <;> ring
    rw [e]
    have hone : (t : ℝ) * t = 1 := by rcases ht with h | h <;> rw [h] <;> norm_num
    constructor
    · rintro ⟨m, hm⟩
      refine ⟨m * t, ?_⟩
      have : ((rots23 i c a - if a = c then 1 else 0 : ℤ) : ℝ) = ((4 * (m * t) : ℤ) : ℝ) := by
        push_cast at hm ⊢
        linear_combination 4 * (t : ℝ) * hm - ((rots23 i c a : ℝ) - if a = c then 1 else 0) * hone
      exact_mod_cast this
    · rintro ⟨m, hm⟩
      refine ⟨m * t, ?_⟩
      rw [hm]
      push_cast
      ring
  rw [h1]
  clear h1
  revert c i
  decide +kernel

theorem kAxis_int (t : ℤ) (c a : Fin 3) : ∃ m : ℤ, ((4 : ℕ) : ℝ) * kAxis t c a = m := by
  unfold kAxis
  split
  · exact ⟨t, by push_cast; ring⟩
  · exact ⟨0, by simp⟩

theorem group23 : IsSpaceGroup rots23 (fun _ _ => 0) := ⟨rots23_group, fun _ _ _ _ _ => ⟨0, by simp⟩⟩

theorem noMiss23 (t : ℤ) (c : Fin 3) {atol : ℝ} (ha : 0 ≤ atol) (ha4 : atol < 1 / ((4 : ℕ) : ℝ)) :
    NoNearMiss 1 rots23 (kAxis t c) atol :=
  noNearMiss_primitive rots23 (by norm_num) (kAxis_int t c) ha ha4

theorem contract_axis {t : ℤ} (ht : t = 1 ∨ t = -1) (c : Fin 3) {atol : ℝ} (ha : 0 ≤ atol) (ha4 : atol < 1 / ((4 : ℕ) : ℝ)) :
    PointgroupContract (PgSymbol.pg_2, (1 : M3).map fun x : ℤ => (x : ℝ))
      fun i => rots23 ((littleMapping rots23 (kAxis t c) atol).get i) := by
  have hM := little_lists ha (noMiss23 t c ha ha4)
  have hb : PointgroupContract (PgSymbol.pg_2, (1 : M3).map fun x : ℤ => (x : ℝ))
      (fun j : Fin 2 => rots23 (if j = 0 then 0 else axisOp c)) := by
    fin_cases c
    · exact contract_of_int (s := .pg_2) (std := pgData_2[0]) (by decide +kernel) (by decide +kernel) (Equiv.refl (Fin 2)) (by decide +kernel)
    · exact contract_of_int (s := .pg_2) (std := pgData_2[1]) (by decide +kernel) (by decide +kernel) (Equiv.refl (Fin 2)) (by decide +kernel)
    · exact contract_of_int (s := .pg_2) (std := pgData_2[2]) (by decide +kernel) (by decide +kernel) (Equiv.refl (Fin 2)) (by decide +kernel)
  refine hb.reindex ?_ (fun i j hij => List.nodup_iff_injective_get.1 hM.1 (rots23_group.1 hij)) fun S => ⟨?_, ?_⟩
  · clear hb hM
    revert c
    decide +kernel
  · rintro ⟨j, rfl⟩
    rcases (fixesK_axis ht c _).1 ((hM.2 _).1 (List.get_mem _ j)) with h | h
    · exact ⟨0, by rw [h]; rfl⟩
    · exact ⟨1, by rw [h]; rfl⟩
  · rintro ⟨j, rfl⟩
    have : (if j = 0 then 0 else axisOp c) ∈ littleMapping rots23 (kAxis t c) atol := by
      rw [hM.2, fixesK_axis ht]
      split
      · exact .inl rfl
      · exact .inr rfl
    obtain ⟨i, hi⟩ := List.get_of_mem this
    exact ⟨i, by rw [hi]⟩

theorem little_axis_length (t : ℤ) (c : Fin 3) (atol : ℝ) :
    (littleMapping rots23 (kAxis t c) atol).length ≤ 12 := by
  have := (littleMapping_nodup rots23 (kAxis t c) atol).length_le_card
  rwa [Fintype.card_fin] at this

theorem check23 {atol rtol : ℝ} (ha : 0 ≤ atol) (hr : 0 ≤ rtol) (h1 : atol + rtol < 1) :
    primitiveCheck rots23 (fun _ _ => 0) rtol atol = .ok () := by
  rw [primitiveCheck_eq ha hr h1, if_neg]
  rintro ⟨_, -, a, h⟩
  simp at h
  linarith

theorem metric23 (i : Fin 12) : PreservesMetric 1 (rots23 i) := by
  unfold PreservesMetric
  have h : ∀ i, (rots23 i).transpose * rots23 i = 1 := by decide +kernel
  have h2 := congrArg (fun A : M3 => A.map fun x : ℤ => (x : ℝ)) (h i)
  rw [castMat_mul, castMat_one] at h2
  rw [Matrix.transpose_one, Matrix.mul_one, Matrix.mul_one]
  exact h2

/-- Runs without warning at these points, without and with spin. -/
theorem run_axis {t : ℤ} (ht : t = 1 ∨ t = -1) (c : Fin 3) {atol : ℝ} (ha : 0 < atol) (ha8 : atol ≤ 1e-8) :
    ∃ o : Oracles, SymmEigContract o.eig ∧
      MethodContract o .neto 1e-5 (fun i => rots23 ((littleMapping rots23 (kAxis t c) atol).get i)) ∧
      (∃ M out, irrepsFromPrimitive o rots23 (fun _ _ => 0) (kAxis t c) false .neto 1e-5 atol 9 = .ok ⟨M, out, false⟩) ∧
      ∃ M l z U, spinorIrrepsFromPrimitive o 1 rots23 (fun _ _ => 0) (kAxis t c) .neto 1e-5 atol 9 = .ok ⟨M, (l, z, U), false⟩ := by
  have ha4 : atol < 1 / ((4 : ℕ) : ℝ) := by push_cast; linarith
  have hc := contract_axis ht c ha.le ha4
  have hM := little_lists ha.le (noMiss23 t c ha.le ha4)
  have hfix := fun i => (hM.2 _).1 (List.get_mem (littleMapping rots23 (kAxis t c) atol) i)
  have hG := little_spaceGroup group23 ha.le (noMiss23 t c ha.le ha4)
  have hlen := little_axis_length t c atol
  obtain ⟨random, hr⟩ := exists_richDraws atol (littleMapping rots23 (kAxis t c) atol).length 9 fun d hd => by
    have : d ≤ 3 := by by_contra h; push Not at h; nlinarith
    nlinarith
  obtain ⟨eig, he⟩ := symmEigContract_exists
  let o : Oracles := { random := random, eig := eig, eigh := fun d _ => (fun _ => 0, 0), qr := fun _ _ _ => 0,
                       pointgroup := (PgSymbol.pg_2, (1 : M3).map fun x : ℤ => (x : ℝ)) }
  have hna : ((littleMapping rots23 (kAxis t c) atol).length : ℝ) * atol ≤ 1 / 5 := by
    have : ((littleMapping rots23 (kAxis t c) atol).length : ℝ) ≤ 12 := by exact_mod_cast hlen
    nlinarith
  have hchk := check23 (atol := atol) (rtol := 1e-5) ha.le (by norm_num) (by linarith)
  refine ⟨o, he, hc, ?_, ?_⟩
  · obtain ⟨L, w, -, hw, hrw⟩ := c18_small_reps_partial hG hfix (.of_symmorphic fun _ _ => rfl) o hc 1e-5 ha hna 9 false
    obtain ⟨out, hrun⟩ := hw (hrw hr)
    refine ⟨_, out, ?_⟩
    unfold irrepsFromPrimitive
    rw [hchk]
    simp only [bind, Except.bind, pure, Except.pure]
    rw [hrun]
  · have hmet : ∀ i, PreservesMetric 1 (rots23 i) := metric23
    obtain ⟨l, z, U, hrun⟩ := c45_runs (o := o) (rtol := 1e-5) (atol := atol) (maxGen := 9) hG hfix (fun i j => .inl (by
      unfold getFactorSystem
      rw [show dot3 (residual (rots23 ((littleMapping rots23 (kAxis t c) atol).get i)) (kAxis t c)) (fun _ => 0) = 0 by
        unfold dot3; simp, expPhase_zero])) he
      (by rw [Matrix.det_one]; exact one_ne_zero) (fun i => hmet _) hc ha hna hr
    refine ⟨_, l, z, U, ?_⟩
    unfold spinorIrrepsFromPrimitive
    rw [hchk]
    simp only [bind, Except.bind, pure, Except.pure]
    rw [hrun]

theorem kAxis_star (t : ℤ) (a : Fin 3) : kAxis t 1 a = (∑ b, (rots23 8 b a : ℝ) * kAxis t 0 b) + ((0 : ℤ) : ℝ) := by
  have h : ∀ a, rots23 8 0 a = if a = 1 then 1 else 0 := by decide +kernel
  unfold kAxis
  simp only [mul_ite, mul_zero, Finset.sum_ite_eq', Finset.mem_univ, if_true, h]
  split <;> simp

/-- Non-vacuity of the statements for a star: the group 23 at `(1/4, 0, 0)` and `(0, 1/4, 0)`, whose little groups are
generated by different twofold rotations. -/
example : ∃ (o o' : Oracles) (M M' : List (Fin 12)) (l : List (AnyRep M.length × ℤ)) (l' : List (AnyRep M'.length × ℤ)),
    irrepsFromPrimitive o rots23 (fun _ _ => 0) (kAxis 1 0) false .neto 1e-5 1e-8 9 = .ok ⟨M, .complex l, false⟩ ∧
    irrepsFromPrimitive o' rots23 (fun _ _ => 0) (kAxis 1 1) false .neto 1e-5 1e-9 9 = .ok ⟨M', .complex l', false⟩ ∧
    (∀ i, i ∈ M ↔ i = 0 ∨ i = 3) ∧ (∀ i, i ∈ M' ↔ i = 0 ∨ i = 2) ∧
    StarRelated rots23 (fun _ _ => 0) (kAxis 1 0) 8 M M' (l.map Prod.fst) (l'.map Prod.fst) (1e-8 + 1e-9) := by
  obtain ⟨o, -, hc, ⟨M, out, hrun⟩, -⟩ := run_axis (t := 1) (.inl rfl) 0 (atol := 1e-8) (by norm_num) (by norm_num)
  obtain ⟨o', -, hc', ⟨M', out', hrun'⟩, -⟩ := run_axis (t := 1) (.inl rfl) 1 (atol := 1e-9) (by norm_num) (by norm_num)
  obtain ⟨h1, h2, l, l', rfl, rfl, h3⟩ := c108_star group23 8 (G := fun _ => 0) (kAxis_star 1)
    (by norm_num) (by norm_num) (by norm_num) (by norm_num) (noMiss23 1 0 (by norm_num) (by norm_num))
    (noMiss23 1 1 (by norm_num) (by norm_num)) hc hc' hrun hrun'
  exact ⟨o, o', M, M', l, l', hrun, hrun', fun i => (h1 i).trans (fixesK_axis (.inl rfl) 0 i),
    fun i => (h2 i).trans (fixesK_axis (.inl rfl) 1 i), h3⟩

/-- Non-vacuity of `c108_star_spinor`: the same points. -/
example : ∃ (o o' : Oracles) (M M' : List (Fin 12)) (l : List (AnyRep M.length)) (l' : List (AnyRep M'.length)) (z : _) (z' : _)
    (U : _) (U' : _),
    spinorIrrepsFromPrimitive o 1 rots23 (fun _ _ => 0) (kAxis 1 0) .neto 1e-5 1e-8 9 = .ok ⟨M, (l, z, U), false⟩ ∧
    spinorIrrepsFromPrimitive o' 1 rots23 (fun _ _ => 0) (kAxis 1 1) .neto 1e-5 1e-9 9 = .ok ⟨M', (l', z', U'), false⟩ ∧
    l.length = l'.length := by
  obtain ⟨o, he, hc, -, M, l, z, U, hrun⟩ := run_axis (t := 1) (.inl rfl) 0 (atol := 1e-8) (by norm_num) (by norm_num)
  obtain ⟨o', he', hc', -, M', l', z', U', hrun'⟩ := run_axis (t := 1) (.inl rfl) 1 (atol := 1e-9) (by norm_num) (by norm_num)
  obtain ⟨_, _, _, _, _, _, _, _, _, _, σ, _⟩ := c108_star_spinor group23 8 (G := fun _ => 0) (kAxis_star 1)
    he he' (L := 1) (by rw [Matrix.det_one]; exact one_ne_zero) metric23
    (by norm_num) (by norm_num) (by norm_num) (by norm_num) (noMiss23 1 0 (by norm_num) (by norm_num))
    (noMiss23 1 1 (by norm_num) (by norm_num)) hc hc' hrun hrun'
  exact ⟨o, o', M, M', l, l', z, z', U, U', hrun, hrun', by simpa using Fintype.card_congr σ⟩

theorem kAxis_neg (c : Fin 3) : kAxis (-1) c = fun a => -kAxis 1 c a := by
  funext a
  unfold kAxis
  split <;> simp [neg_div]

/-- Non-vacuity of the statements for opposite k-points: `(1/4, 0, 0)` and `(-1/4, 0, 0)`. -/
example : ∃ (o o' : Oracles) (M : List (Fin 12)) (l l' : List (AnyRep M.length × ℤ)),
    irrepsFromPrimitive o rots23 (fun _ _ => 0) (kAxis 1 0) false .neto 1e-5 1e-8 9 = .ok ⟨M, .complex l, false⟩ ∧
    irrepsFromPrimitive o' rots23 (fun _ _ => 0) (fun a => -kAxis 1 0 a) false .neto 1e-5 1e-8 9 = .ok ⟨M, .complex l', false⟩ ∧
    AgreeConj (l.map Prod.fst) (l'.map Prod.fst) (1e-8 + 1e-8) := by
  obtain ⟨o, -, hc, ⟨M, out, hrun⟩, -⟩ := run_axis (t := 1) (.inl rfl) 0 (atol := 1e-8) (by norm_num) (by norm_num)
  obtain ⟨o', -, hc', ⟨M', out', hrun'⟩, -⟩ := run_axis (t := -1) (.inr rfl) 0 (atol := 1e-8) (by norm_num) (by norm_num)
  rw [kAxis_neg] at hc' hrun'
  rw [c108_little_group] at hc'
  obtain ⟨l, l', rfl, h1, h2⟩ := c108_minus_k_primitive group23 (by norm_num)
    (by norm_num) (noMiss23 1 0 (by norm_num) (by norm_num)) (by norm_num) hc hc' hrun hrun'
  exact ⟨o, o', M, l, l', hrun, h1, h2⟩

/-- Non-vacuity of `c108_minus_k_spinor`: the same points, the operations of the little group and the lattice of unit cubes. -/
example : ∃ (o o' : Oracles) (M : List (Fin 12)) (l l' : List (AnyRep M.length)) (z : _) (U : _),
    enumerateSpinorSmallReps o 1 (fun i => rots23 (M.get i)) (fun _ _ => 0) (kAxis 1 0) .neto 1e-5 1e-8 9 = .ok ((l, z, U), false) ∧
    enumerateSpinorSmallReps o' 1 (fun i => rots23 (M.get i)) (fun _ _ => 0) (fun a => -kAxis 1 0 a) .neto 1e-5 1e-8 9 =
      .ok ((l', z, U), false) ∧ AgreeConj l l' (1e-8 + 1e-8) := by
  obtain ⟨o, he, hc, -, M, l, z, U, hrun⟩ := run_axis (t := 1) (.inl rfl) 0 (atol := 1e-8) (by norm_num) (by norm_num)
  obtain ⟨o', he', hc', -, M', l', z', U', hrun'⟩ := run_axis (t := -1) (.inr rfl) 0 (atol := 1e-8) (by norm_num) (by norm_num)
  rw [kAxis_neg] at hc' hrun'
  rw [c108_little_group] at hc'
  obtain ⟨rfl, e1⟩ := spinor_primitive_ok hrun
  obtain ⟨hM', e1'⟩ := spinor_primitive_ok hrun'
  rw [c108_little_group] at hM'
  subst hM'
  have hM := little_lists (atol := 1e-8) (by norm_num) (noMiss23 1 0 (by norm_num) (by norm_num))
  obtain ⟨rfl, rfl, h1⟩ := c108_minus_k_spinor
    (little_spaceGroup group23 (by norm_num) (noMiss23 1 0 (by norm_num) (by norm_num)))
    (fun i => (hM.2 _).1 (List.get_mem _ i)) ((little_axis_length 1 0 1e-8).trans (by norm_num)) he he' (L := 1)
    (by rw [Matrix.det_one]; exact one_ne_zero) (fun i => metric23 _) hc hc' (by norm_num) (by norm_num) (by norm_num) (by norm_num)
    e1 e1'
  exact ⟨o, o', _, l, l', z', U', e1, e1', h1⟩

end Spgrep
