/-
What `enumerate_spinor_small_corepresentations` goes through.
-/
import Verif.Proofs.CorepPairs
import Verif.Props.Corep
import Verif.Props.SmallReal

namespace Spgrep

open Spec

variable {n : ℕ}

theorem IsMagneticSpaceGroup.operations {δ : ℝ} {rots : Fin n → M3} {trans : Fin n → V3} {trs : Fin n → ℤ}
    (h : IsMagneticSpaceGroup rots trans trs) : IsMagneticOperations δ rots trans trs := by
  obtain ⟨T, hT, hTs, -⟩ := c01_cayley_table h.1
  refine ⟨h.1.2.1, fun i => ?_, fun i j hr ht _ => h.1.1 (Prod.ext hr ht), fun i j => ?_⟩
  · obtain ⟨-, -, H, hH⟩ := h.1
    have h1 : (rots i, ((trs i : ℤ) : ZMod 2)) ∈ Set.range fun i => (rots i, ((trs i : ℤ) : ZMod 2)) := ⟨i, rfl⟩
    rw [hH] at h1
    obtain ⟨g, -, hg⟩ := h1
    have h2 := (Prod.ext_iff.1 hg).1
    dsimp only at h2
    rw [← h2]
    exact (Matrix.isUnit_iff_isUnit_det _).1 g.1.isUnit
  · have h1 : IsProduct rots trs i j (T i j) := (hTs i j _).1 rfl
    exact ⟨T i j, h1, h.2 i j _ h1⟩

/-- The operations without time reversal are a group. -/
theorem enumerates_linear {rots : Fin n → M3} {trs : Fin n → ℤ} (h : EnumeratesMagneticGroup rots trs) {xsg : List (Fin n)}
    (hnd : xsg.Nodup) (hmem : ∀ i, i ∈ xsg ↔ trs i = 0) : EnumeratesGroup fun u => rots (xsg.get u) := by
  obtain ⟨hinj, hflag, H, hH⟩ := h
  have h0 : ∀ u, trs (xsg.get u) = 0 := fun u => (hmem _).1 (List.get_mem _ _)
  refine ⟨fun u v huv => ?_, H.comap (MonoidHom.inl _ _), ?_⟩
  · have h1 : xsg.get u = xsg.get v := hinj (Prod.ext huv (by dsimp only; rw [h0, h0]))
    exact (List.nodup_iff_injective_get.1 hnd) h1
  · ext M
    constructor
    · rintro ⟨u, rfl⟩
      have h1 : (rots (xsg.get u), ((trs (xsg.get u) : ℤ) : ZMod 2)) ∈
          Set.range fun i => (rots i, ((trs i : ℤ) : ZMod 2)) := ⟨_, rfl⟩
      rw [hH] at h1
      obtain ⟨g, hg, hg'⟩ := h1
      obtain ⟨h2, h3⟩ := Prod.ext_iff.1 hg'
      dsimp only at h2 h3
      rw [h0] at h3
      refine ⟨g.1, ?_, h2⟩
      have h4 : g = (g.1, 1) := Prod.ext rfl (by
        apply Multiplicative.toAdd.injective
        rw [h3]
        rfl)
      rw [h4] at hg
      exact hg
    · rintro ⟨g, hg, rfl⟩
      have h1 : ((g : M3), (0 : ZMod 2)) ∈ Set.range fun i => (rots i, ((trs i : ℤ) : ZMod 2)) := by
        rw [hH]
        exact ⟨(g, 1), hg, rfl⟩
      obtain ⟨i, hi⟩ := h1
      obtain ⟨h2, h3⟩ := Prod.ext_iff.1 hi
      dsimp only at h2 h3
      have h4 : trs i = 0 := by
        rcases hflag i with h | h
        · exact h
        · rw [h] at h3
          exact absurd h3 (by decide)
      obtain ⟨u, hu⟩ := List.mem_iff_get.1 ((hmem i).2 h4)
      exact ⟨u, by dsimp only; rw [hu, h2]⟩

/-- What the decomposition and the tables give: the linear elements `xsg`, the anti-linear element `a0`, conjugation by `a0`
and its square. -/
structure LinearPart (T : Fin n → Fin n → Fin n) (a : Fin n → Bool) (xsg : List (Fin n))
    (T' : Fin xsg.length → Fin xsg.length → Fin xsg.length) (a0 : Fin n) (c : Fin xsg.length → Fin xsg.length)
    (s : Fin xsg.length) : Prop where
  table : IsGroupTable T
  hom : ∀ i j, a (T i j) = (a i ^^ a j)
  nodup : xsg.Nodup
  mem : ∀ i, i ∈ xsg ↔ a i = false
  sub : ∀ u v, xsg.get (T' u v) = T (xsg.get u) (xsg.get v)
  anti : a a0 = true
  conj : ∀ u, T a0 (xsg.get (c u)) = T (xsg.get u) a0
  square : xsg.get s = T a0 a0

theorem LinearPart.antiGroup {T : Fin n → Fin n → Fin n} {a : Fin n → Bool} {xsg : List (Fin n)}
    {T' : Fin xsg.length → Fin xsg.length → Fin xsg.length} {a0 : Fin n} {c : Fin xsg.length → Fin xsg.length}
    {s : Fin xsg.length} (h : LinearPart T a xsg T' a0 c s) {F : Fin n → Fin n → ℂ} (hF : IsAntiCocycle T a F)
    (hn : ∀ i j, ‖F i j‖ = 1) : AntiGroup T a F (fun u => xsg.get u) T' a0 c s :=
  ⟨h.table, h.hom, hF, hn, List.nodup_iff_injective_get.1 h.nodup, fun i => by rw [← h.mem, List.mem_iff_get], h.sub, h.anti,
    h.conj, h.square⟩

/-- The elements of a linear part exist. -/
theorem linearPart_exists {T : Fin n → Fin n → Fin n} (hT : IsGroupTable T) {a : Fin n → Bool}
    (hom : ∀ i j, a (T i j) = (a i ^^ a j)) {xsg : List (Fin n)} (hnd : xsg.Nodup) (hmem : ∀ i, i ∈ xsg ↔ a i = false)
    {a0 : Fin n} (ha0 : a a0 = true) : ∃ T' c s, LinearPart T a xsg T' a0 c s := by
  have h0 : ∀ u, a (xsg.get u) = false := fun u => (hmem _).1 (List.get_mem _ _)
  have h1 : ∀ u v, ∃ w, xsg.get w = T (xsg.get u) (xsg.get v) := fun u v =>
    List.mem_iff_get.1 ((hmem _).2 (by rw [hom, h0, h0]; rfl))
  obtain ⟨j, hj, hcancel⟩ := inverse_of_table hT a0
  have haj : a j = true := by
    have h2 := hom a0 (T j a0)
    rw [hcancel, hom, ha0] at h2
    cases h : a j
    · rw [h] at h2
      exact absurd h2 (by decide)
    · rfl
  have h2 : ∀ u, ∃ w, xsg.get w = T j (T (xsg.get u) a0) := fun u =>
    List.mem_iff_get.1 ((hmem _).2 (by rw [hom, hom, h0, ha0, haj]; rfl))
  obtain ⟨s, hs⟩ := List.mem_iff_get.1 ((hmem (T a0 a0)).2 (by rw [hom, ha0]; rfl))
  choose T' hT' using h1
  choose c hc using h2
  exact ⟨T', c, s, hT, hom, hnd, hmem, hT', ha0, fun u => by rw [hc, hcancel], hs⟩

/-- Everything before the irreps: decomposition, factor systems, tables. -/
theorem corep_setup {rots : Fin n → M3} {trans : Fin n → V3} {trs : Fin n → ℤ} {k : V3}
    (h : IsMagneticSpaceGroup rots trans trs) (htr : ∃ i, trs i = 1) (hb : ∀ i a b, |rots i a b| ≤ 99999)
    (hk : ∀ i, FixesK (rots i) k) {eig : EigOracle} (he : SymmEigContract eig) {L : R3} (hL : L.det ≠ 0)
    (hm : ∀ i, PreservesMetric L (rots i)) :
    ∃ xsg tr a0 ω U a T T' c s e, decomposeByXSG rots trans trs = .ok (some (xsg, tr, a0)) ∧
      getCorepSpinorFactorSystem eig L rots trs = .ok (ω, U, a) ∧ getCayleyTable rots (some trs) = .ok T ∧
      getCayleyTable (fun u => rots (xsg.get u)) = .ok T' ∧ LinearPart T a xsg T' a0 c s ∧
      (∀ i, a i = true ↔ trs i = 1) ∧ (∀ i j, ω i j = 1 ∨ ω i j = -1) ∧
      (∀ i j, ‖ω i j * getFactorSystem rots trans k i j‖ = 1) ∧
      IsCocycle T (fun i j => ω i j * getFactorSystem rots trans k i j) ∧
      IsSpaceGroup (fun u => rots (xsg.get u)) (fun u => trans (xsg.get u)) ∧
      rots (xsg.get e) = 1 ∧ (∀ i, T (xsg.get e) i = i) ∧
      (∀ e, (∀ i, T e i = i) → ω e e * getFactorSystem rots trans k e e = 1) ∧
      ((∀ i j, getFactorSystem rots trans k i j = 1 ∨ getFactorSystem rots trans k i j = -1) →
        AntiGroup T a (fun i j => ω i j * getFactorSystem rots trans k i j) (fun u => xsg.get u) T' a0 c s) := by
  obtain ⟨xsg, tr, a0, hdec, ha0, hnd, hmem, -, -, -⟩ := c47_coset_decomposition_partial (IsMagneticSpaceGroup.operations h) htr hb
  obtain ⟨ω, U, a, hrun, ha, -, hω, -, hcoc, hid, -⟩ := c46_corep_spinor_factor_system he hL h.1 hm
  obtain ⟨T, hT, hTs, hTg, -, -⟩ := c01_cayley_table h.1
  obtain ⟨ω', U', a', T', hrun', hT', hnorm, hc, hiff, -⟩ := c51_magnetic_factor_system_partial he hL h hm hk
  obtain ⟨rfl, h1⟩ := Prod.mk.inj (Except.ok.inj (hrun.symm.trans hrun'))
  obtain ⟨rfl, rfl⟩ := Prod.mk.inj h1
  obtain rfl := Except.ok.inj (hT.symm.trans hT')
  have hprod : ∀ i j, IsProduct rots trs i j (T i j) := fun i j => (hTs i j _).1 rfl
  have haf : ∀ i, a i = false ↔ trs i = 0 := by
    intro i
    rcases h.1.2.1 i with hi | hi
    · refine ⟨fun _ => hi, fun _ => ?_⟩
      by_contra h2
      rw [(ha i).1 (by simpa using h2)] at hi
      exact absurd hi (by decide)
    · rw [(ha i).2 hi, hi]
      decide
  have hom : ∀ i j, a (T i j) = (a i ^^ a j) := by
    intro i j
    have h2 := (hprod i j).2
    rw [Bool.eq_iff_iff, ha, h2]
    rcases h.1.2.1 i with hi | hi <;> rcases h.1.2.1 j with hj | hj
    · rw [(haf i).2 hi, (haf j).2 hj, hi, hj]; decide
    · rw [(haf i).2 hi, (ha j).2 hj, hi, hj]; decide
    · rw [(ha i).2 hi, (haf j).2 hj, hi, hj]; decide
    · rw [(ha i).2 hi, (ha j).2 hj, hi, hj]; decide
  have haa0 : a a0 = true := (ha a0).2 ha0
  obtain ⟨T'', c, s, hlin⟩ := linearPart_exists hTg hom hnd (fun i => by rw [hmem, haf]) haa0
  have hgrp := enumerates_linear h.1 hnd hmem
  obtain ⟨T1, hT1, hT1s, hT1g⟩ := c01_cayley_table_ordinary hgrp
  have h0 : ∀ u, trs (xsg.get u) = 0 := fun u => (hmem _).1 (List.get_mem _ _)
  have hTT : T1 = T'' := by
    funext u v
    apply hgrp.1
    dsimp only
    rw [← (hT1s u v _).1 rfl, hlin.sub, (hprod _ _).1]
  subst hTT
  obtain ⟨e, he1, he2, -⟩ := hTg.one_inv
  have hre : rots e = 1 := by
    have h2 := (hprod e e).1
    rw [he1] at h2
    have hdet := (IsMagneticSpaceGroup.operations (δ := 0) h).det e
    have hu : IsUnit (rots e) := (Matrix.isUnit_iff_isUnit_det _).2 hdet
    exact hu.mul_left_cancel (by rw [h2, Matrix.mul_one])
  have hte : trs e = 0 := by
    have h2 := (hprod e e).2
    rw [he1] at h2
    rcases h.1.2.1 e with h3 | h3
    · exact h3
    · exact absurd rfl (h2.1 h3)
  obtain ⟨ue, hue⟩ := List.mem_iff_get.1 ((hmem e).2 hte)
  have hc' : IsCocycle T (fun i j => ω i j * getFactorSystem rots trans k i j) := by
    have hωc := hcoc T hT
    intro i j l
    have h2 := hωc i j l
    have h3 : conjIf (a i) (ω j l) = ω j l := by
      unfold conjIf
      rcases hω j l with h4 | h4 <;> rw [h4] <;> cases a i <;> simp
    rw [h3] at h2
    have h4 : getFactorSystem rots trans k i (T j l) * getFactorSystem rots trans k j l =
        getFactorSystem rots trans k (T i j) l * getFactorSystem rots trans k i j :=
      factor_cocycle_of (hk i) (hprod i j).1 (h.2 j l _ (hprod j l))
    dsimp only
    linear_combination (getFactorSystem rots trans k i (T j l) * getFactorSystem rots trans k j l) * h2 +
      (ω (T i j) l * ω i j) * h4
  refine ⟨xsg, tr, a0, ω, U, a, T, T1, c, s, ue, hdec, hrun, hT, hT1, hlin, ha, hω, hnorm, hc', ⟨hgrp, ?_⟩, ?_, ?_, ?_,
    fun hr => hlin.antiGroup ((hiff htr).2 hr) hnorm⟩
  · intro u v w huv
    exact h.2 _ _ _ ⟨huv, by rw [h0, h0, h0]; decide⟩
  · rw [hue, hre]
  · rw [hue]; exact he1
  · intro e' he'
    have h2 : e' = e := by rw [← he' e, he2]
    rw [h2, ((hid e hre hte).2 e).1, one_mul]
    unfold getFactorSystem
    rw [hre]
    have h3 : dot3 (residual 1 k) (trans e) = 0 := by
      unfold dot3 residual
      simp [Matrix.one_apply]
    rw [h3, expPhase_zero]

/-! ### From irreps to co-representations -/

theorem xsgPosition_ok {xsg : List (Fin n)} (hnd : xsg.Nodup) {i : Fin n} {v : Fin xsg.length} :
    xsgPosition xsg i = .ok v ↔ xsg.get v = i := by
  unfold xsgPosition
  constructor
  · intro h
    split at h
    next w hw =>
      obtain rfl := Except.ok.inj h
      exact (indexOf?_eq_some.1 hw).1
    next => cases h
  · intro h
    rw [(indexOf?_eq_some_of_inj (List.nodup_iff_injective_get.1 hnd)).2 h]

theorem xsgPositions_ok {xsg : List (Fin n)} (hnd : xsg.Nodup) {f : Fin xsg.length → Fin n}
    {g : Fin xsg.length → Fin xsg.length} : xsgPositions xsg f = .ok g ↔ ∀ u, xsg.get (g u) = f u := by
  unfold xsgPositions
  constructor
  · intro h
    split at h
    next hex =>
      obtain rfl := Except.ok.inj h
      intro u
      exact (xsgPosition_ok hnd).1 (hex u).choose_spec
    next => cases h
  · intro h
    have hex : ∀ u, ∃ v, xsgPosition xsg (f u) = .ok v := fun u => ⟨g u, (xsgPosition_ok hnd).2 (h u)⟩
    rw [dif_pos hex]
    congr 1
    funext u
    have h1 := (xsgPosition_ok hnd).1 (hex u).choose_spec
    exact (List.nodup_iff_injective_get.1 hnd) (h1.trans (h u).symm)

/-- The conjugated irrep of the code is `bar`. -/
theorem conjIrrep_eq_bar {m d : ℕ} {T : Fin n → Fin n → Fin n} {F : Fin n → Fin n → ℂ} {a0 inv : Fin n} {xsg : Fin m → Fin n}
    {c : Fin m → Fin m} (hc : ∀ u, xsg (c u) = T inv (T (xsg u) a0)) (D : RepArr m d) :
    conjIrrep F a0 xsg (fun u => T inv (T (xsg u) a0)) c D = bar F xsg a0 c D := by
  funext u
  unfold conjIrrep bar conjFactor
  rw [hc]

variable {T : Fin n → Fin n → Fin n} {a : Fin n → Bool} {F : Fin n → Fin n → ℂ} {xsg : List (Fin n)}
  {T' : Fin xsg.length → Fin xsg.length → Fin xsg.length} {a0 : Fin n} {c : Fin xsg.length → Fin xsg.length}
  {s : Fin xsg.length}

/-- What a successful run went through. -/
theorem corepsFromIrreps_inv (hl : LinearPart T a xsg T' a0 c s) {random : ∀ d, ℕ → Matrix (Fin d) (Fin d) ℂ}
    {trans : Fin n → V3} {k : V3} {irreps : List (AnyRep xsg.length)} {atol : ℝ} {maxGen : ℕ} {out : List (AnyRep n)}
    {inds : List ℤ} {w : Bool}
    (h : corepsFromIrreps random F T trans k xsg a0 irreps atol maxGen = .ok (out, inds, w)) :
    ∃ I : List (ℤ × Fin irreps.length), inds = I.map Prod.fst ∧
      List.Forall₂ (fun p D => ∃ Y, buildCorep (random _) F a0 (fun u => xsg.get u) (fun u => T a0 (xsg.get u)) s p.1
        (irreps.get p.2).2 (bar F (fun u => xsg.get u) a0 c (irreps.get p.2).2) atol maxGen = .ok Y ∧
        D = ⟨Y.1.1, phaseMul trans k Y.1.2⟩ ∧ (w = false → Y.2 = false)) I out := by
  obtain ⟨inv, hinv, hcancel⟩ := inverse_of_table hl.table a0
  have hc : ∀ u, xsg.get (c u) = T inv (T (xsg.get u) a0) := fun u =>
    table_left_cancel hl.table (k := a0) (by rw [hl.conj, hcancel])
  have hs : xsgPosition xsg (T a0 a0) = .ok s := (xsgPosition_ok hl.nodup).2 hl.square
  unfold corepsFromIrreps at h
  simp only [hinv, bind, Except.bind, pure, Except.pure, (xsgPositions_ok hl.nodup).2 hc] at h
  split at h
  · cases h
  next h1 =>
  split at h
  · cases h
  next sq hsq =>
  split at h
  · cases h
  next st hst =>
  split at h
  · cases h
  next ys hys =>
  obtain ⟨h2, h3⟩ := Prod.mk.inj (Except.ok.inj h)
  obtain ⟨h4, h5⟩ := Prod.mk.inj h3
  refine ⟨st.2, h4.symm, ?_⟩
  have h6 := mapM_forall₂ hys
  rw [← h2, List.forall₂_map_right_iff]
  have h7 : List.Forall₂ (fun p y => (∃ q ∈ st.2, q = p) ∧ y ∈ ys) st.2 ys := by
    have := h6
    clear hys h6 h hst h2 h4 h5
    have gen : ∀ {I : List (ℤ × Fin irreps.length)} {ys : List (AnyRep n × Bool)} {R}, List.Forall₂ R I ys →
        List.Forall₂ (fun p y => (∃ q ∈ I, q = p) ∧ y ∈ ys) I ys := by
      intro I ys R hR
      induction hR with
      | nil => exact .nil
      | cons _ _ ih =>
        refine .cons ⟨⟨_, List.mem_cons_self .., rfl⟩, List.mem_cons_self ..⟩ (ih.imp fun p y hpy => ?_)
        obtain ⟨⟨q, hq, rfl⟩, hy⟩ := hpy
        exact ⟨⟨q, List.mem_cons_of_mem _ hq, rfl⟩, List.mem_cons_of_mem _ hy⟩
    exact gen this
  have h8 : ∀ {α β : Type} {R S : α → β → Prop} {l : List α} {l' : List β}, List.Forall₂ R l l' → List.Forall₂ S l l' →
      List.Forall₂ (fun x y => R x y ∧ S x y) l l' := by
    intro α β R S l l' hR hS
    induction hR with
    | nil => exact .nil
    | cons hr _ ih =>
      cases hS with
      | cons hs hS' => exact .cons ⟨hr, hs⟩ (ih hS')
  refine (h8 h6 h7).imp fun p y hpy => ?_
  obtain ⟨hpy, -, hy⟩ := hpy
  simp only [hs] at hpy
  rw [conjIrrep_eq_bar hc] at hpy
  refine ⟨y, hpy, rfl, fun hw => ?_⟩
  rw [hw] at h5
  cases hy2 : y.2 with
  | false => rfl
  | true =>
    have : (ys.any fun D => D.2) = true := List.any_eq_true.2 ⟨y, hy, hy2⟩
    rw [this] at h5
    cases h5

end Spgrep

namespace Spgrep

open Spec

variable {n : ℕ} {T : Fin n → Fin n → Fin n} {a : Fin n → Bool} {F : Fin n → Fin n → ℂ} {xsg : List (Fin n)}
  {T' : Fin xsg.length → Fin xsg.length → Fin xsg.length} {a0 : Fin n} {c : Fin xsg.length → Fin xsg.length}
  {s : Fin xsg.length}

theorem near_bar {m d : ℕ} {F : Fin n → Fin n → ℂ} (hF : ∀ i j, ‖F i j‖ = 1) {xsg : Fin m → Fin n} {a0 : Fin n}
    {c : Fin m → Fin m} {D D' : RepArr m d} {ε : ℝ} (h : Near ε D D') :
    Near ε (bar F xsg a0 c D) (bar F xsg a0 c D') := by
  intro u i j
  unfold bar conjFactor
  rw [Matrix.smul_apply, Matrix.smul_apply, smul_eq_mul, smul_eq_mul, ← mul_sub, norm_mul, norm_div, hF, hF, div_one, one_mul,
    Matrix.map_apply, Matrix.map_apply, ← star_sub, norm_star]
  exact h (c u) i j

/-- Exact irreps close to those of a list: unitary, irreducible, pairwise inequivalent, complete. -/
structure ApproxIrreps {m : ℕ} (T' : Fin m → Fin m → Fin m) (μ : Fin m → Fin m → ℂ) (ε : ℝ) (irreps : List (AnyRep m))
    (R : ∀ i : Fin irreps.length, RepArr m (irreps.get i).1) : Prop where
  near : ∀ i, Near ε (R i) (irreps.get i).2
  rep : ∀ i, IsProjRep T' μ (R i)
  unitary : ∀ i, IsUnitaryRep (R i)
  irred : ∀ i, Spec.IsIrreducible (R i)
  inequiv : ∀ i j, AreEquivalent (R i) (R j) → i = j
  complete : ∀ (e : ℕ) (E : RepArr m e), IsProjRep T' μ E → (∀ g, IsUnit (E g)) → Spec.IsIrreducible E →
    ∃ i, AreEquivalent E (R i)
  dim : ∀ i, (irreps.get i).1 ^ 2 ≤ m

open Classical in
/-- The run of the second half of the function once the rounded sums and the equivalence tests are known. -/
theorem corepsFromIrreps_core (hl : LinearPart T a xsg T' a0 c s) (hm : 0 < xsg.length) (hne : ∀ i j, F i j ≠ 0)
    {irreps : List (AnyRep xsg.length)} {q : Fin xsg.length → Fin xsg.length}
    (hq : ∀ u, xsg.get (q u) = T (T a0 (xsg.get u)) (T a0 (xsg.get u)))
    {p : Fin irreps.length → Fin irreps.length} {ι : Fin irreps.length → ℤ}
    (hsum : ∀ i, corepIndicatorSum F (fun u => T a0 (xsg.get u)) q (irreps.get i).2 = ι i * xsg.length)
    (hp2 : ∀ i, p (p i) = i) (hι1 : ∀ i, ι i = 1 ∨ ι i = -1 ∨ ι i = 0) (hι2 : ∀ i, ι i = 0 ↔ p i ≠ i)
    (htest' : ∀ i j, IsEquivalentIrrep (List.ofFn (getCharacter (bar F (fun u => xsg.get u) a0 c (irreps.get i).2)))
      (List.ofFn (getCharacter (irreps.get j).2)) ↔ j = p i)
    (random : ∀ d, ℕ → Matrix (Fin d) (Fin d) ℂ) (trans : Fin n → V3) (k : V3) (atol : ℝ) (maxGen : ℕ) :
    ∃ (out : List (AnyRep n)) (w : Bool),
      corepsFromIrreps random F T trans k xsg a0 irreps atol maxGen =
        .ok (out, ((List.finRange irreps.length).filter fun i => decide (i ≤ p i)).map ι, w) ∧
      List.Forall₂ (fun i D => ∃ Y, buildCorep (random _) F a0 (fun u => xsg.get u) (fun u => T a0 (xsg.get u)) s (ι i)
        (irreps.get i).2 (bar F (fun u => xsg.get u) a0 c (irreps.get i).2) atol maxGen = .ok Y ∧
        D = ⟨Y.1.1, phaseMul trans k Y.1.2⟩ ∧ (w = false → Y.2 = false))
        ((List.finRange irreps.length).filter fun i => decide (i ≤ p i)) out ∧
      (w = true → ∃ i Y, buildCorep (random _) F a0 (fun u => xsg.get u) (fun u => T a0 (xsg.get u)) s (ι i)
        (irreps.get i).2 (bar F (fun u => xsg.get u) a0 c (irreps.get i).2) atol maxGen = .ok Y ∧ Y.2 = true) := by
  obtain ⟨inv, hinv, hcancel⟩ := inverse_of_table hl.table a0
  have hc : ∀ u, xsg.get (c u) = T inv (T (xsg.get u) a0) := fun u =>
    table_left_cancel hl.table (k := a0) (by rw [hl.conj, hcancel])
  have hs : xsgPosition xsg (T a0 a0) = .ok s := (xsgPosition_ok hl.nodup).2 hl.square
  have htest : ∀ i j, IsEquivalentIrrep
      (List.ofFn (getCharacter (conjIrrep F a0 (fun u => xsg.get u) (fun u => T inv (T (xsg.get u) a0)) c (irreps.get i).2)))
      (List.ofFn (getCharacter (irreps.get j).2)) ↔ j = p i := by
    intro i j
    rw [conjIrrep_eq_bar (xsg := fun u => xsg.get u) hc]
    exact htest' i j
  obtain ⟨v, hv⟩ := corepPairs_ok (sum := fun i => corepIndicatorSum F (fun u => T a0 (xsg.get u)) q (irreps.get i).2)
    (chars := fun i => getCharacter (irreps.get i).2)
    (conjChars := fun i =>
      getCharacter (conjIrrep F a0 (fun u => xsg.get u) (fun u => T inv (T (xsg.get u) a0)) c (irreps.get i).2))
    (ε := ι) (p := p) hm hsum hp2 hι2 htest
  -- construction
  obtain ⟨ys, hys, hF⟩ := mapM_ok (L := ((List.finRange irreps.length).filter fun i => decide (i ≤ p i)).map fun i => (ι i, i))
    (f := fun pr : ℤ × Fin irreps.length => do
      let sqA0 ← xsgPosition xsg (T a0 a0)
      buildCorep (random _) F a0 (fun u => xsg.get u) (fun u => T a0 (xsg.get u)) sqA0 pr.1 (irreps.get pr.2).2
        (conjIrrep F a0 (fun u => xsg.get u) (fun u => T inv (T (xsg.get u) a0)) c (irreps.get pr.2).2) atol maxGen)
    (Q := fun (pr : ℤ × Fin irreps.length) (y : AnyRep n × Bool) => buildCorep (random _) F a0 (fun u => xsg.get u) (fun u => T a0 (xsg.get u)) s pr.1 (irreps.get pr.2).2
        (bar F (fun u => xsg.get u) a0 c (irreps.get pr.2).2) atol maxGen = .ok y) fun pr hpr => by
      obtain ⟨i, -, rfl⟩ := List.mem_map.1 hpr
      simp only [hs, bind, Except.bind]
      rw [conjIrrep_eq_bar (xsg := fun u => xsg.get u) hc]
      unfold buildCorep
      rcases hι1 i with h1 | h1 | h1
      · rw [h1, if_pos rfl]
        exact ⟨_, rfl, rfl⟩
      · rw [h1, if_neg (by decide), if_pos rfl]
        exact ⟨_, rfl, rfl⟩
      · rw [h1, if_neg (by decide), if_neg (by decide), if_pos rfl]
        exact ⟨_, rfl, rfl⟩
  rw [List.forall₂_map_left_iff] at hF
  refine ⟨ys.map fun D => ⟨D.1.1, phaseMul trans k D.1.2⟩, ys.any fun D => D.2, ?_, ?_, ?_⟩
  · unfold corepsFromIrreps
    simp only [hinv, bind, Except.bind, pure, Except.pure, (xsgPositions_ok hl.nodup).2 hc,
      (xsgPositions_ok hl.nodup).2 hq]
    rw [if_neg fun h => by obtain ⟨u, hu⟩ := h; exact hne _ _ hu]
    simp only [bind, Except.bind] at hys
    rw [hv]
    dsimp only
    rw [hys]
    simp only [List.map_map]
    rfl
  · rw [List.forall₂_map_right_iff]
    have gen : ∀ {I : List (Fin irreps.length)} {ys : List (AnyRep n × Bool)} {R : Fin irreps.length → AnyRep n × Bool → Prop},
        List.Forall₂ R I ys → List.Forall₂ (fun p y => R p y ∧ y ∈ ys) I ys := by
      intro I ys R hR
      induction hR with
      | nil => exact .nil
      | cons h1 _ ih =>
        exact .cons ⟨h1, List.mem_cons_self ..⟩ (ih.imp fun p y hpy => ⟨hpy.1, List.mem_cons_of_mem _ hpy.2⟩)
    refine (gen hF).imp fun i y hy => ⟨y, hy.1, rfl, fun hw => ?_⟩
    cases hy2 : y.2 with
    | false => rfl
    | true =>
      rw [List.any_eq_true.2 ⟨y, hy.2, hy2⟩] at hw
      cases hw
  · intro hw
    obtain ⟨y, hy, hy2⟩ := List.any_eq_true.1 hw
    have gen : ∀ {I : List (Fin irreps.length)} {ys : List (AnyRep n × Bool)} {R : Fin irreps.length → AnyRep n × Bool → Prop},
        List.Forall₂ R I ys → ∀ y ∈ ys, ∃ i, R i y := by
      intro I ys R hR
      induction hR with
      | nil => intro y hy; cases hy
      | cons h1 _ ih =>
        intro y hy
        rcases List.mem_cons.1 hy with rfl | hy
        · exact ⟨_, h1⟩
        · exact ih y hy
    obtain ⟨i, hi⟩ := gen hF y hy
    exact ⟨i, y, hi, hy2⟩

open Classical in
/-- The run of the second half of the function: partners `p`, indicators `ι` and what is returned. -/
theorem corepsFromIrreps_run (hl : LinearPart T a xsg T' a0 c s)
    (A : AntiGroup T a F (fun u => xsg.get u) T' a0 c s) {ε : ℝ} (hε0 : 0 ≤ ε)
    (hε : (xsg.length : ℝ) ^ 2 * ε ≤ 1 / 5) {irreps : List (AnyRep xsg.length)}
    {R : ∀ i : Fin irreps.length, RepArr xsg.length (irreps.get i).1}
    (hR : ApproxIrreps T' (fun u v => F (xsg.get u) (xsg.get v)) ε irreps R)
    (random : ∀ d, ℕ → Matrix (Fin d) (Fin d) ℂ) (trans : Fin n → V3) (k : V3) (atol : ℝ) (maxGen : ℕ) :
    ∃ (p : Fin irreps.length → Fin irreps.length) (ι : Fin irreps.length → ℤ) (out : List (AnyRep n)) (w : Bool),
      corepsFromIrreps random F T trans k xsg a0 irreps atol maxGen =
        .ok (out, ((List.finRange irreps.length).filter fun i => decide (i ≤ p i)).map ι, w) ∧
      (∀ i, p (p i) = i) ∧ (∀ i j, AreEquivalent (bar F (fun u => xsg.get u) a0 c (R i)) (R j) ↔ j = p i) ∧
      (∀ i, ι i = 1 ∨ ι i = -1 ∨ ι i = 0) ∧ (∀ i, ι i = 0 ↔ p i ≠ i) ∧
      (∀ i (q : Fin xsg.length → Fin xsg.length), (∀ u, xsg.get (q u) = T (T a0 (xsg.get u)) (T a0 (xsg.get u))) →
        ∑ u, F (T a0 (xsg.get u)) (T a0 (xsg.get u)) * (R i (q u)).trace = ((ι i * xsg.length : ℤ) : ℂ)) ∧
      List.Forall₂ (fun i D => ∃ Y, buildCorep (random _) F a0 (fun u => xsg.get u) (fun u => T a0 (xsg.get u)) s (ι i)
        (irreps.get i).2 (bar F (fun u => xsg.get u) a0 c (irreps.get i).2) atol maxGen = .ok Y ∧
        D = ⟨Y.1.1, phaseMul trans k Y.1.2⟩ ∧ (w = false → Y.2 = false))
        ((List.finRange irreps.length).filter fun i => decide (i ≤ p i)) out ∧
      (w = true → ∃ i Y, buildCorep (random _) F a0 (fun u => xsg.get u) (fun u => T a0 (xsg.get u)) s (ι i)
        (irreps.get i).2 (bar F (fun u => xsg.get u) a0 c (irreps.get i).2) atol maxGen = .ok Y ∧ Y.2 = true) := by
  obtain ⟨inv, hinv, hcancel⟩ := inverse_of_table hl.table a0
  have hc : ∀ u, xsg.get (c u) = T inv (T (xsg.get u) a0) := fun u =>
    table_left_cancel hl.table (k := a0) (by rw [hl.conj, hcancel])
  have hm : 0 < xsg.length := table_pos A.sub_table
  have hnorm : ∀ u v, ‖F (xsg.get u) (xsg.get v)‖ = 1 := fun u v => A.norm _ _
  -- the squares
  have hsqex : ∃ q : Fin xsg.length → Fin xsg.length, ∀ u, xsg.get (q u) = T (T a0 (xsg.get u)) (T a0 (xsg.get u)) :=
    ⟨_, fun u => (A.pos_anti_anti u u).symm⟩
  obtain ⟨q, hq⟩ := hsqex
  -- partners
  have hpex : ∀ i, ∃ j, AreEquivalent (bar F (fun u => xsg.get u) a0 c (R i)) (R j) := fun i =>
    hR.complete _ _ (A.bar_projRep (hR.rep i))
      (IsUnitaryRep.isUnit (A.bar_unitary (hR.unitary i))) (A.bar_irreducible (hR.irred i))
  choose p hp using hpex
  have hp1 : ∀ i j, AreEquivalent (bar F (fun u => xsg.get u) a0 c (R i)) (R j) ↔ j = p i := by
    intro i j
    constructor
    · intro h
      exact hR.inequiv _ _ (AreEquivalent.trans (AreEquivalent.symm h) (hp i))
    · rintro rfl
      exact hp i
  have hp2 : ∀ i, p (p i) = i := by
    intro i
    refine ((hp1 (p i) i).1 ?_).symm
    exact AreEquivalent.trans (AreEquivalent.symm (AntiGroup.bar_equiv (hp i)))
      (AreEquivalent.symm (A.bar_bar_equiv (hR.rep i) (hR.unitary i)))
  -- indicators
  have hι : ∀ i, ∃ ι : ℤ, (ι = 1 ∨ ι = -1 ∨ ι = 0) ∧ (ι = 0 ↔ p i ≠ i) ∧
      ∀ q : Fin xsg.length → Fin xsg.length, (∀ u, xsg.get (q u) = T (T a0 (xsg.get u)) (T a0 (xsg.get u))) →
        ∑ u, F (T a0 (xsg.get u)) (T a0 (xsg.get u)) * (R i (q u)).trace = ((ι * xsg.length : ℤ) : ℂ) := by
    intro i
    have hpi : AreEquivalent (R i) (bar F (fun u => xsg.get u) a0 c (R i)) ↔ p i = i :=
      ⟨fun h => ((hp1 i i).1 (AreEquivalent.symm h)).symm, fun h => AreEquivalent.symm ((hp1 i i).2 h.symm)⟩
    obtain ⟨-, -, -, -, ι, h1, h2, h3, -⟩ := c50_wigner A.table A.hom A.cocycle A.norm A.inj A.mem A.sub A.anti hinv hc hq
      (hR.rep i) (hR.unitary i) (hR.irred i)
    rw [conjIrrep_eq_bar (xsg := fun u => xsg.get u) hc, hpi] at h2
    refine ⟨ι, h1, h2, fun q' hq' => ?_⟩
    have : q' = q := funext fun u => A.inj ((hq' u).trans (hq u).symm)
    rw [this, h3]
  choose ι hι1 hι2 hι3 using hι
  -- the loop
  have htest : ∀ i j, IsEquivalentIrrep
      (List.ofFn (getCharacter (bar F (fun u => xsg.get u) a0 c (irreps.get i).2)))
      (List.ofFn (getCharacter (irreps.get j).2)) ↔ j = p i := by
    intro i j
    rw [near_test_iff A.sub_table hnorm (A.bar_projRep (hR.rep i)) (hR.rep j)
      (A.bar_unitary (hR.unitary i)) (hR.unitary j) (A.bar_irreducible (hR.irred i)) (hR.irred j) (hR.dim i) (hR.dim j) hε0 hε
      (near_bar A.norm (hR.near i)) (hR.near j)]
    exact hp1 i j
  obtain ⟨out, w, h1, h2, h3⟩ := corepsFromIrreps_core hl hm A.ne_zero hq
    (fun i => near_indicator A.norm (hR.near i) hε0 hm (hR.dim i) hε _ q (hι3 i q hq)) hp2 hι1 hι2 htest random trans k atol maxGen
  exact ⟨p, ι, out, w, h1, hp2, hp1, hι1, hι2, hι3, h2, h3⟩

end Spgrep

namespace Spgrep

open Spec

variable {n : ℕ}

/-- The conjugate of a projective representation under `a0` when the factors are an ordinary cocycle, real on the linear
operations. -/
theorem bar_projRep_of_real {T : Fin n → Fin n → Fin n} {a : Fin n → Bool} {F : Fin n → Fin n → ℂ} {xsg : List (Fin n)}
    {T' : Fin xsg.length → Fin xsg.length → Fin xsg.length} {a0 : Fin n} {c : Fin xsg.length → Fin xsg.length}
    {s : Fin xsg.length} (hl : LinearPart T a xsg T' a0 c s) (hc : IsCocycle T F) (hn : ∀ i j, ‖F i j‖ = 1)
    (hr : ∀ u v, star (F (xsg.get u) (xsg.get v)) = F (xsg.get u) (xsg.get v)) {d : ℕ} {D : RepArr xsg.length d}
    (hD : IsProjRep T' (fun u v => F (xsg.get u) (xsg.get v)) D) :
    IsProjRep T' (fun u v => F (xsg.get u) (xsg.get v)) (bar F (fun u => xsg.get u) a0 c D) := by
  have hinj := List.nodup_iff_injective_get.1 hl.nodup
  have ne := ne_zero_of_norm_one hn
  have hcc : ∀ u v, c (T' u v) = T' (c u) (c v) := by
    intro u v
    apply hinj
    apply table_left_cancel hl.table (k := a0)
    rw [hl.conj, hl.sub, hl.sub, hl.table.assoc, ← hl.conj, ← hl.table.assoc, ← hl.conj, hl.table.assoc]
  intro u v
  unfold bar conjFactor
  have hDD := hD (c u) (c v)
  dsimp only at hDD ⊢
  rw [Matrix.smul_mul, Matrix.mul_smul, ← map_star_mul, hDD, hcc, smul_smul, smul_smul,
    show (F (xsg.get (c u)) (xsg.get (c v)) • D (T' (c u) (c v))).map star =
      star (F (xsg.get (c u)) (xsg.get (c v))) • (D (T' (c u) (c v))).map star by
        ext i j; simp, hr, smul_smul]
  congr 1
  have e1 := hc (xsg.get u) (xsg.get v) a0
  have e2 := hc (xsg.get u) a0 (xsg.get (c v))
  have e3 := hc a0 (xsg.get (c u)) (xsg.get (c v))
  rw [hl.conj, ← hl.sub] at e3
  rw [hl.conj] at e2
  rw [← hl.sub] at e1
  rw [div_mul_div_comm, div_mul_eq_mul_div, mul_div_assoc', div_eq_div_iff (mul_ne_zero (ne _ _) (ne _ _)) (ne _ _)]
  linear_combination (F (xsg.get u) a0 * F (xsg.get v) a0) * e3 - (F (xsg.get v) a0 * F a0 (xsg.get (c u))) * e2 +
    (F a0 (xsg.get (c u)) * F a0 (xsg.get (c v))) * e1

/-- Unitarity and irreducibility of the conjugate need only factors of modulus one. -/
theorem bar_unitary_of_norm {m d : ℕ} {F : Fin n → Fin n → ℂ} (hn : ∀ i j, ‖F i j‖ = 1) {xsg : Fin m → Fin n} {a0 : Fin n}
    {c : Fin m → Fin m} {D : RepArr m d} (hD : IsUnitaryRep D) : IsUnitaryRep (bar F xsg a0 c D) := by
  intro u
  exact smul_unitary (by unfold conjFactor; rw [norm_div, hn, hn, div_one]) (conj_unitary hD (c u))

/-- Exact irreps for the purified ones. -/
theorem approx_of_complete {m : ℕ} {T' : Fin m → Fin m → Fin m} (hT' : IsGroupTable T') {μ : Fin m → Fin m → ℂ}
    (hμ : ∀ u v, ‖μ u v‖ = 1) (hc : IsCocycle T' μ) {R : List (AnyRep m)} (hR : IsCompleteIrreps T' μ R) {atol : ℝ}
    (ha : 0 < atol) (ha5 : atol ≤ 1 / 5) :
    ∃ E : ∀ i : Fin (R.map fun D => (⟨D.1, purifyIrrepValue D.2 atol⟩ : AnyRep m)).length,
        RepArr m ((R.map fun D => (⟨D.1, purifyIrrepValue D.2 atol⟩ : AnyRep m)).get i).1,
      ApproxIrreps T' μ atol (R.map fun D => (⟨D.1, purifyIrrepValue D.2 atol⟩ : AnyRep m)) E ∧
      ∀ i, (⟨_, E i⟩ : AnyRep m) = R.get (i.cast (List.length_map ..)) := by
  have h1 : ∀ i : Fin (R.map fun D => (⟨D.1, purifyIrrepValue D.2 atol⟩ : AnyRep m)).length,
      ∃ E : RepArr m ((R.map fun D => (⟨D.1, purifyIrrepValue D.2 atol⟩ : AnyRep m)).get i).1,
        (⟨_, E⟩ : AnyRep m) = R.get (i.cast (List.length_map ..)) ∧
        Near atol E ((R.map fun D => (⟨D.1, purifyIrrepValue D.2 atol⟩ : AnyRep m)).get i).2 := by
    intro i
    have h2 : (R.map fun D => (⟨D.1, purifyIrrepValue D.2 atol⟩ : AnyRep m)).get i =
        ⟨(R.get (i.cast (List.length_map ..))).1, purifyIrrepValue (R.get (i.cast (List.length_map ..))).2 atol⟩ := by
      simp
    generalize (R.map fun D => (⟨D.1, purifyIrrepValue D.2 atol⟩ : AnyRep m)).get i = x at *
    subst h2
    exact ⟨(R.get (i.cast (List.length_map ..))).2, rfl, near_purify _ ha ha5⟩
  choose E hE hN using h1
  have hmem : ∀ i, (⟨_, E i⟩ : AnyRep m) ∈ R := fun i => by rw [hE]; exact List.get_mem _ _
  refine ⟨E, ⟨hN, fun i => hR.rep _ (hmem i), fun i => hR.unitary _ (hmem i), fun i => hR.irred _ (hmem i), ?_, ?_,
    fun i => IsCompleteIrreps.dim_le (D := ⟨_, E i⟩) hT' (ne_zero_of_norm_one hμ) hc hR (hmem i)⟩, hE⟩
  · intro i j hij
    have hp := List.pairwise_iff_get.1 hR.inequiv
    have h3 : AreEquivalent (R.get (i.cast (List.length_map ..))).2 (R.get (j.cast (List.length_map ..))).2 := by
      rw [← hE i, ← hE j]
      exact hij
    rcases lt_trichotomy (i.cast (List.length_map ..) : Fin R.length) (j.cast (List.length_map ..)) with h | h | h
    · exact absurd h3 (hp _ _ h)
    · exact Fin.ext (by simpa using congrArg Fin.val h)
    · exact absurd (AreEquivalent.symm h3) (hp _ _ h)
  · intro e D hD hu hi
    obtain ⟨D', hD', heq⟩ := hR.complete e D hD hu hi
    obtain ⟨i, rfl⟩ := List.mem_iff_get.1 hD'
    refine ⟨i.cast (List.length_map ..).symm, ?_⟩
    have h3 := hE (i.cast (List.length_map ..).symm)
    have h4 : AreEquivalent D (⟨_, E (i.cast (List.length_map ..).symm)⟩ : AnyRep m).2 := by
      rw [h3]
      exact heq
    exact h4

/-- What a successful run of the whole function went through. -/
theorem coreps_ok {rots : Fin n → M3} {trans : Fin n → V3} {trs : Fin n → ℤ} {k : V3} (htr : ∃ i, trs i = 1) {o : Oracles}
    {L : R3} {xsg tr : List (Fin n)} {a0 : Fin n} {ω : Fin n → Fin n → ℂ}
    {U : Fin n → Matrix (Fin 2) (Fin 2) ℂ} {a : Fin n → Bool} {T : Fin n → Fin n → Fin n}
    (hdec : decomposeByXSG rots trans trs = .ok (some (xsg, tr, a0)))
    (hω : getCorepSpinorFactorSystem o.eig L rots trs = .ok (ω, U, a)) (hT : getCayleyTable rots (some trs) = .ok T)
    {randomI : ∀ d, ℕ → Matrix (Fin d) (Fin d) ℂ} {method : IrrepMethod} {rtol atol : ℝ} {maxGen : ℕ} {out : CorepOut n}
    {w : Bool} :
    enumerateSpinorSmallCoreps o randomI L rots trans trs k method rtol atol maxGen = .ok (out, w) ↔
    out.spinorFactor = ω ∧ out.unitary = U ∧ out.antiLinear = a ∧ ∃ R wR wC l,
      rawIrreps o (fun u => rots (xsg.get u)) (fun u v => ω (xsg.get u) (xsg.get v) *
        getFactorSystem rots trans k (xsg.get u) (xsg.get v)) method rtol atol maxGen = .ok (R, wR) ∧
      withIndicators (R.map fun D => (⟨D.1, purifyIrrepValue D.2 atol⟩ : AnyRep xsg.length)) = .ok l ∧
      corepsFromIrreps randomI (fun i j => ω i j * getFactorSystem rots trans k i j) T trans k xsg a0
        (R.map fun D => (⟨D.1, purifyIrrepValue D.2 atol⟩ : AnyRep xsg.length)) atol maxGen =
          .ok (out.coreps, out.indicators, wC) ∧ w = (wR || wC) := by
  have h0 : ¬ ∀ i, trs i = 0 := by
    rintro h
    obtain ⟨i, hi⟩ := htr
    rw [h i] at hi
    exact absurd hi (by decide)
  unfold enumerateSpinorSmallCoreps enumerateUnitaryIrreps
  rw [if_neg h0]
  simp only [hdec, hω, hT, Option.getD_some, bind, Except.bind, pure, Except.pure]
  cases hraw : rawIrreps o (fun u => rots (xsg.get u)) (fun u v => ω (xsg.get u) (xsg.get v) *
        getFactorSystem rots trans k (xsg.get u) (xsg.get v)) method rtol atol maxGen with
  | error e =>
    constructor
    · intro h; cases h
    · rintro ⟨-, -, -, R, wR, wC, l, h, -⟩; cases h
  | ok Rw =>
    obtain ⟨R, wR⟩ := Rw
    simp only [Bool.false_eq_true, if_false]
    cases hl : withIndicators (R.map fun D => (⟨D.1, purifyIrrepValue D.2 atol⟩ : AnyRep xsg.length)) with
    | error e =>
      constructor
      · intro h; cases h
      · rintro ⟨-, -, -, R', wR', wC, l, h, h2, -⟩
        obtain ⟨rfl, rfl⟩ := Prod.mk.inj (Except.ok.inj h)
        rw [hl] at h2
        cases h2
    | ok l =>
      have h4 : (l.map fun D => D.1) = R.map fun D => (⟨D.1, purifyIrrepValue D.2 atol⟩ : AnyRep xsg.length) :=
        withIndicators_fst hl
      dsimp only
      rw [h4]
      cases hco : corepsFromIrreps randomI (fun i j => ω i j * getFactorSystem rots trans k i j) T trans k xsg a0
        (R.map fun D => (⟨D.1, purifyIrrepValue D.2 atol⟩ : AnyRep xsg.length)) atol maxGen with
      | error e =>
        constructor
        · intro h; cases h
        · rintro ⟨-, -, -, R', wR', wC, l', h, h2, h3, -⟩
          obtain ⟨rfl, rfl⟩ := Prod.mk.inj (Except.ok.inj h)
          rw [hco] at h3
          cases h3
      | ok st =>
        obtain ⟨cs, is, wC⟩ := st
        dsimp only
        constructor
        · intro h
          obtain ⟨h5, h6⟩ := Prod.mk.inj (Except.ok.inj h)
          subst h5
          exact ⟨rfl, rfl, rfl, R, wR, wC, l, rfl, hl, hco, h6.symm⟩
        · rintro ⟨h5, h6, h7, R', wR', wC', l', h, h2, h3, rfl⟩
          obtain ⟨rfl, rfl⟩ := Prod.mk.inj (Except.ok.inj h)
          obtain ⟨h8, h9⟩ := Prod.mk.inj (Except.ok.inj (hco.symm.trans h3))
          obtain ⟨h10, rfl⟩ := Prod.mk.inj h9
          cases out
          dsimp only at h5 h6 h7 h8 h10
          subst h5 h6 h7 h8 h10
          rfl

theorem RichDraws.mono {m n : ℕ} (h : m ≤ n) {random : ∀ d, ℕ → Matrix (Fin d) (Fin d) ℂ} {atol : ℝ} {maxGen : ℕ}
    (hr : RichDraws n random atol maxGen) : RichDraws m random atol maxGen := fun d hd => hr d (hd.trans h)

/-- The irreps of the unitary part are found without a warning, for all factor systems of signs. -/
def UnitaryPartRuns (o : Oracles) (rots : Fin n → M3) (trs : Fin n → ℤ) (rtol atol : ℝ) (maxGen : ℕ) : Prop :=
  ∀ xsg : List (Fin n), xsg.Nodup → (∀ i, i ∈ xsg ↔ trs i = 0) → ∀ F : Fin xsg.length → Fin xsg.length → ℂ,
    (∀ u v, F u v = 1 ∨ F u v = -1) → (∀ T, getCayleyTable (fun u => rots (xsg.get u)) = .ok T → IsCocycle T F) →
    (∀ e, rots (xsg.get e) = 1 → F e e = 1) →
    ∃ L, rawIrreps o (fun u => rots (xsg.get u)) F .neto rtol atol maxGen = .ok (L, false)

open Classical in
/-- The whole function returns, for real nonsymmorphic factors and suitable draws. -/
theorem coreps_forward {rots : Fin n → M3} {trans : Fin n → V3} {trs : Fin n → ℤ} {k : V3}
    (h : IsMagneticSpaceGroup rots trans trs) (htr : ∃ i, trs i = 1) (hb : ∀ i a b, |rots i a b| ≤ 99999)
    (hk : ∀ i, FixesK (rots i) k)
    (hμ : ∀ i j, getFactorSystem rots trans k i j = 1 ∨ getFactorSystem rots trans k i j = -1)
    {o : Oracles} (he : SymmEigContract o.eig) {L : R3} (hL : L.det ≠ 0) (hm : ∀ i, PreservesMetric L (rots i))
    (ho : ∀ xsg : List (Fin n), xsg.Nodup → (∀ i, i ∈ xsg ↔ trs i = 0) →
      PointgroupContract o.pointgroup fun u => rots (xsg.get u))
    (rtol : ℝ) {atol : ℝ} (hat : 0 < atol) (hna : (n : ℝ) ^ 2 * atol ≤ 1 / 5) {maxGen : ℕ}
    (randomI : ∀ d, ℕ → Matrix (Fin d) (Fin d) ℂ)
    (hr : RichDraws n o.random atol maxGen ∨ UnitaryPartRuns o rots trs rtol atol maxGen ∨
      ∃ out, enumerateSpinorSmallCoreps o randomI L rots trans trs k .neto rtol atol maxGen = .ok (out, false)) :
    ∃ (xsg : List (Fin n)) (a0 : Fin n) (ω : Fin n → Fin n → ℂ) (U : Fin n → Matrix (Fin 2) (Fin 2) ℂ) (a : Fin n → Bool)
      (T : Fin n → Fin n → Fin n) (T' : Fin xsg.length → Fin xsg.length → Fin xsg.length)
      (c : Fin xsg.length → Fin xsg.length) (s e : Fin xsg.length) (F : Fin n → Fin n → ℂ) (R irreps : List (AnyRep xsg.length))
      (E : ∀ i : Fin irreps.length, RepArr xsg.length (irreps.get i).1) (p : Fin irreps.length → Fin irreps.length)
      (ι : Fin irreps.length → ℤ) (out : CorepOut n) (w : Bool),
      enumerateSpinorSmallCoreps o randomI L rots trans trs k .neto rtol atol maxGen = .ok (out, w) ∧
      getCorepSpinorFactorSystem o.eig L rots trs = .ok (ω, U, a) ∧ out.spinorFactor = ω ∧ out.unitary = U ∧
      out.antiLinear = a ∧ F = (fun i j => ω i j * getFactorSystem rots trans k i j) ∧
      getCayleyTable rots (some trs) = .ok T ∧ LinearPart T a xsg T' a0 c s ∧ (∀ i, i ∈ xsg ↔ trs i = 0) ∧
      AntiGroup T a F (fun u => xsg.get u) T' a0 c s ∧ (∀ e, (∀ i, T e i = i) → F e e = 1) ∧
      rots (xsg.get e) = 1 ∧ (∀ i, T (xsg.get e) i = i) ∧
      IsCompleteIrreps T' (fun u v => F (xsg.get u) (xsg.get v)) R ∧
      ApproxIrreps T' (fun u v => F (xsg.get u) (xsg.get v)) atol irreps E ∧
      irreps.length = R.length ∧
      (∀ (i : Fin irreps.length) (j : Fin R.length), i.val = j.val → (⟨_, E i⟩ : AnyRep xsg.length) = R.get j) ∧
      out.indicators = ((List.finRange irreps.length).filter fun i => decide (i ≤ p i)).map ι ∧
      (∀ i, p (p i) = i) ∧ (∀ i j, AreEquivalent (bar F (fun u => xsg.get u) a0 c (E i)) (E j) ↔ j = p i) ∧
      (∀ i, ι i = 1 ∨ ι i = -1 ∨ ι i = 0) ∧ (∀ i, ι i = 0 ↔ p i ≠ i) ∧
      (∀ i (q : Fin xsg.length → Fin xsg.length), (∀ u, xsg.get (q u) = T (T a0 (xsg.get u)) (T a0 (xsg.get u))) →
        ∑ u, F (T a0 (xsg.get u)) (T a0 (xsg.get u)) * (E i (q u)).trace = ((ι i * xsg.length : ℤ) : ℂ)) ∧
      List.Forall₂ (fun i D => ∃ Y, buildCorep (randomI _) F a0 (fun u => xsg.get u) (fun u => T a0 (xsg.get u)) s (ι i)
        (irreps.get i).2 (bar F (fun u => xsg.get u) a0 c (irreps.get i).2) atol maxGen = .ok Y ∧
        D = ⟨Y.1.1, phaseMul trans k Y.1.2⟩ ∧ (w = false → Y.2 = false))
        ((List.finRange irreps.length).filter fun i => decide (i ≤ p i)) out.coreps ∧
      (w = true → ∃ i Y, buildCorep (randomI _) F a0 (fun u => xsg.get u) (fun u => T a0 (xsg.get u)) s (ι i)
        (irreps.get i).2 (bar F (fun u => xsg.get u) a0 c (irreps.get i).2) atol maxGen = .ok Y ∧ Y.2 = true) := by
  obtain ⟨xsg, tr, a0, ω, U, a, T, T', c, s, e, hdec, hω, hT, hT', hl, haf, hω1, hnorm, hcoc, hsg, he1, he2, hF1, hA⟩ :=
    corep_setup h htr hb hk he hL hm
  have A := hA hμ
  have hmem : ∀ i, i ∈ xsg ↔ trs i = 0 := by
    intro i
    rw [hl.mem]
    rcases h.1.2.1 i with h4 | h4
    · simp only [h4, iff_true]
      cases hai : a i with
      | false => rfl
      | true => rw [(haf i).1 hai] at h4; exact absurd h4 (by decide)
    · rw [(haf i).2 h4, h4]
      decide
  have hmn : xsg.length ≤ n := by
    have := List.Nodup.length_le_card hl.nodup
    rwa [Fintype.card_fin] at this
  have hmn' : (xsg.length : ℝ) ≤ n := by exact_mod_cast hmn
  have hm1 : (1 : ℝ) ≤ xsg.length := by exact_mod_cast table_pos A.sub_table
  have hma : (xsg.length : ℝ) ^ 2 * atol ≤ 1 / 5 := by
    refine le_trans ?_ hna
    gcongr
  have hma1 : (xsg.length : ℝ) * atol ≤ 1 / 5 := by
    refine le_trans ?_ hma
    rw [sq]
    gcongr
    exact le_mul_of_one_le_left (by positivity) hm1
  have ha5 : atol ≤ 1 / 5 := le_trans (le_mul_of_one_le_left hat.le hm1) hma1
  obtain ⟨R, wR, hraw, hw, hr'⟩ := neto_raw hsg.1 hT' A.sub_table A.sub_cocycle (fun u v => hnorm _ _) he1 (hF1 _ he2) o
    (ho xsg hl.nodup hmem) rtol hat.le maxGen
  obtain rfl : wR = false := by
    rcases hr with hr | hr | ⟨out0, hout0⟩
    · exact hr' (RichDraws.mono hmn hr)
    · obtain ⟨L0, hL0⟩ := hr xsg hl.nodup hmem
        (fun u v => ω (xsg.get u) (xsg.get v) * getFactorSystem rots trans k (xsg.get u) (xsg.get v)) (fun u v => by
        rcases hω1 (xsg.get u) (xsg.get v) with h2 | h2 <;> rcases hμ (xsg.get u) (xsg.get v) with h3 | h3 <;>
          rw [h2, h3] <;> simp)
        (fun T0 hT0 => by
          obtain rfl := Except.ok.inj (hT0.symm.trans hT')
          exact A.sub_cocycle)
        (fun e' he' => by
          obtain rfl : e' = e := hsg.1.1 (he'.trans he1.symm)
          exact hF1 _ he2)
      exact (Prod.mk.inj (Except.ok.inj (hraw.symm.trans hL0))).2
    · obtain ⟨-, -, -, R0, w0, w1, l0, hraw0, -, -, hor⟩ := (coreps_ok htr hdec hω hT).1 hout0
      rw [hraw] at hraw0
      rw [(Prod.mk.inj (Except.ok.inj hraw0)).2]
      exact (Bool.or_eq_false_iff.1 hor.symm).1
  have hR := hw rfl
  have hf : ∀ D ∈ R.map fun D => (⟨D.1, purifyIrrepValue D.2 atol⟩ : AnyRep xsg.length),
      ∃ c : ℤ, (c = 1 ∨ c = -1 ∨ c = 0) ∧ frobeniusSchur D.2 = .ok c := by
    intro D' hD'
    obtain ⟨D, hD, rfl⟩ := List.mem_map.1 hD'
    have hd := IsCompleteIrreps.dim_le A.sub_table (ne_zero_of_norm_one fun u v => hnorm _ _) A.sub_cocycle hR hD
    refine fs_ok A.sub_table (hR.rep D hD) (hR.unitary D hD) (hR.irred D hD) (Or.inr fun i j => ?_)
      hd hat.le hma1 (near_purify D.2 hat ha5)
    rcases hω1 (xsg.get i) (xsg.get j) with h2 | h2 <;> rcases hμ (xsg.get i) (xsg.get j) with h3 | h3 <;> simp only [h2, h3] <;>
      simp
  obtain ⟨l, hwi, -⟩ := withIndicators_ok hf
  obtain ⟨E, hE, hER⟩ := approx_of_complete A.sub_table (fun u v => hnorm _ _) A.sub_cocycle hR hat ha5
  obtain ⟨p, ι, cs, w, hrun, q1, q2, q3, q4, q5, q6, q7⟩ := corepsFromIrreps_run hl A hat.le hma hE randomI trans k atol maxGen
  refine ⟨xsg, a0, ω, U, a, T, T', c, s, e, _, R, _, E, p, ι, ⟨cs, _, ω, U, a⟩, w,
    (coreps_ok htr hdec hω hT).2 ⟨rfl, rfl, rfl, R, false, w, l, hraw, hwi, hrun, (Bool.false_or w).symm⟩, hω, rfl, rfl, rfl, rfl,
    hT, hl, hmem, A, hF1, he1, he2, hR, hE, List.length_map .., ?_, rfl, q1, q2, q3, q4, q5, q6, q7⟩
  intro i j hij
  rw [hER i]
  congr 1
  exact Fin.ext hij

end Spgrep
