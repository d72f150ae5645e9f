/-
C100, C101: the results of the user-level functions pass the checks of the test suite, and two runs agree.
-/
import Verif.Props.Certificate
import Verif.Proofs.Setting
import Verif.Proofs.TensorRun
import Verif.Props.Spinor

namespace Spgrep

open Spec

variable {n : ℕ}

/-- A complete list of unitary families with the law of the space group at `k`, as in C56. -/
structure IsCompleteSmall (rots : Fin n → M3) (trans : Fin n → V3) (k : V3) (z : Fin n → Fin n → ℂ) (S : List (AnyRep n)) :
    Prop where
  law : ∀ Γ ∈ S, SpaceGroupLaw rots trans k z Γ.2 ∧ IsUnitaryRep Γ.2 ∧ Spec.IsIrreducible Γ.2
  inequiv : S.Pairwise fun Γ Γ' => ¬ AreEquivalent Γ.2 Γ'.2
  complete : ∀ (e : ℕ) (E : RepArr n e), SpaceGroupLaw rots trans k z E → (∀ g, IsUnit (E g)) →
    Spec.IsIrreducible E → ∃ Γ ∈ S, AreEquivalent E Γ.2
  sum_sq : (S.map fun Γ => Γ.1 ^ 2).sum = n

/-- The factor by which products of small representations differ from small representations. -/
noncomputable def smallFactor (rots : Fin n → M3) (trans : Fin n → V3) (k : V3) (z : Fin n → Fin n → ℂ)
    (T : Fin n → Fin n → Fin n) (i j : Fin n) : ℂ :=
  z i j * Complex.exp (-2 * Real.pi * Complex.I *
    ((∑ a, k a * ((∑ b, (rots i a b : ℝ) * trans j b) + trans i a - trans (T i j) a) : ℝ) : ℂ))

theorem smallFactor_norm {rots : Fin n → M3} {trans : Fin n → V3} {k : V3} {z : Fin n → Fin n → ℂ}
    {T : Fin n → Fin n → Fin n} (hz : ∀ i j, ‖z i j‖ = 1) (i j : Fin n) : ‖smallFactor rots trans k z T i j‖ = 1 := by
  rw [smallFactor, norm_mul, hz, one_mul, Complex.norm_exp]
  simp

theorem small_proj {rots : Fin n → M3} (h : EnumeratesGroup rots) {T : Fin n → Fin n → Fin n}
    (hT : getCayleyTable rots = .ok T) {trans : Fin n → V3} {k : V3} {z : Fin n → Fin n → ℂ} {d : ℕ} {Γ : RepArr n d} :
    SpaceGroupLaw rots trans k z Γ ↔ IsProjRep T (smallFactor rots trans k z T) Γ := by
  constructor
  · intro hl i j
    exact hl i j (T i j) (cayley_none_spec hT i j).1.symm
  · intro hp i j l hl
    obtain rfl : l = T i j := h.1 (hl.symm.trans (cayley_none_spec hT i j).1.symm)
    exact hp i j

theorem IsCompleteSmall.irreps {rots : Fin n → M3} (h : EnumeratesGroup rots) {T : Fin n → Fin n → Fin n}
    (hT : getCayleyTable rots = .ok T) {trans : Fin n → V3} {k : V3} {z : Fin n → Fin n → ℂ} {S : List (AnyRep n)}
    (hS : IsCompleteSmall rots trans k z S) : IsCompleteIrreps T (smallFactor rots trans k z T) S where
  rep Γ hΓ := (small_proj h hT).1 (hS.law Γ hΓ).1
  unitary Γ hΓ := (hS.law Γ hΓ).2.1
  irred Γ hΓ := (hS.law Γ hΓ).2.2
  inequiv := hS.inequiv
  complete e E hE hu hi := hS.complete e E ((small_proj h hT).2 hE) hu hi

theorem dim_sq_le {S : List (AnyRep n)} (hS : (S.map fun Γ => Γ.1 ^ 2).sum = n) {Γ : AnyRep n} (hΓ : Γ ∈ S) : Γ.1 ^ 2 ≤ n := by
  conv_rhs => rw [← hS]
  exact List.single_le_sum (fun _ _ => Nat.zero_le _) _ (List.mem_map_of_mem hΓ)

theorem dim_bounds {d : ℕ} (hn : n ≤ 48) (hd : d ^ 2 ≤ n) : d ≤ 6 ∧ n * d ^ 3 ≤ 15000 := by
  have h6 : d ≤ 6 := by
    by_contra h
    have : 7 ^ 2 ≤ d ^ 2 := Nat.pow_le_pow_left (by omega) 2
    omega
  refine ⟨h6, ?_⟩
  calc n * d ^ 3 ≤ 48 * 6 ^ 3 := Nat.mul_le_mul hn (Nat.pow_le_pow_left h6 3)
    _ ≤ _ := by norm_num

/-- Everything the test suite checks about a list of small representations (tests/test_irreps.py:147-156). -/
structure PassesChecks (rots : Fin n → M3) (trans : Fin n → V3) (k : V3) (z : Option (Fin n → Fin n → ℂ))
    (L : List (AnyRep n)) : Prop where
  spacegroup : ∀ X ∈ L, checkSpacegroupRep rots trans k X.2 z = .ok true
  unitary : ∀ X ∈ L, IsUnitaryTest X.2
  unique : IsUniqueIrreps L
  sum_sq : (L.map fun X => X.1 ^ 2).sum = n

theorem near_passes {rots : Fin n → M3} (h : EnumeratesGroup rots) {trans : Fin n → V3} {k : V3} {z : Fin n → Fin n → ℂ}
    (hz : ∀ i j, ‖z i j‖ = 1) (hn : n ≤ 48) {S L : List (AnyRep n)} (hS : IsCompleteSmall rots trans k z S) {ε : ℝ}
    (hε0 : 0 ≤ ε) (hε : ε ≤ 7e-10) (hnear : List.Forall₂ (NearRep ε) S L) : PassesChecks rots trans k (some z) L := by
  obtain ⟨T, hT, -, hTg⟩ := c01_cayley_table_ordinary h
  have hd : ∀ X ∈ S, (X.1 : ℝ) ≤ 6 := fun X hX => by
    exact_mod_cast (dim_bounds hn (dim_sq_le hS.sum_sq hX)).1
  have hb : ∀ X ∈ S, (X.1 : ℝ) * (2 * ε + ε ^ 2) + ε ≤ 1e-8 := by
    intro X hX
    calc (X.1 : ℝ) * (2 * ε + ε ^ 2) + ε ≤ 6 * (2 * 7e-10 + 7e-10 ^ 2) + 7e-10 := by
          gcongr
          exact hd X hX
      _ ≤ _ := by norm_num
  have hmem : ∀ Y ∈ L, ∃ X ∈ S, NearRep ε X Y := by
    intro Y hY
    obtain ⟨i, rfl⟩ := List.get_of_mem hY
    obtain ⟨hlen, hget⟩ := List.forall₂_iff_get.1 hnear
    exact ⟨S.get (i.cast hlen.symm), List.get_mem _ _, hget i (i.cast hlen.symm).2 i.2⟩
  refine ⟨fun Y hY => ?_, fun Y hY => ?_, ?_, ?_⟩
  · obtain ⟨X, hX, F, rfl, hF⟩ := hmem Y hY
    exact c98_spacegroup_accepts h hT hz (hS.law X hX).1 (hS.law X hX).2.1 hF (by norm_num) (hb X hX)
  · obtain ⟨X, hX, F, rfl, hF⟩ := hmem Y hY
    exact c98_accepts_unitary (hS.law X hX).2.1 hF (by linarith [hb X hX])
  · refine unique_near hTg (smallFactor_norm hz) (hS.irreps h hT) (fun X hX => (dim_bounds hn (dim_sq_le hS.sum_sq hX)).2)
      (fun X hX => ?_) hε0 hnear
    calc (X.1 : ℝ) * ε ≤ 6 * 7e-10 := by
          gcongr
          exact hd X hX
      _ ≤ _ := by norm_num
  · exact (congrArg List.sum (NearRep.map_dim hnear)).trans hS.sum_sq

/-- **C100.** What `enumerate_small_representations` returns without a warning, for a tolerance of at most `7·10⁻¹⁰`, passes
all checks of the test suite. -/
theorem c100_small_reps {rots : Fin n → M3} {trans : Fin n → V3} {k : V3} (h : IsSpaceGroup rots trans)
    (hk : ∀ i, FixesK (rots i) k) (hn : n ≤ 48) {o : Oracles} {method : IrrepMethod} {rtol : ℝ}
    (ho : MethodContract o method rtol rots) {atol : ℝ} (ha : 0 < atol) (ha5 : atol ≤ 7e-10) {maxGen : ℕ}
    {out : IrrepsOut n} (hrun : enumerateSmallReps o rots trans k false method rtol atol maxGen = .ok (out, false)) :
    ∃ l : List (AnyRep n × ℤ), out = .complex l ∧ PassesChecks rots trans k none (l.map Prod.fst) := by
  obtain ⟨l, S, hout, h1, h2, h3, h4, h5⟩ := small_reps_complete h hk o ho ha (ha5.trans (by norm_num)) maxGen hrun
  refine ⟨l, hout, ?_⟩
  obtain ⟨g1, g2, g3, g4⟩ := near_passes h.1 (z := fun _ _ => 1) (by simp) hn ⟨h2, h3, h4, h5⟩ ha.le ha5
    (List.forall₂_map_right_iff.2 h1 : List.Forall₂ (NearRep atol) S (l.map Prod.fst))
  exact ⟨g1, g2, g3, g4⟩

/-- **C100** for `enumerate_spinor_small_representations`. -/
theorem c100_spinor {rots : Fin n → M3} {trans : Fin n → V3} {k : V3} (h : IsSpaceGroup rots trans)
    (hk : ∀ i, FixesK (rots i) k) (hn : n ≤ 48) {o : Oracles} (he : SymmEigContract o.eig) {L : R3} (hL : L.det ≠ 0)
    (hm : ∀ i, PreservesMetric L (rots i)) {method : IrrepMethod} {rtol : ℝ} (ho : MethodContract o method rtol rots)
    {atol : ℝ} (ha : 0 < atol) (ha5 : atol ≤ 7e-10) {maxGen : ℕ} {irreps : List (AnyRep n)} {z : Fin n → Fin n → ℂ}
    {U : Fin n → Matrix (Fin 2) (Fin 2) ℂ}
    (hrun : enumerateSpinorSmallReps o L rots trans k method rtol atol maxGen = .ok ((irreps, z, U), false)) :
    PassesChecks rots trans k (some z) irreps := by
  obtain ⟨hz, S, h1, h2, h3, h4, h5⟩ := c45_spinor_small_reps h hk he hL hm ho ha (ha5.trans (by norm_num)) hrun
  obtain ⟨z', U', hz', -, hsign, -⟩ := c44_spinor_factor_system he hL h.1 hm
  rw [hz] at hz'
  obtain ⟨rfl, rfl⟩ := Prod.mk.inj (Except.ok.inj hz')
  exact near_passes h.1 (fun i j => by rcases hsign i j with h | h <;> simp [h]) hn ⟨h2, h3, h4, h5⟩ ha.le ha5 h1

/-- Two complete lists of small representations agree up to order and equivalence. -/
theorem complete_small_agree {rots : Fin n → M3} {trans : Fin n → V3} {k : V3} {z : Fin n → Fin n → ℂ}
    {S S' : List (AnyRep n)} (hS : IsCompleteSmall rots trans k z S) (hS' : IsCompleteSmall rots trans k z S') :
    ∃ σ : Fin S.length ≃ Fin S'.length, ∀ a, AreEquivalent (S.get a).2 (S'.get (σ a)).2 := by
  refine bijection_of_sum_sq (fun {d} Γ => Γ) (fun h => h) hS.inequiv (fun Γ hΓ => ?_) (fun Γ hΓ => ?_)
    (hS.sum_sq.trans hS'.sum_sq.symm)
  · obtain ⟨h1, h2, h3⟩ := hS.law Γ hΓ
    exact hS'.complete _ _ h1 (fun g => IsUnit.of_mul_eq_one _ (h2 g)) h3
  · obtain ⟨⟨a⟩, -⟩ := (hS'.law Γ hΓ).2.2
    exact a.pos

theorem near_trace {ε : ℝ} {S : List (AnyRep n)} {l : List (AnyRep n × ℤ)}
    (hnear : List.Forall₂ (fun Γ x => NearRep ε Γ x.1) S l) (hl : S.length = l.length) (a : Fin S.length) :
    (l.get (a.cast hl)).1.1 = (S.get a).1 ∧ ∀ g,
      ‖getCharacter (l.get (a.cast hl)).1.2 g - ((S.get a).2 g).trace‖ ≤ (S.get a).1 * ε := by
  obtain ⟨-, hget⟩ := List.forall₂_iff_get.1 hnear
  obtain ⟨F, h1, h2⟩ := hget a a.2 (a.cast hl).2
  have h3 : (l.get (a.cast hl)).1 = ⟨(S.get a).1, F⟩ := h1
  rw [h3]
  refine ⟨rfl, fun g => ?_⟩
  have := sum_near (fun a' => F g a' a') (fun a' => (S.get a).2 g a' a') fun a' => by
    rw [norm_sub_rev]; exact h2 g a' a'
  rw [Fintype.card_fin] at this
  exact this

/-- **C101.** Two runs of `enumerate_small_representations` without warnings, with any methods, draws, answers of the outside
routines and tolerances, agree: there is a bijection of the results such that corresponding arrays have the same dimension and,
up to the tolerances, the same characters, and `is_equivalent_irrep` recognises exactly the corresponding arrays. -/
theorem c101_runs_agree {rots : Fin n → M3} {trans : Fin n → V3} {k : V3} (h : IsSpaceGroup rots trans)
    (hk : ∀ i, FixesK (rots i) k) (hn : n ≤ 48) {o o' : Oracles} {method method' : IrrepMethod} {rtol rtol' : ℝ}
    (ho : MethodContract o method rtol rots) (ho' : MethodContract o' method' rtol' rots) {atol atol' : ℝ} (ha : 0 < atol)
    (ha' : 0 < atol') (hle : atol ≤ 1e-4) (hle' : atol' ≤ 1e-4) {maxGen maxGen' : ℕ} {out out' : IrrepsOut n}
    (hrun : enumerateSmallReps o rots trans k false method rtol atol maxGen = .ok (out, false))
    (hrun' : enumerateSmallReps o' rots trans k false method' rtol' atol' maxGen' = .ok (out', false)) :
    ∃ l l' : List (AnyRep n × ℤ), out = .complex l ∧ out' = .complex l' ∧ ∃ σ : Fin l.length ≃ Fin l'.length,
      (∀ a, (l'.get (σ a)).1.1 = (l.get a).1.1 ∧ ∀ g, ‖getCharacter (l.get a).1.2 g - getCharacter (l'.get (σ a)).1.2 g‖ ≤
        (l.get a).1.1 * (atol + atol')) ∧
      ∀ a b, IsEquivalentIrrep (List.ofFn (getCharacter (l.get a).1.2)) (List.ofFn (getCharacter (l'.get b).1.2)) ↔
        b = σ a := by
  obtain ⟨T, hT, -, hTg⟩ := c01_cayley_table_ordinary h.1
  obtain ⟨l, S, hout, h1, h2, h3, h4, h5⟩ := small_reps_complete h hk o ho ha (hle.trans (by norm_num)) maxGen hrun
  obtain ⟨l', S', hout', h1', h2', h3', h4', h5'⟩ :=
    small_reps_complete h hk o' ho' ha' (hle'.trans (by norm_num)) maxGen' hrun'
  have hS : IsCompleteSmall rots trans k (fun _ _ => 1) S := ⟨h2, h3, h4, h5⟩
  have hS' : IsCompleteSmall rots trans k (fun _ _ => 1) S' := ⟨h2', h3', h4', h5'⟩
  obtain ⟨σ, hσ⟩ := complete_small_agree hS hS'
  have hl : S.length = l.length := h1.length_eq
  have hl' : S'.length = l'.length := h1'.length_eq
  have key := near_trace h1 hl
  have key' := near_trace h1' hl'
  have hcast : ∀ a : Fin l.length, ∃ s : Fin S.length, a = s.cast hl := fun a => ⟨a.cast hl.symm, rfl⟩
  have hcast' : ∀ a : Fin l'.length, ∃ s : Fin S'.length, a = s.cast hl' := fun a => ⟨a.cast hl'.symm, rfl⟩
  refine ⟨l, l', hout, hout', ((finCongr hl.symm).trans σ).trans (finCongr hl'), fun a => ?_, fun a b => ?_⟩
  · obtain ⟨s, rfl⟩ := hcast a
    have hσs : (((finCongr hl.symm).trans σ).trans (finCongr hl')) (s.cast hl) = (σ s).cast hl' := rfl
    have hdim := AreEquivalent.dim_eq (hσ s)
    have hdim' : ((l.get (s.cast hl)).1.1 : ℝ) = (S'.get (σ s)).1 := by exact_mod_cast (key s).1.trans hdim
    rw [hσs]
    refine ⟨(key' (σ s)).1.trans (hdim.symm.trans (key s).1.symm), fun g => ?_⟩
    have e1 := (key s).2 g
    have e2 := (key' (σ s)).2 g
    rw [AreEquivalent.trace (hσ s) g] at e1
    have hdR : ((S.get s).1 : ℝ) = (S'.get (σ s)).1 := by exact_mod_cast hdim
    rw [hdR] at e1
    rw [norm_sub_rev] at e2
    have := norm_add_le (getCharacter (l.get (s.cast hl)).1.2 g - ((S'.get (σ s)).2 g).trace)
      (((S'.get (σ s)).2 g).trace - getCharacter (l'.get ((σ s).cast hl')).1.2 g)
    rw [sub_add_sub_cancel] at this
    rw [hdim']
    linarith
  · obtain ⟨s, rfl⟩ := hcast a
    obtain ⟨t, rfl⟩ := hcast' b
    have hσs : (((finCongr hl.symm).trans σ).trans (finCongr hl')) (s.cast hl) = (σ s).cast hl' := rfl
    rw [hσs, Fin.cast_inj]
    have hC := hS.irreps h.1 hT
    have hC' := hS'.irreps h.1 hT
    have hmem := List.get_mem S s
    have hmem' := List.get_mem S' t
    have hd : ((S.get s).1 : ℝ) ≤ 6 := by exact_mod_cast (dim_bounds hn (dim_sq_le h5 hmem)).1
    have hd' : ((S'.get t).1 : ℝ) ≤ 6 := by exact_mod_cast (dim_bounds hn (dim_sq_le h5' hmem')).1
    have hn' : (n : ℝ) ≤ 48 := by exact_mod_cast hn
    rw [c97_character_test hTg (smallFactor_norm (fun _ _ => norm_one)) (hC.rep _ hmem) (hC'.rep _ hmem') (hC.unitary _ hmem)
      (hC'.unitary _ hmem') (hC.irred _ hmem) (hC'.irred _ hmem') (ε := 6e-4)
      (fun g => ((key s).2 g).trans (by nlinarith)) (fun g => ((key' t).2 g).trans (by nlinarith))
      (by
        calc (n : ℝ) * (6e-4 * ((S.get s).1 + (S'.get t).1 + 6e-4)) ≤ 48 * (6e-4 * (6 + 6 + 6e-4)) := by gcongr
          _ < _ := by norm_num)]
    constructor
    · intro heq
      by_contra hne
      have h6 : AreEquivalent (S'.get t).2 (S'.get (σ s)).2 := AreEquivalent.trans (AreEquivalent.symm heq) (hσ s)
      rcases lt_or_gt_of_ne hne with hlt | hlt
      · exact List.pairwise_iff_get.1 h3' t (σ s) hlt h6
      · exact List.pairwise_iff_get.1 h3' (σ s) t hlt (AreEquivalent.symm h6)
    · rintro rfl
      exact hσ s

/-- I222 at W: runs with tolerances `5·10⁻¹⁰` and `10⁻⁸` without warnings; the first passes the checks, the two agree. -/
example : ∃ (o o' : Oracles) (l l' : List (AnyRep 4 × ℤ)),
    enumerateSmallReps o rotsI24 (fun _ _ => 0) kW false .neto 1e-5 5e-10 4 = .ok (.complex l, false) ∧
    enumerateSmallReps o' rotsI24 (fun _ _ => 0) kW false .neto 1e-5 1e-8 4 = .ok (.complex l', false) ∧
    PassesChecks rotsI24 (fun _ _ => 0) kW none (l.map Prod.fst) ∧ l.length = l'.length := by
  have h : IsSpaceGroup rotsI24 (fun _ _ => 0) := ⟨rotsI24_group, fun _ _ _ _ _ => ⟨0, by simp⟩⟩
  have hrun : ∀ a : ℝ, 0 < a → a ≤ 1e-8 → ∃ (o : Oracles) (out : IrrepsOut 4), MethodContract o .neto 1e-5 rotsI24 ∧
      enumerateSmallReps o rotsI24 (fun _ _ => 0) kW false .neto 1e-5 a 4 = .ok (out, false) := by
    intro a ha ha8
    obtain ⟨random, hr⟩ := exists_richDraws a 4 4 fun d hd => hd
    let o : Oracles := { random := random, eig := fun d _ => (fun _ => 0, 0), eigh := fun d _ => (fun _ => 0, 0),
                         qr := fun _ _ _ => 0, pointgroup := (PgSymbol.pg_222, trafoI24.map fun x : ℤ => (x : ℝ)) }
    obtain ⟨L, w, -, h2, h3⟩ := c18_small_reps_partial h fixesK_I24 (.of_symmorphic fun _ _ => rfl) o pointgroup_I24 1e-5 ha
      (by push_cast; linarith) 4 false
    obtain ⟨out, hout⟩ := h2 (h3 hr)
    exact ⟨o, out, pointgroup_I24, hout⟩
  obtain ⟨o, out, ho, h1⟩ := hrun 5e-10 (by norm_num) (by norm_num)
  obtain ⟨o', out', ho', h1'⟩ := hrun 1e-8 (by norm_num) le_rfl
  obtain ⟨l, rfl, hp⟩ := c100_small_reps h fixesK_I24 (by norm_num) ho (by norm_num) (by norm_num) h1
  obtain ⟨m, l', hm, rfl, σ, -⟩ := c101_runs_agree h fixesK_I24 (by norm_num) ho ho' (by norm_num) (by norm_num) (by norm_num)
    (by norm_num) h1 h1'
  obtain rfl := IrrepsOut.complex.inj hm
  exact ⟨o, o', l, l', h1, h1', hp, by simpa using Fintype.card_congr σ⟩

/-- With spin. -/
example : ∃ (o : Oracles) (irreps : List (AnyRep 4)) (z : Fin 4 → Fin 4 → ℂ) (U : Fin 4 → Matrix (Fin 2) (Fin 2) ℂ),
    enumerateSpinorSmallReps o latticeBcc rotsI24 (fun _ _ => 0) kW .neto 1e-5 5e-10 4 = .ok ((irreps, z, U), false) ∧
    PassesChecks rotsI24 (fun _ _ => 0) kW (some z) irreps := by
  have h : IsSpaceGroup rotsI24 (fun _ _ => 0) := ⟨rotsI24_group, fun _ _ _ _ _ => ⟨0, by simp⟩⟩
  obtain ⟨eig, he⟩ := symmEigContract_exists
  obtain ⟨random, hr⟩ := exists_richDraws 5e-10 4 4 fun d hd => hd
  let o : Oracles := { random := random, eig := eig, eigh := fun d _ => (fun _ => 0, 0), qr := fun _ _ _ => 0,
                       pointgroup := (PgSymbol.pg_222, trafoI24.map fun x : ℤ => (x : ℝ)) }
  obtain ⟨irreps, z, U, hrun⟩ := c45_runs (o := o) (rtol := 1e-5) (atol := 5e-10) (maxGen := 4) h fixesK_I24 (fun i j => .inl (by
    unfold getFactorSystem
    have : dot3 (residual (rotsI24 i) kW) ((fun _ _ => 0 : Fin 4 → V3) j) = 0 := by unfold dot3; simp
    rw [this, expPhase_zero])) he latticeBcc_det metric_I24 pointgroup_I24 (by norm_num) (by norm_num) hr
  exact ⟨o, irreps, z, U, hrun, c100_spinor h fixesK_I24 (by norm_num) (o := o) he latticeBcc_det metric_I24
    (method := .neto) pointgroup_I24 (by norm_num) (by norm_num) hrun⟩

end Spgrep
