/-
C96: what happens for arbitrary answers of `spglib.get_pointgroup`.
-/
import Verif.Props.PointgroupApi

namespace Spgrep

open Spec

variable {n : ℕ} {T : Fin n → Fin n → Fin n} {μ : Fin n → Fin n → ℂ}

theorem mapM_listGet {n m : ℕ} {js : List (Fin n)} {extra : List ℤ} (hjs : js.length = m) (gens : List (Fin m)) :
    (gens.map Fin.val).mapM (listGet (js.map (fun j : Fin n => ((j : ℕ) : ℤ)) ++ extra)) =
      .ok ((gens.map fun g => js.get (Fin.cast hjs.symm g)).map fun j : Fin n => ((j : ℕ) : ℤ)) := by
  induction gens with
  | nil => rfl
  | cons g gens ih =>
    rw [List.map_cons, List.mapM_cons, ih]
    have hlt : (g : ℕ) < js.length := by rw [hjs]; exact g.2
    have h1 : (js.map (fun j : Fin n => ((j : ℕ) : ℤ)) ++ extra)[(g : ℕ)]? =
        some (((js.get (Fin.cast hjs.symm g) : ℕ)) : ℤ) := by
      rw [List.getElem?_append_left (by rw [List.length_map]; exact hlt), List.getElem?_map,
        List.getElem?_eq_getElem hlt]
      rfl
    have e2 : listGet (js.map (fun j : Fin n => ((j : ℕ) : ℤ)) ++ extra) g =
        .ok ((js.get (Fin.cast hjs.symm g) : ℕ) : ℤ) := by
      unfold listGet; rw [h1]
    rw [e2]
    rfl

/-- The loop over the settings never raises: it returns valid indices, of the generators of the first setting all of whose
matrices occur, or the empty list if there is none. -/
theorem settingLoop_any (s : PgSymbol) (matched : Fin n → M3) : ∀ (k : ℕ) (L : List (List PgMat)), L = (pgDataset s).drop k →
    ∃ gens : List (Fin n), settingLoop s matched k L = .ok (gens.map fun j : Fin n => ((j : ℕ) : ℤ)) ∧
      ((gens = [] ∧ ∀ st ∈ L, ∃ r ∈ st.map PgMat.toM3, ∀ j, matched j ≠ r) ∨
       ∃ st ∈ L, (∀ r ∈ st.map PgMat.toM3, ∃ j, matched j = r) ∧
        IsSolvableChain (· * ·) (1 : M3) (gens.map matched) {x | x ∈ st.map PgMat.toM3}) := by
  intro k L
  induction L generalizing k with
  | nil => exact fun _ => ⟨[], rfl, .inl ⟨rfl, fun st h => by cases h⟩⟩
  | cons st L ih =>
    intro hL
    have hget : (pgDataset s)[k]? = some st := by
      have : ((pgDataset s).drop k)[0]? = some st := by rw [← hL]; rfl
      rwa [List.getElem?_drop, Nat.add_zero] at this
    have hst : st ∈ pgDataset s := List.mem_of_getElem? hget
    have hdrop : L = (pgDataset s).drop (k + 1) := by
      rw [← List.tail_drop, ← hL]; rfl
    unfold settingLoop
    rcases matchLoop_spec matched (pg_nodup hst) with ⟨h1, r, hr, hno⟩ | ⟨js, h1, h2⟩
    · obtain ⟨gens, h3, h4⟩ := ih (k + 1) hdrop
      refine ⟨gens, by rw [h1]; exact h3, ?_⟩
      rcases h4 with ⟨h5, h6⟩ | ⟨st', h5, h6⟩
      · refine .inl ⟨h5, fun x hx => ?_⟩
        rcases List.mem_cons.1 hx with rfl | hx
        · exact ⟨r, hr, hno⟩
        · exact h6 x hx
      · exact .inr ⟨st', List.mem_cons_of_mem _ h5, h6⟩
    · obtain ⟨gens, hg, hchain⟩ := getGenerators_spec hget
      have hjs : js.length = st.length := by
        have := congrArg List.length h2
        simpa using this
      have hmap : (gens.map fun g => js.get (Fin.cast hjs.symm g)).map matched = gens.map fun g => (st.get g).toM3 := by
        rw [List.map_map]
        apply List.map_congr_left
        intro g _
        have e1 : (js.map matched)[(g : ℕ)]? = some (matched (js.get (Fin.cast hjs.symm g))) := by
          rw [List.getElem?_map, List.getElem?_eq_getElem (by rw [hjs]; exact g.2)]
          rfl
        rw [h2, List.getElem?_map, List.getElem?_eq_getElem g.2] at e1
        exact (Option.some.inj e1).symm
      refine ⟨gens.map fun g => js.get (Fin.cast hjs.symm g), ?_, .inr ⟨st, List.mem_cons_self, fun r hr => ?_,
        by rw [hmap]; exact hchain⟩⟩
      · rw [h1]
        change (getGenerators s k >>= fun gens => gens.mapM (listGet (js.map (fun j : Fin n => ((j : ℕ) : ℤ)) ++
          List.replicate (n - js.length) (-1 : ℤ)))) = _
        rw [hg]
        exact mapM_listGet hjs gens
      · rw [← h2] at hr
        obtain ⟨j, _, hj⟩ := List.mem_map.1 hr
        exact ⟨j, hj⟩

theorem chain_one_mem {M : Type*} {mul : M → M → M} {one : M} (h1 : mul one one = one) {gens : List M} {S : Set M}
    (h : IsSolvableChain mul one gens S) : one ∈ S := by
  induction h with
  | nil => exact Set.mem_singleton _
  | cons hH hp hone hout hnorm hprime ih => exact ⟨0, by omega, one, ih, h1.symm⟩

/-- The chain enumeration for a chain that ends in a proper subset of the group. -/
theorem enumerateFromChain_short (hT : IsGroupTable T) (hc : IsCocycle T μ) (hn : ∀ g h, ‖μ g h‖ = 1) {e : Fin n}
    (he : ∀ g, T e g = g) (h1 : μ e e = 1) {gens : List (Fin n)} {S : Set (Fin n)} (hgens : IsSolvableChain T e gens S)
    (hS : S ≠ Set.univ) (random : ∀ d, ℕ → Matrix (Fin d) (Fin d) ℂ) {atol : ℝ} (ha : 0 ≤ atol) (maxGen : ℕ) :
    ∃ w, enumerateFromChain random T μ gens atol maxGen = .ok ([], w, true) := by
  classical
  let _ := TG.group hT
  let f : Fin n ≃ TG T := Equiv.refl _
  have hf : ∀ i j, f (T i j) = f i * f j := fun _ _ => rfl
  have hef : f.symm 1 = e := by
    apply f.injective
    have h2 : f (T e e) = f e * f e := hf e e
    rw [he] at h2
    rw [f.apply_symm_apply]
    exact (mul_eq_left.1 h2.symm).symm
  have hμ := cocy_of_table f hf hc hn (by rw [hef]; exact h1)
  rw [← hef] at hgens
  obtain ⟨H, hH, st, hst, hnd, -, hmem, -⟩ := chainLoop_ok f hf hμ random ha maxGen hgens
  have hgrp : st.grp ≠ List.finRange n := by
    intro h
    refine hS (Set.eq_univ_of_forall fun g => ?_)
    have h2 := (hH (f g)).1 ((hmem (f g)).1 (by rw [h]; exact List.mem_finRange _))
    simpa using h2
  refine ⟨st.warned, ?_⟩
  unfold enumerateFromChain
  rw [getIdentityIndex_eq f hf]
  simp only [bind, Except.bind]
  have h2 : List.foldlM (chainStep random T μ (f.symm 1) atol maxGen)
      { grp := [f.symm 1], irreps := [⟨1, fun g => if g = f.symm 1 then 1 else 0⟩], warned := false }
      gens.reverse = .ok st := hst
  rw [h2]
  simp only [if_neg hgrp]
  rfl

/-- **C96.** Whatever symbol and invertible matrix `spglib.get_pointgroup` answers, as long as the matrix transforms the rotations to
integer matrices (first clause: even without that) `get_pointgroup_chain_generators` returns valid indices, and the enumeration
of irreps never returns a wrong list: if the answer describes the rotations (or there is only one) the run with the 'Neto' method
returns all irreps up to equivalence, unless an intertwiner search gave up; if not, `enumerate_unitary_irreps` returns the empty
list together with a warning. -/
theorem c96_any_answer {rots : Fin n → M3} (h : EnumeratesGroup rots) (hT : getCayleyTable rots = .ok T)
    (hTg : IsGroupTable T) (hc : IsCocycle T μ) (hn : ∀ g h, ‖μ g h‖ = 1) {e : Fin n} (he : rots e = 1) (h1 : μ e e = 1)
    (o : Oracles) (hP : o.pointgroup.2.det ≠ 0) (rtol : ℝ) {atol : ℝ} (ha : 0 ≤ atol) (maxGen : ℕ) :
    (∃ gens : List (Fin n), getPointgroupChainGenerators o.pointgroup rots = .ok (gens.map fun j : Fin n => ((j : ℕ) : ℤ))) ∧
    ((∀ i, ∃ S : M3, (rots i).map (fun x : ℤ => (x : ℝ)) * o.pointgroup.2 = o.pointgroup.2 * S.map (fun x : ℤ => (x : ℝ))) →
      (PointgroupContract o.pointgroup rots ∨ n = 1 →
        ∃ L w, rawIrreps o rots μ .neto rtol atol maxGen = .ok (L, w) ∧ (w = false → IsCompleteIrreps T μ L) ∧
          (RichDraws n o.random atol maxGen → w = false)) ∧
      (¬ PointgroupContract o.pointgroup rots → n ≠ 1 →
        enumerateUnitaryIrreps o rots (some μ) false .neto rtol atol maxGen = .ok (.complex [], true) ∧
        enumerateUnitaryIrreps o rots (some μ) true .neto rtol atol maxGen = .ok (.real [], true))) := by
  classical
  obtain ⟨gens, hrun, -⟩ := settingLoop_any o.pointgroup.1
    (fun i => toIntegerTuple (o.pointgroup.2⁻¹ * (rots i).map (fun x : ℤ => (x : ℝ)) * o.pointgroup.2)) 0
    (pgDataset o.pointgroup.1) rfl
  have hgens : getPointgroupChainGenerators o.pointgroup rots = .ok (gens.map fun j : Fin n => ((j : ℕ) : ℤ)) := by
    unfold getPointgroupChainGenerators
    rw [if_neg hP]
    exact hrun
  refine ⟨⟨gens, hgens⟩, fun hint => ?_⟩
  have hPu : IsUnit o.pointgroup.2.det := isUnit_iff_ne_zero.2 hP
  have hrot : ∀ i j, rots (T i j) = rots i * rots j := fun i j => (cayley_none_spec hT i j).1
  have hT1 : ∀ g, T e g = g := fun g => h.1 (by rw [hrot, he, Matrix.one_mul])
  choose f hf using hint
  have hfeq : ∀ i, o.pointgroup.2⁻¹ * (rots i).map (fun x : ℤ => (x : ℝ)) * o.pointgroup.2 = (f i).map (fun x : ℤ => (x : ℝ)) := by
    intro i
    rw [Matrix.mul_assoc, hf, ← Matrix.mul_assoc, Matrix.nonsing_inv_mul _ hPu, Matrix.one_mul]
  have hmatch : (fun i => toIntegerTuple (o.pointgroup.2⁻¹ * (rots i).map (fun x : ℤ => (x : ℝ)) * o.pointgroup.2)) = f := by
    funext i
    rw [hfeq]
    ext a b
    exact rint_intCast _
  obtain ⟨gens', hrun', hcase⟩ := settingLoop_any o.pointgroup.1 f 0 (pgDataset o.pointgroup.1) rfl
  rw [hmatch, hrun'] at hrun
  have hgg : gens' = gens := List.map_injective_iff.2 (fun i j hij => Fin.ext (by exact_mod_cast hij)) (Except.ok.inj hrun)
  subst hgg
  have hcast : Function.Injective fun M : M3 => M.map (fun x : ℤ => (x : ℝ)) := by
    intro A B hAB
    ext a b
    have h2 := congrFun (congrFun hAB a) b
    exact Int.cast_injective (α := ℝ) h2
  have hmapmul : ∀ A B : M3, (A * B).map (fun x : ℤ => (x : ℝ)) = A.map (fun x : ℤ => (x : ℝ)) * B.map (fun x : ℤ => (x : ℝ)) :=
    fun A B => Matrix.map_mul (f := Int.castRingHom ℝ)
  have hfm : ∀ i j, f (T i j) = f i * f j := by
    intro i j
    apply hcast
    dsimp only
    rw [← hfeq, hrot, hmapmul, hmapmul, ← hfeq, ← hfeq]
    have : o.pointgroup.2 * (o.pointgroup.2⁻¹ * (rots j).map (fun x : ℤ => (x : ℝ)) * o.pointgroup.2) =
        (rots j).map (fun x : ℤ => (x : ℝ)) * o.pointgroup.2 := by
      rw [← Matrix.mul_assoc, ← Matrix.mul_assoc, Matrix.mul_nonsing_inv _ hPu, Matrix.one_mul]
    rw [Matrix.mul_assoc _ o.pointgroup.2, this]
    simp only [Matrix.mul_assoc]
  have hf1 : f e = 1 := by
    apply hcast
    dsimp only
    rw [← hfeq, he]
    have h2 : (1 : M3).map (fun x : ℤ => (x : ℝ)) = 1 := Matrix.map_one _ Int.cast_zero Int.cast_one
    rw [h2, Matrix.mul_one, Matrix.nonsing_inv_mul _ hPu]
  have hfi : Function.Injective f := by
    intro i j hij
    apply h.1
    apply hcast
    have h2 := hf i
    rw [hij, ← hf j] at h2
    have h3 := congrArg (· * o.pointgroup.2⁻¹) h2
    dsimp only at h3 ⊢
    rwa [Matrix.mul_assoc, Matrix.mul_assoc, Matrix.mul_nonsing_inv _ hPu, Matrix.mul_one, Matrix.mul_one] at h3
  have hraw : ∀ {L : List (AnyRep n)} {w w' : Bool}, enumerateFromChain o.random T μ gens' atol maxGen = .ok (L, w, w') →
      rawIrreps o rots μ .neto rtol atol maxGen = .ok (L, w || w') := by
    intro L w w' h4
    unfold rawIrreps
    simp only [hT, hgens, bind, Except.bind, mapM_toIndex, h4]
    simp [pure, Except.pure]
  constructor
  · rintro (hcon | rfl)
    · exact neto_raw h hT hTg hc hn he h1 o hcon rtol ha maxGen
    · -- a single operation: the chain is empty
      obtain ⟨S, hch⟩ : ∃ S, IsSolvableChain T e gens' S := by
        rcases hcase with ⟨rfl, -⟩ | ⟨st, hst, hmem, hch⟩
        · exact ⟨_, .nil⟩
        · exact ⟨_, IsSolvableChain.preimage (mul := T) (one := e) hfi hfm hf1 hch gens' rfl fun x hx => hmem x hx⟩
      have huniv : S = Set.univ := Set.eq_univ_of_forall fun x => by
        rw [Subsingleton.elim x e]
        exact chain_one_mem (hT1 e) hch
      subst huniv
      obtain ⟨L, w, h4, hw, hr⟩ := enumerateFromChain_spec hTg hc hn hT1 h1 hch o.random ha maxGen
      exact ⟨L, w, by simpa using hraw h4, fun h0 => (hw h0).1, hr⟩
  · intro hcon hn1
    obtain ⟨S, hch, hS⟩ : ∃ S, IsSolvableChain T e gens' S ∧ S ≠ Set.univ := by
      rcases hcase with ⟨rfl, -⟩ | ⟨st, hst, hmem, hch⟩
      · refine ⟨{e}, .nil, fun h2 => hn1 ?_⟩
        have h3 : ∀ x : Fin n, x = e := fun x => by
          have : x ∈ ({e} : Set (Fin n)) := by rw [h2]; exact Set.mem_univ x
          exact this
        have h4 := Fintype.card_le_one_iff.2 fun a b : Fin n => (h3 a).trans (h3 b).symm
        rw [Fintype.card_fin] at h4
        have := e.pos
        omega
      · refine ⟨_, IsSolvableChain.preimage (mul := T) (one := e) hfi hfm hf1 hch gens' rfl (fun x hx => hmem x hx), fun h2 => hcon ?_⟩
        have hall : ∀ i, ∃ k : Fin st.length, (st.get k).toM3 = f i := by
          intro i
          have h3 : i ∈ f ⁻¹' {x | x ∈ st.map PgMat.toM3} := by rw [h2]; exact Set.mem_univ i
          obtain ⟨x, hx, hxe⟩ := List.mem_map.1 h3
          obtain ⟨k, rfl⟩ := List.mem_iff_get.1 hx
          exact ⟨k, hxe⟩
        choose σ hσ using hall
        have hσi : Function.Injective σ := fun i j hij => hfi (by rw [← hσ, ← hσ, hij])
        have hσs : Function.Surjective σ := by
          intro k
          obtain ⟨j, hj⟩ := hmem _ (List.mem_map_of_mem (List.get_mem st k))
          refine ⟨j, ?_⟩
          have h4 := PgMat.toM3_injective ((hσ j).trans hj)
          exact List.nodup_iff_injective_get.1 ((pg_nodup hst).of_map _) h4
        refine ⟨hP, st, hst, Equiv.ofBijective σ ⟨hσi, hσs⟩, fun i => ?_⟩
        change _ = _ * (st.get (σ i)).toM3.map _ * _
        rw [hσ, ← hf, Matrix.mul_assoc, Matrix.mul_nonsing_inv _ hPu, Matrix.mul_one]
    obtain ⟨w, h4⟩ := enumerateFromChain_short hTg hc hn hT1 h1 hch hS o.random ha maxGen
    have h5 := hraw h4
    rw [Bool.or_true] at h5
    constructor
    · unfold enumerateUnitaryIrreps
      rw [Option.getD_some, h5]
      rfl
    · unfold enumerateUnitaryIrreps
      rw [Option.getD_some, h5]
      rfl

/-- Non-vacuity of C96: the group 432, for which `spglib` reports its subgroup 23, whose matrices all occur; the chain ends in 23,
and the answer is the empty list with a warning.  With the right symbol all irreps are found with suitable draws. -/
example : ∃ o o' : Oracles, o.pointgroup.1 = PgSymbol.pg_23 ∧ o'.pointgroup.1 = PgSymbol.pg_432 ∧
    enumerateUnitaryIrreps o rots432 (some fun _ _ => 1) false .neto 1e-5 1e-8 24 = .ok (.complex [], true) ∧
    ∃ T L, getCayleyTable rots432 = .ok T ∧ rawIrreps o' rots432 (fun _ _ => 1) .neto 1e-5 1e-8 24 = .ok (L, false) ∧
      IsCompleteIrreps T (fun _ _ => 1) L := by
  obtain ⟨random, hr⟩ := exists_richDraws 1e-8 24 24 fun d hd => hd
  obtain ⟨T, hT, hTs, hTg⟩ := c01_cayley_table_ordinary rots432_group
  let P : R3 := (1 : M3).map fun x : ℤ => (x : ℝ)
  have hP1 : P = 1 := Matrix.map_one _ Int.cast_zero Int.cast_one
  have hP : P.det ≠ 0 := by rw [hP1, Matrix.det_one]; exact one_ne_zero
  have hint : ∀ i, ∃ S : M3, (rots432 i).map (fun x : ℤ => (x : ℝ)) * P = P * S.map (fun x : ℤ => (x : ℝ)) :=
    fun i => ⟨rots432 i, by rw [hP1, Matrix.mul_one, Matrix.one_mul]⟩
  have he : rots432 0 = 1 := by decide +kernel
  have hc : IsCocycle T fun _ _ => 1 := fun _ _ _ => rfl
  let mk : PgSymbol → Oracles := fun s =>
    { random := random, eig := fun d _ => (fun _ => 0, 0), eigh := fun d _ => (fun _ => 0, 0), qr := fun _ _ _ => 0, pointgroup := (s, P) }
  refine ⟨mk PgSymbol.pg_23, mk PgSymbol.pg_432, rfl, rfl, ?_, T, ?_⟩
  · refine (((c96_any_answer rots432_group hT hTg hc (fun _ _ => norm_one) he rfl (mk PgSymbol.pg_23) hP 1e-5 (atol := 1e-8)
      (by norm_num) 24).2 hint).2 ?_ (by decide)).1
    rintro ⟨-, std, hstd, σ, -⟩
    have h1 : std.length = pgData_23.head!.length := pg_length_eq hstd (List.mem_singleton.2 rfl)
    have h2 := Fintype.card_congr σ
    rw [Fintype.card_fin, Fintype.card_fin, h1] at h2
    exact absurd h2 (by decide +kernel)
  · obtain ⟨L, w, h1, h2, h3⟩ := ((c96_any_answer rots432_group hT hTg hc (fun _ _ => norm_one) he rfl (mk PgSymbol.pg_432) hP
      1e-5 (atol := 1e-8) (by norm_num) 24).2 hint).1 (.inl contract_432)
    obtain rfl := h3 hr
    exact ⟨L, hT, h1, h2 rfl⟩

end Spgrep
