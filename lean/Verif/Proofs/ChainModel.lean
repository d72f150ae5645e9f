/-
The model of the chain enumeration performs the abstract steps of `CliffordSelf` and `CliffordInd`.
-/
import Verif.Proofs.CliffordInd
import Verif.Proofs.Reality
import Verif.Proofs.Utils
import Verif.Model.Irreps
import Verif.Spec.Chain

set_option linter.unusedSectionVars false

namespace Spgrep

open Spec Matrix

/-! ### Loops writing into an array -/

theorem foldl_update_not_mem {α κ' β : Type*} [DecidableEq κ'] (k : α → κ') (v : α → β → β) (L : List α) (f : κ' → β)
    (x : κ') (hx : ∀ a ∈ L, k a ≠ x) :
    L.foldl (fun D' a => Function.update D' (k a) (v a (D' (k a)))) f x = f x := by
  induction L generalizing f with
  | nil => rfl
  | cons a L ih =>
    rw [List.foldl_cons, ih _ (fun b hb => hx b (List.mem_cons_of_mem _ hb)),
      Function.update_of_ne (hx a List.mem_cons_self).symm]

theorem foldl_update_apply {α κ' β : Type*} [DecidableEq κ'] (k : α → κ') (v : α → β → β) (L : List α) (f : κ' → β)
    (hnd : (L.map k).Nodup) {x : α} (hx : x ∈ L) :
    L.foldl (fun D' a => Function.update D' (k a) (v a (D' (k a)))) f (k x) = v x (f (k x)) := by
  induction L generalizing f with
  | nil => simp at hx
  | cons a L ih =>
    rw [List.map_cons, List.nodup_cons] at hnd
    rw [List.foldl_cons]
    rcases List.mem_cons.1 hx with rfl | hx'
    · rw [foldl_update_not_mem _ _ _ _ _ (fun b hb h => hnd.1 (List.mem_map.2 ⟨b, hb, h⟩)),
        Function.update_self]
    · have hne : k x ≠ k a := fun h => hnd.1 (List.mem_map.2 ⟨x, hx', h⟩)
      rw [ih _ hnd.2 hx', Function.update_of_ne hne]

theorem sum_map_subgroup {G : Type} [Group G] [Fintype G] [DecidableEq G] {H : Subgroup G} [Fintype H]
    {M : Type*} [AddCommMonoid M] {S : List G} (hnd : S.Nodup) (hmem : ∀ g, g ∈ S ↔ g ∈ H) (f : G → M) :
    (S.map f).sum = ∑ a : H, f a := by
  rw [← List.sum_toFinset _ hnd]
  exact Finset.sum_subtype _ (fun x => by rw [List.mem_toFinset, hmem]) f

theorem length_eq_card {G : Type} [Group G] [Fintype G] [DecidableEq G] {H : Subgroup G} [Fintype H]
    {S : List G} (hnd : S.Nodup) (hmem : ∀ g, g ∈ S ↔ g ∈ H) : S.length = Fintype.card H := by
  have := sum_map_subgroup hnd hmem (fun _ => (1 : ℕ))
  simpa using this

theorem isEquiv_list {G : Type} [Group G] [Fintype G] [DecidableEq G] {μ : G → G → ℂ} (hμ : Cocy μ)
    {H : Subgroup G} {S : List G} (hnd : S.Nodup) (hmem : ∀ g, g ∈ S ↔ g ∈ H) {d e : ℕ}
    {D : G → Matrix (Fin d) (Fin d) ℂ} {E : G → Matrix (Fin e) (Fin e) ℂ} (hD : GoodOn H μ D) (hE : GoodOn H μ E) :
    IsEquivalentIrrep (S.map fun g => (D g).trace) (S.map fun g => (E g).trace) ↔
      AreEquivalent (res H D) (res H E) := by
  classical
  have : Fintype H := Fintype.ofFinite H
  rw [isEquivalentIrrep_map, sum_map_subgroup hnd hmem, length_eq_card hnd hmem]
  have key := char_orthogonality (μ := resμ H μ) (fun a b => hμ.ne a b) hE.rep.toRes hD.rep.toRes hE.uniRes hE.irr
    hD.irr hD.uniRes
  have e : (∑ a : H, star (D a).trace * (E a).trace) = ∑ a : H, (res H E a).trace * star (res H D a).trace :=
    Finset.sum_congr rfl fun a _ => mul_comm _ _
  rw [e]
  by_cases h : AreEquivalent (res H E) (res H D)
  · rw [key.1 h, rintC_natCast]
    exact iff_of_true rfl (AreEquivalent.symm h)
  · rw [key.2 h, rintC_zero]
    refine iff_of_false (fun h0 => ?_) (fun h' => h (AreEquivalent.symm h'))
    have : Fintype.card H ≠ 0 := Fintype.card_ne_zero
    exact this (by exact_mod_cast h0.symm)

section

variable {n : ℕ} {G : Type} [Group G] [Fintype G] [DecidableEq G] (e : Fin n ≃ G) {T : Fin n → Fin n → Fin n}

/-- An array over the indices as a function on the group. -/
def pb {β : Type*} (D : Fin n → β) : G → β := fun a => D (e.symm a)

/-- The same for two arguments. -/
def pb2 {β : Type*} (μ : Fin n → Fin n → β) : G → G → β := fun a b => μ (e.symm a) (e.symm b)

variable (hT : ∀ i j, e (T i j) = e i * e j)
include hT

theorem tg_mul (a b : G) : T (e.symm a) (e.symm b) = e.symm (a * b) := by
  rw [Equiv.eq_symm_apply, hT]; simp

theorem powIdx_eq (r : G) (m : ℕ) : powIdx T (e.symm 1) (e.symm r) m = e.symm (r ^ m) := by
  induction m with
  | zero => rw [pow_zero]; rfl
  | succ m ih => rw [pow_succ, powIdx, ih, tg_mul e hT]

theorem power_eq (r : G) (m : ℕ) : power T (e.symm 1) (e.symm r) m = e.symm (r ^ m) := by
  induction m with
  | zero => rw [pow_zero]; rfl
  | succ m ih => rw [pow_succ, power, ih, tg_mul e hT]

theorem conjElt_eq (r s : G) (j : ℕ) :
    conjElt T (e.symm 1) (e.symm r) (e.symm r⁻¹) j (e.symm s) = e.symm ((r ^ j)⁻¹ * s * r ^ j) := by
  unfold conjElt
  rw [powIdx_eq e hT, powIdx_eq e hT, tg_mul e hT, tg_mul e hT, inv_pow, mul_assoc]

variable {μ : Fin n → Fin n → ℂ}

theorem conjSub_eq {d : ℕ} (r : G) (D : RepArr n d) (j : ℕ) :
    pb e (conjSub T μ (e.symm 1) (e.symm r) (e.symm r⁻¹) D j) = cj (pb2 e μ) (pb e D) (r ^ j) := by
  funext s
  simp only [pb, conjSub, cj, indc, pb2]
  rw [conjElt_eq e hT, powIdx_eq e hT]

variable {H K : Subgroup G} {r : G} {p : ℕ}

theorem mem_extendGroup (C : ChainExt H K r p) {S : List (Fin n)} (hmem : ∀ g, e.symm g ∈ S ↔ g ∈ H) (g : G) :
    e.symm g ∈ extendGroup T (e.symm 1) (e.symm r) p S ↔ g ∈ K := by
  unfold extendGroup
  rw [List.mem_filter, C.mem]
  simp only [List.mem_finRange, true_and, decide_eq_true_eq, List.mem_flatMap, List.mem_range, List.mem_map]
  constructor
  · rintro ⟨m, hm, s, hs, h⟩
    obtain ⟨s, rfl⟩ := e.symm.surjective s
    rw [powIdx_eq e hT, tg_mul e hT] at h
    exact ⟨m, hm, s, (hmem s).1 hs, (e.symm.injective h).symm⟩
  · rintro ⟨m, hm, s, hs, rfl⟩
    exact ⟨m, hm, e.symm s, (hmem s).2 hs, by rw [powIdx_eq e hT, tg_mul e hT]⟩

omit hT in
theorem nodup_extendGroup (e1 r1 : Fin n) (S : List (Fin n)) : (extendGroup T e1 r1 p S).Nodup :=
  (List.nodup_finRange n).filter _

theorem pairs_nodup (C : ChainExt H K r p) {S : List (Fin n)} (hnd : S.Nodup) (hmem : ∀ g, e.symm g ∈ S ↔ g ∈ H) :
    ((chainPairs p S).map fun ms => T (powIdx T (e.symm 1) (e.symm r) ms.1) ms.2).Nodup := by
  have h1 : (chainPairs p S).Nodup := List.Nodup.product (List.nodup_range) hnd
  refine List.Nodup.map_on ?_ h1
  rintro ⟨m, s⟩ h ⟨m', s'⟩ h' heq
  simp only [chainPairs, List.mem_flatMap, List.mem_range, List.mem_map, Prod.mk.injEq] at h h'
  obtain ⟨_, hm, _, hs, rfl, rfl⟩ := h
  obtain ⟨_, hm', _, hs', rfl, rfl⟩ := h'
  rename_i m s m' s'
  obtain ⟨s, rfl⟩ := e.symm.surjective s
  obtain ⟨s', rfl⟩ := e.symm.surjective s'
  simp only [powIdx_eq e hT, tg_mul e hT] at heq
  have heq := e.symm.injective heq
  have e1 : (r ^ m)⁻¹ * r ^ m' = s * s'⁻¹ := by
    have : r ^ m' = r ^ m * s * s'⁻¹ := by rw [heq]; group
    rw [this]; group
  have e2 : m = m' := (C.pow_mem_iff hm hm').1 (by
    rw [e1]; exact H.mul_mem ((hmem _).1 hs) (H.inv_mem ((hmem _).1 hs')))
  subst e2
  rw [mul_left_cancel heq]

omit hT in
theorem mem_pairs {S : List (Fin n)} {m : ℕ} (hm : m < p) {s : Fin n} (hs : s ∈ S) : (m, s) ∈ chainPairs p S := by
  simp only [chainPairs, List.mem_flatMap, List.mem_range, List.mem_map]
  exact ⟨m, hm, s, hs, rfl⟩

theorem deltaRm_eq {d : ℕ} (A : Matrix (Fin d) (Fin d) ℂ) (m : ℕ) :
    deltaRm T μ (e.symm 1) (e.symm r) A m = bmat (pb2 e μ) r A m := by
  induction m with
  | zero => rw [bmat_zero]; rfl
  | succ m ih => rw [bmat_succ, deltaRm, ih, powIdx_eq e hT]; rfl

omit [Group G] [Fintype G] [DecidableEq G] hT in
/-- `omega * exp(2 pi i q / p)`. -/
noncomputable def omegaQ (T : Fin n → Fin n → Fin n) (μ : Fin n → Fin n → ℂ) (e r : Fin n) (p q : ℕ) : ℂ :=
  chainOmega T μ e r p * Complex.exp (2 * Complex.I * Real.pi * q / p)

theorem nextSelf_apply (C : ChainExt H K r p) {S : List (Fin n)} (hnd : S.Nodup) (hmem : ∀ g, e.symm g ∈ S ↔ g ∈ H)
    {d : ℕ} (D : RepArr n d) (U : Matrix (Fin d) (Fin d) ℂ) (q : ℕ) {m : ℕ} (hm : m < p) {s : G} (hs : s ∈ H) :
    pb e (nextSelf T μ (e.symm 1) (e.symm r) p S D U q) (r ^ m * s) =
      (pb2 e μ (r ^ m) s)⁻¹ •
        (bmat (pb2 e μ) r ((omegaQ T μ (e.symm 1) (e.symm r) p q)⁻¹ • U) m * pb e D s) := by
  have h := foldl_update_apply (fun ms : ℕ × Fin n => T (powIdx T (e.symm 1) (e.symm r) ms.1) ms.2)
    (fun ms (_ : Matrix (Fin d) (Fin d) ℂ) => (μ (powIdx T (e.symm 1) (e.symm r) ms.1) ms.2)⁻¹ •
      (deltaRm T μ (e.symm 1) (e.symm r) ((omegaQ T μ (e.symm 1) (e.symm r) p q)⁻¹ • U) ms.1 * D ms.2))
    (chainPairs p S) (fun _ => 0)
    (pairs_nodup e hT C hnd hmem) (mem_pairs hm ((hmem s).2 hs))
  simp only [powIdx_eq e hT, tg_mul e hT, deltaRm_eq e hT] at h
  unfold pb nextSelf
  simp only [powIdx_eq e hT, deltaRm_eq e hT]
  exact h

theorem nextInduced_apply (C : ChainExt H K r p) {S : List (Fin n)} (hnd : S.Nodup)
    (hmem : ∀ g, e.symm g ∈ S ↔ g ∈ H) {d : ℕ} (D : RepArr n d) {g : G} (hg : g ∈ K) (x y : Fin (p * d)) :
    pb e (nextInduced T μ (e.symm 1) (e.symm r) (e.symm r⁻¹) p S D) g x y =
      ind H (pb2 e μ) r p (pb e D) g (finProdFinEquiv.symm x) (finProdFinEquiv.symm y) := by
  obtain ⟨m, hm, s, hs, rfl⟩ := (C.mem g).1 hg
  have h := foldl_update_apply (fun ms : ℕ × Fin n => T (powIdx T (e.symm 1) (e.symm r) ms.1) ms.2)
    (fun ms (X : Matrix (Fin (p * d)) (Fin (p * d)) ℂ) => (Matrix.of fun x y =>
      if ((finProdFinEquiv.symm x).1 : ℕ) = ((finProdFinEquiv.symm y).1 + ms.1) % p then
        μ (T (powIdx T (e.symm 1) (e.symm r) ms.1) ms.2) (powIdx T (e.symm 1) (e.symm r) (finProdFinEquiv.symm y).1) /
          μ (powIdx T (e.symm 1) (e.symm r) (finProdFinEquiv.symm x).1)
            (conjElt T (e.symm 1) (e.symm r) (e.symm r⁻¹) (finProdFinEquiv.symm y).1 ms.2) *
          D (conjElt T (e.symm 1) (e.symm r) (e.symm r⁻¹) (finProdFinEquiv.symm y).1 ms.2) (finProdFinEquiv.symm x).2
            (finProdFinEquiv.symm y).2
      else X x y)) (chainPairs p S) (fun _ => 0)
    (pairs_nodup e hT C hnd hmem) (mem_pairs hm ((hmem s).2 hs))
  have h2 := congrFun (congrFun h x) y
  simp only [powIdx_eq e hT, tg_mul e hT, conjElt_eq e hT] at h2
  unfold pb nextInduced
  simp only [powIdx_eq e hT] at h2 ⊢
  refine h2.trans ?_
  obtain ⟨⟨i, a⟩, rfl⟩ := finProdFinEquiv.surjective x
  obtain ⟨⟨j, b⟩, rfl⟩ := finProdFinEquiv.surjective y
  simp only [Equiv.symm_apply_apply, Matrix.of_apply]
  by_cases hij : (i : ℕ) = (j + m) % p
  · have hblock := (C.block_iff (m := m) (j := j) hs i.2).2 hij
    have e1 : (r ^ (i : ℕ))⁻¹ * (r ^ m * s) * r ^ (j : ℕ) = (r ^ (j : ℕ))⁻¹ * s * r ^ (j : ℕ) := by
      have : r ^ (i : ℕ) = r ^ m * r ^ (j : ℕ) := by rw [hij, C.pow_mod, add_comm, pow_add]
      rw [this]; group
    have e2 := ind_pos (μ := pb2 e μ) (D := fun a => D (e.symm a)) hblock a b
    rw [e1, indc, e1] at e2
    rw [if_pos hij, e2]
    rfl
  · rw [if_neg hij, ind_neg (fun h => hij ((C.block_iff (m := m) (j := j) hs i.2).1 h))]
    rfl

/-- The arrays built in the induced case. -/
theorem nextInduced_sub (C : ChainExt H K r p) {S : List (Fin n)} (hnd : S.Nodup)
    (hmem : ∀ g, e.symm g ∈ S ↔ g ∈ H) {d : ℕ} (D : RepArr n d) {g : G} (hg : g ∈ K) :
    pb e (nextInduced T μ (e.symm 1) (e.symm r) (e.symm r⁻¹) p S D) g =
      (ind H (pb2 e μ) r p (pb e D) g).submatrix finProdFinEquiv.symm finProdFinEquiv.symm := by
  ext x y
  rw [nextInduced_apply e hT C hnd hmem D hg, Matrix.submatrix_apply]

omit hT in
theorem submatrix_equiv {I ι κ : Type} [Fintype ι] [Fintype κ] [DecidableEq ι] [DecidableEq κ] (f : κ ≃ ι)
    (D : I → Matrix ι ι ℂ) : AreEquivalent (fun g => (D g).submatrix f f) D := by
  refine ⟨(1 : Matrix ι ι ℂ).submatrix f id, (1 : Matrix ι ι ℂ).submatrix id f, ?_, ?_, fun g => ?_⟩
  · ext x y
    simp [Matrix.mul_apply, Matrix.one_apply]
  · rw [Matrix.submatrix_mul_equiv, Matrix.mul_one, Matrix.submatrix_id_id]
  · ext x y
    have : ∀ z, (f z = y) ↔ (z = f.symm y) := fun z => by rw [Equiv.eq_symm_apply]
    simp [Matrix.mul_apply, Matrix.one_apply, this]

theorem nextInduced_good (hμ : Cocy (pb2 e μ)) (C : ChainExt H K r p) {S : List (Fin n)} (hnd : S.Nodup)
    (hmem : ∀ g, e.symm g ∈ S ↔ g ∈ H) {d : ℕ} {D : RepArr n d} (hD : GoodOn H (pb2 e μ) (pb e D))
    (hne : ¬ AreEquivalent (res H (pb e D)) (res H (cj (pb2 e μ) (pb e D) r))) :
    GoodOn K (pb2 e μ) (pb e (nextInduced T μ (e.symm 1) (e.symm r) (e.symm r⁻¹) p S D)) ∧
      AreEquivalent (res K (pb e (nextInduced T μ (e.symm 1) (e.symm r) (e.symm r⁻¹) p S D)))
        (res K (ind H (pb2 e μ) r p (pb e D))) := by
  have key := fun {g : G} (hg : g ∈ K) => nextInduced_sub (μ := μ) e hT C hnd hmem D hg
  have heq : AreEquivalent (res K (pb e (nextInduced T μ (e.symm 1) (e.symm r) (e.symm r⁻¹) p S D)))
        (res K (ind H (pb2 e μ) r p (pb e D))) := by
    have h := submatrix_equiv finProdFinEquiv.symm (res K (ind H (pb2 e μ) r p (pb e D)))
    have h2 : res K (pb e (nextInduced T μ (e.symm 1) (e.symm r) (e.symm r⁻¹) p S D)) =
        fun g => (res K (ind H (pb2 e μ) r p (pb e D)) g).submatrix finProdFinEquiv.symm finProdFinEquiv.symm := by
      funext g
      exact key g.2
    rw [h2]
    exact h
  refine ⟨⟨?_, ?_, AreEquivalent.irreducible heq (ind_irr hμ C hD hne)⟩, heq⟩
  · intro g hg h hh
    rw [key hg, key hh, key (K.mul_mem hg hh), Matrix.submatrix_mul_equiv, ind_rep hμ C hD g hg h hh,
      Matrix.submatrix_smul]
    rfl
  · intro g hg
    rw [key hg, Matrix.conjTranspose_submatrix, Matrix.submatrix_mul_equiv, ind_uni hμ C hD g hg,
      Matrix.submatrix_one_equiv]

/-! ### The intertwiner step -/

omit hT in
theorem scale_foldl {d : ℕ} (U : Matrix (Fin d) (Fin d) ℂ) (k : ℕ) :
    (List.range k).foldl (fun S _ => U * S) U = U ^ (k + 1) := by
  induction k with
  | zero => simp
  | succ k ih => rw [List.range_succ, List.foldl_append, ih, List.foldl_cons, List.foldl_nil, pow_succ' U (k + 1)]

omit hT in
theorem sum_map_pb [Fintype H] {M : Type*} [AddCommMonoid M] {S : List (Fin n)} (hnd : S.Nodup)
    (hmem : ∀ g, e.symm g ∈ S ↔ g ∈ H) (f : Fin n → M) : (S.map f).sum = ∑ a : H, f (e.symm a) := by
  have h := sum_map_subgroup (H := H) (S := S.map e) (hnd.map e.injective) (fun g => by
    rw [← hmem, List.mem_map]
    constructor
    · rintro ⟨a, ha, rfl⟩; simpa using ha
    · intro hg; exact ⟨_, hg, by simp⟩) (fun a => f (e.symm a))
  rw [List.map_map] at h
  rw [← h]
  congr 1
  apply List.map_congr_left
  intro a _
  simp

omit hT in
theorem isEquiv_pb (hμ : Cocy (pb2 e μ)) {S : List (Fin n)} (hnd : S.Nodup) (hmem : ∀ g, e.symm g ∈ S ↔ g ∈ H)
    {d d' : ℕ} {D : RepArr n d} {E : RepArr n d'} (hD : GoodOn H (pb2 e μ) (pb e D)) (hE : GoodOn H (pb2 e μ) (pb e E)) :
    IsEquivalentIrrep (S.map (getCharacter D)) (S.map (getCharacter E)) ↔
      AreEquivalent (res H (pb e D)) (res H (pb e E)) := by
  have h := isEquiv_list (S := S.map e) hμ (hnd.map e.injective) (fun g => by
    rw [← hmem, List.mem_map]
    constructor
    · rintro ⟨a, ha, rfl⟩; simpa using ha
    · intro hg; exact ⟨_, hg, by simp⟩) hD hE
  rw [← h, List.map_map, List.map_map]
  have h1 : ∀ {d : ℕ} (D : RepArr n d), ((fun g => (pb e D g).trace) ∘ e) = getCharacter D := by
    intro d D
    funext i
    simp [pb, getCharacter_eq_trace]
  rw [h1, h1]

omit hT in
theorem sub_sum_eq_avg [Fintype H] {S : List (Fin n)} (hnd : S.Nodup) (hmem : ∀ g, e.symm g ∈ S ↔ g ∈ H) {d : ℕ}
    {D E : RepArr n d} (hE : GoodOn H (pb2 e μ) (pb e E)) (B : Matrix (Fin d) (Fin d) ℂ) :
    intertwinerSum (n := S.length) (fun i => D (S.get i)) (fun i => E (S.get i)) B =
      avg (res H (pb e D)) (res H (pb e E)) B := by
  rw [intertwinerSum_eq]
  have h1 : ∑ i : Fin S.length, D (S.get i) * B * (E (S.get i)).conjTranspose =
      (S.map fun s => D s * B * (E s).conjTranspose).sum := by
    rw [← List.sum_ofFn]
    congr 1
    conv_rhs => rw [← List.ofFn_get S, List.map_ofFn]
    rfl
  rw [h1, sum_map_pb e hnd hmem]
  unfold avg
  apply Finset.sum_congr rfl
  intro a _
  rw [IsUnitaryRep.inv hE.uniRes]; rfl

omit hT in
theorem subIntertwiner_spec (hμ : Cocy (pb2 e μ)) {S : List (Fin n)} (hnd : S.Nodup)
    (hmem : ∀ g, e.symm g ∈ S ↔ g ∈ H) {d : ℕ} {D E : RepArr n d} (hD : GoodOn H (pb2 e μ) (pb e D))
    (hE : GoodOn H (pb2 e μ) (pb e E)) (random : ℕ → Matrix (Fin d) (Fin d) ℂ) {atol : ℝ} (ha : 0 ≤ atol) (maxGen : ℕ)
    (hw : (subIntertwiner random S D E atol maxGen).2 = false) :
    (subIntertwiner random S D E atol maxGen).1 ≠ 0 ∧
      ∀ s ∈ H, pb e D s * (subIntertwiner random S D E atol maxGen).1 =
        (subIntertwiner random S D E atol maxGen).1 * pb e E s := by
  classical
  have : Fintype H := Fintype.ofFinite H
  unfold subIntertwiner getIntertwiner at *
  obtain ⟨B, _, hB0, hB⟩ := (intertwinerLoop_cases _ _ ha _).1 hw
  rw [hB]
  have hsum := sub_sum_eq_avg e hnd hmem (D := D) hE B
  have hint : ∀ s ∈ H, pb e D s * intertwinerSum (n := S.length) (fun i => D (S.get i)) (fun i => E (S.get i)) B =
      intertwinerSum (n := S.length) (fun i => D (S.get i)) (fun i => E (S.get i)) B * pb e E s := by
    intro s hs
    rw [hsum]
    exact avg_intertwines (μ := resμ H (pb2 e μ)) (fun a b => hμ.ne a b) hD.rep.toRes hE.rep.toRes
      (IsUnitaryRep.isUnit hE.uniRes) B ⟨s, hs⟩
  constructor
  · refine smul_ne_zero (inv_ne_zero ?_) hB0
    obtain ⟨S', h1, _⟩ := schur_equiv hD.irr hE.irr (fun a => hint a a.2) hB0
    have hdet := congrArg Matrix.det h1
    rw [Matrix.det_mul, Matrix.det_one] at hdet
    intro h0
    have hz := (Complex.cpow_eq_zero_iff _ _).1 h0
    rw [hz.1, zero_mul] at hdet
    exact zero_ne_one hdet
  · intro s hs
    rw [Matrix.mul_smul, hint s hs, Matrix.smul_mul]

theorem rprod_eq (hμ : Cocy (pb2 e μ)) (hp : 2 ≤ p) :
    ((List.range' 1 (p - 1)).map fun m => μ (e.symm r) (powIdx T (e.symm 1) (e.symm r) m)).prod =
      rprod (pb2 e μ) r p := by
  obtain ⟨k, rfl⟩ : ∃ k, p = k + 1 := ⟨p - 1, by omega⟩
  rw [rprod, Finset.prod_range_succ', pow_zero, hμ.one_right, mul_one, Nat.add_sub_cancel, List.range'_eq_map_range,
    List.map_map, ← List.prod_toFinset _ List.nodup_range, List.toFinset_range]
  apply Finset.prod_congr rfl
  intro m _
  simp only [Function.comp_apply, powIdx_eq e hT, pb2, add_comm 1 m]

theorem omegaQ_spec (hμ : Cocy (pb2 e μ)) (hp : 2 ≤ p) (q : ℕ) :
    ((omegaQ T μ (e.symm 1) (e.symm r) p q)⁻¹) ^ p = rprod (pb2 e μ) r p ∧
      omegaQ T μ (e.symm 1) (e.symm r) p q ≠ 0 := by
  have hp0 : p ≠ 0 := by omega
  have hr := (nroot_eq (rprod (pb2 e μ) r p) (n := p) (by omega))
  have hpow : nroot (rprod (pb2 e μ) r p) p ^ p = rprod (pb2 e μ) r p := by
    rw [hr.1, one_div, Complex.cpow_nat_inv_pow _ hp0]
  have hexp : Complex.exp (2 * Complex.I * Real.pi * q / p) ^ p = 1 := by
    rw [← Complex.exp_nat_mul, Complex.exp_eq_one_iff]
    refine ⟨q, ?_⟩
    have : (p : ℂ) ≠ 0 := by exact_mod_cast hp0
    field_simp
    push_cast
    ring
  have hn0 : nroot (rprod (pb2 e μ) r p) p ≠ 0 := by
    intro h
    rw [h, zero_pow hp0] at hpow
    exact rprod_ne hμ p hpow.symm
  unfold omegaQ chainOmega
  rw [rprod_eq e hT hμ hp]
  refine ⟨?_, mul_ne_zero (div_ne_zero one_ne_zero hn0) (Complex.exp_ne_zero _)⟩
  rw [inv_pow, mul_pow, hexp, mul_one, div_pow, one_pow, hpow, one_div, inv_inv]

end

end Spgrep
