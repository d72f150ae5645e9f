/-
Kernel-evaluated checks of the point group tables, and their soundness.
-/
import Verif.Model.Pointgroup
import Verif.Spec.Chain
import Verif.Proofs.Nice
import Mathlib.Tactic.FinCases
import Mathlib.Tactic.IntervalCases
import Mathlib.LinearAlgebra.Matrix.NonsingularInverse

namespace Spgrep

open Spec

/-- Matrix product on nested tuples. -/
def PgMat.mul (a b : PgMat) : PgMat :=
  let f := fun (x : ℤ × ℤ × ℤ) =>
    (x.1 * b.1.1 + x.2.1 * b.2.1.1 + x.2.2 * b.2.2.1,
      x.1 * b.1.2.1 + x.2.1 * b.2.1.2.1 + x.2.2 * b.2.2.2.1,
      x.1 * b.1.2.2 + x.2.1 * b.2.1.2.2 + x.2.2 * b.2.2.2.2)
  (f a.1, f a.2.1, f a.2.2)

def PgMat.one : PgMat := ((1, 0, 0), (0, 1, 0), (0, 0, 1))

def PgMat.det (a : PgMat) : ℤ :=
  a.1.1 * (a.2.1.2.1 * a.2.2.2.2 - a.2.1.2.2 * a.2.2.2.1) -
    a.1.2.1 * (a.2.1.1 * a.2.2.2.2 - a.2.1.2.2 * a.2.2.1) +
    a.1.2.2 * (a.2.1.1 * a.2.2.2.1 - a.2.1.2.1 * a.2.2.1)

theorem PgMat.toM3_mul (a b : PgMat) : (a.mul b).toM3 = a.toM3 * b.toM3 := by
  ext i j
  fin_cases i <;> fin_cases j <;> simp [PgMat.mul, PgMat.toM3, Matrix.mul_apply, Fin.sum_univ_three]

theorem PgMat.toM3_one : PgMat.one.toM3 = 1 := by
  ext i j
  fin_cases i <;> fin_cases j <;> simp [PgMat.one, PgMat.toM3]

theorem PgMat.toM3_det (a : PgMat) : a.toM3.det = a.det := by
  rw [Matrix.det_fin_three]
  simp [PgMat.det, PgMat.toM3]
  ring

theorem PgMat.toM3_injective : Function.Injective PgMat.toM3 := by
  rintro ⟨⟨a, b, c⟩, ⟨d, e, f⟩, g, h, i⟩ ⟨⟨a', b', c'⟩, ⟨d', e', f'⟩, g', h', i'⟩ heq
  have h00 := congrFun (congrFun heq 0) 0
  have h01 := congrFun (congrFun heq 0) 1
  have h02 := congrFun (congrFun heq 0) 2
  have h10 := congrFun (congrFun heq 1) 0
  have h11 := congrFun (congrFun heq 1) 1
  have h12 := congrFun (congrFun heq 1) 2
  have h20 := congrFun (congrFun heq 2) 0
  have h21 := congrFun (congrFun heq 2) 1
  have h22 := congrFun (congrFun heq 2) 2
  simp [PgMat.toM3] at h00 h01 h02 h10 h11 h12 h20 h21 h22
  simp [*]

/-- Check of one setting. -/
def checkGroup (L : List PgMat) : Bool :=
  decide L.Nodup && decide (L.head? = some PgMat.one) &&
  L.all (fun a => decide (a.det = 1 ∨ a.det = -1)) &&
  L.all (fun a => L.all fun b => decide (a.mul b ∈ L)) &&
  L.all (fun a => L.any fun b => decide (a.mul b = PgMat.one))

theorem checkGroup_sound {L : List PgMat} (h : checkGroup L = true) : IsGroupList (L.map PgMat.toM3) := by
  simp only [checkGroup, Bool.and_eq_true, decide_eq_true_eq, List.all_eq_true, List.any_eq_true] at h
  obtain ⟨⟨⟨⟨h1, h2⟩, h3⟩, h4⟩, h5⟩ := h
  refine ⟨h1.map PgMat.toM3_injective, ?_, ?_, ?_, ?_⟩
  · rw [List.head?_map, h2, Option.map_some, PgMat.toM3_one]
  · intro a ha
    obtain ⟨x, hx, rfl⟩ := List.mem_map.1 ha
    rw [PgMat.toM3_det]
    exact h3 x hx
  · intro a ha b hb
    obtain ⟨x, hx, rfl⟩ := List.mem_map.1 ha
    obtain ⟨y, hy, rfl⟩ := List.mem_map.1 hb
    rw [← PgMat.toM3_mul]
    exact List.mem_map_of_mem (h4 x hx y hy)
  · intro a ha
    obtain ⟨x, hx, rfl⟩ := List.mem_map.1 ha
    obtain ⟨y, hy, hxy⟩ := h5 x hx
    have h6 : x.toM3 * y.toM3 = 1 := by rw [← PgMat.toM3_mul, hxy, PgMat.toM3_one]
    exact ⟨y.toM3, List.mem_map_of_mem hy, h6, mul_eq_one_comm.1 h6⟩

theorem allGroups : (PgSymbol.all.all fun s => (pgDataset s).all checkGroup) = true := by
  decide +kernel

theorem checkGroup_all {s : PgSymbol} {L : List PgMat} (h : L ∈ pgDataset s) : checkGroup L = true :=
  List.all_eq_true.1 (List.all_eq_true.1 allGroups s (PgSymbol.mem_all s)) L h

/-! ### Chains -/

/-- Powers of a tuple. -/
def PgMat.pow (r : PgMat) : ℕ → PgMat
  | 0 => PgMat.one
  | m + 1 => (PgMat.pow r m).mul r

theorem PgMat.toM3_pow (r : PgMat) (m : ℕ) : (r.pow m).toM3 = power (· * ·) 1 r.toM3 m := by
  induction m with
  | zero => exact PgMat.toM3_one
  | succ m ih =>
    change ((r.pow m).mul r).toM3 = _
    rw [PgMat.toM3_mul, ih]; rfl

/-- Smallest `p` in `2..6` with `r^p = 1` (0 if none). -/
def PgMat.order (r : PgMat) : ℕ :=
  (([2, 3, 4, 5, 6] : List ℕ).find? fun p => decide (r.pow p = PgMat.one)).getD 0

/-- Check a chain and compute the group it generates. -/
def checkChain : List PgMat → Option (List PgMat)
  | [] => some [PgMat.one]
  | r :: gens =>
    match checkChain gens with
    | none => none
    | some H =>
      let p := r.order
      if 2 ≤ p ∧ r.pow p = PgMat.one ∧ ((List.range' 1 (p - 1)).all fun m => decide (r.pow m ∉ H)) = true ∧
          (H.all fun h => H.any fun h' => decide (h.mul r = r.mul h')) = true ∧ (H = [PgMat.one] ∨ p = 2 ∨ p = 3) then
        some ((List.range p).flatMap fun m => H.map fun h => (r.pow m).mul h)
      else none

theorem checkChain_sound : ∀ {gens H : List PgMat}, checkChain gens = some H →
    IsSolvableChain (· * ·) (1 : M3) (gens.map PgMat.toM3) {x | x ∈ H.map PgMat.toM3} := by
  intro gens
  induction gens with
  | nil =>
    intro H h
    cases h
    have : {x : M3 | x ∈ [PgMat.one].map PgMat.toM3} = {1} := by
      ext x; simp [PgMat.toM3_one]
    rw [this]
    exact .nil
  | cons r gens ih =>
    intro H h
    rw [checkChain] at h
    split at h
    · cases h
    next K hK =>
      simp only at h
      split_ifs at h with hc
      obtain ⟨hp, hone, hout, hnorm, hprime⟩ := hc
      simp only [List.all_eq_true, List.any_eq_true, decide_eq_true_eq] at hnorm hout
      cases h
      have key := IsSolvableChain.cons (p := r.order) (r := r.toM3) (ih hK) hp ?_ ?_ ?_ ?_
      · rw [List.map_cons]
        convert key using 1
        ext x
        simp only [List.mem_map, List.mem_flatMap, List.mem_range, Set.mem_ofPred_eq]
        constructor
        · rintro ⟨y, ⟨m, hm, h, hh, rfl⟩, rfl⟩
          exact ⟨m, hm, h.toM3, ⟨h, hh, rfl⟩, by rw [PgMat.toM3_mul, PgMat.toM3_pow]⟩
        · rintro ⟨m, hm, _, ⟨h, hh, rfl⟩, rfl⟩
          exact ⟨_, ⟨m, hm, h, hh, rfl⟩, by rw [PgMat.toM3_mul, PgMat.toM3_pow]⟩
      · rw [← PgMat.toM3_pow, hone, PgMat.toM3_one]
      · intro m h0 h1 hmem
        obtain ⟨y, hy, hyr⟩ := List.mem_map.1 hmem
        rw [← PgMat.toM3_pow] at hyr
        rw [PgMat.toM3_injective hyr] at hy
        exact hout m (List.mem_range'_1.2 ⟨h0, by omega⟩) hy
      · intro h hh
        obtain ⟨y, hy, rfl⟩ := List.mem_map.1 hh
        obtain ⟨z, hz, hyz⟩ := hnorm y hy
        exact ⟨z.toM3, List.mem_map_of_mem hz, by rw [← PgMat.toM3_mul, hyz, PgMat.toM3_mul]⟩
      · rcases hprime with h | h | h
        · left
          ext x; simp [h, PgMat.toM3_one]
        · right; rw [h]; exact Nat.prime_two
        · right; rw [h]; exact Nat.prime_three

/-- Check of the generators of one setting. -/
def checkGens (s : PgSymbol) (idx : ℕ) (std : List PgMat) : Bool :=
  match getGenerators s idx with
  | .error _ => false
  | .ok gens =>
    gens.all (fun g => decide (g < std.length)) &&
    match checkChain (gens.map fun g => std.getD g PgMat.one) with
    | none => false
    | some H => H.all (fun x => decide (x ∈ std)) && std.all fun x => decide (x ∈ H)

theorem allGens : (PgSymbol.all.all fun s => (pgDataset s).zipIdx.all fun x => checkGens s x.2 x.1) = true := by
  decide +kernel

theorem checkGens_all {s : PgSymbol} {idx : ℕ} {std : List PgMat} (h : (pgDataset s)[idx]? = some std) :
    checkGens s idx std = true :=
  List.all_eq_true.1 (List.all_eq_true.1 allGens s (PgSymbol.mem_all s)) (std, idx)
    (List.mem_zipIdx_iff_getElem?.2 h)

theorem getGenerators_spec {s : PgSymbol} {idx : ℕ} {std : List PgMat} (h : (pgDataset s)[idx]? = some std) :
    ∃ gens : List (Fin std.length), getGenerators s idx = .ok (gens.map Fin.val) ∧
      IsSolvableChain (· * ·) (1 : M3) (gens.map fun g => (std.get g).toM3)
        {x | x ∈ std.map PgMat.toM3} := by
  have hc := checkGens_all h
  unfold checkGens at hc
  split at hc
  · cases hc
  next gens hg =>
    rw [Bool.and_eq_true] at hc
    obtain ⟨hlt, hc⟩ := hc
    split at hc
    · cases hc
    next H hH =>
      simp only [Bool.and_eq_true, List.all_eq_true, decide_eq_true_eq] at hc hlt
      refine ⟨gens.pmap (fun g hg => ⟨g, hg⟩) hlt, ?_, ?_⟩
      · rw [hg, List.map_pmap]
        simp
      · have := checkChain_sound hH
        have e1 : {x : M3 | x ∈ H.map PgMat.toM3} = {x | x ∈ std.map PgMat.toM3} := by
          ext x
          simp only [List.mem_map, Set.mem_ofPred_eq]
          exact ⟨fun ⟨y, hy, hx⟩ => ⟨y, hc.1 y hy, hx⟩, fun ⟨y, hy, hx⟩ => ⟨y, hc.2 y hy, hx⟩⟩
        rw [e1] at this
        convert this using 1
        rw [List.map_pmap, List.map_map]
        rw [← List.pmap_eq_map (p := fun g => g < std.length) (H := hlt)]
        apply List.pmap_congr_left
        intro a _ ha _
        simp [List.getD_eq_getElem?_getD, ha]

/-! ### Further facts about the tabulated chains -/

theorem allNice : (PgSymbol.all.all fun s => (pgDataset s).zipIdx.all fun x => match getGenerators s x.2 with
    | .error _ => false
    | .ok gens => decide (Nice PgMat.mul PgMat.one (gens.map fun g => x.1.getD g PgMat.one))) = true := by
  decide +kernel

theorem getGenerators_nice {s : PgSymbol} {idx : ℕ} {std : List PgMat} (h : (pgDataset s)[idx]? = some std)
    {gens : List (Fin std.length)} (hg : getGenerators s idx = .ok (gens.map Fin.val)) :
    Nice (· * ·) (1 : M3) (gens.map fun g => (std.get g).toM3) := by
  have h1 := List.all_eq_true.1 (List.all_eq_true.1 allNice s (PgSymbol.mem_all s)) (std, idx)
    (List.mem_zipIdx_iff_getElem?.2 h)
  simp only [hg] at h1
  have h2 := (nice_map PgMat.toM3_injective PgMat.toM3_mul PgMat.toM3_one _).2 (of_decide_eq_true h1)
  rw [List.map_map, List.map_map] at h2
  convert h2 using 1
  apply List.map_congr_left
  intro g _
  simp

theorem allOrders : (PgSymbol.all.all fun s => (pgDataset s).all fun L => L.all fun x =>
    decide (x.pow 4 = PgMat.one ∨ x.pow 6 = PgMat.one)) = true := by
  decide +kernel

theorem pg_order {s : PgSymbol} {std : List PgMat} (h : std ∈ pgDataset s) {x : PgMat} (hx : x ∈ std) :
    power (· * ·) 1 x.toM3 4 = 1 ∨ power (· * ·) 1 x.toM3 6 = 1 := by
  have h1 := of_decide_eq_true (List.all_eq_true.1 (List.all_eq_true.1 (List.all_eq_true.1 allOrders s
    (PgSymbol.mem_all s)) std h) x hx)
  rw [← PgMat.toM3_pow, ← PgMat.toM3_pow, ← PgMat.toM3_one]
  exact h1.imp (fun h => by rw [h]) (fun h => by rw [h])

end Spgrep
