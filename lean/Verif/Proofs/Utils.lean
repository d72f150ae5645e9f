/-
Helper lemmas for utils.py: `mode_dot` and friends.
-/
import Verif.Model.Utils
import Verif.Proofs.Numeric
import Mathlib.Data.List.Forall2
import Mathlib.Data.List.GetD
import Mathlib.Tactic.Ring
import Mathlib.Tactic.FieldSimp
import Mathlib.Tactic.Linarith

namespace Spgrep

namespace NDArr

/-- Index list inside a shape. -/
def Valid (shape idx : List ℕ) : Prop := List.Forall₂ (fun i s => i < s) idx shape

theorem valid_iff {shape idx : List ℕ} : Valid shape idx ↔ idx.length = shape.length ∧
    ∀ k (h1 : k < idx.length) (h2 : k < shape.length), idx[k] < shape[k] := by
  unfold Valid
  rw [List.forall₂_iff_get]
  simp

theorem Valid.prod_pos {shape idx : List ℕ} (h : Valid shape idx) : 0 < shape.prod := by
  induction h with
  | nil => simp
  | cons h _ ih =>
    rw [List.prod_cons]
    exact Nat.mul_pos (by omega) ih

theorem ravel_lt {shape idx : List ℕ} (h : Valid shape idx) : ravel shape idx < shape.prod := by
  induction h with
  | nil => simp [ravel]
  | @cons i s is ss h _ ih =>
    rw [ravel, List.prod_cons]
    calc i * ss.prod + ravel ss is < i * ss.prod + ss.prod := by omega
      _ = (i + 1) * ss.prod := by ring
      _ ≤ s * ss.prod := Nat.mul_le_mul_right _ h

theorem unravel_ravel {shape idx : List ℕ} (h : Valid shape idx) :
    unravel shape (ravel shape idx) = idx := by
  induction h with
  | nil => rfl
  | @cons i s is ss h ht ih =>
    have hlt := ravel_lt (shape := ss) (idx := is) ht
    have hp : 0 < ss.prod := Valid.prod_pos (idx := is) ht
    rw [ravel, unravel]
    have h1 : (i * ss.prod + ravel ss is) / ss.prod = i := by
      rw [Nat.add_comm, Nat.add_mul_div_right _ _ hp, Nat.div_eq_of_lt hlt, Nat.zero_add]
    have h2 : (i * ss.prod + ravel ss is) % ss.prod = ravel ss is := by
      rw [Nat.add_comm, Nat.add_mul_mod_self_right, Nat.mod_eq_of_lt hlt]
    rw [h1, h2, ih]

theorem ravel_zeros (n : ℕ) : ∀ k, ravel (List.replicate n 1) (List.replicate k 0) = 0 := by
  induction n with
  | zero => intro k; simp [ravel]
  | succ n ih =>
    intro k
    cases k with
    | zero => simp [List.replicate_succ, ravel]
    | succ k => simp [List.replicate_succ, ravel, ih]

theorem clamp_valid {shape idx : List ℕ} (h : Valid shape idx) : clampIdx shape idx = idx := by
  induction h with
  | nil => rfl
  | @cons i s is ss h _ ih =>
    simp only [clampIdx, List.zipWith_cons_cons] at ih ⊢
    rw [ih]
    split_ifs with h1
    · simp; omega
    · rfl

theorem swapList_length (l : List ℕ) (a b : ℕ) : (swapList l a b).length = l.length := by
  simp [swapList]

theorem swapList_get (l : List ℕ) (a b k : ℕ) (h : k < (swapList l a b).length) :
    (swapList l a b)[k] = l.getD (if k = a then b else if k = b then a else k) 0 := by
  simp [swapList]

theorem swapList_cons_zero (x : ℕ) (l : List ℕ) (a : ℕ) (h : a < l.length) :
    swapList (x :: l) 0 (a + 1) = l.getD a 0 :: l.set a x := by
  apply List.ext_getElem
  · simp [swapList_length]
  · intro k h1 h2
    rw [swapList_get]
    cases k with
    | zero => simp
    | succ k =>
      have hk : k < l.length := by simpa [swapList_length] using h1
      by_cases hka : k = a
      · subst hka; simp
      · simp [hka, hk, List.getElem_set, Ne.symm hka]

theorem swapList_cons_one (x : ℕ) (l : List ℕ) (k : ℕ) :
    swapList (x :: l) 1 (k + 1) = x :: swapList l 0 k := by
  apply List.ext_getElem
  · simp [swapList_length]
  · intro i h1 h2
    rw [swapList_get]
    cases i with
    | zero => simp
    | succ i =>
      rw [List.getElem_cons_succ, swapList_get]
      by_cases h0 : i = 0
      · simp [h0]
      · by_cases hk : i = k
        · subst hk; simp [h0]
        · simp [h0, hk]

/-- A list that is constant `c` except for the value `j` at position `a`: move it to the front. -/
theorem swapList_spike (c j p a : ℕ) (h : a < p) :
    swapList ((List.replicate p c).set a j) 0 a = j :: List.replicate (p - 1) c := by
  obtain ⟨p, rfl⟩ : ∃ q, p = q + 1 := ⟨p - 1, by omega⟩
  apply List.ext_getElem
  · simp [swapList_length]
  · intro k h1 h2
    rw [swapList_get]
    have hk : k < p + 1 := by simpa [swapList_length] using h1
    cases k with
    | zero => simp [List.getD_eq_getElem?_getD, h]
    | succ k =>
      by_cases hka : k + 1 = a
      · subst hka
        have : (List.replicate (p + 1) c).set (k + 1) j = c :: ((List.replicate p c).set k j) := by
          rw [List.replicate_succ, List.set_cons_succ]
        simp [this]
      · simp [hka, List.getD_eq_getElem?_getD, List.getElem?_set, hk, Ne.symm hka]

theorem swapList_spike' (c j p a : ℕ) (h : a < p) :
    swapList (j :: List.replicate (p - 1) c) 0 a = (List.replicate p c).set a j := by
  obtain ⟨p, rfl⟩ : ∃ q, p = q + 1 := ⟨p - 1, by omega⟩
  apply List.ext_getElem
  · simp [swapList_length]
  · intro k h1 h2
    rw [swapList_get]
    have hk : k < p + 1 := by simpa [swapList_length] using h1
    have ha : a < (j :: List.replicate p c).length := by simpa using h
    by_cases h0 : k = 0
    · subst h0
      by_cases ha0 : a = 0
      · subst ha0; simp
      · obtain ⟨a, rfl⟩ : ∃ b, a = b + 1 := ⟨a - 1, by omega⟩
        have : a < p := by omega
        simp [List.getElem_set, this]
    · by_cases hka : k = a
      · subst hka; simp [h0]
      · obtain ⟨k, rfl⟩ : ∃ b, k = b + 1 := ⟨k - 1, by omega⟩
        have hk' : k < p := by omega
        simp [hka, Ne.symm hka, hk']

theorem valid_set {shape idx : List ℕ} {a n j : ℕ} (ha : a < shape.length)
    (h : Valid (shape.set a n) idx) (hj : j < shape[a]) : Valid shape (idx.set a j) := by
  rw [valid_iff] at h ⊢
  obtain ⟨h1, h2⟩ := h
  rw [List.length_set] at h1
  refine ⟨by simpa using h1, fun k hk1 hk2 => ?_⟩
  rw [List.getElem_set]
  split_ifs with hak
  · subst hak; exact hj
  · have := h2 k (by simpa using hk1) (by simpa using hk2)
    rwa [List.getElem_set_ne hak] at this

theorem clamp_spike : ∀ (p a m j : ℕ) (idx : List ℕ), idx.length = p → a < p → j < m →
    clampIdx ((List.replicate p 1).set a m) (idx.set a j) = (List.replicate p 0).set a j
  | 0, a, m, j, idx, _, ha, _ => by omega
  | p + 1, 0, m, j, idx, hi, _, hj => by
    cases idx with
    | nil => simp at hi
    | cons x idx =>
      have hl : idx.length = p := by simpa using hi
      simp only [List.replicate_succ, List.set_cons_zero, clampIdx, List.zipWith_cons_cons]
      congr 1
      · split_ifs with h1
        · omega
        · rfl
      · apply List.ext_getElem
        · simp [hl]
        · intro k h1 h2; simp
  | p + 1, a + 1, m, j, idx, hi, ha, hj => by
    cases idx with
    | nil => simp at hi
    | cons x idx =>
      have ih := clamp_spike p a m j idx (by simpa using hi) (by omega) hj
      simp only [List.replicate_succ, List.set_cons_succ, clampIdx, List.zipWith_cons_cons] at ih ⊢
      rw [ih]; simp

theorem bshape_aux : ∀ (s : List ℕ) (a : ℕ) (h : a < s.length),
    List.zipWith (fun x y => if x = 1 then y else x) s ((List.replicate s.length 1).set a s[a]) = s ∧
    ((s.zip ((List.replicate s.length 1).set a s[a])).all fun p => p.1 == p.2 || p.1 == 1 || p.2 == 1)
      = true := by
  intro s a h
  constructor
  · apply List.ext_getElem
    · simp
    · intro k h1 h2
      rw [List.getElem_zipWith, List.getElem_set]
      split_ifs with h4 h3
      · subst h3; rfl
      · simp [h4]
      · rfl
  · rw [List.all_eq_true]
    intro p hp
    obtain ⟨k, hk, rfl⟩ := List.getElem_of_mem hp
    rw [List.getElem_zip, List.getElem_set]
    split_ifs with h4
    · subst h4; simp
    · simp

end NDArr

open NDArr


/-- One step of `mode_dot`: contract axis `axis` of the tensor with the first index of the matrix. -/
theorem modeDotStep_spec {R : Type*} [CommSemiring R] (T M : NDArr R) (axis n : ℕ)
    (ha : axis < T.shape.length) (hM : M.shape = [T.shape[axis], n]) :
    ∃ r, modeDotStep T M axis = .ok r ∧ r.shape = T.shape.set axis n ∧
      ∀ idx, Valid (T.shape.set axis n) idx → r.val idx =
        ∑ j ∈ Finset.range T.shape[axis], T.val (idx.set axis j) * M.val [j, idx.getD axis 0] := by
  obtain ⟨s, T⟩ := T
  obtain ⟨sM, M⟩ := M
  simp only at ha hM ⊢
  subst hM
  have hlen : 1 ≤ s.length := by omega
  obtain ⟨hb1, hb2⟩ := bshape_aux s axis ha
  have hsw1 : ∀ x y : ℕ, ∀ l, swapList (x :: y :: l) 0 1 = y :: x :: l := by
    intro x y l
    have := swapList_cons_zero x (y :: l) 0 (by simp)
    simpa using this
  have hshape : swapList (n :: s[axis] :: List.replicate (s.length - 1) 1) 1 (axis + 1) =
      n :: (List.replicate s.length 1).set axis s[axis] := by
    rw [swapList_cons_one, swapList_spike' 1 s[axis] s.length axis ha]
  unfold modeDotStep
  have e1 : (reshape ⟨s, T⟩ (1 :: s)) =
      .ok ⟨1 :: s, fun idx => T (unravel s (ravel (1 :: s) idx))⟩ := by
    simp [reshape]
  have e2 : (reshape ⟨[s[axis], n], M⟩ ([s[axis], n] ++ List.replicate (s.length - 1) 1)) =
      .ok ⟨s[axis] :: n :: List.replicate (s.length - 1) 1, fun idx => M (unravel [s[axis], n]
        (ravel (s[axis] :: n :: List.replicate (s.length - 1) 1) idx))⟩ := by
    simp [reshape]
  have e3 : ∀ v : List ℕ → R, swapaxes ⟨s[axis] :: n :: List.replicate (s.length - 1) 1, v⟩ 0 1 =
      .ok ⟨n :: s[axis] :: List.replicate (s.length - 1) 1, fun idx => v (swapList idx 0 1)⟩ := by
    intro v; simp [swapaxes, hsw1]
  have e4 : ∀ v : List ℕ → R,
      swapaxes ⟨n :: s[axis] :: List.replicate (s.length - 1) 1, v⟩ 1 (axis + 1) =
      .ok ⟨n :: (List.replicate s.length 1).set axis s[axis],
        fun idx => v (swapList idx 1 (axis + 1))⟩ := by
    intro v
    unfold swapaxes
    rw [if_pos ⟨by simp, by simp; omega⟩]
    simp only [hshape]
  have e5 : ∀ v w : List ℕ → R,
      mulBroadcast ⟨1 :: s, v⟩ ⟨n :: (List.replicate s.length 1).set axis s[axis], w⟩ =
      .ok ⟨n :: s, fun idx => v (clampIdx (1 :: s) idx) *
        w (clampIdx (n :: (List.replicate s.length 1).set axis s[axis]) idx)⟩ := by
    intro v w
    unfold mulBroadcast
    rw [if_pos]
    · simp only [List.zipWith_cons_cons, hb1, if_true]
    · refine ⟨by simp, ?_⟩
      simp only [List.zip_cons_cons, List.all_cons, hb2]
      simp
  have e6 : ∀ v : List ℕ → R, sumAxis ⟨n :: s, v⟩ (axis + 1) =
      .ok ⟨n :: s.set axis 1, fun idx => ∑ j ∈ Finset.range s[axis], v (idx.set (axis + 1) j)⟩ := by
    intro v
    unfold sumAxis
    rw [if_pos (by simpa using ha)]
    simp [ha]
  have e7 : ∀ v : List ℕ → R, swapaxes ⟨n :: s.set axis 1, v⟩ 0 (axis + 1) =
      .ok ⟨1 :: s.set axis n, fun idx => v (swapList idx 0 (axis + 1))⟩ := by
    intro v
    unfold swapaxes
    rw [if_pos ⟨by simp, by simpa using ha⟩]
    simp only
    rw [swapList_cons_zero _ _ _ (by simpa using ha)]
    simp [ha]
  simp only [bind, Except.bind, pure, Except.pure, e1, e2, e3, e4, e5, e6, e7, first]
  refine ⟨_, rfl, rfl, fun idx hidx => ?_⟩
  have hil : idx.length = s.length := by simpa using (valid_iff.1 hidx).1
  have hai : axis < idx.length := by omega
  have hidxa : idx[axis] < n := by
    have := (valid_iff.1 hidx).2 axis hai (by simpa using ha)
    simpa using this
  have hgd : idx.getD axis 0 = idx[axis] := by simp [hai]
  simp only
  rw [swapList_cons_zero _ _ _ hai]
  apply Finset.sum_congr rfl
  intro j hj
  rw [Finset.mem_range] at hj
  have hset : (idx.getD axis 0 :: idx.set axis 0).set (axis + 1) j =
      idx.getD axis 0 :: idx.set axis j := by simp
  rw [hset]
  have hv : Valid s (idx.set axis j) := valid_set ha hidx hj
  congr 1
  · -- the tensor factor
    have h1 : clampIdx (1 :: s) (idx.getD axis 0 :: idx.set axis j) = 0 :: idx.set axis j := by
      have := clamp_valid hv
      simp only [clampIdx, List.zipWith_cons_cons, if_true] at this ⊢
      rw [this]
    rw [h1]
    have h2 : ravel (1 :: s) (0 :: idx.set axis j) = ravel s (idx.set axis j) := by simp [ravel]
    rw [h2, unravel_ravel hv]
  · have h1 : clampIdx (n :: (List.replicate s.length 1).set axis s[axis])
        (idx.getD axis 0 :: idx.set axis j) = idx[axis] :: (List.replicate s.length 0).set axis j := by
      have := clamp_spike s.length axis s[axis] j idx hil ha hj
      simp only [clampIdx, List.zipWith_cons_cons] at this ⊢
      rw [this, hgd]
      congr 1
      split_ifs with hn
      · omega
      · rfl
    rw [h1, swapList_cons_one, swapList_spike 0 j s.length axis ha, hsw1, hgd]
    congr 1
    have h3 : ravel (s[axis] :: n :: List.replicate (s.length - 1) 1)
        (j :: idx[axis] :: List.replicate (s.length - 1) 0) = ravel [s[axis], n] [j, idx[axis]] := by
      simp [ravel, ravel_zeros]
    rw [h3]
    apply unravel_ravel
    exact List.Forall₂.cons hj (List.Forall₂.cons hidxa List.Forall₂.nil)

section
variable {R : Type*} [CommSemiring R] {p : ℕ} (m n : Fin p → ℕ) (coeffs : NDArr R)
  (mats : Fin p → NDArr R)

/-- Shape after `k` contractions. -/
def partShape (k : ℕ) (i : Fin p) : ℕ := if (i : ℕ) < k then n i else m i

theorem modeDot_fold (hc : coeffs.shape = List.ofFn m) (hm : ∀ i, (mats i).shape = [m i, n i]) :
    ∀ k ≤ p, ∃ r, (List.range k).foldlM (fun ret axis =>
        match (List.ofFn mats)[axis]? with
        | some m => modeDotStep ret m axis
        | none => .error .indexError) coeffs = (.ok r : Except PyErr (NDArr R)) ∧
      r.shape = List.ofFn (partShape m n k) ∧
      ∀ a : Fin p → ℕ, (∀ i, a i < partShape m n k i) → r.val (List.ofFn a) =
        ∑ I : (∀ i, Fin (m i)), if ∀ i : Fin p, k ≤ (i : ℕ) → (I i : ℕ) = a i then
          coeffs.val (List.ofFn fun i => (I i : ℕ)) *
            ∏ i : Fin p, (if (i : ℕ) < k then (mats i).val [(I i : ℕ), a i] else 1)
        else 0 := by
  intro k
  induction k with
  | zero =>
    intro _
    refine ⟨coeffs, rfl, ?_, fun a ha => ?_⟩
    · rw [hc]; congr 1
    · have ha' : ∀ i, a i < m i := by intro i; simpa [partShape] using ha i
      rw [Finset.sum_eq_single (fun i => (⟨a i, ha' i⟩ : Fin (m i)))]
      · simp
      · intro I _ hne
        rw [if_neg]
        intro h
        apply hne
        funext i
        exact Fin.ext (h i (Nat.zero_le _))
      · intro h; exact absurd (Finset.mem_univ _) h
  | succ k ih =>
    intro hk
    obtain ⟨r, h1, h2, h3⟩ := ih (by omega)
    have hkp : k < p := by omega
    let κ : Fin p := ⟨k, hkp⟩
    have hax : k < r.shape.length := by rw [h2]; simpa using hkp
    have hget : r.shape[k] = m κ := by
      simp only [h2, List.getElem_ofFn, partShape]
      rw [if_neg (lt_irrefl k)]
    obtain ⟨r', e1, e2, e3⟩ := modeDotStep_spec r (mats κ) k (n κ) hax (by rw [hm, hget])
    have hshape : r.shape.set k (n κ) = List.ofFn (partShape m n (k + 1)) := by
      apply List.ext_getElem
      · simp [h2]
      · intro i hi1 hi2
        rw [List.getElem_set]
        split_ifs with hik
        · subst hik; simp [partShape, κ]
        · have hi3 : i < r.shape.length := by simpa using hi1
          have : (i < k + 1) ↔ i < k := by omega
          simp only [h2, List.getElem_ofFn, partShape, this]
    refine ⟨r', ?_, e2.trans hshape, fun a ha => ?_⟩
    · rw [List.range_succ, List.foldlM_append, h1]
      simp only [List.foldlM_cons, List.foldlM_nil]
      have : (List.ofFn mats)[k]? = some (mats κ) := by simp [κ, hkp]
      simp only [this, bind, Except.bind, e1, pure, Except.pure]
    · have hval : Valid (r.shape.set k (n κ)) (List.ofFn a) := by
        rw [hshape, valid_iff]
        refine ⟨by simp, fun i hi1 hi2 => ?_⟩
        simp only [List.getElem_ofFn]
        exact ha _
      rw [e3 _ hval]
      have hgd : (List.ofFn a).getD k 0 = a κ := by simp [hkp, κ]
      have hset : ∀ j, (List.ofFn a).set k j = List.ofFn (Function.update a κ j) := by
        intro j
        apply List.ext_getElem
        · simp
        · intro i hi1 hi2
          have hip : i < p := by simpa using hi2
          rw [List.getElem_set]
          simp only [List.getElem_ofFn, Function.update_apply]
          by_cases hik : k = i
          · subst hik; simp [κ]
          · have : (⟨i, hip⟩ : Fin p) ≠ κ := by
              intro h; exact hik (congrArg Fin.val h).symm
            simp [hik, this]
      rw [hgd]
      have hstep : ∀ j ∈ Finset.range r.shape[k], r.val ((List.ofFn a).set k j) *
          (mats κ).val [j, a κ] = ∑ I : (∀ i, Fin (m i)),
          if (I κ : ℕ) = j then
            (if ∀ i : Fin p, k + 1 ≤ (i : ℕ) → (I i : ℕ) = a i then
              coeffs.val (List.ofFn fun i => (I i : ℕ)) *
              ∏ i : Fin p, (if (i : ℕ) < k + 1 then (mats i).val [(I i : ℕ), a i] else 1)
            else 0)
          else 0 := by
        intro j hj
        rw [Finset.mem_range, hget] at hj
        rw [hset, h3, Finset.sum_mul]
        · apply Finset.sum_congr rfl
          intro I _
          have hcond : (∀ i : Fin p, k ≤ (i : ℕ) → (I i : ℕ) = Function.update a κ j i) ↔
              ((I κ : ℕ) = j ∧ ∀ i : Fin p, k + 1 ≤ (i : ℕ) → (I i : ℕ) = a i) := by
            constructor
            · intro h
              refine ⟨by simpa using h κ (le_refl k), fun i hi => ?_⟩
              have h' := h i (by omega)
              have : i ≠ κ := by rintro rfl; simp [κ] at hi
              rwa [Function.update_of_ne this] at h'
            · rintro ⟨h, h'⟩ i hi
              by_cases hik : i = κ
              · subst hik; simpa using h
              · rw [Function.update_of_ne hik]
                apply h'
                have : (i : ℕ) ≠ k := fun hh => hik (Fin.ext hh)
                omega
          by_cases hI : (I κ : ℕ) = j
          · by_cases hQ : ∀ i : Fin p, k + 1 ≤ (i : ℕ) → (I i : ℕ) = a i
            · rw [if_pos (hcond.2 ⟨hI, hQ⟩), if_pos hI, if_pos hQ, mul_assoc]
              congr 1
              have hsplit : ∀ i : Fin p,
                  (if (i : ℕ) < k + 1 then (mats i).val [(I i : ℕ), a i] else 1) =
                  (if (i : ℕ) < k then (mats i).val [(I i : ℕ), Function.update a κ j i] else 1) *
                    (if i = κ then (mats κ).val [j, a κ] else 1) := by
                intro i
                by_cases hik : i = κ
                · subst hik
                  simp [κ, ← hI]
                · have h5 : (i : ℕ) ≠ k := fun hh => hik (Fin.ext hh)
                  have h6 : ((i : ℕ) < k + 1) ↔ (i : ℕ) < k := by omega
                  simp [hik, h6]
              simp only [hsplit, Finset.prod_mul_distrib, Finset.prod_ite_eq', Finset.mem_univ,
                if_true]
            · rw [if_neg (fun h => hQ (hcond.1 h).2), if_pos hI, if_neg hQ, zero_mul]
          · rw [if_neg (fun h => hI (hcond.1 h).1), if_neg hI, zero_mul]
        · intro i
          by_cases hik : i = κ
          · subst hik; simpa [partShape, κ] using hj
          · rw [Function.update_of_ne hik]
            have h5 : (i : ℕ) ≠ k := fun hh => hik (Fin.ext hh)
            have h6 : ((i : ℕ) < k + 1) ↔ (i : ℕ) < k := by omega
            have := ha i
            unfold partShape at this ⊢
            simpa only [h6] using this
      rw [Finset.sum_congr rfl hstep, Finset.sum_comm]
      apply Finset.sum_congr rfl
      intro I _
      rw [Finset.sum_ite_eq, if_pos]
      rw [Finset.mem_range, hget]
      exact (I κ).2

end

end Spgrep
