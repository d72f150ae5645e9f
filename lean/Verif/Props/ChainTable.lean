/-
Property C72: the tables `pg_dataset` and `pg_solvable_chain` fit together.
-/
import Verif.Proofs.Pointgroup

namespace Spgrep

open PgSymbol

/-- One entry of the chain table: the setting of the smaller group exists and is the beginning of the setting of the
larger one; the generator comes right after it, except for 4 and -4, where it is the operation after the twofold
rotation. -/
def checkEntry (s : PgSymbol) (idx : ℕ) (x : (PgSymbol × ℕ) × ℕ) : Bool :=
  match (pgDataset s)[idx]?, (pgDataset x.1.1)[x.1.2]? with
  | some std, some sub => decide (std.take sub.length = sub) &&
      decide (x.2 = if s = pg_4 ∨ s = pg_b4 then 2 else sub.length) && decide (x.2 < std.length)
  | _, _ => false

theorem checkEntry_all : (PgSymbol.all.all fun s => (pgSolvableChain s).zipIdx.all fun x => checkEntry s x.2 x.1) = true := by
  decide +kernel

theorem chain_lengths : (PgSymbol.all.all fun s => decide (s = pg_1) ||
    decide ((pgSolvableChain s).length = (pgDataset s).length)) = true := by
  decide +kernel

theorem mem_all (s : PgSymbol) : s ∈ PgSymbol.all := by cases s <;> decide

/-- **C72.** Every setting of every point group other than 1 has an entry in the chain table.  The setting it names exists
and its operations are, in the same order, the first operations of the larger group.  The generator is the operation that
follows them, except for 4 and -4, where the chain goes from the trivial group to the whole group in one step and the
generator is the fourfold operation after the twofold rotation. -/
theorem c72_chain_table (s : PgSymbol) (hs : s ≠ pg_1) (idx : ℕ) (std : List PgMat)
    (hstd : (pgDataset s)[idx]? = some std) :
    ∃ s' idx' g sub, (pgSolvableChain s)[idx]? = some ((s', idx'), g) ∧ (pgDataset s')[idx']? = some sub ∧
      std.take sub.length = sub ∧ g < std.length ∧ (s ≠ pg_4 → s ≠ pg_b4 → g = sub.length) ∧
      (s = pg_4 ∨ s = pg_b4 → s' = pg_1 ∧ g = 2 ∧
        ∀ r, std[2]? = some r → std = [PgMat.one, r.mul r, r, r.mul (r.mul r)]) := by
  have hlen := List.all_eq_true.1 chain_lengths s (mem_all s)
  simp only [Bool.or_eq_true, decide_eq_true_eq, hs, false_or] at hlen
  obtain ⟨hi, -⟩ := List.getElem?_eq_some_iff.1 hstd
  have hi' : idx < (pgSolvableChain s).length := hlen ▸ hi
  have hx := List.all_eq_true.1 (List.all_eq_true.1 checkEntry_all s (mem_all s))
    ((pgSolvableChain s)[idx], idx) (by rw [List.mem_zipIdx_iff_getElem?]; exact List.getElem?_eq_getElem hi')
  dsimp only at hx
  have hget : (pgSolvableChain s)[idx]? = some (pgSolvableChain s)[idx] := List.getElem?_eq_getElem hi'
  rcases hy : (pgSolvableChain s)[idx] with ⟨⟨s', idx'⟩, g⟩
  rw [hy] at hx hget
  unfold checkEntry at hx
  rw [hstd] at hx
  dsimp only at hx
  rcases hsub : (pgDataset s')[idx']? with _ | sub
  · rw [hsub] at hx; cases hx
  · rw [hsub] at hx
    simp only [Bool.and_eq_true, decide_eq_true_eq] at hx
    obtain ⟨⟨h1, h2⟩, h3⟩ := hx
    refine ⟨s', idx', g, sub, hget, hsub, h1, h3, fun h4 h5 => ?_, fun h4 => ?_⟩
    · rw [h2, if_neg (by rintro (h | h); exacts [h4 h, h5 h])]
    · rw [if_pos h4] at h2
      have h6 : ([pg_4, pg_b4].all fun s => (pgSolvableChain s).all (fun x => decide (x.1.1 = pg_1)) &&
          (pgDataset s).all fun std => match std[2]? with
            | some r => decide (std = [PgMat.one, r.mul r, r, r.mul (r.mul r)])
            | none => false) = true := by decide +kernel
      have h7 := List.all_eq_true.1 h6 s (by rcases h4 with rfl | rfl <;> simp)
      rw [Bool.and_eq_true, List.all_eq_true, List.all_eq_true] at h7
      refine ⟨?_, h2, fun r hr => ?_⟩
      · have := h7.1 _ (List.mem_of_getElem? hget)
        simpa using this
      · have := h7.2 _ (List.mem_of_getElem? hstd)
        rw [hr] at this
        simpa using this

/-- The comment at pointgroup.py:677, read literally (`pg_dataset[pg_symbol][idx][:generator]` equals the operations of the
smaller group), is false for the group 4. -/
theorem c72_comment_refuted : ∃ std sub g, (pgDataset pg_4)[0]? = some std ∧ (pgSolvableChain pg_4)[0]? = some ((pg_1, 0), g) ∧
    (pgDataset pg_1)[0]? = some sub ∧ std.take g ≠ sub := by
  refine ⟨_, _, _, rfl, rfl, rfl, ?_⟩
  decide +kernel

/-- Non-vacuity: the third setting of mm2 and the second of -3m. -/
example : (pgDataset pg_mm2)[2]?.isSome ∧ (pgSolvableChain pg_mm2)[2]? = some ((pg_2, 2), 2) ∧
    (pgDataset pg_b3m)[1]?.isSome ∧ (pgSolvableChain pg_b3m)[1]? = some ((pg_32, 1), 6) := by
  decide +kernel

end Spgrep
