# Formal model of spgrep: design and trusted base

Source: `/repo` (spglib/spgrep, pinned commit), read as text; nothing was executed.
Prover: Lean 4.33.0 with Mathlib.  Project: `/verif/lean`.

## Numbers, arrays, exceptions, oracles

* Integer arrays are `ℤ`; floating point arrays are exact `ℝ` / `ℂ`.  **Floating point rounding is
  not modelled.**  `np.isclose/allclose` are modelled literally (`|a-b| ≤ atol + rtol*|b|`) over
  exact reals; `np.around`/`np.rint` are modelled as round-half-to-even.
* An array of shape `(n, ...)` is a function on `Fin n` (or on a list position); matrices are Mathlib `Matrix`.
* Python exceptions are values of `Except PyErr`.  Warnings are a Boolean component of the result.
* `while` loops carry fuel; a separate theorem says the fuel is never exhausted on the stated domain.
* Oracles (arbitrary parameters, with the assumption made on them written in the theorem):
  the random generator (any sequence of matrices), `np.linalg.eig/eigh/qr/svd` (any output that
  satisfies their documented contract), spglib (`get_pointgroup`, datasets: any output).

## Layout

* `Verif/Spec/*`   – small independent vocabulary for the properties (group enumeration, projective
  representation, irreducible, equivalent, cocycle, ...).
* `Verif/Model/*`  – one file per Python file; each definition cites file and lines.
* `Verif/Proofs/*` – helper lemmas (representation theory of projective representations etc.).
* `Verif/Props/*`  – the property theorems, each with an `example` showing that its hypotheses are met.

## Plan per property

| id | model | proof |
|----|-------|-------|
| C01-C04 | `getCayleyTable`, `getIdentityIndex`, `getInverseIndex`, `getOrder` | group theory on an enumerated matrix group; loop induction with fuel |
| C05 | `isMatrixGroup` | true for non-empty lists of non-singular matrices; **false as stated** (empty list, singular idempotents): negation + partial |
| C06 | `getLittleGroup` | list induction; nearest integer lemma |
| C07 | same | exact stabiliser when k has denominator N and atol<1/N; **false as stated** for general k (tolerance): negation + partial |
| C08-C10 | `getFactorSystem`, `checkCocycle`, small representation phases, `checkSpacegroupRep` | algebra of exp and integrality |
| C11-C12 | regular representations | finite sums |
| C13-C14 | `getIntertwiner`, `isEquivalentIrrep` | Schur's lemma and orthogonality for projective representations, proved from Mathlib linear algebra |
| C15-C16 | `projectToIrrep` | averaging, Schur; state machine invariant |
| C17 | `frobeniusSchur` | Frobenius-Schur theorem from Schur orthogonality |
| C18 | `enumerateSmallReps` | **false**: I2_12_12_1 at W gives indicator 2 and raises; negation + partial, for one-dimensional small representations or when all phases are signs (symmorphic groups, Γ, and 2k a reciprocal lattice vector with half-integral products) |
| C19-C22 | `getPhysicallyIrrep`, pairing loop | block matrices; C20 **false** (S vs S^T): negation + partial; C22 **false**: negation + partial |
| C23 | `getDirectProduct` | Kronecker product |
| C24, C58 | `getSymmetryAdaptedTensors` | induction on rank; every stage is a basis of a symmetry-adapted decomposition |
| C25, C59 | `applyIntrinsicSymmetry` | sums over permutations; C25 **false** for zero tensors, C59 **false** (threshold 0.5) |
| C26-C29 | utils.py, purify | real/complex analysis, arithmetic; C27 **false** for n<2 |
| C30-C32 | pointgroup.py tables, generated from the source text | `decide +kernel` over the whole table, lifted by lemmas |
| C33-C34 | chain enumeration | Clifford theory for split cyclic extensions; induction over the chain |
| C35-C36, C60 | `enumerateFromRegular`, `decomposeRepresentation` | eigenspaces of a commuting Hermitian matrix; C36 **false** with multiplicities: negation + partial |
| C37-C42,C52 | transform.py, core.py | matrix algebra; C38, C41, C42 **false** as stated |
| C61 | `getSpacegroupIrreps` | C56/C60 transported through the centring phases and the change of basis |
| C43-C45 | spinor.py | quaternion / SU(2) algebra, Rodrigues' formula; C43 **false** for tiny angles |
| C46-C51 | corep.py | anti-linear cocycles; C47, C48, C49, C51 **false** as stated |
| C53-C54 | utils.py | rounding; singular values as oracle |
| C55 | core.py (spinor part) | exact criterion for the flags; **false** for grey groups and type IV: negation + partial |
| C62-C63 | core.py (spinor part) | C45 transported through centring and change of basis |
| C64 | `enumerateUnitaryIrreps`, Neto, no factor system | induction along the chain: every step is of index 2 or 3 over a commutative part or permutes the irreps of one; entries stay roots of unity; the tabulated chains are checked to be of this shape |
| C65 | `enumerateSmallReps`, two runs | the multiplication law is carried to the new setting; equal sums of squares make the matching of the lists a bijection |
| C66 | `enumerateUnitaryIrreps`, `enumerateSmallReps` | completeness of matrix elements (square matrix with one-sided inverse); Burnside's lemma on the regular elements |
| C57 | `projectToIrrep` | Schur's lemma; the Grassmann test keeps blocks independent |
| C56 | `enumerateSmallReps` | C34 transported through the phase of the fractional translation |
| C67 | `enumerateSpinorSmallCoreps` | Wigner's classification: a constituent and its image under the anti-linear coset representative span; independent unless the indicator is 1. The run is assumed to have enough draws, or to find the irreps of the unitary part without warning (C91 shows that it does almost surely) |
| C68 | `getPhysicallyIrrep`, `frobeniusSchur` | a real invariant subspace gives a symmetric invariant form, hence a real form; conversely a real form gives two invariant halves |
| C69 | `enumerateUnitaryIrreps`, `real=True` | by C64 every irrep is one-dimensional, real, or two-dimensional and conjugated by the swap; the intertwiner is then a scalar or a multiple of the swap and the code can be followed entry by entry |
| C70 | `enumerateUnitaryIrreps`, `frobeniusSchur` | shape of the irreps along the chain (real, swapped, or one-dimensional) |
| C71 | `projectToIrrep` | the Gram matrix of a block commutes with a real-irreducible representation and is symmetric, hence scalar; counting against the complex commutant; the exception by following the code |
| C72 | `pgSolvableChain`, `pgDataset` | a checker evaluated by the kernel on the whole table, lifted to all symbols and indices |
| C73 | `getIrrepsFromMatrix`, `enumerateFromChain`, `enumerateUnitaryIrreps`, `enumerateSmallReps` | merge sort; orthogonality of characters; invariant of the loop along the chain: the first irrep is constant one |
| C74 | `projectToIrrep` | orthogonality of blocks of inequivalent irreps (Schur), complete reducibility of the orthogonal complement |
| C75 | `projInner`, `projectToIrrep`, `grassmannDistance` | every visited block is skipped, collected or within sin²<1/4 of the collected span; the projected unit vectors are a tight frame of total norm d·mult, so a missing block needs multiplicity above 4; explicit counter-example for 5 |
| C76 | `grassmannDistance` | variational characterisation by the SVD of the correlation matrix; uniqueness of singular values for principal vectors |
| C77 | `getSymmetryAdaptedTensors`, `projectToIrrep` | induction over the rank with C75 for the direct products of an irrep with the vector representation (each irrep occurs at most three times there); count by the dimension of the invariants of the tensor power |
| C78 | `projectToIrrep` | as C57 with blocks up to positive row factors; refutation with the integer matrices of 32 in the hexagonal basis, where both rows are normalised separately |
| C79 | `chainInner`, `chainStep`, `enumerateFromChain`, `rawIrreps` | induction over the chain: the scaled intertwiner takes finitely many values by Schur's lemma (its p-th power is the identity), one entry of the averaged draw is a nonzero linear form; powers of a number that is no root of finitely many polynomials avoid all forms |
| C80 | `pointgroupIrreps`, the user-level function | C64, C69 and C35 for a run; the linear forms of C79 together with one form for each irrep, of the finitely many possible lists, that has to be intertwined with its conjugate. Added because a mutant that drops `real` survived |
| C81 | `pointgroupSpinorCoreps` | C67 at k = 0 without translations, where all nonsymmorphic factors and phases are one. Added because a mutant that drops the flags survived. The matrices of operations with time reversal are the subject of C48 |
| C82 | `getSymmetryAdaptedTensors`, `tensorsFrom` | commuting matrices: by C78 and Schur's lemma only irreps of dimension one occur, whose blocks have one row, so the normalisation is harmless, then as C58 and C77; refutation: the block of the two-dimensional real irrep of 3 in hexagonal coordinates computed up to one complex factor |
| C83 | `getSymmetryAdaptedTensors`, `applyIntrinsicSymmetry` | invariant of every loop: blocks, coefficients and tensors computed from real arrays equal their conjugates; the singular values only decide which blocks are kept |
| C84 | `getSymmetryAdaptedTensors` | C69 and the draws of C80 give real irreps that are irreducible over the complex numbers because all indicators are one, then C77 and C83; real parts of the coefficients |
| C85 | `enumerateUnitaryIrreps` | Schur orthogonality of the unpurified irreps; completeness from the column orthogonality of C66 at `g h⁻¹` and the identity |
| C86 | `enumerateUnitaryIrreps`, `frobeniusSchur` | the indicator of an array within `atol` of an irrep is the exact one (C14), trace of the square, column orthogonality of C66 with the identity and with the inverse |
| C87 | `enumerateFromChain`, `enumerateUnitaryIrreps`, `enumerateSmallReps`, `enumerateSpinorSmallReps` | invariant of the chain loop: a step multiplies the order of the subgroup by `p` and the dimension by 1 or `p`; completeness (C34) carries it to every irreducible family; orders of the table by evaluation |
| C88 | `enumerateFromChain`, `getIntertwiner`, `pointgroupIrreps`, `enumerateSpinorSmallReps`; the law of a draw is Lebesgue measure on the unit cube of real and imaginary parts (`uniformLaw`, of mass one) | the finitely many nonzero linear forms of C79, and those of the intertwiners with the conjugate irreps, vanish on proper real subspaces, which are null sets for Haar measure; for spinors the union over the finitely many sign factor systems |
| C89 | `pgDataset`, `PgMat.toM3`; the specification is the list of the numbers of operations of types -6, -4, -3, m, -1, 1, 2, 3, 4, 6 in the 32 crystal classes (`Spec.classCounts`) | determinants and traces are invariant under changes of basis, the counts by evaluation of the whole table, injectivity of the counts; explicit changes of basis between the settings of a symbol |
| C90 | Real characters in terms of the complex irreps and their conjugate pairs | A sum over the irreps is a sum over the pairs of C21; the trace of a doubled one-dimensional irrep is the sum of both conjugates (diagonalisation over the complex numbers); both orthogonality relations of C66. |
| C91 | User-level functions of `core.py`, law of the draws as in C88 | The transformation to a primitive basis is computed before the tolerance is chosen, so that the null sets of C88 depend on the data set only; `SignPhases`/`SignResiduals` (Spec/ConvPhases) are invariant under the change of basis. |
| C92 | `enumerateSpinorSmallCoreps` | The operator of time reversal squares to -1 (C46) in each co-representation of the complete list of C67; the determinant of an anti-linear operator squaring to -1 forces even dimension. |
| C93 | `enumerateSpinorSmallCoreps` | Index of the co-representations by the pairs of irreps of the unitary part (`CorepIndexed`), orthogonality and sum of squares for those (C66). |
| C94 | `enumerateFromRegular`, `lookupNonzero` | Case distinction on the list of non-zero positions; induction over the attempts. |
| C95 | `getSpacegroupSpinorCoreps`, `getLittleGroup` | `exp` is one exactly at the integers, then C55's description of the little group; refutation by a run at a k-point whose double is not a reciprocal lattice vector |
| C96 | `settingLoop`, `enumerateFromChain`, `enumerateUnitaryIrreps` | the first setting whose matrices all occur is a subgroup of the transformed rotations; its chain ends in that subgroup; the last test of the enumeration compares it with the group |
| C97 | `IsEquivalentIrrep`, `frobeniusSchur`, `multiplierOf`, `littleMapping` on perturbed inputs | the exact value is an integer (or a sign, or a multiple of 1/N), the perturbed one is closer to it than half the gap |
| C98 | `IsUnitaryTest`, `IsRepresentationTest`, `checkSpacegroupRep` | averaging f'(g) = 1/n sum_x mu(g,x) f(gx) f(x)^-1 squares the error; the iteration converges to a representation (`almost_rep`), which the square root of its averaged Gram matrix makes unitary (`unitarise`) |
| C99 | `IsUnitaryTest`, `IsRepresentationTest`, `checkSpacegroupRep`, `IsEquivalentIrrep`, `IsUniqueIrreps` | C98 gives exact unitary representations nearby; the rounded sums of characters decide irreducibility and inequivalence (C97); the sum of squares gives completeness |
| C100 | `enumerateSmallReps`, `enumerateSpinorSmallReps`, `checkSpacegroupRep`, `IsUnitaryTest`, `IsUniqueIrreps` | completeness theorems (C18, C45) give an exact complete list within atol, the converse certificates (C98, C99) show that such lists pass |
| C101 | `enumerateSmallReps`, `IsEquivalentIrrep`, `getCharacter` | both lists are near complete lists of exact irreps; complete lists correspond by a bijection; C97 shows that the rounded test recognises it |
| C102 | `checkSpacegroupRep`, `spacegroupPair`, `allLoop` (the loops with early return) | induction on the list of pairs; the list of pairs is sorted lexicographically |
| C103 | `pointgroupIrreps`, `IsRepresentationTest`, `IsUnitaryTest`, `IsUniqueIrreps`, `IsEquivalentIrrep` | exact completeness (C80), the converse certificate (C99) with error zero, and the norms of the real characters (C90) |
| C104 | `getSymmetryAdaptedTensors`, `applyIntrinsicSymmetry` | the average of the permutations times the action is a projection to the symmetric invariants, its trace is the formula; C58, C59 and C25 for the rest; the refutation computes the whole run for a mirror plane with normal (2,2,1)/3; without repeated irreps the tensors of rank two are orthogonal or proportional after symmetrisation (Schur), so nothing is rejected wrongly |
| C105 | `pointgroupSpinorCoreps` | C92 and the index of the classification (C67, C93) at k = 0 |
| C106 | `getSpacegroupIrreps`, dataset of any cell; spec `IsCellGroup`, `crystalLattice` | reduction of the good case to C61; criterion for wrong results from the multiplication law; supercell of P2 and primitive cell of Fm-3m as counterexamples |
| C107 | `halfTurnAxis`, `fixDirection`, `getSpinorUnitaryRotation`, `getSpinorFactorSystem`, `enumerateSpinorSmallReps` | the axis of a half turn is unique up to sign and the sign is fixed; two metrics give similar rotations, polar decomposition turns the similarity into a rotation, which lifts to SU(2); signs act on complete lists, then characters as in C101 |
| C108 | Pairs of runs of `irrepsFromPrimitive` and `spinorIrrepsFromPrimitive` at k and R_sᵀk + G | Conjugation by s as a change of setting (C65), completeness of the lists (C56, C45), signs from the factor system of the whole group (C44); for -k conjugation of complete lists |
| C109 | `getCorepSpinorFactorSystem`, `enumerateSpinorSmallCoreps` | one SU(2) change of basis from the polar factor of the two lattices (C107) commutes with time reversal; signs act on complete lists of co-representations (C67); inequivalence and completeness give injections both ways; the norm of a character determines its indicator (C93) |
| C110 | `pointgroupIrreps` (core.py:218-260) | both outputs are complete lists of exact irreps (C80); pulling back along the isomorphism keeps irreducibility and inequivalence, so there are injections both ways; characters and traces of squares are invariants of equivalence; over the reals the norm of a character determines the indicator (C90) |
| C111 | `pointgroupSpinorIrreps`, `getSpinorUnitaryRotation`, `getSpinorFactorSystem` | the proper part is blind to the sign of the determinant; the factor system is determined by the SU(2) matrices (C44); complete lists (C63) of isomorphic groups with equal factors correspond (as in C110); 222: the half turns anticommute; 2/m: a common eigenvector |
| C112 | C07, C41, C61 and C62 restated with a hypothesis without denominators (no operation moves the k-point by almost a reciprocal lattice vector only) | finitely many operations: the smallest distance of a non-integral residual from the integers is a sharp positive threshold; the proofs of C41, C61 and C62 only use that the tolerance test is exact |
| C113 | `getSymmetryAdaptedTensors` for two inputs | by C58 the returned tensors are a basis of the invariant tensors; a change of basis carries invariance along and is injective on tensors |
| C114 | `enumerateSmallReps`, `irrepsFromPrimitive`, `spinorIrrepsFromPrimitive`; the direct sum is `Spec.blockSum` | completeness (C38, C45, C108), orthogonality of characters, and the character expansion of any projective representation |
| C115 | `pointgroupIrreps` for two inputs | C80 gives complete lists; C114's decomposition of the restricted irrep and of the Kronecker product; orthogonality of the columns of the character table |
| C116 | `irrepsFromPrimitive`; the whole space group is `Spec.spaceGroup` | the Bloch states of a representation carry a representation of the little group, which C114 decomposes; representations induced from the little group are irreducible because translations separate the points of the star (Proofs/Induced.lean); Schur's lemma |
| C117 | `irrepsFromPrimitive`; the whole space group is `Spec.spaceGroup` | common eigenvectors of the unitary, commuting translations give a real k-point; the Bloch states of the points of one star span an invariant subspace, and a product of translations minus phases separates any other k-point; then C116 |
| C118 | `irrepsFromPrimitive` at two k-points | the labels of C116 at both points, matched through the irreducible representations of the whole group, which have Bloch states at exactly one star (C117) |
| C119 | `irrepsFromPrimitive`, `frobeniusSchur` | complex conjugation carries Bloch states at k to -k; labels of C116, completeness of the small representations and C97 for the indicator of the purified matrices; C117 for the stars |
| C120 | `irrepsFromPrimitive`, `frobeniusSchur` | Bloch states at k of an irreducible representation of the whole group form one copy of the small representation (separating polynomial in the translations); the antilinear symmetry restricts to it, where C17 and Schur's lemma give the sign |

## Trusted base

Lean's kernel; axioms `propext`, `Classical.choice`, `Quot.sound` only; the faithfulness of the
hand-written model to the cited Python lines under the conventions above.

Each theorem named in MANIFEST.json depends on a subset of these three axioms (`#print axioms`); no `native_decide`, no `sorry`.

### What is modelled

| Python file | modelled | not modelled |
|---|---|---|
| group.py | all functions | |
| representation.py | all functions | |
| irreps.py | all functions | floating point effects |
| pointgroup.py | both tables in full, `get_generators`, `get_pointgroup_chain_generators` | |
| transform.py | all functions | |
| core.py | all functions, with and without spin, with and without time reversals | the spglib calls (dataset, point group, Hall symbol are parameters) |
| spinor.py, corep.py | all functions | |
| tensor.py | all functions | |
| utils.py | all but the next column | `get_symmetry_from_hall_number` (a call of spglib), type aliases |

numpy, spglib, the random generator and floating point arithmetic are outside the model (see the conventions above).

## Disagreements between properties and code found so far

* C05: `is_matrix_group` accepts the empty list and lists of singular idempotents.
* C07: the tolerance makes the little "group" of an almost symmetric k-point not closed.
* C18: the indicator test inside the enumeration is applied to projective representations whose factor system
  is not a sign, where the sum can be 2 (or another value): I2_12_12_1 at W raises ValueError.
* C20: `get_physically_irrep` uses `S^T Ω^{1/2} S` where the Takagi factor needs `S Ω^{1/2} S^T`, and
  the resulting matrix is applied in the reversed direction (`T D T^{-1}`); both only cancel when
  `S^T diag(w) S` is proportional to the inverse of the intertwiner.
* C22: at 2k not equivalent to 0 the pairing of conjugate irreps merges small representations at k and -k as if
  both were at k; P3 at (0,0,1/3) returns two real representations for three small representations.
* C25: a zero tensor in the list is divided by its norm (NaN).
* C59: a symmetrised tensor is discarded when its distance to the span of the earlier ones is below 0.5, also when it is
  independent of them; two independent vectors give one tensor.
* C104: as a consequence, for a mirror plane with normal (2,2,1)/3 at rank two, at most three of the four symmetric
  invariant tensors are returned (the docstring only warns of higher ranks).
* C36: `decompose_representation` keeps one copy of each irrep but compares the sum of dimensions with the dimension of
  the representation, so a representation containing an irrep twice always ends with a warning and `[]`.
* C38: `unique_primitive_symmetry` records the position in the *input* list for a first occurrence, and the position in
  the unique list for a repetition; the two agree exactly when all first occurrences precede all repetitions.
* C41: as a consequence, for operations in the order E, E', R, R' the returned little group lacks operations.
* C42: `get_spacegroup_irreps` reduces translations to [0, 1) before the primitivity check, so a translation -1e-9 of the
  identity becomes 1 - 1e-9 and is rejected; with `rtol + atol >= 1` other rotations count as the identity.
* C43: rotations by less than about 1e-8 are taken for the identity (and near π for a half turn), so the SU(2) matrix is
  not that of the rotation; for integer isometries of a lattice the tolerances never matter because traces are integers.
* C47: `decompose_by_maximal_space_subgroup` tests for type I by `time_reversals == 1`; a list without time reversals
  raises a TypeError (`rot @ None`) instead of returning None.
* C51: the nonsymmorphic factors are never conjugated, so together with an anti-linear operation the cocycle condition
  holds only if all of them are real; P4_1 2'2' at (0,0,1/2) has a factor i.
* C48: `enumerate_spinor_small_corepresentations` multiplies `corep[a0]` with `irrep[u]` instead of its complex conjugate, so
  the law of co-representations fails unless all matrices involved are real; for indicator -1 it joins the irrep with its
  conjugate where the intertwiner needs two copies of the irrep.  For 21' at k = 0 every result is wrong (`c48_refuted`);
  `c48_repaired` proves the law for the corrected matrices.
* C49: with complex factors the "conjugated" irrep has the complex conjugate factors, so the doubled matrices are not a
  representation even of the operations without time reversal.  The factors depend on the origin: 21' with the axis
  through (1/32,0,0) at k = (1/2,0,0) returns without error or warning, and for every result the matrix of the twofold
  rotation has a wrong square (`c49_refuted`).
* The nonsymmorphic factor of an anti-linear operation uses R⁻¹k - k where the anti-linear law needs R⁻¹k + k.
* C55: `get_spacegroup_spinor_irreps` takes the time reversal of the operation whose *input number* equals the position of the
  unique rotation, so a rotation occurring with and without time reversal keeps only one flag.  For grey groups and type IV the
  time reversals are lost and the result is that of the non-magnetic group (`c55_grey_refuted`, `c55_refuted`).
* The documented shapes of `little_spinor_factor_system`, `little_unitary_rotations` and `anti_linear` are
  `(little_group_order, ...)`; in a centred cell (or for a grey group) the code returns the number of *distinct rotations*.
* The little group of a magnetic group is computed from `Rk = k` also for anti-linear operations (where `Rk = -k` is needed).
* C27: `is_prime` returns True for n < 2.
* C75: `project_to_irrep` selects blocks greedily and drops a block whose Grassmann distance from the collected span is below
  0.5.  For an irrep of multiplicity 5 or more all remaining blocks can be that near although the span is incomplete; then every
  trial collects the same blocks, the tolerance search changes nothing, and an incomplete basis is returned with a warning
  (`c75_refuted`; nine-dimensional representation of a group of order two).  Up to multiplicity 4 this cannot happen.
* C78: `project_to_irrep` normalises each row of a block for itself.  For a representation that is not unitary (lattice
  coordinates of a hexagonal lattice, as in tests/test_tensor.py) the rows of a block may have different norms, and then they do
  not transform like the irrep; they need not be orthogonal either (`c78_refuted`).
* C82: consequently `get_symmetry_adapted_tensors` with `real=True` returns tensors that are not invariant for 3 in hexagonal
  coordinates (`c82_refuted`).  The documentation does not ask for unitary matrices, and tests/test_tensor.py uses such coordinates.
* C95: `get_little_group` takes the operations with `kR = k` up to reciprocal lattice vectors, also for operations that reverse
  the time, although these map `k` to `-kR`.  Unless `2k` is a reciprocal lattice vector the anti-linear operations of the
  returned little group do not commute with the documented phases `e^{-ik·t}` in the way a co-representation demands
  (`c95_refuted`), and those that would (`kR = -k`) are missing.
* C106: `get_spacegroup_irreps` chooses the centring from `dataset["hall_number"]`, which belongs to the standardized
  cell, and applies it to the operations of the input cell.  Neither the docstring nor the documentation asks for a
  standardized cell.  In a supercell the little group can be too large, and irreps are returned for operations that have
  no representation at that k-point (`c106_supercell_refuted`); for the primitive cell of a face-centred cubic crystal a
  `ValueError` is raised at Γ (`c106_primitive_cell_refuted`).

## Notes on the model

* Chain enumeration (C33, C34): the intertwiner search may give up on all its draws and only warn; the
  theorems are about runs without that warning, and `c34_draws_exist` shows that such runs exist for every
  group.  They are about the arrays before purification, because purification replaces entries by nearby
  closed-form values and may move an exact matrix by less than its tolerance (C29).  Without a factor system purification
  changes nothing (C64).
* `np.linalg.qr/svd/eigh` are oracles; `exists_linAlg_contract` shows that the assumed contract is satisfiable.
* `enumerate_unitary_irreps` / `enumerate_small_representations` (Model/Enumerate): the random generator and
  the linear algebra routines are oracles; `spglib.get_pointgroup` is an oracle whose answer must meet
  `PointgroupContract` (the rotations are those of a tabulated setting in the reported basis).
* C56 was added after the model of the whole enumeration was there.
* C24, C58: the irreps inside `get_symmetry_adapted_tensors` are purified arrays.  With `real=False` they are exact by C64,
  with `real=True` by C69, if `eig` satisfies `EigContract`.  `rank = 0` returns tensors of rank one.  With `real=True`
  the number of basis vectors expected by `project_to_irrep` is twice the right one for doubled irreps (C71).  For a
  representation with real entries this only causes a warning if such an irrep occurs; C58 is proved for these, and for
  groups in which every element is conjugate to its inverse.  Disagreement: for a complex representation of 4/m
  (`c58_tensors_basis_refuted`) no warning is given, and all returned tensors are zero.  `c71_complex_raises`: for a
  one-dimensional complex representation an `IndexError` is raised in `grassmann_distance`.
* C69: `EigContract` asks that `eig` returns a unitary eigenbasis of every matrix that has one, and the standard basis for
  a multiple of the identity (`exists_eigContract`: it is satisfiable).  The second part is needed: line 611 of irreps.py
  computes `S.T @ diag @ S` with the eigenvectors as columns of `S`, which is a square root of the intertwiner for the
  matrices that occur, but not for every eigenbasis.
* C35, C36, C60: `eigh` may return any orthonormal eigenbasis in any order (`IsEigh`); `eigenContract_exists` shows that
  such a routine exists.  C35/C36 are about runs without a warning; `c35_draws_exist` and `c36_draws_exist` show that such runs exist
  (arbitrary complex draws; the source draws entries with real and imaginary parts in [0,1)).
* C43-C45: `np.linalg.eig` on a real symmetric matrix returns a basis of real eigenvectors (`SymmEigContract`,
  satisfiable by `symmEigContract_exists`); `c45_runs` shows that runs without warning exist.
* pointgroup.py tables are generated from the source text; symbols are an enumeration type and an unknown
  symbol is a separate `keyError` case.
