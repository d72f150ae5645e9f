{
 "claims": [
  {
   "property": "C01",
   "status": "proved",
   "theorems": [
    "Spgrep.c01_cayley_table",
    "Spgrep.c01_cayley_table_ordinary"
   ],
   "note": "All orders, all flag assignments."
  },
  {
   "property": "C02",
   "status": "proved",
   "theorems": [
    "Spgrep.c02_cayley_raises"
   ],
   "note": "ValueError iff a product is missing."
  },
  {
   "property": "C03",
   "status": "proved",
   "theorems": [
    "Spgrep.c03_identity_inverse",
    "Spgrep.c03_identity_inverse_magnetic"
   ],
   "note": ""
  },
  {
   "property": "C04",
   "status": "proved",
   "theorems": [
    "Spgrep.c04_get_order"
   ],
   "note": ""
  },
  {
   "property": "C05",
   "status": "partial",
   "theorems": [
    "Spgrep.c05_is_matrix_group_partial",
    "Spgrep.c05_is_matrix_group_fails",
    "Spgrep.c05_is_matrix_group_complete"
   ],
   "note": "False as stated (refuted by c05_is_matrix_group_fails: empty list, singular matrices). The partial theorem is the iff for non-empty lists of non-singular matrices."
  },
  {
   "property": "C06",
   "status": "proved",
   "theorems": [
    "Spgrep.c06_little_group"
   ],
   "note": ""
  },
  {
   "property": "C07",
   "status": "partial",
   "theorems": [
    "Spgrep.c07_little_group_is_group_partial",
    "Spgrep.c07_little_group_not_group"
   ],
   "note": "False as stated (refuted: almost symmetric k-point). Partial: holds when N*k is integral and atol < 1/N."
  },
  {
   "property": "C08",
   "status": "proved",
   "theorems": [
    "Spgrep.c08_factor_system_cocycle"
   ],
   "note": ""
  },
  {
   "property": "C09",
   "status": "proved",
   "theorems": [
    "Spgrep.c09_check_cocycle"
   ],
   "note": ""
  },
  {
   "property": "C10",
   "status": "proved",
   "theorems": [
    "Spgrep.c10_small_representation"
   ],
   "note": ""
  },
  {
   "property": "C11",
   "status": "proved",
   "theorems": [
    "Spgrep.c11_regular_representation"
   ],
   "note": ""
  },
  {
   "property": "C12",
   "status": "proved",
   "theorems": [
    "Spgrep.c12_projective_regular"
   ],
   "note": ""
  },
  {
   "property": "C13",
   "status": "proved",
   "theorems": [
    "Spgrep.c13_intertwiner"
   ],
   "note": ""
  },
  {
   "property": "C14",
   "status": "proved",
   "theorems": [
    "Spgrep.c14_equivalence_test"
   ],
   "note": ""
  },
  {
   "property": "C15",
   "status": "proved",
   "theorems": [
    "Spgrep.c15_projection"
   ],
   "note": ""
  },
  {
   "property": "C16",
   "status": "proved",
   "theorems": [
    "Spgrep.c16_tolerance_search"
   ],
   "note": "max_num_trials = 0 is an UnboundLocalError, stated in the theorem."
  },
  {
   "property": "C17",
   "status": "proved",
   "theorems": [
    "Spgrep.c17_frobenius_schur"
   ],
   "note": "Proved more generally for factor systems of signs."
  },
  {
   "property": "C18",
   "status": "partial",
   "theorems": [
    "Spgrep.c18_small_reps_partial",
    "Spgrep.c18_small_reps_refuted"
   ],
   "note": "False of the code: I2_12_12_1 at W raises ValueError. Partial: if there are no fractional translations, or 2k and twice the translations are integral, or all small representations are one-dimensional (SafeCase), the enumeration does not raise."
  },
  {
   "property": "C19",
   "status": "proved",
   "theorems": [
    "Spgrep.c19_doubled"
   ],
   "note": ""
  },
  {
   "property": "C20",
   "status": "partial",
   "theorems": [
    "Spgrep.c20_real_case_partial",
    "Spgrep.c20_real_case_refuted"
   ],
   "note": "Fails for some valid eigendecompositions: T should be S Omega^(1/2) S^T and the conjugation direction is reversed. Proved when S^T diag(w) S is proportional to the inverse of the intertwiner."
  },
  {
   "property": "C21",
   "status": "proved",
   "theorems": [
    "Spgrep.c21_pairing"
   ],
   "note": ""
  },
  {
   "property": "C22",
   "status": "partial",
   "theorems": [
    "Spgrep.c22_real_contains_partial",
    "Spgrep.c22_real_lost_partial",
    "Spgrep.c22_real_refuted"
   ],
   "note": "False of the code: P3 at (0,0,1/3) loses a small representation. Partial: at 2k = 0 mod G every small representation not of real type is contained; at other k each returned representation contains exactly one small representation."
  },
  {
   "property": "C23",
   "status": "proved",
   "theorems": [
    "Spgrep.c23_direct_product"
   ],
   "note": ""
  },
  {
   "property": "C24",
   "status": "proved",
   "theorems": [
    "Spgrep.c24_tensors_invariant"
   ],
   "note": "Unless an intertwiner search gave up; for real=True the eigen-solver has to satisfy its contract (C69)."
  },
  {
   "property": "C25",
   "status": "partial",
   "theorems": [
    "Spgrep.c25_intrinsic_symmetry_partial",
    "Spgrep.c25_intrinsic_symmetry_refuted"
   ],
   "note": "Proved for all lists of nonzero tensors of any rank; a zero tensor makes the code divide by zero."
  },
  {
   "property": "C26",
   "status": "proved",
   "theorems": [
    "Spgrep.c26_nroot"
   ],
   "note": ""
  },
  {
   "property": "C27",
   "status": "partial",
   "theorems": [
    "Spgrep.c27_is_prime_partial",
    "Spgrep.c27_is_prime_refuted"
   ],
   "note": "The code returns True for every n < 2; proved correct for n >= 2."
  },
  {
   "property": "C28",
   "status": "proved",
   "theorems": [
    "Spgrep.c28_mode_dot"
   ],
   "note": "Every rank, shapes and commutative semiring of entries."
  },
  {
   "property": "C29",
   "status": "proved",
   "theorems": [
    "Spgrep.c29_purify"
   ],
   "note": ""
  },
  {
   "property": "C30",
   "status": "proved",
   "theorems": [
    "Spgrep.c30_tables_are_groups"
   ],
   "note": "Kernel evaluation over the whole finite table, lifted by checkGroup_sound."
  },
  {
   "property": "C31",
   "status": "proved",
   "theorems": [
    "Spgrep.c31_tabulated_chains"
   ],
   "note": "Kernel evaluation over the whole finite table, lifted by checkChain_sound."
  },
  {
   "property": "C32",
   "status": "proved",
   "theorems": [
    "Spgrep.c32_chain_generators"
   ],
   "note": ""
  },
  {
   "property": "C33",
   "status": "proved",
   "theorems": [
    "Spgrep.c33_chain_unitary_projective"
   ],
   "note": "About the arrays before purification; the intertwiner search must not give up on all draws (c34_draws_exist: such draws exist for every group)."
  },
  {
   "property": "C34",
   "status": "proved",
   "theorems": [
    "Spgrep.c34_chain_complete",
    "Spgrep.c34_draws_exist",
    "Spgrep.c34_pointgroup"
   ],
   "note": "As C33; c34_pointgroup combines it with the tabulated generators of C32."
  },
  {
   "property": "C35",
   "status": "proved",
   "theorems": [
    "Spgrep.c35_random_enumeration",
    "Spgrep.c35_draws_exist"
   ],
   "note": "For every output of eigh/qr meeting their contracts and 0 <= rtol <= 1/2; c35_draws_exist: some draws succeed for every group."
  },
  {
   "property": "C36",
   "status": "partial",
   "theorems": [
    "Spgrep.c36_decompose_partial",
    "Spgrep.c36_draws_exist",
    "Spgrep.c36_decompose_refuted"
   ],
   "note": "False of the code when an irrep occurs more than once (warning and empty list). Partial: a result without warning is a correct decomposition, and exists for multiplicity-free representations."
  },
  {
   "property": "C37",
   "status": "proved",
   "theorems": [
    "Spgrep.c37_transform"
   ],
   "note": ""
  },
  {
   "property": "C38",
   "status": "partial",
   "theorems": [
    "Spgrep.c38_unique_partial",
    "Spgrep.c38_unique_refuted"
   ],
   "note": "False of the code: the map is correct exactly when all first occurrences precede all repetitions (proved as an equivalence); refuted for the order E, E', R, R'. All other clauses proved without restriction."
  },
  {
   "property": "C39",
   "status": "proved",
   "theorems": [
    "Spgrep.c39_primitive_matrix"
   ],
   "note": "spglib.get_spacegroup_type is a parameter."
  },
  {
   "property": "C40",
   "status": "proved",
   "theorems": [
    "Spgrep.c40_crystal_system"
   ],
   "note": ""
  },
  {
   "property": "C41",
   "status": "partial",
   "theorems": [
    "Spgrep.c41_conventional_partial",
    "Spgrep.c41_conventional_refuted",
    "Spgrep.c41_near_miss"
   ],
   "note": "False of the code for lists in which a repetition precedes a first occurrence (consequence of C38); proved for all other lists, up to the purification tolerance."
  },
  {
   "property": "C42",
   "status": "partial",
   "theorems": [
    "Spgrep.c42_primitive_check_partial",
    "Spgrep.c42_primitive_check_refuted"
   ],
   "note": "False of get_spacegroup_irreps: a translation of the identity off by -1e-9 is reduced to 1-1e-9 and rejected. Proved for the primitive function when atol + rtol < 1."
  },
  {
   "property": "C43",
   "status": "partial",
   "theorems": [
    "Spgrep.c43_spinor_rotation_partial",
    "Spgrep.c43_angle_axis_partial",
    "Spgrep.c43_small_angle_refuted"
   ],
   "note": "Proved for all integer isometries of all lattices (the declared input of get_spinor_unitary_rotation), and for all rotations in SO(3) whose trace is 3, -1 or at least 1e-4 away from both; false for tiny angles, which are taken for the identity. np.linalg.eig enters through SymmEigContract."
  },
  {
   "property": "C44",
   "status": "proved",
   "theorems": [
    "Spgrep.c44_spinor_factor_system"
   ],
   "note": "np.linalg.eig enters through SymmEigContract, satisfiable by symmEigContract_exists."
  },
  {
   "property": "C45",
   "status": "proved",
   "theorems": [
    "Spgrep.c45_spinor_small_reps",
    "Spgrep.c45_runs"
   ],
   "note": "Up to the purification tolerance atol; methods Neto and random, contracts for outside routines as in C56/C60. Also completeness."
  },
  {
   "property": "C46",
   "status": "proved",
   "theorems": [
    "Spgrep.c46_corep_spinor_factor_system"
   ],
   "note": "np.linalg.eig enters through SymmEigContract."
  },
  {
   "property": "C47",
   "status": "partial",
   "theorems": [
    "Spgrep.c47_coset_decomposition_partial",
    "Spgrep.c47_type_one_refuted"
   ],
   "note": "Proved for every list with at least one time reversal (also centred cells, rotation entries below 100000 because the code compares integers with np.allclose); false for type-I groups, where a TypeError is raised."
  },
  {
   "property": "C48",
   "status": "partial",
   "theorems": [
    "Spgrep.c48_corep_law_partial",
    "Spgrep.c48_refuted",
    "Spgrep.c48_repaired"
   ],
   "note": "Exact criterion: without warning, a returned co-representation obeys the law iff the matrices of its irrep (and of its conjugate, for doubled ones) are real, and for indicator -1 the conjugate equals the irrep; the law always holds between operations without time reversal. False for 21' at k=0: every returned co-representation violates it. c48_repaired proves the law after inserting the missing complex conjugation."
  },
  {
   "property": "C49",
   "status": "partial",
   "theorems": [
    "Spgrep.c49_unitary_part_partial",
    "Spgrep.c49_refuted"
   ],
   "note": "Proved when the nonsymmorphic factors between operations without time reversal are +-1, up to the purification tolerance atol; missing: complex factors, where the claim is false: the conjugate has the conjugated factors, shown for 21' with a shifted origin at k=(1/2,0,0)."
  },
  {
   "property": "C50",
   "status": "proved",
   "theorems": [
    "Spgrep.c50_wigner"
   ],
   "note": "For every anti-linear cocycle on a magnetic group; indicator as computed by the code (rounded sum)."
  },
  {
   "property": "C51",
   "status": "partial",
   "theorems": [
    "Spgrep.c51_magnetic_factor_system_partial",
    "Spgrep.c51_refuted"
   ],
   "note": "Exact criterion: with an anti-linear operation, the anti-linear cocycle condition holds iff all nonsymmorphic factors are +-1; false for P4_1 2'2' at (0,0,1/2)."
  },
  {
   "property": "C52",
   "status": "proved",
   "theorems": [
    "Spgrep.c52_kpoint_basis"
   ],
   "note": ""
  },
  {
   "property": "C53",
   "status": "proved",
   "theorems": [
    "Spgrep.c53_integer_conversion"
   ],
   "note": ""
  },
  {
   "property": "C54",
   "status": "proved",
   "theorems": [
    "Spgrep.c54_grassmann"
   ],
   "note": "For bases (linearly independent rows, at least one) and QR/SVD routines meeting their contract; exists_linAlg_contract shows the contract is satisfiable."
  },
  {
   "property": "C55",
   "status": "partial",
   "theorems": [
    "Spgrep.c55_time_reversal_partial",
    "Spgrep.c55_runs",
    "Spgrep.c55_grey_refuted",
    "Spgrep.c55_refuted"
   ],
   "note": "Exact criterion: the flags are right for all operations iff operations of the little group with equal rotations have equal time reversals (types I and III). False for grey groups and type IV: the time reversals are lost and the result is that of the non-magnetic function."
  },
  {
   "property": "C56",
   "status": "proved",
   "theorems": [
    "Spgrep.c56_small_reps_complete"
   ],
   "note": "Method Neto; spglib.get_pointgroup enters through PointgroupContract."
  },
  {
   "property": "C57",
   "status": "proved",
   "theorems": [
    "Spgrep.c57_projection_basis"
   ],
   "note": "For every correct QR and SVD routine and every max_trials > 0."
  },
  {
   "property": "C58",
   "status": "partial",
   "theorems": [
    "Spgrep.c58_tensors_basis_partial",
    "Spgrep.c58_tensors_basis_refuted"
   ],
   "note": "Proved for real=False; for real=True if the representation has real entries or every rotation is conjugate to its inverse; either if no intertwiner search gave up or for rich enough draws. The remaining case (real=True, complex representation, non-ambivalent group) is false of the code: c58_tensors_basis_refuted gives group 4/m, a two-dimensional complex representation and rank 2, where without a warning all returned tensors are zero."
  },
  {
   "property": "C59",
   "status": "partial",
   "theorems": [
    "Spgrep.c59_intrinsic_span_partial",
    "Spgrep.c59_intrinsic_span_refuted"
   ],
   "note": "False of the code: independent tensors at distance below 0.5 are discarded. Partial: the span is contained, and equal when the number of tensors is the dimension."
  },
  {
   "property": "C60",
   "status": "proved",
   "theorems": [
    "Spgrep.c60_small_reps_random"
   ],
   "note": "Method random; as C56."
  },
  {
   "property": "C61",
   "status": "proved",
   "theorems": [
    "Spgrep.c61_near_miss",
    "Spgrep.c61_runs_near_miss",
    "Spgrep.c61_end_to_end",
    "Spgrep.c61_runs"
   ],
   "note": "Contracts for the outside routines as in C56/C60; c61_runs: runs without warning exist for all symmorphic groups (method Neto)."
  },
  {
   "property": "C62",
   "status": "proved",
   "theorems": [
    "Spgrep.c62_near_miss",
    "Spgrep.c62_runs_near_miss",
    "Spgrep.c62_end_to_end",
    "Spgrep.c62_runs"
   ],
   "note": "Non-magnetic; up to the purification tolerances; both methods; random generator, eigen-solvers and spglib are oracles with stated contracts."
  },
  {
   "property": "C63",
   "status": "proved",
   "theorems": [
    "Spgrep.c63_pointgroup_spinor",
    "Spgrep.c63_runs"
   ],
   "note": "Without time reversals; up to the purification tolerance."
  },
  {
   "property": "C64",
   "status": "proved",
   "theorems": [
    "Spgrep.c64_exact_entries"
   ],
   "note": "Runs in which no intertwiner search gives up; such draws exist for every group."
  },
  {
   "property": "C65",
   "status": "proved",
   "theorems": [
    "Spgrep.c65_setting_independent"
   ],
   "note": "Both runs without warning; contracts for the outside routines as in C56/C60."
  },
  {
   "property": "C66",
   "status": "proved",
   "theorems": [
    "Spgrep.c66_characters",
    "Spgrep.c66_small_reps"
   ],
   "note": "Runs without warning; the relations hold for the exact families within atol of the returned arrays."
  },
  {
   "property": "C67",
   "status": "proved",
   "theorems": [
    "Spgrep.c67_corep_classification"
   ],
   "note": "The matrices of the anti-unitary operations are not part of the claim: see C48."
  },
  {
   "property": "C68",
   "status": "proved",
   "theorems": [
    "Spgrep.c68_doubled_irreducible"
   ],
   "note": "Both directions."
  },
  {
   "property": "C69",
   "status": "proved",
   "theorems": [
    "Spgrep.c69_real_irreps"
   ],
   "note": "Contract of np.linalg.eig: a unitary eigenbasis if the matrix has one, and the standard basis for a multiple of the identity."
  },
  {
   "property": "C70",
   "status": "proved",
   "theorems": [
    "Spgrep.c70_indicators"
   ],
   "note": ""
  },
  {
   "property": "C71",
   "status": "proved",
   "theorems": [
    "Spgrep.c71_doubled_irrep",
    "Spgrep.c71_complex_raises"
   ],
   "note": "Over the reals the commutant of such an irrep is a field larger than the reals, so the number of basis vectors computed from characters is twice the number of blocks. c71_complex_raises: a one-dimensional complex representation of 4/m, for all routines and tolerances."
  },
  {
   "property": "C72",
   "status": "proved",
   "theorems": [
    "Spgrep.c72_chain_table",
    "Spgrep.c72_comment_refuted"
   ],
   "note": "The whole table, by kernel evaluation of a checker with a soundness lemma. c72_comment_refuted: the commented-out assertion read literally fails for 4."
  },
  {
   "property": "C73",
   "status": "proved",
   "theorems": [
    "Spgrep.c73_sorted",
    "Spgrep.c73_trivial_first"
   ],
   "note": "The second theorem is about runs without a warning; with real=True the intertwiner search for the trivial irrep must not give up."
  },
  {
   "property": "C74",
   "status": "proved",
   "theorems": [
    "Spgrep.c74_adapted_basis"
   ],
   "note": "Runs without the warning; C75 says when the warning cannot occur."
  },
  {
   "property": "C75",
   "status": "partial",
   "theorems": [
    "Spgrep.c75_all_blocks_found_partial",
    "Spgrep.c75_refuted"
   ],
   "note": "Proved for multiplicity at most 3 (dimension times clipped tolerance below 1/2) and for multiplicity 4 (no projected unit vector below the tolerance but nonzero). For multiplicity 5 the claim is false: c75_refuted gives a nine-dimensional representation of the group of order two for which every run ends with the warning and four of five blocks."
  },
  {
   "property": "C76",
   "status": "proved",
   "theorems": [
    "Spgrep.c76_principal_angles"
   ],
   "note": ""
  },
  {
   "property": "C77",
   "status": "proved",
   "theorems": [
    "Spgrep.c77_tensor_count"
   ],
   "note": "The enumeration giving no warning is a hypothesis on the observable outcome; C62 and C64 say when it holds."
  },
  {
   "property": "C78",
   "status": "partial",
   "theorems": [
    "Spgrep.c78_nonunitary_partial",
    "Spgrep.c78_refuted"
   ],
   "note": "The full statement is false: c78_refuted gives the group 32 in hexagonal coordinates."
  },
  {
   "property": "C79",
   "status": "proved",
   "theorems": [
    "Spgrep.c79_draws",
    "Spgrep.c79_first_draw",
    "Spgrep.c79_enumeration"
   ],
   "note": ""
  },
  {
   "property": "C80",
   "status": "proved",
   "theorems": [
    "Spgrep.c80_pointgroup_irreps",
    "Spgrep.c80_pointgroup_real_irreps",
    "Spgrep.c80_runs",
    "Spgrep.c80_pointgroup_irreps_random",
    "Spgrep.c80_random_runs"
   ],
   "note": "User-level statement for get_crystallographic_pointgroup_irreps_from_symmetry. The real case assumes that the searches for intertwiners with the conjugates succeed (their warnings are not part of the returned flag); c80_runs shows first draws in (0,1) for which they do."
  },
  {
   "property": "C81",
   "status": "proved",
   "theorems": [
    "Spgrep.c81_pointgroup_coreps"
   ],
   "note": "From C67 at k = 0 without translations. The matrices of the operations with time reversal are not part of the claim: they are wrong (C48)."
  },
  {
   "property": "C82",
   "status": "partial",
   "theorems": [
    "Spgrep.c82_tensors_nonunitary_partial",
    "Spgrep.c82_refuted"
   ],
   "note": "Proved for commuting matrices and complex irreps. False with real=True: for the rotations of P3 in hexagonal coordinates some returned tensor is not invariant, for every choice of draws and eigenvectors within the contracts. The unitary case is C24, C58 and C77."
  },
  {
   "property": "C83",
   "status": "proved",
   "theorems": [
    "Spgrep.c83_real_tensors"
   ],
   "note": "No hypothesis beyond real matrices. The claim is about values, not about numpy's dtype."
  },
  {
   "property": "C84",
   "status": "proved",
   "theorems": [
    "Spgrep.c84_real_tensor_basis"
   ],
   "note": "For groups with a rotation that is not conjugate to its inverse the projections necessarily warn if such irreps occur (C71)."
  },
  {
   "property": "C85",
   "status": "proved",
   "theorems": [
    "Spgrep.c85_fourier"
   ],
   "note": ""
  },
  {
   "property": "C86",
   "status": "proved",
   "theorems": [
    "Spgrep.c86_indicator_count"
   ],
   "note": ""
  },
  {
   "property": "C87",
   "status": "proved",
   "theorems": [
    "Spgrep.c87_projective_dimensions",
    "Spgrep.c87_irrep_dimensions",
    "Spgrep.c87_small_dimensions",
    "Spgrep.c87_spinor_dimensions"
   ],
   "note": ""
  },
  {
   "property": "C88",
   "status": "proved",
   "theorems": [
    "Spgrep.c88_irreps_almost_surely",
    "Spgrep.c88_pointgroup_almost_surely",
    "Spgrep.c88_spinor_almost_surely"
   ],
   "note": ""
  },
  {
   "property": "C89",
   "status": "proved",
   "theorems": [
    "Spgrep.c89_class_counts",
    "Spgrep.c89_contract_class",
    "Spgrep.c89_symbol_determined",
    "Spgrep.c89_settings_conjugate_iff"
   ],
   "note": ""
  },
  {
   "property": "C90",
   "status": "proved",
   "theorems": [
    "Spgrep.c90_real_characters"
   ],
   "note": "Contracts as in C69 and C80."
  },
  {
   "property": "C91",
   "status": "proved",
   "theorems": [
    "Spgrep.c91_irreps_almost_surely",
    "Spgrep.c91_spinor_almost_surely",
    "Spgrep.c91_pointgroup_spinor_almost_surely",
    "Spgrep.c91_pointgroup_coreps_almost_surely",
    "Spgrep.c91_coreps_almost_surely"
   ],
   "note": "The tolerance may depend on the draws, as in C88. Magnetic moments: type III with an anti-linear operation in the little group. get_pointgroup and eig within their contracts."
  },
  {
   "property": "C92",
   "status": "proved",
   "theorems": [
    "Spgrep.c92_kramers"
   ],
   "note": "Draws: rich enough, or the irreps of the unitary part found without warning (C91)."
  },
  {
   "property": "C93",
   "status": "proved",
   "theorems": [
    "Spgrep.c93_corep_characters"
   ],
   "note": "Characters are those of the complete list of C67 that the returned matrices approximate within atol; the dimensions and indicators are the returned ones."
  },
  {
   "property": "C94",
   "status": "proved",
   "theorems": [
    "Spgrep.c94_monomial_input"
   ],
   "note": "Added because a mutant that accepts several non-zero entries survived."
  },
  {
   "property": "C95",
   "status": "partial",
   "theorems": [
    "Spgrep.c95_bloch_partial",
    "Spgrep.c95_refuted"
   ],
   "note": "False as stated: get_little_group takes the operations with kR = k also when they reverse the time. Proved: the linear operations are compatible, an anti-linear one is so iff 2k is a reciprocal lattice vector, and then the list is exactly the set of compatible operations. The refutation runs the model for the group C2' of type III at (0, 1/2, 1/2)."
  },
  {
   "property": "C96",
   "status": "proved",
   "theorems": [
    "Spgrep.c96_any_answer"
   ],
   "note": "Shows that the missing raise in pointgroup.py:717 is harmless: the enumeration notices the empty chain."
  },
  {
   "property": "C97",
   "status": "proved",
   "theorems": [
    "Spgrep.c97_character_test",
    "Spgrep.c97_frobenius_schur",
    "Spgrep.c97_spinor_sign",
    "Spgrep.c97_spinor_product",
    "Spgrep.c97_little_group"
   ],
   "note": "Narrows the gap left by modelling floats as exact numbers: the branches of the code do not depend on rounding."
  },
  {
   "property": "C98",
   "status": "proved",
   "theorems": [
    "Spgrep.c98_accepts",
    "Spgrep.c98_accepts_unitary",
    "Spgrep.c98_accepted",
    "Spgrep.c98_accepted_unitary",
    "Spgrep.c98_spacegroup",
    "Spgrep.c98_spacegroup_accepts"
   ],
   "note": "Almost representations of finite groups are near representations: quadratically convergent averaging, then a positive square root to make the limit unitary."
  },
  {
   "property": "C99",
   "status": "proved",
   "theorems": [
    "Spgrep.c99_certificate",
    "Spgrep.c99_spacegroup",
    "Spgrep.c99_converse",
    "Spgrep.c99_spacegroup_converse"
   ],
   "note": "The bound n*d^3 <= 15000 covers all crystallographic point groups and their double groups (48*6^3 = 10368)."
  },
  {
   "property": "C100",
   "status": "proved",
   "theorems": [
    "Spgrep.c100_small_reps",
    "Spgrep.c100_spinor"
   ],
   "note": "The restriction atol <= 7e-10 is where the worst case bound d*(2*atol+atol^2)+atol (d <= 6) stays below the tolerance 1e-8 of the checks; the default atol of the enumeration is 1e-8."
  },
  {
   "property": "C101",
   "status": "proved",
   "theorems": [
    "Spgrep.c101_runs_agree"
   ],
   "note": ""
  },
  {
   "property": "C102",
   "status": "proved",
   "theorems": [
    "Spgrep.c102_check_outcomes"
   ],
   "note": ""
  },
  {
   "property": "C103",
   "status": "proved",
   "theorems": [
    "Spgrep.c103_pointgroup",
    "Spgrep.c103_real"
   ],
   "note": ""
  },
  {
   "property": "C104",
   "status": "partial",
   "theorems": [
    "Spgrep.c104_symmetric_tensors_partial",
    "Spgrep.c104_characters",
    "Spgrep.c104_multiplicity_free",
    "Spgrep.c104_refuted"
   ],
   "note": "The returned tensors are symmetric, invariant, independent, and not more than the number given by the character formula, with equality exactly if they are a basis. That they always are a basis is false of the code: c104_refuted shows it for a mirror plane with normal (2,2,1)/3 at rank two, where three of four are returned at most. For rank two and representations without repeated irreps c104_multiplicity_free shows that it is a basis."
  },
  {
   "property": "C105",
   "status": "proved",
   "theorems": [
    "Spgrep.c105_pointgroup_kramers"
   ],
   "note": "Consequence of C67, C92 and C93 for the user-level function; adds that the result is not empty and the range of the indicators."
  },
  {
   "property": "C106",
   "status": "partial",
   "theorems": [
    "Spgrep.c106_input_cell_partial",
    "Spgrep.c106_no_representation",
    "Spgrep.c106_supercell_refuted",
    "Spgrep.c106_closed_of_run",
    "Spgrep.c106_primitive_cell_refuted"
   ],
   "note": "Proved when the translations of the crystal in the given cell are exactly the lattice of the centring of the Hall number (c106_input_cell_partial).  False otherwise: the centring is chosen from the Hall number but applied to operations of the input cell.  For P2 in a doubled cell every run lists an operation that does not fix k and returns matrices although no invertible matrices multiply like the listed operations (c106_supercell_refuted, from the general criterion c106_no_representation); for the primitive cell of a face-centred cubic crystal every call at the Gamma point raises (c106_primitive_cell_refuted, from c106_closed_of_run)."
  },
  {
   "property": "C107",
   "status": "proved",
   "theorems": [
    "Spgrep.c107_convention",
    "Spgrep.c107_solver_free",
    "Spgrep.c107_factor_solver_free",
    "Spgrep.c107_lattice",
    "Spgrep.c107_runs_agree",
    "Spgrep.c107_signs_occur"
   ],
   "note": "c107_convention says which of the two SU(2) matrices is returned. c107_solver_free and c107_factor_solver_free give equality for the same lattice, c107_lattice the relation for two lattices, c107_runs_agree the statement about runs. The signs cannot be removed: for 222 a rotation of the crystal by 90 degrees changes the factor system (c107_signs_occur)."
  },
  {
   "property": "C108",
   "status": "proved",
   "theorems": [
    "Spgrep.c108_star",
    "Spgrep.c108_star_spinor",
    "Spgrep.c108_little_group",
    "Spgrep.c108_minus_k",
    "Spgrep.c108_minus_k_primitive",
    "Spgrep.c108_minus_k_spinor"
   ],
   "note": "Runs without warnings whose tolerance admits no near miss (NoNearMiss: for N k integral every tolerance below 1/N, for any k every tolerance below a positive threshold, C112); characters within d(atol + atol'). The statements for -k also show that is_equivalent_irrep recognises the conjugate (tolerances up to 1e-4, at most 48 operations)."
  },
  {
   "property": "C109",
   "status": "proved",
   "theorems": [
    "Spgrep.c109_lattice",
    "Spgrep.c109_factor_solver_free",
    "Spgrep.c109_runs_agree"
   ],
   "note": "c109_lattice and c109_factor_solver_free are about get_corep_spinor_factor_system, c109_runs_agree about the enumeration with method Neto. Nothing is said about the matrices of operations with time reversal, which need not obey the law (C48). k-points whose factors are not 1 or -1 are left out, as in C67."
  },
  {
   "property": "C110",
   "status": "proved",
   "theorems": [
    "Spgrep.c110_isomorphic",
    "Spgrep.c110_isomorphic_real"
   ],
   "note": "Method Neto, runs without warnings; over the reals the searches for the intertwiners with the conjugate irreps are assumed to succeed, which generic draws guarantee (C69)."
  },
  {
   "property": "C111",
   "status": "proved",
   "theorems": [
    "Spgrep.c111_unitary_rotation",
    "Spgrep.c111_inversion_blind",
    "Spgrep.c111_not_abstract"
   ],
   "note": "Runs without warnings, no time reversal. The two runs may use different methods and eigen-solvers."
  },
  {
   "property": "C112",
   "status": "proved",
   "theorems": [
    "Spgrep.c112_threshold",
    "Spgrep.c112_little_group",
    "Spgrep.c112_irreps",
    "Spgrep.c112_runs",
    "Spgrep.c112_spinor"
   ],
   "note": "Extends C07, C41, C61 and C62 from rational k-points (denominator N, atol < 1/N) to all real k-points. The example is C2 on the line (0, y, 1/2) with y = sqrt 2."
  },
  {
   "property": "C113",
   "status": "proved",
   "theorems": [
    "Spgrep.c113_neumann",
    "Spgrep.c113_two_runs",
    "Spgrep.c113_inversion"
   ],
   "note": "For real=False and unitary representations, as in C58. The example is 4/m with axis z and its subgroup 2/m with axis y: 3 and 5 tensors of rank two, none of rank three."
  },
  {
   "property": "C114",
   "status": "proved",
   "theorems": [
    "Spgrep.c114_decomposition",
    "Spgrep.c114_primitive",
    "Spgrep.c114_spinor"
   ],
   "note": "Spec.blockSum (block-diagonal matrix of copies) is defined in Spec/BlockSum.lean. The example is the group 23 at (1/4,0,0) with and without spin, with E the action on vectors."
  },
  {
   "property": "C115",
   "status": "proved",
   "theorems": [
    "Spgrep.c115_subduction",
    "Spgrep.c115_products"
   ],
   "note": "For real=False and method Neto, whose entries are exact (C64). The example is 4/m with axis z and 2/m with axis y."
  },
  {
   "property": "C116",
   "status": "proved",
   "theorems": [
    "Spgrep.c116_full_group"
   ],
   "note": "Without spin. The whole group is Spec.spaceGroup (Spec/FullGroup.lean), a subgroup of the permutations of space. The example is the group 23 at (1/4,0,0), with six points in the star."
  },
  {
   "property": "C117",
   "status": "proved",
   "theorems": [
    "Spgrep.c117_exists",
    "Spgrep.c117_star",
    "Spgrep.c117_classification"
   ],
   "note": "Without spin. c117_exists and c117_star are about the specification (Spec/FullGroup.lean); c117_classification joins them to the model through C116. The example is a two-dimensional irreducible unitary representation of P-1 with the star (1/4,0,0), (-1/4,0,0)."
  },
  {
   "property": "C118",
   "status": "proved",
   "theorems": [
    "Spgrep.c118_same_star",
    "Spgrep.c118_other_star"
   ],
   "note": "Without spin. C108 compares the characters of two such runs; C118 compares the representations of the whole group that they label. The examples are the group 23 at (1/4,0,0) and (0,1/4,0), and at the zone centre and (1/4,0,0)."
  },
  {
   "property": "C119",
   "status": "proved",
   "theorems": [
    "Spgrep.c119_indicator",
    "Spgrep.c119_not_self_conjugate"
   ],
   "note": "Without spin. Points with -k in the star of k but 2k not a reciprocal lattice vector are not covered: there the indicator of the small representation decides nothing. c119_not_self_conjugate uses the run only for the list of the little group. The examples are the group 23 at the zone centre and P2 at a quarter of the reciprocal axis parallel to the rotation axis."
  },
  {
   "property": "C120",
   "status": "proved",
   "theorems": [
    "Spgrep.c120_sign",
    "Spgrep.c120_real"
   ],
   "note": "Without spin. c120_sign has both signs as antilinear symmetries T; c120_real gives the change of basis P to real matrices for the indicator 1. The example is the group 23 at the zone centre with a representation of the whole group that contains the first small representation."
  }
 ]
}