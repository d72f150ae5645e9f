{"id": "C01", "title": "Cayley table is the multiplication table", "statement": "If the given operations (rotations, with optional 0/1 time-reversal flags) enumerate a group, get_cayley_table returns a table and table[i,j]=k holds exactly when rotations[i]@rotations[j]==rotations[k] and the time-reversal flags xor; every row and every column is a permutation.", "quantifier": "every finite list of integer 3x3 matrices with flags that enumerates a (magnetic) matrix group, of any order", "why_tests_cant": "tests try a handful of tabulated groups; the claim ranges over every group, ordering and flag assignment", "anchors": ["src/spgrep/group.py:get_cayley_table"]}
{"id": "C02", "title": "Cayley table rejects non-closed input", "statement": "get_cayley_table raises ValueError exactly when some product of two given operations is missing from the list; otherwise it returns a full table with no placeholder entry.", "quantifier": "every finite list of integer matrices and flags, group or not", "why_tests_cant": "needs every possible missing product, not a sampled one", "anchors": ["src/spgrep/group.py:get_cayley_table"]}
{"id": "C03", "title": "Identity and inverse lookup", "statement": "On the Cayley table of a group, get_identity_index returns the index of the identity matrix, get_inverse_index returns the index of the inverse matrix, and neither raises.", "quantifier": "every matrix group, every ordering, every index", "why_tests_cant": "the identity may be at any position of any group ordering", "anchors": ["src/spgrep/group.py:get_identity_index", "src/spgrep/group.py:get_inverse_index"]}
{"id": "C04", "title": "Element order terminates and is minimal", "statement": "On the Cayley table of a group get_order terminates and returns the least m>=1 with rotations[idx]^m equal to the identity; m divides the group order.", "quantifier": "every matrix group and every index", "why_tests_cant": "termination of an unbounded while loop cannot be tested", "anchors": ["src/spgrep/group.py:get_order"]}
{"id": "C05", "title": "is_matrix_group decides being a group", "statement": "is_matrix_group returns True iff the given integer matrices form a group (distinct, non-empty, closed, with identity and inverses).", "quantifier": "every finite list of integer 3x3 matrices", "why_tests_cant": "'iff' over all lists; false positives live outside the tabulated groups", "anchors": ["src/spgrep/group.py:is_matrix_group"]}
{"id": "C06", "title": "Little group membership", "statement": "get_little_group returns, in input order and without repetition, exactly the operations i for which some integer vector m has |(R_i^T k - k - m)_a|<=atol in every component, together with their own rotations and translations.", "quantifier": "every list of operations, every k-point, every atol in [0,1/2)", "why_tests_cant": "an iff over a continuum of k-points", "anchors": ["src/spgrep/group.py:get_little_group"]}
{"id": "C07", "title": "Little group is a group", "statement": "If the rotations form a group then the rotations returned by get_little_group form a group (so the next step, get_cayley_table, cannot raise).", "quantifier": "every point group, every k-point, every atol", "why_tests_cant": "closure under the tolerance test must hold for every k-point, including almost symmetric ones", "anchors": ["src/spgrep/group.py:get_little_group", "src/spgrep/group.py:get_cayley_table"]}
{"id": "C08", "title": "Factor system is a normalised unimodular cocycle", "statement": "For the operations of a space group that fix k modulo reciprocal lattice vectors, get_factor_system_from_little_group returns a factor system mu with |mu|=1, mu(i,jk)mu(j,k)=mu(ij,k)mu(i,j), mu(E,j)=1, and mu(i,E)=1 when the identity carries an integer translation.", "quantifier": "every space group given in a primitive basis (any origin), every k-point", "why_tests_cant": "all origins and all k-points, a continuum", "anchors": ["src/spgrep/group.py:get_factor_system_from_little_group"]}
{"id": "C09", "title": "check_cocycle_condition accepts every genuine factor system", "statement": "check_cocycle_condition(rotations, factor_system) returns True for the factor system computed for any little group, returns True for any exact cocycle on a group, and returns False whenever the matrices are not closed.", "quantifier": "every group, every cocycle", "why_tests_cant": "soundness and completeness over all cocycles", "anchors": ["src/spgrep/group.py:check_cocycle_condition"]}
{"id": "C10", "title": "Small representations correspond to projective representations", "statement": "Multiplying a projective representation of the little co-group (with the computed factor system) by exp(-2 pi i k.w_j) gives matrices that satisfy the space group law Gamma_i Gamma_j = exp(-2 pi i k.(R_i w_j + w_i - w_ij)) Gamma_ij, and conversely; unitarity is preserved; check_spacegroup_representation returns True for them.", "quantifier": "every space group, k-point, representation dimension and factor system (also with a spinor factor)", "why_tests_cant": "law over all group elements, all k", "anchors": ["src/spgrep/irreps.py:enumerate_small_representations", "src/spgrep/representation.py:check_spacegroup_representation"]}
{"id": "C11", "title": "Regular representation", "statement": "get_regular_representation returns 0/1 matrices with reg[k,i,j]==1 iff R_k R_j==R_i; they multiply like the group, are permutation matrices, and their character is |G| at the identity and 0 elsewhere.", "quantifier": "every matrix group", "why_tests_cant": "ranges over every group and every triple of indices", "anchors": ["src/spgrep/representation.py:get_regular_representation"]}
{"id": "C12", "title": "Projective regular representation", "statement": "For every unimodular cocycle, get_projective_regular_representation satisfies reg(k)reg(l)=mu(k,l)reg(kl), is unitary, and has the character of the regular representation when mu is normalised.", "quantifier": "every group and every cocycle of modulus one", "why_tests_cant": "continuum of cocycles", "anchors": ["src/spgrep/representation.py:get_projective_regular_representation"]}
{"id": "C13", "title": "Intertwiner", "statement": "For unitary irreps with the same factor system, whenever get_intertwiner does not warn it returns U with rep1(g)U=U rep2(g) for all g, det U=1 and U unitary; it warns (and returns zero) only if every random draw gave a matrix within atol of zero.", "quantifier": "every group, cocycle, pair of unitary irreps, every sequence of random matrices", "why_tests_cant": "all random draws, all irreps", "anchors": ["src/spgrep/representation.py:get_intertwiner"]}
{"id": "C14", "title": "Character test decides equivalence", "statement": "For unitary projective irreps with the same factor system, is_equivalent_irrep on their characters returns True iff the irreps are equivalent.", "quantifier": "every finite group, cocycle and pair of irreps of any dimensions", "why_tests_cant": "needs Schur orthogonality for every group", "anchors": ["src/spgrep/irreps.py:is_equivalent_irrep", "src/spgrep/representation.py:get_character"]}
{"id": "C15", "title": "Projection yields symmetry-adapted bases", "statement": "Each block b produced by the projection in project_to_irrep transforms as rep(g) b_i = sum_l b_l irrep(g)_{l i}, and its rows are mutually orthogonal with one common norm, so that after normalisation they are orthonormal.", "quantifier": "every unitary representation and unitary irrep with the same factor system", "why_tests_cant": "all groups, all irreps, all dimensions", "anchors": ["src/spgrep/representation.py:project_to_irrep"]}
{"id": "C16", "title": "Tolerance search of project_to_irrep", "statement": "The retry loop of project_to_irrep runs at most max_num_trials times, keeps the working tolerance inside [1e-10,1e-2], stops as soon as the number of bases equals the character inner product, and warns at the end iff the numbers differ.", "quantifier": "every behaviour of the inner projection, every atol, every number of trials", "why_tests_cant": "every history of the search", "anchors": ["src/spgrep/representation.py:project_to_irrep"]}
{"id": "C17", "title": "Frobenius-Schur indicator", "statement": "For an irreducible unitary representation of a finite group frobenius_schur_indicator returns 1, -1 or 0 and never raises; it is 0 iff the irrep is inequivalent to its conjugate, 1 iff a symmetric intertwiner to the conjugate exists and -1 iff an antisymmetric one exists.", "quantifier": "every finite group and irrep", "why_tests_cant": "needs the Frobenius-Schur theorem for every group", "anchors": ["src/spgrep/representation.py:frobenius_schur_indicator"]}
{"id": "C18", "title": "Small representations never make the enumeration raise", "statement": "Enumerating the small representations of a valid space group at any k-point does not raise: in particular the irreducibility check inside the Frobenius-Schur indicator accepts every irreducible small representation.", "quantifier": "every space group in a primitive basis and every k-point", "why_tests_cant": "only rare (group, k) pairs reach the failing branch", "anchors": ["src/spgrep/irreps.py:enumerate_small_representations", "src/spgrep/representation.py:frobenius_schur_indicator"]}
{"id": "C19", "title": "Physically irreducible representation, doubled case", "statement": "For indicator -1 or 0, get_physically_irrep returns real matrices of twice the dimension which multiply as the original (the complex factor c acting as [[Re c, Im c],[-Im c, Re c]]), are orthogonal when the irrep is unitary, contain both the irrep and its conjugate, and represent a translation by [[cos,-sin],[sin,cos]].", "quantifier": "every unitary projective irrep of any dimension", "why_tests_cant": "all irreps and translations", "anchors": ["src/spgrep/irreps.py:get_physically_irrep"]}
{"id": "C20", "title": "Physically irreducible representation, real case", "statement": "For indicator 1, get_physically_irrep returns real matrices forming a representation equivalent to the irrep, for every admissible output of the eigen-solver.", "quantifier": "every real-type unitary irrep and every valid eigendecomposition of the intertwiner", "why_tests_cant": "the eigen-solver may return any orthonormal eigenbasis", "anchors": ["src/spgrep/irreps.py:get_physically_irrep"]}
{"id": "C21", "title": "Conjugate pairing partitions the irreps", "statement": "The pairing loop of enumerate_unitary_irreps(real=True) puts every irrep index in exactly one pair, pairs i<j only if irrep j is equivalent to the conjugate of irrep i, and for a complete list of inequivalent irreps it returns one pair per conjugacy class.", "quantifier": "every list of irreps and every outcome of the equivalence test", "why_tests_cant": "all lists, all orders", "anchors": ["src/spgrep/irreps.py:enumerate_unitary_irreps", "src/spgrep/irreps.py:enumerate_small_representations"]}
{"id": "C22", "title": "No small representation is lost by real=True", "statement": "With real=True every small representation at k is a constituent of one of the returned physically irreducible representations.", "quantifier": "every space group and every k-point", "why_tests_cant": "requires k-points with 2k not equivalent to 0 and complex characters", "anchors": ["src/spgrep/irreps.py:enumerate_small_representations"]}
{"id": "C23", "title": "Direct product", "statement": "get_direct_product returns matrices that multiply like the product of both inputs (with product factor system), are unitary when both are, have the product character, and raises ValueError iff the shapes are inconsistent.", "quantifier": "every pair of representations of any dimensions", "why_tests_cant": "all dimensions", "anchors": ["src/spgrep/representation.py:get_direct_product"]}
{"id": "C24", "title": "Symmetry-adapted tensors are invariant", "statement": "Every tensor returned by get_symmetry_adapted_tensors is invariant under every given matrix acting on all of its indices.", "quantifier": "every unitary representation, every rank>=1", "why_tests_cant": "all ranks, all groups", "anchors": ["src/spgrep/tensor.py:get_symmetry_adapted_tensors"]}
{"id": "C25", "title": "Intrinsic symmetrisation", "statement": "Every tensor returned by apply_intrinsic_symmetry is invariant under every permutation of its axes, has norm one, is invariant under any group action the inputs are invariant under, and lies in the span of the symmetrised inputs.", "quantifier": "every list of tensors of equal shape and any rank", "why_tests_cant": "all ranks and permutations", "anchors": ["src/spgrep/tensor.py:apply_intrinsic_symmetry"]}
{"id": "C26", "title": "nroot is the principal root", "statement": "nroot(z,n)**n == z for every z and n>=1, and the angle of the result lies in (-pi/n, pi/n].", "quantifier": "every complex z and every n>=1", "why_tests_cant": "continuum of inputs", "anchors": ["src/spgrep/utils.py:nroot"]}
{"id": "C27", "title": "is_prime", "statement": "is_prime(n) returns True iff n is a prime number.", "quantifier": "every integer n", "why_tests_cant": "all integers", "anchors": ["src/spgrep/utils.py:is_prime"]}
{"id": "C28", "title": "mode_dot is the multilinear product", "statement": "mode_dot(coeffs,[m1..mp])[a1..ap] equals the sum over i1..ip of coeffs[i1..ip] m1[i1,a1]...mp[ip,ap].", "quantifier": "every rank p, every shapes", "why_tests_cant": "all ranks and shapes", "anchors": ["src/spgrep/utils.py:mode_dot"]}
{"id": "C29", "title": "Value purification is harmless", "statement": "purify_irrep_value and purify_real_irrep_value move every entry by less than atol, leave listed values unchanged, return a listed value for every entry closer than atol to it, and are idempotent.", "quantifier": "every array and every tolerance below the separation of the listed values", "why_tests_cant": "continuum of entries", "anchors": ["src/spgrep/irreps.py:purify_irrep_value", "src/spgrep/irreps.py:purify_real_irrep_value"]}
{"id": "C30", "title": "Tabulated point groups are groups", "statement": "Each setting in pg_dataset is a list of distinct unimodular integer matrices forming a group with the identity first, whose order is that of the point group symbol.", "quantifier": "every symbol and setting of the table", "why_tests_cant": "table-wide claim including inverses, which the row test alone does not give", "anchors": ["src/spgrep/pointgroup.py:pg_dataset"]}
{"id": "C31", "title": "Tabulated generator chains are solvable chains", "statement": "For every symbol and setting, get_generators terminates, its indices are valid, and reading them from last to first each generator r has order p>=2, normalises the subgroup H generated so far, meets it trivially (r^m not in H for 0<m<p), and H is trivial or p is prime; the last subgroup is the whole group.", "quantifier": "every symbol and setting of the table", "why_tests_cant": "this is the precondition of the irrep enumeration", "anchors": ["src/spgrep/pointgroup.py:pg_solvable_chain", "src/spgrep/pointgroup.py:get_generators"]}
{"id": "C32", "title": "Chain generators in the user's basis", "statement": "If some change of basis P maps the user's rotations onto the tabulated group in any order, get_pointgroup_chain_generators returns indices into the user's list that form a solvable chain of the user's group; if no tabulated setting matches it returns the empty list.", "quantifier": "every reordering and every change of basis of every tabulated group", "why_tests_cant": "all orderings and bases", "anchors": ["src/spgrep/pointgroup.py:get_pointgroup_chain_generators"]}
{"id": "C33", "title": "Chain enumeration gives unitary projective representations", "statement": "Every array returned by enumerate_unitary_irreps_from_solvable_group_chain satisfies D(g)D(h)=mu(g,h)D(gh) and is unitary.", "quantifier": "every finite group with a split chain, every normalised unimodular cocycle, every random draw accepted by the intertwiner step", "why_tests_cant": "all groups, cocycles, random draws", "anchors": ["src/spgrep/irreps.py:enumerate_unitary_irreps_from_solvable_group_chain"]}
{"id": "C34", "title": "Chain enumeration is exactly the set of irreps", "statement": "The arrays returned by enumerate_unitary_irreps_from_solvable_group_chain are irreducible, pairwise inequivalent, every irreducible projective representation with that factor system is equivalent to one of them, and the squares of their dimensions add up to the group order.", "quantifier": "every finite group with a split chain, every normalised unimodular cocycle", "why_tests_cant": "completeness is a statement about all representations", "anchors": ["src/spgrep/irreps.py:enumerate_unitary_irreps_from_solvable_group_chain"]}
{"id": "C35", "title": "Random-matrix enumeration", "statement": "The matrix built by enumerate_unitary_irreps_from_regular_representation is Hermitian and commutes with the regular representation; if the function returns without warning, the returned arrays are pairwise inequivalent unitary irreps, complete, with squared dimensions adding up to the group order; it returns the empty list otherwise.", "quantifier": "every group, cocycle, random draw, and eigen-solver output", "why_tests_cant": "all random draws", "anchors": ["src/spgrep/irreps.py:enumerate_unitary_irreps_from_regular_representation", "src/spgrep/irreps.py:_get_irreps_from_matrix"]}
{"id": "C36", "title": "decompose_representation decomposes", "statement": "decompose_representation returns unitary irreps whose dimensions add up to the dimension of the given representation.", "quantifier": "every unitary representation, including those containing an irrep more than once", "why_tests_cant": "multiplicities are absent from the tests", "anchors": ["src/spgrep/irreps.py:decompose_representation"]}
{"id": "C37", "title": "Change of basis of symmetry and k-point", "statement": "transform_symmetry_and_kpoint preserves composition of operations, k.t and R^T k - k as reciprocal vectors (hence every phase factor), returns the exact rotation P^-1 R P whenever that is integral, and undoing it with P^-1 gives back the input.", "quantifier": "every invertible P, all operations, all k", "why_tests_cant": "continuum of bases", "anchors": ["src/spgrep/transform.py:transform_symmetry_and_kpoint"]}
{"id": "C38", "title": "Removal of duplicated operations", "statement": "unique_primitive_symmetry returns pairwise distinct rotations covering all input rotations, translations reduced to [0,1), and a map with rotations[i]==unique_rotations[map[i]] for every i.", "quantifier": "every list of operations in any order", "why_tests_cant": "orderings other than spglib's block order", "anchors": ["src/spgrep/transform.py:unique_primitive_symmetry"]}
{"id": "C39", "title": "Primitive transformation matrices", "statement": "For every centring the matrix returned by get_primitive_transformation_matrix is invertible, its columns are a basis of exactly the centred lattice (all integer vectors plus the centring vectors), and its inverse is integral.", "quantifier": "every centring type, every lattice vector", "why_tests_cant": "lattice equality ranges over all integer vectors", "anchors": ["src/spgrep/transform.py:get_primitive_transformation_matrix", "src/spgrep/transform.py:get_centering"]}
{"id": "C40", "title": "Crystal system of a Hall number", "statement": "get_crystal_system returns a system for exactly the Hall numbers 1..530, the seven ranges are disjoint and ordered, and it raises ValueError otherwise.", "quantifier": "every integer", "why_tests_cant": "all integers", "anchors": ["src/spgrep/transform.py:get_crystal_system"]}
{"id": "C41", "title": "Centring phases extend representations to the conventional cell", "statement": "If the primitive irreps satisfy the space group law, the irreps returned by get_spacegroup_irreps for the conventional cell satisfy it with the user's k-point, mapping_little_group lists exactly the conventional operations whose rotation fixes k, in increasing order, and a pure translation (E,t) is represented by exp(-2 pi i k.t) times the identity.", "quantifier": "every space group and centring, every k", "why_tests_cant": "all centrings and k", "anchors": ["src/spgrep/core.py:get_spacegroup_irreps", "src/spgrep/core.py:_adjust_phase_for_centering_translations"]}
{"id": "C42", "title": "Primitive-cell sanity check", "statement": "get_spacegroup_irreps_from_primitive_symmetry raises 'Specify symmetry operations in primitive cell!' exactly when some identity rotation comes with a translation that has a component larger than atol in absolute value; hence operations differing from a valid primitive set by a translation rounding of size below atol are accepted.", "quantifier": "every list of operations, every atol", "why_tests_cant": "all inputs near the boundary", "anchors": ["src/spgrep/core.py:get_spacegroup_irreps_from_primitive_symmetry", "src/spgrep/core.py:get_spacegroup_irreps"]}
{"id": "C43", "title": "Spinor rotation is the double cover", "statement": "For every proper or improper rotation, get_spinor_unitary_rotation returns a matrix in SU(2) whose adjoint action on the Pauli matrices is the proper part of the rotation; the angle is in [0,pi], and the identity maps to the identity.", "quantifier": "every rotation in O(3) and every lattice", "why_tests_cant": "continuum of rotations", "anchors": ["src/spgrep/spinor.py:get_spinor_unitary_rotation", "src/spgrep/spinor.py:get_rotation_angle_and_axis"]}
{"id": "C44", "title": "Spinor factor system", "statement": "get_spinor_factor_system returns z(i,j) in {1,-1} (never the initial 0) with U_i U_j = z(i,j) U_ij, z is a cocycle with z(E,j)=z(i,E)=1, and inversion does not change it.", "quantifier": "every point group in every lattice", "why_tests_cant": "all groups and lattices", "anchors": ["src/spgrep/spinor.py:get_spinor_factor_system"]}
{"id": "C45", "title": "Spinor small representations", "statement": "With the combined spinor and nonsymmorphic factor system, the matrices returned by enumerate_spinor_small_representations satisfy Gamma_i Gamma_j = z(i,j) exp(-2 pi i k.(R_i w_j+w_i-w_ij)) Gamma_ij.", "quantifier": "every space group, lattice and k", "why_tests_cant": "continuum", "anchors": ["src/spgrep/spinor.py:enumerate_spinor_small_representations"]}
{"id": "C46", "title": "Spinor co-representation factor system", "statement": "get_corep_spinor_factor_system returns omega in {1,-1} with U_i U_j^(*) = omega(i,j) U_ij (conjugating U_j when i is anti-linear), the anti-linear cocycle condition holds, flags equal the time reversals, and a pure time reversal squares to -1.", "quantifier": "every magnetic point group and lattice", "why_tests_cant": "all groups and lattices", "anchors": ["src/spgrep/corep.py:get_corep_spinor_factor_system"]}
{"id": "C47", "title": "Coset decomposition of a magnetic group", "statement": "decompose_by_maximal_space_subgroup returns None for a type-I group; otherwise it returns the indices without time reversal, an index a0 with time reversal, and the map i -> index of op_i*a0 which is a bijection onto the operations with time reversal.", "quantifier": "every magnetic space group", "why_tests_cant": "all magnetic groups", "anchors": ["src/spgrep/group.py:decompose_by_maximal_space_subgroup"]}
{"id": "C48", "title": "Small co-representations satisfy the co-representation law", "statement": "The matrices returned by enumerate_spinor_small_corepresentations satisfy D(i)D(j)=omega(i,j)mu(i,j)D(ij) for linear i and D(i)D(j)^*=omega(i,j)mu(i,j)D(ij) for anti-linear i.", "quantifier": "every magnetic point group, every irrep type", "why_tests_cant": "tests of this function assert nothing", "anchors": ["src/spgrep/corep.py:enumerate_spinor_small_corepresentations"]}
{"id": "C49", "title": "Unitary part of the co-representations", "statement": "Restricted to the operations without time reversal every returned co-representation is a unitary projective representation with the computed factor system, of dimension d or 2d, containing the irrep and, in the doubled case, its conjugate under a0.", "quantifier": "every magnetic group and irrep", "why_tests_cant": "all groups", "anchors": ["src/spgrep/corep.py:enumerate_spinor_small_corepresentations"]}
{"id": "C50", "title": "Conjugation by an antiunitary element", "statement": "The irrep conjugated by a0 is again a unitary irrep with the same factor system; conjugation is compatible with equivalence, and the co-representation indicator is 1, -1 or 0, being 0 iff the irrep is inequivalent to its conjugate.", "quantifier": "every anti-linear cocycle, every irrep", "why_tests_cant": "Wigner's theorem for all groups", "anchors": ["src/spgrep/corep.py:enumerate_spinor_small_corepresentations"]}
{"id": "C51", "title": "Factor system for magnetic little groups", "statement": "The product of spinor and nonsymmorphic factors used for co-representations satisfies the anti-linear cocycle condition on the returned little group.", "quantifier": "every magnetic space group and k", "why_tests_cant": "k-points away from 2k=0", "anchors": ["src/spgrep/corep.py:enumerate_spinor_small_corepresentations", "src/spgrep/group.py:get_factor_system_from_little_group"]}
{"id": "C52", "title": "k-point in another reciprocal basis", "statement": "kpoint @ reciprocal_lattice == kpoint_conv @ inv(lattice).T, so the phase exp(-2 pi i k.t) does not depend on which reciprocal basis the caller uses; omitting reciprocal_lattice leaves k unchanged.", "quantifier": "every invertible lattice and reciprocal basis, every k", "why_tests_cant": "continuum", "anchors": ["src/spgrep/core.py:get_spacegroup_irreps"]}
{"id": "C53", "title": "Integer conversion of matrices", "statement": "ndarray2d_to_integer_tuple returns the unique nearest integers for every entry within less than 1/2 of an integer, is the identity on integer arrays, and is_integer_array returns True iff every entry is within the tolerance of its nearest integer.", "quantifier": "every real matrix", "why_tests_cant": "continuum", "anchors": ["src/spgrep/utils.py:ndarray2d_to_integer_tuple", "src/spgrep/utils.py:is_integer_array"]}
{"id": "C54", "title": "Grassmann distance", "statement": "grassmann_distance is symmetric in its arguments, lies in [0,1] for ord='min', is 0 exactly when the smaller subspace is contained in the larger, depends only on the subspaces, and raises ValueError for an unknown ord.", "quantifier": "every pair of bases of any dimension", "why_tests_cant": "continuum of subspaces", "anchors": ["src/spgrep/utils.py:grassmann_distance"]}
{"id": "C55", "title": "Time-reversal operations survive the reduction to the primitive cell", "statement": "For a magnetic crystal, get_spacegroup_spinor_irreps returns one anti_linear flag and one matrix per little-group operation, with the flag equal to the time reversal of that operation.", "quantifier": "every magnetic space group type I-IV", "why_tests_cant": "grey and type-IV groups share rotations between linear and anti-linear operations", "anchors": ["src/spgrep/core.py:get_spacegroup_spinor_irreps", "src/spgrep/transform.py:unique_primitive_symmetry"]}
{"id": "C56", "title": "Small representations are exactly enumerated", "statement": "If enumerate_small_representations (method Neto) returns without warning, its arrays are, up to the purification tolerance, a complete list of pairwise inequivalent unitary irreducible families obeying the multiplication law of the space group at k, and the squared dimensions sum to the order of the little co-group.", "quantifier": "every space group in a primitive basis, every k-point fixed by the given rotations, every random sequence", "why_tests_cant": "infinitely many k-points and settings", "anchors": ["src/spgrep/irreps.py:enumerate_small_representations", "src/spgrep/irreps.py:enumerate_unitary_irreps"]}
{"id": "C57", "title": "Projected bases are independent and complete unless a warning is given", "statement": "project_to_irrep returns without raising; the rows of all returned blocks are linearly independent, their number never exceeds the multiplicity of the irrep, the final warning (inconsistent number of basis vectors) is given exactly when it is smaller, and without it every block of row vectors that transforms like the irrep is a linear combination of the returned blocks.", "quantifier": "every unitary representation, every irreducible unitary representation of the same group, every correct QR and SVD routine", "why_tests_cant": "quantifies over all representations and all transforming blocks", "anchors": ["src/spgrep/representation.py:project_to_irrep"]}
{"id": "C58", "title": "Symmetry-adapted tensors form a basis", "statement": "If get_symmetry_adapted_tensors ends without warning, the returned tensors are linearly independent and span the space of all tensors of the given rank that are invariant under the representation.", "quantifier": "every crystallographic point group, every unitary representation, every rank>=1", "why_tests_cant": "completeness over an infinite space and all ranks", "anchors": ["src/spgrep/tensor.py:get_symmetry_adapted_tensors"]}
{"id": "C59", "title": "Intrinsic symmetrisation loses nothing", "statement": "The tensors returned by apply_intrinsic_symmetry span the space spanned by the inputs summed over all permutations of their axes.", "quantifier": "every list of nonzero tensors of equal shape", "why_tests_cant": "the independence test with threshold 0.5 fails only for special inputs", "anchors": ["src/spgrep/tensor.py:apply_intrinsic_symmetry"]}
{"id": "C60", "title": "Small representations by the random method are exactly enumerated", "statement": "If enumerate_small_representations with method \"random\" returns without warning, its arrays are, up to the purification tolerance, a complete list of pairwise inequivalent unitary irreducible families obeying the multiplication law of the space group at k, and the squared dimensions sum to the order of the little co-group.", "quantifier": "every space group in a primitive basis, every k-point fixed by the given rotations, every random sequence and eigen-solver output", "why_tests_cant": "infinitely many k-points, settings and draws", "anchors": ["src/spgrep/irreps.py:enumerate_small_representations", "src/spgrep/irreps.py:enumerate_unitary_irreps_from_regular_representation"]}
{"id": "C61", "title": "get_spacegroup_irreps is complete from end to end", "statement": "If get_spacegroup_irreps returns without warning for the operations of a space group in a conventional cell, listed so that the first occurrences of all rotations precede repetitions, its arrays are, up to the purification tolerances, a complete list of pairwise inequivalent unitary irreducible families obeying the multiplication law of the listed little-group operations at the user's k-point, and the squared dimensions sum to the number of distinct rotations in the little group.", "quantifier": "every space group, centring, lattice, reciprocal basis and real k-point without near misses (in particular every rational k-point for a suitable tolerance); both methods; every random sequence and eigen-solver output", "why_tests_cant": "infinitely many k-points, cells and draws", "anchors": ["src/spgrep/core.py:get_spacegroup_irreps", "src/spgrep/core.py:_adjust_phase_for_centering_translations", "src/spgrep/transform.py:unique_primitive_symmetry"]}
{"id": "C62", "title": "get_spacegroup_spinor_irreps is complete from end to end", "statement": "For a non-magnetic structure, if get_spacegroup_spinor_irreps returns without warning for the operations of a space group in a conventional cell (first occurrences of rotations before repetitions), the returned 2x2 matrices are in SU(2) and induce the rotations of the little group, multiply with the returned signs, and the arrays are, up to the purification tolerances, a complete list of pairwise inequivalent unitary irreducible families obeying the multiplication law of the little-group operations at the user's k-point with these signs; squared dimensions sum to the number of distinct rotations.", "quantifier": "every space group, centring, lattice preserved by the rotations, reciprocal basis and real k-point without near misses (in particular every rational k-point for a suitable tolerance); both methods; every random sequence and eigen-solver output", "why_tests_cant": "infinitely many k-points, cells, lattices and draws", "anchors": ["src/spgrep/core.py:get_spacegroup_spinor_irreps", "src/spgrep/core.py:get_spacegroup_spinor_irreps_from_primitive_symmetry", "src/spgrep/spinor.py:enumerate_spinor_small_representations"]}
{"id": "C63", "title": "Spinor irreps of crystallographic point groups are complete", "statement": "If get_crystallographic_pointgroup_spinor_irreps_from_symmetry without time reversals returns without warning, the 2x2 matrices are in SU(2), induce the rotations and multiply with the returned signs, and the arrays are, up to the purification tolerance, a complete list of pairwise inequivalent unitary irreducible projective representations with these signs.", "quantifier": "every crystallographic point group of isometries of every lattice; both methods; every random sequence and eigen-solver output", "why_tests_cant": "infinitely many lattices, settings and draws", "anchors": ["src/spgrep/core.py:get_crystallographic_pointgroup_spinor_irreps_from_symmetry"]}
{"id": "C64", "title": "Ordinary point-group irreps are exact", "statement": "With the Neto method and no factor system, every entry of every irrep found for a crystallographic point group is 0 or a p-th root of unity with p in 1, 2, 3, 4, 6 (as the comment in purify_irrep_value says), so purification changes nothing and the irreps returned by enumerate_unitary_irreps are a complete list of exact unitary irreps.", "quantifier": "every crystallographic point group in every setting, orientation and order of the rotations, all random draws for which the intertwiner search does not give up, every tolerance up to one half", "why_tests_cant": "all settings, all orders of the operations, all random draws; tests only see floating-point entries up to a tolerance", "anchors": ["src/spgrep/irreps.py:enumerate_unitary_irreps", "src/spgrep/irreps.py:enumerate_unitary_irreps_from_solvable_group_chain", "src/spgrep/irreps.py:purify_irrep_value", "src/spgrep/pointgroup.py:pg_solvable_chain"]}
{"id": "C65", "title": "Small representations do not depend on the description of the crystal", "statement": "Two runs of enumerate_small_representations without warning, for the same space group and k-point in two primitive settings (another basis, origin, order of the operations, choice of coset representatives, equivalent k-point), with either method, any tolerances and any random draws, return the same representations up to equivalence and order: there is a bijection of the two lists under which dimensions and characters agree, up to the phase of the lattice vectors by which the coset representatives differ and the purification tolerances.", "quantifier": "every space group and k-point fixed by its operations, every unimodular change of basis, origin shift, permutation, lattice vectors; all random draws; both methods", "why_tests_cant": "relates pairs of runs over infinitely many settings and draws", "anchors": ["src/spgrep/irreps.py:enumerate_small_representations", "src/spgrep/irreps.py:enumerate_unitary_irreps"]}
{"id": "C66", "title": "Number of irreps and orthogonality of characters", "statement": "If enumerate_unitary_irreps returns without warning, the number of returned irreps is the number of conjugacy classes of elements that commute with their centralizers in the twisted sense (all classes when there is no factor system), and the characters of the irreps satisfy the row and the column orthogonality relation and vanish exactly on the other elements. For small representations the regular classes are those whose commutators, lattice translations, have trivial phase at k.", "quantifier": "every group of rotations in every order, every unit-modulus cocycle, both methods, all random draws", "why_tests_cant": "infinitely many factor systems, k-points and draws", "anchors": ["src/spgrep/irreps.py:enumerate_unitary_irreps", "src/spgrep/irreps.py:enumerate_small_representations"]}
{"id": "C67", "title": "Co-representations are in bijection with the irreducible co-representations", "statement": "For a magnetic little group with nonsymmorphic factors ±1, enumerate_spinor_small_corepresentations does not raise, and returns exactly one entry for every equivalence class of irreducible co-representations of the magnetic little co-group: right dimension, right matrices for the unitary operations, and an indicator 1, -1 or 0 according to whether the restriction to the unitary operations is irreducible, twice an irrep, or the sum of two inequivalent irreps.", "quantifier": "every magnetic space group of types II-IV with any order of operations, every k with factors ±1, every lattice, all random draws of the intertwiners", "why_tests_cant": "completeness quantifies over all irreducible co-representations; infinitely many groups, settings and draws", "anchors": ["src/spgrep/corep.py:enumerate_spinor_small_corepresentations"]}
{"id": "C68", "title": "The doubled representation is irreducible exactly when the indicator is not one", "statement": "The matrices [[Re D, Im D], [-Im D, Re D]] that get_physically_irrep returns for indicator -1 and 0 have no proper real invariant subspace if and only if the Frobenius-Schur indicator of the irrep D, as computed by frobenius_schur_indicator, is not one.", "quantifier": "every finite group, every factor system with values ±1, every unitary irrep of any dimension", "why_tests_cant": "irreducibility quantifies over all real subspaces; all groups and dimensions", "anchors": ["src/spgrep/irreps.py:get_physically_irrep", "src/spgrep/representation.py:frobenius_schur_indicator"]}
{"id": "C69", "title": "Point-group irreps over the reals are complete and exact", "statement": "enumerate_unitary_irreps with real=True and no factor system returns, unless an intertwiner search gave up, exactly one representative of every real-equivalence class of irreps over the reals, by exactly orthogonal matrices with entries 0, 1, 1/2, sqrt(3)/2 up to sign. The indicator is 1, and then the irrep stays irreducible over the complex numbers, or 0, and then the dimension is 2.", "quantifier": "every crystallographic point group in every setting and order of rotations, all random draws, every atol up to 1/10, every eigen-solver within its contract", "why_tests_cant": "completeness and inequivalence quantify over all real representations; exactness is a statement beyond any tolerance; infinitely many settings and draws", "anchors": ["src/spgrep/irreps.py:enumerate_unitary_irreps", "src/spgrep/irreps.py:get_physically_irrep", "src/spgrep/irreps.py:purify_real_irrep_value"]}
{"id": "C70", "title": "Indicators of point-group irreps", "statement": "For ordinary irreps of a crystallographic point group enumerate_unitary_irreps returns indicators 1 and 0 only; an irrep with indicator 0 is one-dimensional.", "quantifier": "every crystallographic point group in every setting and order of rotations, all random draws (unless an intertwiner search gave up), every atol up to 1/2", "why_tests_cant": "infinitely many settings, orders and draws", "anchors": ["src/spgrep/irreps.py:enumerate_unitary_irreps", "src/spgrep/representation.py:frobenius_schur_indicator"]}
{"id": "C71", "title": "Projection to an irrep that is irreducible only over the reals", "statement": "For a real unitary representation and an irrep over the reals that splits over the complex numbers, project_to_irrep returns a result; the blocks are real, have orthonormal rows, transform like the irrep and are jointly independent; there are at most half as many as the function expects, and the final warning is given exactly if the irrep occurs. For a complex representation the same call can raise IndexError.", "quantifier": "every finite group, every real unitary representation, every such irrep, every tolerance and number of trials, every linear-algebra routine within its contract", "why_tests_cant": "the existing tests project to complex irreps; that no tolerance avoids the warning is a statement about infinitely many calls", "anchors": ["src/spgrep/representation.py:project_to_irrep", "src/spgrep/utils.py:grassmann_distance"]}
{"id": "C72", "title": "The chain table fits the table of point groups", "statement": "Every setting of every point group other than 1 has an entry in pg_solvable_chain. The setting it names exists, and its operations are, in the same order, the first operations of the larger group. The generator is the operation right after them, except for 4 and -4, where the chain starts at the trivial group and the generator is the fourfold operation.", "quantifier": "all 32 point groups and all tabulated settings", "why_tests_cant": "the assertion is commented out in the source (pointgroup.py:677), and read literally it is false for 4 and -4; the tests only use the lists of generators", "anchors": ["src/spgrep/pointgroup.py:pg_solvable_chain", "src/spgrep/pointgroup.py:pg_dataset", "src/spgrep/pointgroup.py:get_generators"]}
{"id": "C73", "title": "Order of the irreps", "statement": "Irreps found from a random matrix are sorted by dimension and then by decreasing sum of the characters. For ordinary irreps of a group, with both methods and both values of real, and for small representations at the zone centre, the first irrep is exactly the trivial one, with indicator 1.", "quantifier": "all representations, draws and linear-algebra routines for the sorting; all groups of integer matrices, all draws, tolerances up to 1/10 for the trivial irrep", "why_tests_cant": "tests look at a few groups with the fixed seed", "anchors": ["src/spgrep/irreps.py:_get_irreps_from_matrix", "src/spgrep/irreps.py:enumerate_unitary_irreps_from_solvable_group_chain", "src/spgrep/irreps.py:enumerate_unitary_irreps", "src/spgrep/irreps.py:enumerate_small_representations"]}
{"id": "C74", "title": "Projecting to all irreps gives a basis of the whole space", "statement": "Project a unitary representation to every member of a complete list of irreps. If no projection ends with the warning, all returned vectors together are a basis of the representation space, vectors of different irreps are orthogonal, and in this basis every matrix is block diagonal with the matrices of the irreps as blocks.", "quantifier": "all finite groups, factor systems, unitary representations, complete lists of irreps, tolerances, trial limits and exact routines", "why_tests_cant": "tests project a few representations of a few groups to one irrep at a time", "anchors": ["src/spgrep/representation.py:project_to_irrep"]}
{"id": "C75", "title": "project_to_irrep finds every basis vector", "statement": "For an exact unitary representation and irrep, project_to_irrep finds as many blocks as the multiplicity of the irrep and gives no final warning.", "quantifier": "all finite groups, factor systems, unitary representations and irreps, tolerances, trial limits and exact routines", "why_tests_cant": "the greedy selection with the distance threshold 0.5 can only fail for multiplicities and mixings that tests do not try", "anchors": ["src/spgrep/representation.py:project_to_irrep", "src/spgrep/utils.py:grassmann_distance"]}
{"id": "C76", "title": "Grassmann distance measures principal angles", "statement": "grassmann_distance with ord='min' is the largest distance of a unit vector of the smaller subspace from the larger one, equal to the sine of the largest principal angle; with ord='projection' it is the root mean square of the principal angles.", "quantifier": "all bases of nonzero subspaces of complex space, all exact QR and SVD routines", "why_tests_cant": "tests compare a few numbers; a wrong function of the correlations can agree on them", "anchors": ["src/spgrep/utils.py:grassmann_distance"]}
{"id": "C77", "title": "Number of symmetry-adapted tensors, without warnings", "statement": "For a unitary ordinary representation of dimension at most three (or whose own projections are quiet and whose irreps have dimension at most three) get_symmetry_adapted_tensors succeeds at every rank without any warning, and the number of returned tensors is the average of the rank-th power of the character; they are a basis of the invariant tensors.", "quantifier": "all point groups given as rotation lists, all such representations, all ranks, all tolerances up to one half, all draws for which the enumeration does not warn, all exact linear-algebra routines", "why_tests_cant": "tests compare a few ranks and groups; the recursion over ranks may drop or double tensors at a rank not tested", "anchors": ["src/spgrep/tensor.py:get_symmetry_adapted_tensors", "src/spgrep/representation.py:project_to_irrep"]}
{"id": "C78", "title": "project_to_irrep for representations that are not unitary", "statement": "The docstring does not require a unitary representation: for every representation the blocks should be orthonormal and transform like the irrep. True part: the run succeeds; all vectors are linearly independent unit vectors; there are at most as many blocks as the irrep occurs and a warning says that there are fewer; the vectors of a block transform like the irrep after multiplication with positive factors, one for each vector, and exactly if the irrep is one-dimensional. Refuted: orthogonality, and transforming exactly.", "quantifier": "all groups, projective representations, unitary irreps, tolerances, exact linear-algebra routines", "why_tests_cant": "the tests with lattice coordinates count the tensors only", "anchors": ["src/spgrep/representation.py:project_to_irrep"]}
{"id": "C79", "title": "Which random draws suffice for the chain enumeration", "statement": "For every group, chain and factor system there are finitely many nonzero linear forms on matrices such that the enumeration gives no warning as soon as each form exceeds the tolerance on one of the allowed draws; without a warning the result is one of finitely many complete lists. Hence one draw is enough for all draws outside finitely many hyperplanes and small tolerances, and such draws exist among matrices with entries in (0,1), for groups of any order.", "quantifier": "all finite groups with a solvable chain, all normalised unimodular factor systems, all draws, all tolerances, all limits on the number of draws; all crystallographic point groups in any setting", "why_tests_cant": "the random generator has a fixed seed, so tests see one sequence of draws", "anchors": ["src/spgrep/irreps.py:enumerate_unitary_irreps_from_solvable_group_chain", "src/spgrep/representation.py:get_intertwiner"]}
{"id": "C80", "title": "Point-group irreps from symmetry, complex and real", "statement": "get_crystallographic_pointgroup_irreps_from_symmetry returns, by the default method, an exactly complete list of irreps of the given point group, and with real=True a complete list of the irreps over the real numbers; by the method 'random' a list that agrees with a complete one within the tolerance. Matrices with entries in (0,1) as first draws exist for which no warning is given.", "quantifier": "for all lists of rotations that are a group, all answers of get_pointgroup, eig, eigh and qr within their contracts, all tolerances in a range, all draws without a warning", "why_tests_cant": "Tests run one seed for the point groups of the table; the claim is about every group in every setting, every draw and both fields of scalars.", "anchors": ["src/spgrep/core.py:get_crystallographic_pointgroup_irreps_from_symmetry", "src/spgrep/irreps.py:enumerate_unitary_irreps"]}
{"id": "C81", "title": "Spinor co-representations of magnetic point groups", "statement": "get_crystallographic_pointgroup_spinor_irreps_from_symmetry with time reversals returns a list in one-to-one correspondence with the irreducible co-representations of the magnetic point group with the returned factor system, exactly the operations with time reversal being anti-linear; the matrices of the operations without time reversal agree within the tolerance.", "quantifier": "for all magnetic point groups with an operation with time reversal, all lattices they preserve, all answers of the oracles within their contracts, all draws that are rich or give no warning", "why_tests_cant": "Tests compare a few groups; completeness quantifies over all irreducible co-representations of every magnetic point group.", "anchors": ["src/spgrep/core.py:get_crystallographic_pointgroup_spinor_irreps_from_symmetry", "src/spgrep/corep.py:enumerate_spinor_small_corepresentations"]}
{"id": "C82", "title": "Symmetry-adapted tensors for representations that are not unitary", "statement": "get_symmetry_adapted_tensors returns invariant tensors, and without a warning a basis of the invariant tensors, for every representation given by invertible matrices, unitary or not.", "quantifier": "for all crystallographic point groups, all representations of them by invertible matrices, all ranks, both values of real, all answers of the oracles within their contracts", "why_tests_cant": "The tests of the project use lattice coordinates of a hexagonal group and only count the tensors; no test checks that the tensors are invariant, and no set of examples covers all representations.", "anchors": ["src/spgrep/tensor.py:get_symmetry_adapted_tensors", "src/spgrep/representation.py:project_to_irrep"]}
{"id": "C83", "title": "Real tensors stay real", "statement": "If the given matrices are real, get_symmetry_adapted_tensors with real=True returns tensors with real entries, and apply_intrinsic_symmetry of them has real entries.", "quantifier": "for all real matrices, rotations, ranks and tolerances, all answers of the oracles, with or without warnings", "why_tests_cant": "Tests check a handful of groups and only the number of tensors; the claim holds for all inputs, including those where the projections warn.", "anchors": ["src/spgrep/tensor.py:get_symmetry_adapted_tensors", "src/spgrep/tensor.py:apply_intrinsic_symmetry"]}
{"id": "C84", "title": "Basis of the real invariant tensors", "statement": "For a point group in which every rotation is conjugate to its inverse, acting by real orthogonal matrices of dimension at most three, get_symmetry_adapted_tensors with real=True returns without a warning a basis of the real invariant tensors: real, invariant, independent, spanning with real coefficients, as many as the mean of the powers of the character.", "quantifier": "for all such groups and matrices and all ranks; for suitable first random draws with entries in (0,1) and all smaller tolerances, all other draws and all answers of the oracles within their contracts", "why_tests_cant": "Tests count tensors for one cubic and one hexagonal group; the claim covers all ranks and matrices, and spanning quantifies over all invariant tensors.", "anchors": ["src/spgrep/tensor.py:get_symmetry_adapted_tensors", "src/spgrep/representation.py:project_to_irrep"]}
{"id": "C85", "title": "Matrix entries of the irreps are an orthogonal basis of functions on the group", "statement": "The arrays returned by enumerate_unitary_irreps without warning are within atol of unitary families with the requested multiplication law whose matrix entries are orthogonal over the group (square norm group order over dimension), complete, and expand every function on the group (Fourier inversion).", "quantifier": "for all finite groups of rotations in any order, all unit-modulus normalised cocycles, both methods, all random draws, all functions on the group, all answers of the oracles within their contracts", "why_tests_cant": "Tests compare characters of a few groups; completeness quantifies over all functions on the group and all factor systems.", "anchors": ["src/spgrep/irreps.py:enumerate_unitary_irreps", "src/spgrep/irreps.py:enumerate_unitary_irreps_from_regular_representation", "src/spgrep/irreps.py:enumerate_unitary_irreps_from_solvable_group_chain"]}
{"id": "C86", "title": "Returned Frobenius-Schur indicators count square roots of the identity", "statement": "The indicators returned by enumerate_unitary_irreps, weighted with the dimensions, add up to the sum of the factors mu(g,g) over the rotations with square one; without factor system this is the number of these rotations, and the number of nonzero indicators times the group order is the number of pairs of rotations with g x g = x.", "quantifier": "for all finite groups of rotations, all cocycles of signs, both methods, all random draws, all tolerances with n*atol at most 1/5", "why_tests_cant": "Tests compare indicators of single groups with tables; the count is a global identity over all groups and sign factor systems and detects any single wrong indicator or missing irrep.", "anchors": ["src/spgrep/irreps.py:enumerate_unitary_irreps", "src/spgrep/representation.py:frobenius_schur_indicator"]}
{"id": "C87", "title": "Dimensions of irreps divide the group order and are 1, 2, 3, 4 or 6", "statement": "Every irreducible projective representation of a crystallographic point group has a dimension that divides the group order and is one of 1, 2, 3, 4, 6; hence so does every array returned without warning by enumerate_unitary_irreps, enumerate_small_representations and enumerate_spinor_small_representations.", "quantifier": "for all point groups of the table in all settings and orders, all unimodular normalised cocycles, all irreducible families of invertible matrices, all space groups and k, both methods, all random draws", "why_tests_cant": "Tests see some groups at some k; the claim is over all cocycles and all irreducible families.", "anchors": ["src/spgrep/irreps.py:enumerate_unitary_irreps_from_solvable_group_chain", "src/spgrep/irreps.py:enumerate_unitary_irreps", "src/spgrep/irreps.py:enumerate_small_representations", "src/spgrep/spinor.py:enumerate_spinor_small_representations"]}
{"id": "C88", "title": "The chain enumeration succeeds with probability one", "statement": "For each size d there is a set of draws of probability zero under the law of rng.random((d, d)) + 1j * rng.random((d, d)) such that, if the draws p(d) are outside these sets, then up to a positive tolerance every run of the default method that meets p(d) among its draws of size d returns a complete list of irreps without a warning; the same for real irreps of point groups, and for spinor small representations with factors +-1, where the sets depend neither on the lattice nor on the eigen-solver.", "quantifier": "for all point groups of the table in all settings and orders, all normalised unimodular cocycles, all draws outside null sets, all tolerances below a bound depending on the draws, all remaining draws, all answers of the eigen-solver within its contract", "why_tests_cant": "Tests run one fixed seed; the claim is about the measure of the set of bad draws.", "anchors": ["src/spgrep/representation.py:get_intertwiner", "src/spgrep/irreps.py:enumerate_unitary_irreps_from_solvable_group_chain", "src/spgrep/pointgroup.py:get_pointgroup_chain_generators", "src/spgrep/core.py:get_crystallographic_pointgroup_irreps_from_symmetry", "src/spgrep/spinor.py:enumerate_spinor_small_representations"]}
{"id": "C89", "title": "The table of point groups has one geometric crystal class per symbol", "statement": "Every setting listed under a symbol in pg_dataset has exactly the numbers of rotations and roto-inversions of each type of the crystal class of that symbol; two listed settings are the same group in two bases if and only if they are listed under the same symbol; so rotations that fit an answer of get_pointgroup, in any basis and order, determine the symbol.", "quantifier": "for all symbols and settings of the table, all real changes of basis, all lists of rotations in any order that fit an answer of get_pointgroup", "why_tests_cant": "Non-conjugacy is a statement about all changes of basis; the tests only run the table through the enumeration.", "anchors": ["src/spgrep/pointgroup.py:pg_dataset", "src/spgrep/pointgroup.py:get_pointgroup_chain_generators"]}
{"id": "C90", "title": "Characters and number of the point-group irreps over the reals", "statement": "With real=True and no intertwiner search giving up, the characters of the returned real irreps are orthogonal with square norm n (2 - indicator); weighted with 1/(2 - indicator) their products summed over the irreps count the conjugations of g to h and to the inverse of h; their number is half of the number of classes plus half of the number of classes closed under inversion; and the squares of the dimensions, halved for indicator zero, add up to the group order.", "quantifier": "all finite groups of integer rotations, all answers of get_pointgroup and eig within their contracts, all tolerances up to 1/10, all random draws, all settings of max_num_random_generations", "why_tests_cant": "A test compares the characters of a few groups; the relations are claimed for every list of rotations in every order and basis and for every random state, and they fail only if a real irrep is missing, repeated or paired with the wrong conjugate.", "anchors": ["src/spgrep/core.py:get_crystallographic_pointgroup_irreps_from_symmetry", "src/spgrep/irreps.py:144-240"]}
{"id": "C91", "title": "The user-level functions succeed almost surely", "statement": "If in every dimension one of the draws of the chain enumeration is uniform, then with probability one get_spacegroup_irreps, get_spacegroup_spinor_irreps with and without magnetic moments, and the point-group spinor functions return for every tolerance atol that is positive and small enough for the draws, without warning if there is no time reversal; whatever the lattice, the other draws and the answers of the eigen-solver.", "quantifier": "all space groups in all conventional or primitive bases whose phases at the k-point are signs (symmorphic, or 2k a reciprocal lattice vector with half-integral products, in particular Gamma), all k-points, rational or not, all lattices, all draws outside null sets", "why_tests_cant": "Probability one is a statement about all but a null set of the draws, for groups of any order in any basis; a seeded test sees one draw.", "anchors": ["src/spgrep/core.py:33-131", "src/spgrep/core.py:268-460", "src/spgrep/core.py:596-691", "src/spgrep/irreps.py", "src/spgrep/corep.py"]}
{"id": "C92", "title": "Kramers degeneracy", "statement": "For a magnetic little group whose nonsymmorphic factors are ±1 (n^2*atol <= 1/5): if it contains time reversal, or the product of time reversal and inversion with nonsymmorphic factor one, then all small co-representations returned by enumerate_spinor_small_corepresentations have even dimension.", "quantifier": "all magnetic groups in all primitive bases whose nonsymmorphic factors are signs, all lattices, all answers of get_pointgroup and eig within their contracts, all draws", "why_tests_cant": "Degeneracy is a claim on every corep of every magnetic group and lattice; a test counts a few of them.", "anchors": ["src/spgrep/corep.py:24-240", "src/spgrep/corep.py:243-300"]}
{"id": "C93", "title": "Characters and dimensions of the co-representations", "statement": "For a magnetic little group with time reversal whose nonsymmorphic factors are ±1 (n^2*atol <= 1/5), the characters of the co-representations found by enumerate_spinor_small_corepresentations are orthogonal over the operations without time reversal, with square norm the number of these operations times 1, 4 or 2 for indicator 1, -1, 0; the squares of the dimensions divided by 1, 4 or 2 add up to the number of these operations.", "quantifier": "all magnetic groups with time reversals in all primitive bases whose nonsymmorphic factors are signs, all lattices, all answers of get_pointgroup and eig within their contracts, all draws", "why_tests_cant": "The relations are claimed for every magnetic group and every setting and fail only if a co-representation is missing, repeated, or built from the wrong pair.", "anchors": ["src/spgrep/corep.py:24-240"]}
{"id": "C94", "title": "Input of the enumeration from a regular representation", "statement": "enumerate_unitary_irreps_from_regular_representation accepts exactly the arrays with one non-zero entry in each row of each matrix and raises ValueError for all others; when it accepts it returns a list whose squared dimensions add up to the order, or the empty list with a warning.", "quantifier": "all arrays, all draws, all answers of eigh and qr, all tolerances and numbers of attempts", "why_tests_cant": "The set of rejected arrays is infinite; a test tries a few.", "anchors": ["src/spgrep/irreps.py:243-302"]}
{"id": "C95", "title": "Little group operations and the Bloch phases of the translations", "statement": "For a magnetic structure, every operation that get_spacegroup_spinor_irreps lists in the little group is compatible with the documented representation e^{-ik·t} of the pure translations: conjugation by the operation, anti-linear if it reverses the time, maps the phase of a lattice translation to the phase of the rotated translation.", "quantifier": "all magnetic structures in any centring, all k-points, all draws and eig answers, all successful runs", "why_tests_cant": "The tests of co-representations only try a few groups without a k-point of this kind, and where 2k is a reciprocal lattice vector the sign that time reversal puts on k is invisible.", "anchors": ["src/spgrep/core.py:310-461", "src/spgrep/group.py:142-181"]}
{"id": "C96", "title": "Wrong answers of spglib never give wrong irreps", "statement": "Whatever point group symbol and invertible transformation spglib.get_pointgroup reports, get_pointgroup_chain_generators returns valid indices of the given rotations (never -1, never an IndexError). If the transformation makes the rotations integral, the 'Neto' enumeration returns all irreps when the report describes the rotations, and otherwise the empty list together with a warning; a wrong list is never returned.", "quantifier": "all groups of rotations, all unit cocycles, all symbols, all invertible transformations, all draws, tolerances and numbers of attempts", "why_tests_cant": "Tests run with the installed spglib, which gives right answers; wrong answers cannot be provoked.", "anchors": ["src/spgrep/pointgroup.py:681-718", "src/spgrep/irreps.py:178-198", "src/spgrep/irreps.py:555-559"]}
{"id": "C97", "title": "Rounding errors do not change discrete decisions", "statement": "The equivalence test on characters, the Frobenius-Schur indicator, the sign test of the spinor factor system and the selection of the little group give the exact answer when their inputs carry an error, with explicit bounds: characters off by eps with n*eps*(d+e+eps) < 1/2; matrix entries off by eps with d^2*(2*eps+eps^2) < 1/2; SU(2) matrices off by 1e-9 whose product is computed with an error of 5e-10; k-points off by eps from a commensurate point with denominator N, where (B+1)*eps <= atol and atol + (B+1)*eps < 1/N, B bounding the column sums of |R|.", "quantifier": "all groups, all unitary (projective) irreps, all perturbations within the bounds", "why_tests_cant": "Tests run with the rounding errors of one machine and one BLAS; the bounds cover every error.", "anchors": ["src/spgrep/irreps.py:627-633", "src/spgrep/representation.py:266-291", "src/spgrep/spinor.py:130-143", "src/spgrep/group.py:142-181"]}
{"id": "C98", "title": "What the checking functions accept", "statement": "is_representation accepts every array that is within eps of a unitary projective representation with d*(2*eps+eps^2)+eps <= atol, and is_unitary every array with d*(2*eps+eps^2) <= 1e-8. Conversely every array accepted by is_representation with bounded entries and inverses is near an exact projective representation with the same factor system, and an array of dimension d <= 48 accepted by is_unitary and is_representation with the default tolerances is within 1.3e-4*d of an exact unitary projective representation. The same holds for check_spacegroup_representation and the multiplication law of the space group at k.", "quantifier": "all finite groups, all unit cocycles, all arrays", "why_tests_cant": "The tests use these functions as their oracle; no test can tell what passing them implies.", "anchors": ["src/spgrep/representation.py:235-263", "src/spgrep/representation.py:294-325"]}
{"id": "C99", "title": "The checks of the test suite certify completeness", "statement": "A list of arrays with n*d^3 <= 15000 that passes is_unitary, is_representation (or check_spacegroup_representation), is_equivalent_irrep on all pairs of characters (true exactly on the diagonal) and has sum of d^2 equal to the order of the group is, entry by entry within 1.3e-4*d, a complete list of inequivalent unitary irreps (small representations at k). Conversely every list within eps of a complete list with d*(2*eps+eps^2)+eps <= 1e-8 passes.", "quantifier": "all finite groups, all unit cocycles, all space groups and k-points, all lists of arrays", "why_tests_cant": "The tests apply these checks to samples; that passing them within floating-point tolerances implies correctness is a theorem about all arrays.", "anchors": ["tests/test_irreps.py:67-77", "tests/test_irreps.py:147-156", "tests/test_irreps.py:186-191", "src/spgrep/irreps.py:627-633", "src/spgrep/representation.py:235-263", "src/spgrep/representation.py:294-325"]}
{"id": "C100", "title": "The enumeration passes its own checks", "statement": "For every space group of little-group type (order n <= 48, all operations fix k) the representations returned without a warning by enumerate_small_representations (both methods) and enumerate_spinor_small_representations with 0 < atol <= 7e-10 pass check_spacegroup_representation (with the returned spinor factor system in the spinor case), is_unitary, the test of the suite that is_equivalent_irrep holds for a pair exactly when the indices agree, and the test that the squares of the dimensions sum to the order.", "quantifier": "all space groups and k-points, both methods, all oracles satisfying their contracts, all random draws, all tolerances 0 < atol <= 7e-10", "why_tests_cant": "The test suite runs these checks on some space groups and k-points for one seed; the theorem is for all of them and for all random draws.", "anchors": ["tests/test_irreps.py:147-156", "tests/test_irreps.py:186-191", "src/spgrep/irreps.py:28-141", "src/spgrep/representation.py:235-263", "src/spgrep/representation.py:294-325"]}
{"id": "C101", "title": "Any two runs agree", "statement": "Two runs of enumerate_small_representations on the same space group (n <= 48) and k-point that return without a warning, with any methods (Neto or random), any oracles and random draws and any tolerances up to 1e-4, agree: there is a bijection of the two lists that preserves dimensions, under which the characters differ by at most d*(atol+atol'), and is_equivalent_irrep returns true for a pair exactly when the bijection relates it.", "quantifier": "all space groups and k-points, all pairs of methods, oracles, draws and tolerances up to 1e-4", "why_tests_cant": "The tests compare single runs for a fixed seed; agreement for all draws and both methods is a universal statement over continuous inputs.", "anchors": ["tests/test_irreps.py:67-77", "tests/test_irreps.py:158-191", "src/spgrep/irreps.py:28-141", "src/spgrep/irreps.py:627-633"]}
{"id": "C102", "title": "Outcomes of check_spacegroup_representation", "statement": "For arbitrary operations (closed or not), matrices, k-point, factors and rtol, check_spacegroup_representation returns True exactly when for all pairs the product is listed and the law of the space group holds within the tolerances of np.allclose at its first position; False exactly when the first pair (in loop order) that fails has its product listed; ValueError exactly when it has not; there is no other outcome.", "quantifier": "all lists of rotations and translations, all k, all matrices, all factors, all rtol", "why_tests_cant": "Tests call the function on closed groups only; the interplay of early return and missing products is a statement over all lists.", "anchors": ["src/spgrep/representation.py:294-325"]}
{"id": "C103", "title": "Point-group irreps pass the test suite for all tolerances", "statement": "For every crystallographic point group, the irreps that get_crystallographic_pointgroup_irreps_from_symmetry returns without a warning with the Neto method and any 0 <= atol <= 1/2 pass is_representation, is_unitary, the uniqueness check and the dimension sum of the test suite. With real=True (atol <= 1/10, no intertwiner search given up) they pass is_representation and is_unitary, and is_equivalent_irrep is true for a pair exactly when the entries are the same and the indicator is 1: a real irrep of indicator 0 is not recognised as equivalent to itself.", "quantifier": "all crystallographic point groups in all settings, all random draws, all tolerances in range", "why_tests_cant": "The tests run these checks for fixed settings and one seed with default tolerances (and only for the point group 4, because of the continue statement in tests/test_irreps.py:60-61).", "anchors": ["tests/test_irreps.py:52-77", "src/spgrep/core.py:218-265", "src/spgrep/irreps.py:627-633", "src/spgrep/representation.py:235-263"]}
{"id": "C104", "title": "Totally symmetric invariant tensors", "statement": "Let get_symmetry_adapted_tensors return tensors without a warning for a unitary representation of a group of rotations. Then apply_intrinsic_symmetry applied to them returns a basis of the totally symmetric invariant tensors, whose number is the average of the characters of the symmetric power, that is for rank two of (tr(A)^2 + tr(A^2)) / 2 and for rank three of (tr(A)^3 + 3 tr(A) tr(A^2) + 2 tr(A^3)) / 6.", "quantifier": "all groups of rotations, all unitary representations, all ranks, all random draws, all outcomes of QR and SVD allowed by their contracts", "why_tests_cant": "The tests compare numbers of tensors for a few groups whose axes are along the coordinate axes; the rejection rule of apply_intrinsic_symmetry depends on the angles between the tensors and loses some for other orientations.", "anchors": ["src/spgrep/tensor.py:83-121", "src/spgrep/tensor.py:13-80", "tests/test_tensor.py"]}
{"id": "C105", "title": "Kramers degeneracy and dimensions for magnetic point groups", "statement": "For every magnetic point group with at least one time-reversing operation (n^2*atol <= 1/5), get_crystallographic_pointgroup_spinor_irreps_from_symmetry with time reversals returns a non-empty list with one indicator 1, -1 or 0 for each entry; the squared dimensions divided by 1, 4 or 2 for these indicators add up to the number of operations without time reversal; if the group contains time reversal or its product with the inversion, all dimensions are even.", "quantifier": "all magnetic point groups in any order of operations, all lattices, all random draws that are rich enough or do not end in a warning, all eigenvectors", "why_tests_cant": "Tests look at the dimensions for a few groups; the claim is about all groups, all settings and all draws.", "anchors": ["src/spgrep/core.py:606-700", "src/spgrep/corep.py"]}
{"id": "C106", "title": "get_spacegroup_irreps for cells that are not the standard one", "statement": "For the operations of a crystal in any cell, get_spacegroup_irreps returns the operations that fix k modulo the reciprocal lattice of the crystal, and all their small representations.", "quantifier": "all cells (standard cells, primitive cells, supercells), all k-points, methods, tolerances, random draws", "why_tests_cant": "The tests only use standardized cells; the claim is about every cell the function accepts.", "anchors": ["src/spgrep/core.py:33-131", "src/spgrep/transform.py:93-163"]}
{"id": "C107", "title": "Spinor results do not depend on the eigen-solver, and on the orientation of the crystal only up to signs", "statement": "The SU(2) matrices and the factor system do not depend on the eigenvectors that np.linalg.eig returns for half turns. For two lattices preserved by the same rotations (a turned or strained crystal) the SU(2) matrices differ by one common change of basis and signs, the factor systems by the coboundary of these signs, and two runs of enumerate_spinor_small_representations give the same representations up to these signs.", "quantifier": "all point groups, all pairs of lattices they preserve, all translations and k-points, all eigen-solvers, methods, draws and tolerances up to 1e-4", "why_tests_cant": "Tests use one LAPACK and one orientation per crystal; the claim is about all solvers and all orientations.", "anchors": ["src/spgrep/spinor.py:97-145", "src/spgrep/spinor.py:148-173", "src/spgrep/spinor.py:176-218", "src/spgrep/spinor.py:15-94"]}
{"id": "C108", "title": "Irreps at the points of one star are conjugate, and those at k and -k are complex conjugate", "statement": "For an operation s of the space group and a reciprocal lattice vector G, the little groups listed at k and at R_s^T k + G are conjugate under s, and the small representations returned at the two points correspond one to one with equal dimensions and equal characters, up to the phase exp(-2 pi i k.m) of the lattice vector m by which s g' s^-1 differs from the operation listed at k (with spin: and the sign by which the SU(2) matrices differ). At -k the little group is the same and the returned representations are the complex conjugates.", "quantifier": "all space groups given by primitive coset representatives, all operations s, all k-points, rational or not (at tolerances below the distance of the nearest near miss, which is positive by C112), all methods, draws and answers of the outside routines", "why_tests_cant": "Tests evaluate single k-points and never compare different arms of a star or opposite points; the claim relates every pair of runs.", "anchors": ["src/spgrep/core.py:134-215", "src/spgrep/core.py:463-593", "src/spgrep/group.py:142-181", "src/spgrep/irreps.py:28-142"]}
{"id": "C109", "title": "Two runs for spinor co-representations agree, and the orientation of the crystal matters only through signs", "statement": "For the same magnetic operations and k-point, two runs of enumerate_spinor_small_corepresentations, with any two lattices preserved by the rotations, any draws, eigen-solvers and tolerances, give the same anti-linear flags and, up to signs that depend only on the operations, the same co-representations: a one-to-one correspondence preserves dimensions, indicators and, within the tolerances, the characters on operations without time reversal. The factors and unitary matrices of get_corep_spinor_factor_system differ by one change of basis and the coboundary of these signs, and are equal when the lattices are.", "quantifier": "all magnetic space groups with a time reversing operation, all k-points whose factors are 1 or -1, all pairs of preserved lattices, all solvers, generic draws or runs without warning, all tolerances with n^2 atol <= 1/5", "why_tests_cant": "Tests run one seed on one orientation; the claim is about all pairs of runs.", "anchors": ["src/spgrep/corep.py:24-242", "src/spgrep/corep.py:245-316"]}
{"id": "C110", "title": "Irreps of a point group depend only on the abstract group", "statement": "For two lists of rotations that are isomorphic as groups (the same group in another order, basis or orientation, or different groups such as 32 and 3m), two runs of get_crystallographic_pointgroup_irreps_from_symmetry without warnings return lists in one-to-one correspondence with the same dimensions, the same Frobenius-Schur indicators and exactly the same characters on corresponding operations; over the complex numbers and over the reals.", "quantifier": "all pairs of finite groups of integer rotations, all isomorphisms between them, all draws, all answers of the outside routines that keep their contracts, all tolerances up to 1/2 (1/10 over the reals)", "why_tests_cant": "Tests run fixed groups in fixed settings and with one seed; the claim is about all pairs of runs on all isomorphic groups.", "anchors": ["src/spgrep/core.py:218-260", "src/spgrep/irreps.py:144-240"]}
{"id": "C111", "title": "Spinor irreps of point groups do not see the inversion, but see more than the abstract group", "statement": "get_spinor_unitary_rotation gives an operation and its product with the inversion the same matrix. For two point groups of one lattice related by an isomorphism that multiplies some operations by the inversion (222 and mm2, 32 and 3m, 432 and -43m, or a reordering), two runs of get_crystallographic_pointgroup_spinor_irreps_from_symmetry without warnings return equal SU(2) matrices and factor systems, and irreps in one-to-one correspondence with equal dimensions and, within the tolerances, equal characters. For isomorphisms of other kinds this fails: 222 has one spinor irrep of dimension two, 2/m has four of dimension one.", "quantifier": "all finite groups of integer rotations preserving a lattice, all such isomorphisms, both methods, all draws, all eigen-solvers, all tolerances up to 1/5", "why_tests_cant": "Tests check the output for one group at a time; the claim compares all pairs of runs on all pairs of groups.", "anchors": ["src/spgrep/core.py:596-687", "src/spgrep/spinor.py:97-173"]}
{"id": "C112", "title": "Every k-point, rational or not, is handled correctly below a positive tolerance", "statement": "For every k-point there is a positive threshold for atol. Below it get_little_group lists exactly the operations fixing the k-point, and they form a group; from the threshold on it lists an operation that does not fix the k-point, unless all operations fix it. For every k-point, also one with irrational coordinates on a line or plane of symmetry, every run of get_spacegroup_irreps and get_spacegroup_spinor_irreps without warning at a positive tolerance below a positive threshold lists exactly the operations fixing the k-point and returns, up to the purification tolerances, a complete list of inequivalent unitary irreducible families obeying the multiplication law of these operations.", "quantifier": "all space groups in conventional cells listed with first occurrences of rotations before repetitions, all real k-points, all tolerances below the threshold, both methods, all draws", "why_tests_cant": "Tests use a handful of special k-points with small denominators and the default tolerance; the claim covers a continuum of k-points, and the sharp threshold depends on the k-point.", "anchors": ["src/spgrep/group.py:142-181", "src/spgrep/core.py:33-131", "src/spgrep/core.py:268-460", "src/spgrep/core.py:694-732"]}
{"id": "C113", "title": "Neumann's principle for the returned tensors: subgroups, other bases, other runs", "statement": "Let two runs of get_symmetry_adapted_tensors (complex irreps) for unitary representations of two groups give no warning, and let every matrix of the second representation be, after a change of basis S, a matrix of the first one (lower symmetry). Then S maps the tensors of the first run into the span of the tensors of the second run, and the second run returns at least as many tensors. If the sets of matrices agree up to S, the spans correspond and the numbers agree; in particular two runs for the same matrices return bases of the same space, whatever the draws, tolerances and linear algebra routines. If an operation is represented by c times the identity with c^rank not 1 (an inversion and an odd rank), no tensor is returned.", "quantifier": "all groups of rotations, all unitary representations, all ranks, all changes of basis, all oracles within their contracts, all tolerances up to one half", "why_tests_cant": "The claim compares arbitrary pairs of groups, bases and runs; tests check single examples of invariance with fixed seeds.", "anchors": ["src/spgrep/tensor.py:14-80"]}
{"id": "C114", "title": "Every representation of a little group is decomposed by the returned small representations", "statement": "Let enumerate_small_representations, get_spacegroup_irreps_from_primitive_symmetry or its spinor version return small representations without a warning. They are, up to atol per entry, irreducible unitary representations of the little group, and every family E of invertible matrices with the multiplication law of the little group at k (and the returned spin factors) is equivalent to a direct sum of them, each taken m times. Computed with the returned matrices, the average of chi_E times the conjugate character is the integer m up to dim E * d * atol, the characters of the returned matrices with these multiplicities add up to chi_E up to dim E * atol, the dimensions add up exactly, and E is irreducible exactly if the squares of the multiplicities add up to 1.", "quantifier": "all space groups, all k-points without near misses, all tolerances up to 1/5, both methods within the oracle contracts, all invertible representations E of any dimension", "why_tests_cant": "The claim ranges over all representations of the little group, of every dimension, that a user may decompose with the output; tests compare characters of single irreps.", "anchors": ["src/spgrep/irreps.py:28-142", "src/spgrep/core.py:134-215", "src/spgrep/core.py:463-593"]}
{"id": "C115", "title": "Subduction, products and selection rules with the point-group irreps", "statement": "Let get_crystallographic_pointgroup_irreps_from_symmetry (complex irreps, Neto) return without a warning for a point group of order n and for a subgroup of order p, which may be written in another basis. Each irrep of the group restricted to the subgroup is equivalent to a direct sum of irreps of the second call with multiplicities b(a,c) = (1/p) sum of chi_a times the conjugate of chi'_c, exactly; the dimensions add up, and p * sum_a b(a,c) d_a = n * d'_c (Frobenius reciprocity). The product of two irreps of one call is equivalent to a direct sum of irreps of the same call, with multiplicities given by the characters and symmetric in the factors. The trivial irrep is returned, and a product contains it once if the characters of the factors are complex conjugates and not at all otherwise.", "quantifier": "all crystallographic point groups and all their subgroups, all integer changes of basis, all tolerances up to 1/2, all oracles within the contract", "why_tests_cant": "The claim relates the outputs of two independent calls with different groups, bases, draws and orders of the irreps, and all products of returned irreps.", "anchors": ["src/spgrep/core.py:218-265", "src/spgrep/irreps.py:144-241"]}
{"id": "C116", "title": "The returned small representations label the irreps of the whole space group", "statement": "Let the space group be the group of maps of space generated by the operations and the lattice translations, and let get_spacegroup_irreps_from_primitive_symmetry return without a warning at k. Up to atol per entry, the returned small representations label the irreducible finite-dimensional representations of this infinite group that have Bloch states at k: each small representation occurs in an irreducible representation of the whole group of dimension (points in the star) times (its own dimension), every irreducible representation with Bloch states at k contains exactly one of them, its dimension is the product of the order of the point group and the dimension of the small representation divided by the order of the returned little group, and two irreducible representations that contain the same one are equivalent.", "quantifier": "all space groups, all real k-points without near misses, tolerances up to 1/5, both methods within the oracle contracts, all finite-dimensional irreducible representations of the whole group", "why_tests_cant": "The group is infinite and the claim ranges over all its irreducible representations; tests only check the law and the norm of the characters of the little group.", "anchors": ["src/spgrep/core.py:134-215", "src/spgrep/irreps.py:28-142", "src/spgrep/group.py:142-181"]}
{"id": "C117", "title": "Irreps of the whole space group belong to stars, and every unitary one is reached", "statement": "Let the space group be the group of maps of space generated by the operations and the lattice translations. Every unitary representation of it of positive finite dimension contains Bloch states at some real k-point. The k-points of the Bloch states in an irreducible representation are exactly the points R^T k of one star, modulo reciprocal lattice vectors. So if get_spacegroup_irreps_from_primitive_symmetry returns without a warning at any point of that star, exactly one of the returned small representations (up to atol per entry) occurs in the irreducible representation.", "quantifier": "all space groups, all finite-dimensional irreducible (unitary, for the existence of the star) representations of the whole group; for the returned small representations all real k-points of the star without near misses, tolerances up to 1/5, both methods within the oracle contracts", "why_tests_cant": "The group is infinite and the claim ranges over all its irreducible unitary representations and all real k-points.", "anchors": ["src/spgrep/core.py:134-215", "src/spgrep/irreps.py:28-142", "src/spgrep/group.py:142-181"]}
{"id": "C118", "title": "Calls at two k-points give the same irreps of the whole space group exactly if the points share a star", "statement": "Let get_spacegroup_irreps_from_primitive_symmetry return without warnings at k and at k'. If an operation of the space group carries k to k' modulo reciprocal lattice vectors, the returned small representations (up to atol per entry) correspond one to one, with equal dimensions, such that each pair occurs in exactly the same irreducible representations of the whole space group. If no operation does, no irreducible representation of the whole space group contains small representations of both points.", "quantifier": "all space groups, all pairs of real k-points without near misses, tolerances up to 1/5 (one star), methods, draws and answers of the outside routines independent for the two calls within the oracle contracts, all finite-dimensional irreducible representations of the whole group", "why_tests_cant": "Two independent runs with random draws are compared through all irreducible representations of an infinite group.", "anchors": ["src/spgrep/core.py:134-215", "src/spgrep/irreps.py:28-142", "src/spgrep/group.py:142-181"]}
{"id": "C119", "title": "Indicators decide whether irreps of the whole space group are self-conjugate", "statement": "Let get_spacegroup_irreps_from_primitive_symmetry (real=False) return without a warning at k. If 2k is a reciprocal lattice vector, the Frobenius-Schur indicator computed for a returned small representation is zero exactly if the irreducible representations of the whole space group that contain it are not equivalent to their complex conjugates. If no operation of the space group carries k to -k, no irreducible representation of the whole space group that contains a small representation of the listed little group at k is equivalent to its complex conjugate, whatever the indicator is.", "quantifier": "all space groups, all real k-points without near misses (with 2k a reciprocal lattice vector for the first part), tolerances up to 1/5 with (order of the little group)*(2*atol+atol^2) < 1/2 for the first part, both methods within the oracle contracts, all finite-dimensional irreducible representations of the whole group", "why_tests_cant": "The indicator is a sum over the finite little group; the claim is about all irreducible representations of the infinite group.", "anchors": ["src/spgrep/core.py:134-215", "src/spgrep/irreps.py:28-142", "src/spgrep/representation.py:frobenius_schur_indicator"]}
{"id": "C120", "title": "The sign of the indicator is that of the irreps of the whole space group", "statement": "Let get_spacegroup_irreps_from_primitive_symmetry (real=False) return without a warning at a k-point with 2k a reciprocal lattice vector. The indicator computed for a returned small representation is, for each irreducible representation E of the whole space group that contains it, 1 exactly if E admits a matrix T with T conj(T) = 1 and E(g) T = T conj(E(g)) for all g (E is equivalent to a real representation), and -1 exactly if E admits such a T with T conj(T) = -1 (E is pseudo-real).", "quantifier": "all space groups, all k-points with 2k a reciprocal lattice vector, tolerances up to 1/5 with (order of the little group)*(2*atol+atol^2) < 1/2, both methods within the oracle contracts, all finite-dimensional irreducible representations of the whole group", "why_tests_cant": "The indicator is a sum over the finite little group; the claim is about matrices that intertwine representations of the infinite group.", "anchors": ["src/spgrep/core.py:134-215", "src/spgrep/irreps.py:28-142", "src/spgrep/representation.py:frobenius_schur_indicator"]}
