{
 "claims": [
  {
   "property": "C01",
   "status": "proved",
   "theorems": [
    "Bembel.Props.C01_basis",
    "Bembel.Props.C01_basisPEQ",
    "Bembel.Props.C01_coefs",
    "Bembel.Props.C01_phi"
   ],
   "note": ""
  },
  {
   "property": "C02",
   "status": "proved",
   "theorems": [
    "Bembel.Props.C02_partition_of_unity",
    "Bembel.Props.C02_range",
    "Bembel.Props.C02_constants"
   ],
   "note": ""
  },
  {
   "property": "C03",
   "status": "proved",
   "theorems": [
    "Bembel.Props.C03_der_basis",
    "Bembel.Props.C03_der_basisPEQ",
    "Bembel.Props.C03_der_coefs",
    "Bembel.Props.C03_hasDerivAt",
    "Bembel.Props.C03_basis_hasDerivAt",
    "Bembel.Props.C03_sum_zero"
   ],
   "note": ""
  },
  {
   "property": "C04",
   "status": "partial",
   "theorems": [
    "Bembel.Props.C04_dispatch_partial",
    "Bembel.Props.C04_out_of_range",
    "Bembel.Props.C04_violated"
   ],
   "note": "Degrees 0..20 dispatch exactly (C04_dispatch_partial). A degree above 20 is silently replaced by degree 0 when asserts are disabled: C04_violated."
  },
  {
   "property": "C05",
   "status": "proved",
   "theorems": [
    "Bembel.Props.C05_phiPhi",
    "Bembel.Props.C05_phiPhiDx",
    "Bembel.Props.C05_phiPhiDy",
    "Bembel.Props.C05_frame",
    "Bembel.Props.C05_phiTimesPhi",
    "Bembel.Props.C05_divPhi"
   ],
   "note": ""
  },
  {
   "property": "C06",
   "status": "proved",
   "theorems": [
    "Bembel.Props.C06_bezier",
    "Bembel.Props.C06_length",
    "Bembel.Props.C06_sorted",
    "Bembel.Props.C06_range",
    "Bembel.Props.C06_multiplicity",
    "Bembel.Props.C06_degree_query",
    "Bembel.Props.C06_degree_query_limit"
   ],
   "note": ""
  },
  {
   "property": "C07",
   "status": "partial",
   "theorems": [
    "Bembel.Props.C07_unique_strict",
    "Bembel.Props.C07_unique_mem_partial",
    "Bembel.Props.C07_unique_violated",
    "Bembel.Props.C07_location"
   ],
   "note": "Location lookup and strictness proved for all inputs. Keeping the last knot needs neighbouring knots equal or more than 1e-6 apart; counterexample C07_unique_violated."
  },
  {
   "property": "C08",
   "status": "proved",
   "theorems": [
    "Bembel.Props.C08_tensor",
    "Bembel.Props.C08_deBoor",
    "Bembel.Props.C08_deBoorAll",
    "Bembel.Props.C08_derivative",
    "Bembel.Props.C08_tensor_derivative"
   ],
   "note": ""
  },
  {
   "property": "C09",
   "status": "proved",
   "theorems": [
    "Bembel.Props.C09_constant",
    "Bembel.Props.C09_partition_of_unity",
    "Bembel.Props.C09_translate",
    "Bembel.Props.C09_convex_hull",
    "Bembel.Props.C09_bounds"
   ],
   "note": ""
  },
  {
   "property": "C10",
   "status": "proved",
   "theorems": [
    "Bembel.Props.C10_unroll",
    "Bembel.Props.C10_patch_layout"
   ],
   "note": ""
  },
  {
   "property": "C11",
   "status": "proved",
   "theorems": [
    "Bembel.Props.C11_eval",
    "Bembel.Props.C11_convex_hull",
    "Bembel.Props.C11_corners"
   ],
   "note": ""
  },
  {
   "property": "C12",
   "status": "proved",
   "theorems": [
    "Bembel.Props.C12_updateSurfacePoint",
    "Bembel.Props.C12_defined"
   ],
   "note": ""
  },
  {
   "property": "C13",
   "status": "proved",
   "theorems": [
    "Bembel.Props.C13_jacobian_within",
    "Bembel.Props.C13_jacobian_span",
    "Bembel.Props.C13_jacobian",
    "Bembel.Props.C13_normal",
    "Bembel.Props.C13_normal_none"
   ],
   "note": ""
  },
  {
   "property": "C14",
   "status": "proved",
   "theorems": [
    "Bembel.Props.C14_shredder",
    "Bembel.Props.C14_eval",
    "Bembel.Props.C14_order"
   ],
   "note": ""
  },
  {
   "property": "C15",
   "status": "partial",
   "theorems": [
    "Bembel.Props.C15_roundtrip",
    "Bembel.Props.C15_header_violated"
   ],
   "note": "Round trip proved for every geometry whose header carries the trailing blank the writer emits; a header line without trailing blank is misread: C15_header_violated."
  },
  {
   "property": "C16",
   "status": "partial",
   "theorems": [
    "Bembel.Props.C16_lines_group_entries",
    "Bembel.Props.C16_line_width",
    "Bembel.Props.C16_read_entries",
    "Bembel.Props.C16_entry_count",
    "Bembel.Props.C16_decode_partial",
    "Bembel.Props.C16_file_roundtrip_partial",
    "Bembel.Props.C16_write_violated",
    "Bembel.Props.C16_write_repaired"
   ],
   "note": "Section layout and round trip proved; writePatchData writes out of range for some knot vectors: C16_write_violated."
  },
  {
   "property": "C17",
   "status": "partial",
   "theorems": [
    "Bembel.Props.C17_suffix_partial",
    "Bembel.Props.C17_violated"
   ],
   "note": "Correct when the path has exactly one dot; the first dot of the path is used, so ./x.dat is misclassified: C17_violated."
  },
  {
   "property": "C18",
   "status": "proved",
   "theorems": [
    "Bembel.Props.C18_contains",
    "Bembel.Props.C18_radius"
   ],
   "note": ""
  },
  {
   "property": "C19",
   "status": "proved",
   "theorems": [
    "Bembel.Props.C19_resize",
    "Bembel.Props.C19_write",
    "Bembel.Props.C19_history"
   ],
   "note": ""
  },
  {
   "property": "C20",
   "status": "proved",
   "theorems": [
    "Bembel.Props.C20_uniform_mesh"
   ],
   "note": ""
  },
  {
   "property": "C21",
   "status": "proved",
   "theorems": [
    "Bembel.Props.C21_tiling",
    "Bembel.Props.C21_reference_map"
   ],
   "note": ""
  },
  {
   "property": "C22",
   "status": "proved",
   "theorems": [
    "Bembel.Props.C22_numbers_are_points",
    "Bembel.Props.C22_grid",
    "Bembel.Props.C22_adjacency",
    "Bembel.Props.C22_same_point",
    "Bembel.Props.C22_point_list",
    "Bembel.Props.C22_neighbours",
    "Bembel.Props.C22_midpoints",
    "Bembel.Props.C22_count",
    "Bembel.Props.C22_needs_single_edge"
   ],
   "note": ""
  },
  {
   "property": "C23",
   "status": "proved",
   "theorems": [
    "Bembel.Props.C23_symmetric"
   ],
   "note": ""
  },
  {
   "property": "C24",
   "status": "proved",
   "theorems": [
    "Bembel.Props.C24_touching",
    "Bembel.Props.C24_balls"
   ],
   "note": ""
  },
  {
   "property": "C25",
   "status": "proved",
   "theorems": [
    "Bembel.Props.C25_cluster_range"
   ],
   "note": ""
  },
  {
   "property": "C26",
   "status": "proved",
   "theorems": [
    "Bembel.Props.C26_reordering"
   ],
   "note": ""
  },
  {
   "property": "C27",
   "status": "proved",
   "theorems": [
    "Bembel.Props.C27_global_ids",
    "Bembel.Props.C27_int_range"
   ],
   "note": ""
  },
  {
   "property": "C28",
   "status": "proved",
   "theorems": [
    "Bembel.Props.C28_interfaces"
   ],
   "note": ""
  },
  {
   "property": "C29",
   "status": "proved",
   "theorems": [
    "Bembel.Props.C29_edge_dofs"
   ],
   "note": ""
  },
  {
   "property": "C30",
   "status": "proved",
   "theorems": [
    "Bembel.Props.C30_pairing",
    "Bembel.Props.C30_reverse",
    "Bembel.Props.C30_sign",
    "Bembel.Props.C30_component",
    "Bembel.Props.C30_coincide"
   ],
   "note": ""
  },
  {
   "property": "C31",
   "status": "proved",
   "theorems": [
    "Bembel.Props.C31_glue_matrix",
    "Bembel.Props.C31_needs_min"
   ],
   "note": "Sets are sorted in a copy only, so the smallest-first precondition is needed: C31_needs_min. C32_sets and C33_pairs show the identification makers meet it."
  },
  {
   "property": "C32",
   "status": "partial",
   "theorems": [
    "Bembel.Props.C32_sets",
    "Bembel.Props.C32_cleanup",
    "Bembel.Props.C32_glue_partial",
    "Bembel.Props.C32_same_point",
    "Bembel.Props.C32_no_self_identification",
    "Bembel.Props.C32_violated"
   ],
   "note": "Identification sets proved correct for every conforming oriented patch collection (C32_sets); the clean-up loop keeps exactly the non-empty sets iff emptied sets are isolated (C32_cleanup); a six-patch screen leaves an empty set: C32_violated."
  },
  {
   "property": "C33",
   "status": "proved",
   "theorems": [
    "Bembel.Props.C33_pairs",
    "Bembel.Props.C33_flux"
   ],
   "note": ""
  },
  {
   "property": "C34",
   "status": "proved",
   "theorems": [
    "Bembel.Props.C34_discontinuous",
    "Bembel.Props.C34_continuous",
    "Bembel.Props.C34_divergence",
    "Bembel.Props.C34_function",
    "Bembel.Props.C34_inexact",
    "Bembel.Props.C34_rejects"
   ],
   "note": "exact arithmetic; solver is any function solving uniquely solvable systems. C34_inexact shows that the tolerance 1e-4 really loses coefficients from degree 5 on (simple knots, 2^M >= P)."
  },
  {
   "property": "C35",
   "status": "partial",
   "theorems": [
    "Bembel.Props.C35_point",
    "Bembel.Props.C35_vector",
    "Bembel.Props.C35_divergence",
    "Bembel.Props.C35_assign_evaluate",
    "Bembel.Props.C35_assign_same",
    "Bembel.Props.C35_assign_violated"
   ],
   "note": "Points, vectors and divergences on patches; copies agree. C35_assign_violated: operator= does not copy the reordering vector, an assigned evaluator is undefined/incorrect for evaluateOnPatch; C35_assign_evaluate/C35_assign_same give what remains true."
  },
  {
   "property": "C36",
   "status": "proved",
   "theorems": [
    "Bembel.Props.C36_partition",
    "Bembel.Props.C36_needs_level"
   ],
   "note": ""
  },
  {
   "property": "C37",
   "status": "proved",
   "theorems": [
    "Bembel.Props.C37_admissible",
    "Bembel.Props.C37_touching"
   ],
   "note": ""
  },
  {
   "property": "C38",
   "status": "proved",
   "theorems": [
    "Bembel.Props.C38_schedule"
   ],
   "note": "Thread interleavings are schedules: any assignment of tasks to threads, any order inside, any order of the critical-section reductions."
  },
  {
   "property": "C39",
   "status": "proved",
   "theorems": [
    "Bembel.Props.C39_product",
    "Bembel.Props.C39_adjoint"
   ],
   "note": "The product equals one fixed matrix given in closed form by the specification (cluster bases times coupling blocks, or dense blocks), for every well formed H2 matrix, every vector and every schedule; uniqueness of that matrix is proved too. C39_adjoint: the transformations before and after the coupling blocks are adjoint to each other."
  },
  {
   "property": "C40",
   "status": "proved",
   "theorems": [
    "Bembel.Props.C40_lagrange",
    "Bembel.Props.C40_delta",
    "Bembel.Props.C40_reproduces",
    "Bembel.Props.C40_chebyshev"
   ],
   "note": "Newton divided differences and Horner evaluation are proved equal to the Lagrange basis over any field for any pairwise distinct points; reproduction of all polynomials of degree < n follows. C40_chebyshev shows the points the code computes are pairwise distinct and inside (0,1)."
  },
  {
   "property": "C41",
   "status": "proved",
   "theorems": [
    "Bembel.Props.C41_entries",
    "Bembel.Props.C41_reexpand",
    "Bembel.Props.C41_sons"
   ],
   "note": "Entries of the transfer matrices as values of the tensor product Lagrange polynomials at the son's points, for every number of points; C41_reexpand/C41_sons give the re-expansion identity."
  },
  {
   "property": "C42",
   "status": "proved",
   "theorems": [
    "Bembel.Props.C42_operators",
    "Bembel.Props.C42_positions",
    "Bembel.Props.C42_moments",
    "Bembel.Props.C42_moments_dx",
    "Bembel.Props.C42_moments_dy",
    "Bembel.Props.C42_exact"
   ],
   "note": "For every n, polynomial degree, cluster depth and quadrature rule, the moment matrices hold the quadrature of ansatz function times Lagrange polynomial in the right element position; with a rule exact to the needed degree, they are the integrals. C42_operators: the moment matrices of each operator are those of the functions contracted in C52."
  },
  {
   "property": "C43",
   "status": "proved",
   "theorems": [
    "Bembel.Props.C43_bijective",
    "Bembel.Props.C43_orientation",
    "Bembel.Props.C43_area",
    "Bembel.Props.C43_edge"
   ],
   "note": "tau is proved to be the rotation about the centre of the square for every case, measure preserving, bijective, taking vertex / edge 0 to vertex / edge c."
  },
  {
   "property": "C44",
   "status": "proved",
   "theorems": [
    "Bembel.Props.C44_contact",
    "Bembel.Props.C44_search",
    "Bembel.Props.C44_needs_orientation",
    "Bembel.Props.C44_mesh",
    "Bembel.Props.C44_compare"
   ],
   "note": "C44_search settles every pair of vertex numberings; C44_mesh shows that in every refined mesh (level >= 1) of conforming consistently oriented patches one of the three situations holds; C44_compare is the statement on the mesh with the geometry. Level 0 pairs are covered by C44_search. C44_needs_orientation exhibits what happens otherwise."
  },
  {
   "property": "C45",
   "status": "proved",
   "theorems": [
    "Bembel.Props.C45_regular",
    "Bembel.Props.C45_identical",
    "Bembel.Props.C45_edge",
    "Bembel.Props.C45_vertex",
    "Bembel.Props.C45_substitution",
    "Bembel.Props.C45_bounded",
    "Bembel.Props.C45_points",
    "Bembel.Props.C45_exact",
    "Bembel.Props.C45_total_weight",
    "Bembel.Props.C45_pair",
    "Bembel.Props.C45_farfield_nodes"
   ],
   "note": "For every integrand and every quadrature rule: the four routines are the tensor quadrature of the transformed integrand (C45_regular/identical/edge/vertex), the transformed integrand has the same integral (C45_substitution, change of variables for every integrable integrand) and is bounded for kernels singular like 1/distance (C45_bounded); evaluation points are inside the square and never coincide (C45_points); exactness for polynomials (C45_exact, C45_total_weight); C45_pair composes it with the classification."
  },
  {
   "property": "C46",
   "status": "proved",
   "theorems": [
    "Bembel.Props.C46_select",
    "Bembel.Props.C46_out_of_range",
    "Bembel.Props.C46_sum",
    "Bembel.Props.C46_tensor",
    "Bembel.Props.C46_exact",
    "Bembel.Props.C46_weights"
   ],
   "note": "For every one-dimensional rule, every order and every integrand. Also shows that an index beyond the instantiated order silently selects the one point rule (C46_out_of_range)."
  },
  {
   "property": "C47",
   "status": "proved",
   "theorems": [
    "Bembel.Props.C47_tables",
    "Bembel.Props.C47_polynomials",
    "Bembel.Props.C47_generic",
    "Bembel.Props.C47_generic_nodes",
    "Bembel.Props.C47_all"
   ],
   "note": "All twenty tabulated rules are checked digit by digit (exact rationals, kernel decision) and the tolerance 1e-39 is carried to all polynomials of degree < 2n. The generic rules (n > 20) are proved exact up to degree 2n-1 with nodes in (0,1), for every eigenvalue solver that returns orthonormal eigenvectors of the matrix built by the code; such a solver exists (solver_exists)."
  },
  {
   "property": "C48",
   "status": "proved",
   "theorems": [
    "Bembel.Props.C48_schedule"
   ],
   "note": "An execution is an arbitrary order of the single entry assignments of all tasks (a superset of all interleavings on any number of threads). The pair matrices are arbitrary; C49_matrix plugs in evaluateBilinearForm."
  },
  {
   "property": "C49",
   "status": "proved",
   "theorems": [
    "Bembel.Props.C49_pair",
    "Bembel.Props.C49_matrix",
    "Bembel.Props.C49_gauss",
    "Bembel.Props.C49_adjoint"
   ],
   "note": "C49_pair: exchange of the elements for arbitrary integrands; C49_adjoint/C49_matrix: the matrices of the single layer and hypersingular operators (Laplace, Helmholtz, Maxwell) are symmetric, double and adjoint double layer matrices are transposes of each other. Hypotheses: refined (level >= 1) conforming oriented mesh, regular parametrisation, 1D rules symmetric about 1/2 (the tables of the code are symmetric up to 1e-40, C47_tables), exact arithmetic."
  },
  {
   "property": "C50",
   "status": "proved",
   "theorems": [
    "Bembel.Props.C50_symmetric",
    "Bembel.Props.C50_adjoint"
   ],
   "note": "All distances, translation invariance and the limit k = 0 included."
  },
  {
   "property": "C51",
   "status": "proved",
   "theorems": [
    "Bembel.Props.C51_laplace",
    "Bembel.Props.C51_helmholtz"
   ],
   "note": "Frechet derivatives (Mathlib) of the modelled kernels, for every pair of distinct points and every complex wavenumber."
  },
  {
   "property": "C52",
   "status": "proved",
   "theorems": [
    "Bembel.Props.C52_scalar",
    "Bembel.Props.C52_laplaceHyp",
    "Bembel.Props.C52_helmholtzHyp",
    "Bembel.Props.C52_maxwell"
   ],
   "note": "All nine operators of the Laplace, Helmholtz and Maxwell families. The homogenised Laplace operator is not included."
  },
  {
   "property": "C53",
   "status": "proved",
   "theorems": [
    "Bembel.Props.C53_linear_load_scalar",
    "Bembel.Props.C53_linear_load_vector",
    "Bembel.Props.C53_single_layer",
    "Bembel.Props.C53_laplace_double_layer",
    "Bembel.Props.C53_laplace_gradient",
    "Bembel.Props.C53_helmholtz",
    "Bembel.Props.C53_maxwell",
    "Bembel.Props.C53_linear",
    "Bembel.Props.C53_linear_helmholtz",
    "Bembel.Props.C53_linear_maxwell"
   ],
   "note": "Arbitrary OpenMP schedules of the element loop; value equals the surface quadrature of kernel times evaluated density; linear in the density. Load vectors are assembled serially, see C61."
  },
  {
   "property": "C54",
   "status": "partial",
   "theorems": [
    "Bembel.Props.C54_partial",
    "Bembel.Props.C54_watertight",
    "Bembel.Props.C54_violated",
    "Bembel.Props.C54_rejects"
   ],
   "note": "The claim as stated is false of the code and refuted by C54_violated (opposite normals pass) and C54_rejects (equal normals fail): the test compares the positions a.dot(b) instead of the normals and skips every interface that involves edge 0. C54_partial states exactly what is tested."
  },
  {
   "property": "C55",
   "status": "partial",
   "theorems": [
    "Bembel.Props.C55_dsphericals",
    "Bembel.Props.C55_dsolid",
    "Bembel.Props.C55_legendre",
    "Bembel.Props.C55_legendre_zero",
    "Bembel.Props.C55_constant",
    "Bembel.Props.C55_full",
    "Bembel.Props.C55_gradient",
    "Bembel.Props.C55_sphericals",
    "Bembel.Props.C55_sphericals_symmetric",
    "Bembel.Props.C55_solid",
    "Bembel.Props.C55_solid_symmetric",
    "Bembel.Props.C55_solid_violated"
   ],
   "note": "Harmonics by Rodrigues' formula. Tables, constants, gradients of the solid harmonics (C55_full, C55_legendre, C55_constant, C55_gradient) and the series on the sphere are proved. For the solid series and the gradients of the series the last term of the code is wrong (weight of degree deg instead of deg-1, factor 2 for deg = 2 missing, additional term with the imaginary part): C55_solid, C55_dsphericals, C55_dsolid give the exact value including the error, C55_solid_symmetric when it vanishes, C55_solid_violated a witness."
  },
  {
   "property": "C56",
   "status": "proved",
   "theorems": [
    "Bembel.Props.C56_roundtrip",
    "Bembel.Props.C56_mismatch",
    "Bembel.Props.C56_missing",
    "Bembel.Props.C56_truncated",
    "Bembel.Props.C56_limit"
   ],
   "note": "Files below 2 GiB; the object representation of scalars is any lawful codec. Larger matrices overflow the int byte count (C56_limit)."
  },
  {
   "property": "C57",
   "status": "proved",
   "theorems": [
    "Bembel.Props.C57_power",
    "Bembel.Props.C57_precision",
    "Bembel.Props.C57_farfield",
    "Bembel.Props.C57_bound",
    "Bembel.Props.C57_no_assert",
    "Bembel.Props.C57_attained"
   ],
   "note": ""
  },
  {
   "property": "C58",
   "status": "proved",
   "theorems": [
    "Bembel.Props.C58_labels",
    "Bembel.Props.C58_identify"
   ],
   "note": ""
  },
  {
   "property": "C59",
   "status": "proved",
   "theorems": [
    "Bembel.Props.C59_pde"
   ],
   "note": "Mathlib's Laplacian on Euclidean 3-space."
  },
  {
   "property": "C60",
   "status": "proved",
   "theorems": [
    "Bembel.Props.C60_laplace",
    "Bembel.Props.C60_helmholtz",
    "Bembel.Props.C60_maxwell"
   ],
   "note": "Exact arithmetic; 'away from the quadrature nodes' is the only hypothesis on the point."
  },
  {
   "property": "C61",
   "status": "proved",
   "theorems": [
    "Bembel.Props.C61_dirichlet",
    "Bembel.Props.C61_neumann",
    "Bembel.Props.C61_tangential",
    "Bembel.Props.C61_rotated_tangential"
   ],
   "note": "Tangential trace stated for an arbitrary conjugation convention of Eigen's complex cross product (finding 24)."
  },
  {
   "property": "C62",
   "status": "proved",
   "theorems": [
    "Bembel.Props.C62_laplace_beltrami_form",
    "Bembel.Props.C62_mass",
    "Bembel.Props.C62_laplace_beltrami",
    "Bembel.Props.C62_consistent"
   ],
   "note": "C62_laplace_beltrami for points with independent tangents (surface gradient given by its characterisation); C62_laplace_beltrami_form: bilinear form, symmetric, semidefinite, kernel."
  },
  {
   "property": "C63",
   "status": "proved",
   "theorems": [
    "Bembel.Props.C63_assembly",
    "Bembel.Props.C63_interpolant",
    "Bembel.Props.C63_position_only",
    "Bembel.Props.C63_consistent",
    "Bembel.Props.C63_product"
   ],
   "note": "C63_assembly: contents of every leaf for every task order; C63_product: the product of the assembled matrix; C63_interpolant: what the interpolation reproduces; C63_consistent with C63_position_only: far field entry equals the quadrature of the dense integrand where interpolation is exact (interpolation error for general kernels: C87). Exact arithmetic."
  },
  {
   "property": "C64",
   "status": "proved",
   "theorems": [
    "Bembel.Props.C64_continuous",
    "Bembel.Props.C64_continuous_complete",
    "Bembel.Props.C64_continuous_exists",
    "Bembel.Props.C64_divergence",
    "Bembel.Props.C64_divergence_complete",
    "Bembel.Props.C64_discontinuous"
   ],
   "note": "Continuity is proved for every coefficient vector whenever the glue step returns a matrix; C64_continuous_exists gives the exact condition under which it does (see C32 for the defect behind it). Linear systems of the projector are assumed solved exactly (SolvesSystems, met by an explicit solver)."
  },
  {
   "property": "C65",
   "status": "partial",
   "theorems": [
    "Bembel.Props.C65_modified",
    "Bembel.Props.C65_modified_pde",
    "Bembel.Props.C65_modified_gradient",
    "Bembel.Props.C65_modified_even",
    "Bembel.Props.C65_evaluated",
    "Bembel.Props.C65_kernel_partial",
    "Bembel.Props.C65_kernel_violated",
    "Bembel.Props.C65_documented_pde",
    "Bembel.Props.C65_pde",
    "Bembel.Props.C65_operator",
    "Bembel.Props.C65_potential",
    "Bembel.Props.C65_computed"
   ],
   "note": "C65_evaluated gives the exact value of the evaluated kernel: the harmonics of degree N are left out and the term of degree and order N-1 has a wrong factor (C55). C65_kernel_partial: the documented value if these coefficients vanish, C65_kernel_violated: a witness for every degree. C65_documented_pde holds for all coefficients, C65_pde is the Laplacian of the evaluated kernel with its error term. C65_computed: with the coefficients getCoefficients actually returns the two deviations vanish for the last order, so the evaluated kernel is the documented one truncated at degree N-1, symmetric, with Laplacian one and face mean -1/24."
  },
  {
   "property": "C66",
   "status": "proved",
   "theorems": [
    "Bembel.Props.C66_fit_rule",
    "Bembel.Props.C66_fit",
    "Bembel.Props.C66_unique",
    "Bembel.Props.C66_odd"
   ],
   "note": "Exact arithmetic; the least squares and eigenvalue solvers are parameters with their defining property. C66_unique: the fit has full rank (a periodic harmonic polynomial is constant, by the divergence theorem), so any two exact solvers and memory contents give the same coefficients; C66_odd: those of odd degree vanish."
  },
  {
   "property": "C67",
   "status": "proved",
   "theorems": [
    "Bembel.Props.C67_surface",
    "Bembel.Props.C67_exact",
    "Bembel.Props.C67_chips",
    "Bembel.Props.C67_bezier"
   ],
   "note": "Exact arithmetic; Eigen's inverse is a parameter that inverts every matrix with trivial kernel (that the interpolation matrix has one is proved). C08_tensor is the tensor product evaluation used here."
  },
  {
   "property": "C68",
   "status": "proved",
   "theorems": [
    "Bembel.Props.C68_expression",
    "Bembel.Props.C68_product",
    "Bembel.Props.C68_linear",
    "Bembel.Props.C68_dense"
   ],
   "note": "By induction over the expression on top of C39_product; Eigen's dense add-assignment and evalTo are modelled by their meaning (fresh temporary for every Product node). Aliasing of destination and right hand side (x = H*x) is outside the model."
  },
  {
   "property": "C69",
   "status": "proved",
   "theorems": [
    "Bembel.Props.C69_surface"
   ],
   "note": "A file is its sequence of characters; the formatting of numbers is a parameter that yields nonempty words without white space and angle brackets. Spec/Text.scan is the reader. Opening the file succeeds."
  },
  {
   "property": "C70",
   "status": "proved",
   "theorems": [
    "Bembel.Props.C70_grid",
    "Bembel.Props.C70_points"
   ],
   "note": "As C69. The point export does not check that a matrix has one row per point, and prints data with six decimals (std::to_string)."
  },
  {
   "property": "C71",
   "status": "proved",
   "theorems": [
    "Bembel.Props.C71_l2error",
    "Bembel.Props.C71_zero",
    "Bembel.Props.C71_mass",
    "Bembel.Props.C71_best"
   ],
   "note": "C71_zero: zero iff agreement at the nodes; C71_mass: mass-matrix norm; C71_best: best approximation by the solution of the mass system with the same quadrature rule. Exact arithmetic."
  },
  {
   "property": "C72",
   "status": "partial",
   "theorems": [
    "Bembel.Props.C72_ascii",
    "Bembel.Props.C72_history",
    "Bembel.Props.C72_mode",
    "Bembel.Props.C72_mode_violated",
    "Bembel.Props.C72_size",
    "Bembel.Props.C72_size_violated"
   ],
   "note": "Files are character sequences; number formats are a parameter that prints numbers of a set D exactly. Missing: the size of a sparse matrix is not written (C72_size: exact condition, C72_size_violated: counterexample) and the sparse overload accepts every mode (C72_mode_violated). Complex matrices are printed as (re,im), which Matlab does not read: outside the model."
  },
  {
   "property": "C73",
   "status": "partial",
   "theorems": [
    "Bembel.Props.C73_times",
    "Bembel.Props.C73_stop",
    "Bembel.Props.C73_cycles",
    "Bembel.Props.C73_stop_violated"
   ],
   "note": "C73_times, C73_cycles and C73_stop describe all histories; C73_stop_violated: with laps stop omits the time after the last lap, and without laps the stopwatch cannot be started again."
  },
  {
   "property": "C74",
   "status": "partial",
   "theorems": [
    "Bembel.Props.C74_table",
    "Bembel.Props.C74_mode_violated"
   ],
   "note": "C74_table for all histories; C74_mode_violated: the opening mode given to the constructor is ignored (files are always truncated)."
  },
  {
   "property": "C75",
   "status": "proved",
   "theorems": [
    "Bembel.Props.C75_dipole",
    "Bembel.Props.C75_harmonic",
    "Bembel.Props.C75_helmholtz",
    "Bembel.Props.C75_radiation"
   ],
   "note": ""
  },
  {
   "property": "C76",
   "status": "partial",
   "theorems": [
    "Bembel.Props.C76_tensor",
    "Bembel.Props.C76_tensor_violated",
    "Bembel.Props.C76_sphere",
    "Bembel.Props.C76_errors",
    "Bembel.Props.C76_field",
    "Bembel.Props.C76_field_violated",
    "Bembel.Props.C76_slope",
    "Bembel.Props.C76_rate"
   ],
   "note": "Proved in full for non-empty coordinate lists and for scalar potentials. An empty coordinate list is read out of bounds (C76_tensor_violated); the pointwise error of vector fields is undefined unless there are exactly three points, the maximal error for fewer than three points (C76_field_violated)."
  },
  {
   "property": "C77",
   "status": "partial",
   "theorems": [
    "Bembel.Props.C77_values",
    "Bembel.Props.C77_share_violated",
    "Bembel.Props.C77_moved"
   ],
   "note": "Proved for every history in which a geometry is not modified in place while a space built from it is alive (C77_values; the specification leaves that case undefined); a space shares the patches with the geometry it was built from, so such a modification changes the space: C77_share_violated. Moved-from geometries are unusable: C77_moved."
  },
  {
   "property": "C78",
   "status": "partial",
   "theorems": [
    "Bembel.Props.C78_trees_partial",
    "Bembel.Props.C78_component_trees",
    "Bembel.Props.C78_parameters_violated",
    "Bembel.Props.C78_moved_violated",
    "Bembel.Props.C78_moved_copy_violated",
    "Bembel.Props.C78_default_violated",
    "Bembel.Props.C78_rebuild_violated",
    "Bembel.Props.C78_no_leak",
    "Bembel.Props.C78_mesh_lifetime_violated"
   ],
   "note": "Proved for every history that is meaningful for values (C78_trees_partial) and for the component trees of a compressed matrix (C78_component_trees). Excluded, with counterexamples: re-building a tree whose parameter object is shared with a copy, using moved-from trees, copying or moving a tree that was never built, re-building after the old mesh is gone."
  },
  {
   "property": "C79",
   "status": "proved",
   "theorems": [
    "Bembel.Props.C79_discontinuous",
    "Bembel.Props.C79_continuous",
    "Bembel.Props.C79_divergence",
    "Bembel.Props.C79_cover"
   ],
   "note": "Degrees up to 4, where the projector stores the exact coefficients (C34_inexact shows that higher degrees lose entries). For continuous spaces: whenever both transformation matrices have been computed (see C32). C79_cover: the finer elements exhaust the coarser ones."
  },
  {
   "property": "C80",
   "status": "proved",
   "theorems": [
    "Bembel.Props.C80_discontinuous",
    "Bembel.Props.C80_continuous",
    "Bembel.Props.C80_divergence",
    "Bembel.Props.C80_polynomials",
    "Bembel.Props.C80_constants"
   ],
   "note": "Proved in both directions for all three types of spaces, P <= 4 (for larger degrees the projector drops small entries, see C34); conformity is required and obtained at all points of the edges except the break points, where splines with r = P are discontinuous. Existence of the transformation matrix of the continuous space is a hypothesis (the glueing fails for some geometries, C32)."
  },
  {
   "property": "C81",
   "status": "partial",
   "theorems": [
    "Bembel.Props.C81_format",
    "Bembel.Props.C81_roundtrip_partial",
    "Bembel.Props.C81_name_violated",
    "Bembel.Props.C81_empty_violated"
   ],
   "note": "Format proved for all inputs that fit into the columns. Round trip proved for every non-empty list of Bezier patches and every file name without 'D' at position 72; it fails for such names (C81_name_violated) and for empty geometries (C81_empty_violated), and the knot vectors are those of a repaired writer (C16_write_violated)."
  },
  {
   "property": "C82",
   "status": "partial",
   "theorems": [
    "Bembel.Props.C82_interpolates",
    "Bembel.Props.C82_reproduces",
    "Bembel.Props.C82_frame",
    "Bembel.Props.C82_library_mask",
    "Bembel.Props.C82_degree_violated"
   ],
   "note": "Proved for every degree up to 20; beyond, the code reads outside its buffer (C82_degree_violated). Matrix inversion (Eigen) is assumed exact for invertible matrices."
  },
  {
   "property": "C83",
   "status": "proved",
   "theorems": [
    "Bembel.Props.C83_laplace_beltrami",
    "Bembel.Props.C83_discontinuous",
    "Bembel.Props.C83_continuous",
    "Bembel.Props.C83_divergence",
    "Bembel.Props.C83_mass_discontinuous",
    "Bembel.Props.C83_mass_continuous"
   ],
   "note": "Degrees P <= 4: for larger degrees the threshold of the projector may delete entries (see C80). Linear solvers of Eigen used in the projector are assumed exact."
  },
  {
   "property": "C84",
   "status": "proved",
   "theorems": [
    "Bembel.Props.C84_mesh",
    "Bembel.Props.C84_balls",
    "Bembel.Props.C84_pair",
    "Bembel.Props.C84_dense",
    "Bembel.Props.C84_h2",
    "Bembel.Props.C84_not_scaling",
    "Bembel.Props.C84_operators",
    "Bembel.Props.C84_local",
    "Bembel.Props.C84_linear_form",
    "Bembel.Props.C84_potential_laplace",
    "Bembel.Props.C84_potential_waves",
    "Bembel.Props.C84_patch"
   ],
   "note": "All operators but the homogenised one (its kernel is tied to the coordinate axes). The limitation to motions (not scalings) is proved: C84_not_scaling."
  },
  {
   "property": "C85",
   "status": "proved",
   "theorems": [
    "Bembel.Props.C85_element",
    "Bembel.Props.C85_gauss",
    "Bembel.Props.C85_closed",
    "Bembel.Props.C85_evaluator"
   ],
   "note": "P <= 19 (MaxP). The quadrature rule is any rule exact to degree P; the Gauss-Legendre tables are covered by C46/C47. Solvers of Eigen used in the projector are assumed exact."
  },
  {
   "property": "C86",
   "status": "proved",
   "theorems": [
    "Bembel.Props.C86_curl",
    "Bembel.Props.C86_divergence",
    "Bembel.Props.C86_kernel"
   ],
   "note": "Degrees P <= 4: for larger degrees the threshold of the projector may delete entries (see C80). Derivatives are the ones in reference coordinates used by the code."
  },
  {
   "property": "C87",
   "status": "proved",
   "theorems": [
    "Bembel.Props.C87_entry",
    "Bembel.Props.C87_interpolation",
    "Bembel.Props.C87_chebyshev",
    "Bembel.Props.C87_smooth",
    "Bembel.Props.C87_convergence",
    "Bembel.Props.C87_balls",
    "Bembel.Props.C87_laplace",
    "Bembel.Props.C87_laplace_convergence",
    "Bembel.Props.C87_matrix",
    "Bembel.Props.C87_operators",
    "Bembel.Props.C87_product"
   ],
   "note": "C87_interpolation/C87_smooth/C87_convergence/C87_entry: every operator of the code, under bounds on the derivatives of the pulled back kernel. C87_laplace, C87_matrix, C87_balls: explicit bounds derived from the admissibility condition for the Laplace single layer operator on parallelogram patches. C87_operators, C87_product: all Laplace, Helmholtz and Maxwell operators on parallelogram patches, exponential convergence with any rate above eta/2, constant not explicit. Curved patches and the homogenised operator are covered by the general theorems only. Entrywise error against the quadrature rule, exact arithmetic."
  },
  {
   "property": "C88",
   "status": "proved",
   "theorems": [
    "Bembel.Props.C88_separated",
    "Bembel.Props.C88_surface",
    "Bembel.Props.C88_interpolation",
    "Bembel.Props.C88_quadrature",
    "Bembel.Props.C88_operators",
    "Bembel.Props.C88_product"
   ],
   "note": "C88_operators: all nine Laplace, Helmholtz and Maxwell operators on arbitrary smooth regular surfaces, error against the exact integral faster than any power; constants not explicit. Assumes the eigenvalue solver that computes the Gauss rules with more than 20 points is correct (SolverCorrect, as in C47; a witness exists). C88_product: the compressed matrix, with separation of admissible clusters as a hypothesis; C88_separated, C88_surface: it holds on surfaces that do not intersect themselves. Elements with common points (singular quadrature) and the homogenised operator are not covered; exact arithmetic."
  },
  {
   "property": "C89",
   "status": "proved",
   "theorems": [
    "Bembel.Props.C89_operators",
    "Bembel.Props.C89_product"
   ],
   "note": "C89_operators: all nine Laplace, Helmholtz and Maxwell operators; the integrand is integrable (proved, although the kernel is singular) and the computed value converges to the exact integral faster than any power of the number of points; constants not explicit. Patches are restrictions of smooth maps of the plane, embedded, without cusps (patches meet at positive angle; a weaker form, stated at common points only); levels M >= 1. SolverCorrect as in C47, exact arithmetic. C89_product combines it with C88_surface for the compressed matrix. The homogenised operator is not covered."
  },
  {
   "property": "C90",
   "status": "proved",
   "theorems": [
    "Bembel.Props.C90_potentials",
    "Bembel.Props.C90_single_layer",
    "Bembel.Props.C90_helmholtz",
    "Bembel.Props.C90_maxwell",
    "Bembel.Props.C90_load",
    "Bembel.Props.C90_mass",
    "Bembel.Props.C90_laplace_beltrami"
   ],
   "note": "Exact integrals are iterated interval integrals over the parameter square of each element (surfaceIntegral). C90_potentials, C90_helmholtz, C90_maxwell, C90_single_layer (any smooth kernel, covers the homogenised potential off the lattice), C90_load, C90_mass, C90_laplace_beltrami; constants not explicit, uniform on compact sets off the surface. SolverCorrect as in C47, exact arithmetic."
  },
  {
   "property": "C91",
   "status": "proved",
   "theorems": [
    "Bembel.Props.C91_form",
    "Bembel.Props.C91_discontinuous",
    "Bembel.Props.C91_continuous"
   ],
   "note": "C91_form: symmetric, positive and definite form for every transformation matrix. C91_discontinuous and C91_continuous: SolvesDirichlet (dense) and SolvesCompressed (H2-matrix, every eta and level) for the spaces of the library (degree p <= 4, (p+2)*M < 100 so that the table of rules suffices, C57). Asymptotic in the number of points of the rules: the library's table has rule k at index k; the theorem takes tables whose rules all have at least i+1 points, N and the constants are not explicit. Exact arithmetic, exact solution of the linear system, surfaces as in C89."
  },
  {
   "property": "C92",
   "status": "proved",
   "theorems": [
    "Bembel.Props.C92_compressed",
    "Bembel.Props.C92_form",
    "Bembel.Props.C92_matrix",
    "Bembel.Props.C92_kernel",
    "Bembel.Props.C92_neumann"
   ],
   "note": "C92_form, C92_matrix: every transformation matrix. C92_kernel, C92_neumann, C92_compressed: continuous spaces of the library (1 <= p <= 4), connected surfaces. Asymptotic in the number of points of the rules, constants not explicit, exact arithmetic, exact solution of the linear system, surfaces as in C89."
  },
  {
   "property": "C93",
   "status": "proved",
   "theorems": [
    "Bembel.Props.C93_continuous",
    "Bembel.Props.C93_discontinuous"
   ],
   "note": "C93_continuous: L2 projection and reaction-diffusion equation for the continuous spaces of the library (1 <= p <= 4); C93_discontinuous: L2 projection. Surfaces of regular smooth patches, no embedding needed. Asymptotic in the number of points of the rules, constants not explicit, exact arithmetic, exact solution of the linear system; the linear combination of the matrices is formed by the user. Convergence of the Galerkin solution to the solution of the differential equation under refinement is not modelled."
  },
  {
   "property": "C94",
   "status": "proved",
   "theorems": [
    "Bembel.Props.C94_beltrami"
   ],
   "note": "C94_beltrami: continuous spaces of the library (1 <= p <= 4) on connected surfaces of regular smooth patches; no embedding needed. The stabilised matrix and the solution of the linear system are formed by the user (as in examples/LaplaceBeltrami.cpp). Asymptotic in the number of points of the rules, constants not explicit, exact arithmetic. Convergence of the Galerkin solution to the solution of the differential equation under refinement is not modelled."
  },
  {
   "property": "C95",
   "status": "proved",
   "theorems": [
    "Bembel.Props.C95_errors",
    "Bembel.Props.C95_continuous",
    "Bembel.Props.C95_beltrami",
    "Bembel.Props.C95_discontinuous"
   ],
   "note": ""
  }
 ]
}