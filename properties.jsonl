{"id": "C01", "title": "Shape functions are the Bernstein polynomials", "statement": "For every polynomial degree p that the library supports, evaluating the one-dimensional shape functions of degree p at x writes into slot i exactly C(p,i)*x^i*(1-x)^(p-i), for i = 0..p and nothing outside those slots; evaluating a coefficient vector returns the corresponding linear combination, and the \"plus-equals\" variants add that value to what was there. (Exact arithmetic.)", "quantifier": "all degrees p, all abscissae x, all coefficient vectors and prior buffer contents", "why_tests_cant": "infinitely many x and coefficient vectors; tests sample a few degrees and points with a tolerance", "anchors": ["Bembel/src/Spline/Bernstein.hpp: EvalBernstein, EvalBernsteinBasis, HiddenBernsteinClass", "Bembel/src/Spline/Pascal.hpp: Binomial", "Bembel/src/Spline/Basis.hpp: phi_"]}
{"id": "C02", "title": "Shape functions are a non-negative partition of unity", "statement": "At every x the shape function values of any degree sum to one, and for x in [0,1] all of them are non-negative and at most one.", "quantifier": "all degrees p, all x", "why_tests_cant": "universally quantified over a continuum", "anchors": ["Bembel/src/Spline/Bernstein.hpp", "Bembel/src/Spline/ShapeFunctions.hpp", "Bembel/src/Spline/Basis.hpp"]}
{"id": "C03", "title": "Shape function derivatives are the derivatives of the shape functions", "statement": "The values returned by the derivative evaluators (for the whole basis and for a coefficient vector) are the derivatives at x of the functions returned by the value evaluators, for every degree p >= 1; consequently the derivative basis values sum to zero.", "quantifier": "all degrees p >= 1, all x, all coefficient vectors", "why_tests_cant": "a finite-difference test checks a few points up to truncation error", "anchors": ["Bembel/src/Spline/Bernstein.hpp: EvalBernsteinDer, EvalBernsteinDerBasis", "Bembel/src/Spline/Basis.hpp: phi_dx_"]}
{"id": "C04", "title": "Choosing the polynomial degree at run time selects exactly that degree", "statement": "Asking the run-time handlers for degree p with 0 <= p <= 20 evaluates the degree-p shape functions; a degree outside that range is never silently replaced by a different degree.", "quantifier": "all degrees requested at run time (int)", "why_tests_cant": "the dispatch recursion has one branch per degree and an implicit fall-through for all others", "anchors": ["Bembel/src/Spline/ShapeFunctions.hpp: PSpecificShapeFunctionHandler, ShapeFunctionHandler", "Bembel/src/Spline/Basis.hpp: PSpecificBasisHandler", "Bembel/src/util/Constants.hpp: MaxP"]}
{"id": "C05", "title": "Tensor-product basis values follow the documented dof ordering", "statement": "The scaled two-dimensional basis evaluation adds w*B_ix(x)*B_iy(y) to slot iy*(p+1)+ix for every pair of indices and touches each of the (p+1)^2 slots exactly once; the basis-interaction matrix adds w*b_i(s)*b_j(t) to entry (i,j).", "quantifier": "all p, all points, all weights, all prior contents", "why_tests_cant": "a transposed ordering gives the same answer on symmetric sample data", "anchors": ["Bembel/src/Spline/Basis.hpp: phiphi_, phiphi_dx_, phiphi_dy_, Phi_times_Phi_", "Bembel/src/AnsatzSpace/SuperSpace.hpp: addScaledBasis, addScaledBasisInteraction"]}
{"id": "C06", "title": "Generated knot vectors are valid", "statement": "The Bezier and uniform knot vector constructors return a non-decreasing, p-open knot vector on [0,1] of the size implied by degree, number of interior knots and repetition, with every interior breakpoint i/(m+1) occurring exactly the requested number of times. The degree query recovers the degree exactly as long as the mesh width is larger than the 1e-7 the query compares with.", "quantifier": "all degrees, all numbers of interior knots, all repetitions", "why_tests_cant": "sizes are unbounded", "anchors": ["Bembel/src/Spline/Knots.hpp: MakeBezierKnotVector, MakeUniformKnotVector, GetPolynomialDegreeFromKnotVector"]}
{"id": "C07", "title": "Span lookup returns the span that contains the parameter", "statement": "For a strictly increasing unique-knot vector on [0,1] and every x in [0,1], the location routine returns an index i that is in range and satisfies v[i] <= x <= v[i+1] (up to the documented tolerance at zero), and the unique-knot extraction of a sorted vector keeps first and last knots and is strictly increasing.", "quantifier": "all knot vectors, all parameters in [0,1]", "why_tests_cant": "all breakpoints, all positions incl. on a breakpoint", "anchors": ["Bembel/src/Spline/Knots.hpp: FindLocationInKnotVector, ExtractUniqueKnotVector"]}
{"id": "C08", "title": "De Boor evaluation returns the B-spline combination", "statement": "For every p-open knot vector, control coefficients and x in the knot range, the De Boor evaluator returns sum_i c_i N_{i,p}(x) with N the Cox-de Boor basis functions, all index accesses are in range, and no division by zero is performed. The tensor product evaluator returns the tensor product spline. The derivative evaluators return the derivative of the spline (for degrees from one on and knots repeated at most as often as the degree: two-sided between the knots, from the right in the knots, from the left in the last knot), also in each direction of a tensor product.", "quantifier": "all knot vectors, degrees, control points, all x in the knot interval", "why_tests_cant": "repeated knots and end points make sampling unconvincing; out-of-range reads may go unnoticed", "anchors": ["Bembel/src/Spline/DeBoor.hpp: DeBoor", "Bembel/src/Spline/DeBoorTP.hpp: DeBoorDer, DeBoorTP, DeBoorTPDer"]}
{"id": "C09", "title": "De Boor evaluation is affine invariant and stays in the convex hull", "statement": "Evaluating with constant control coefficients returns the constant, adding a constant to all control coefficients adds it to the result, and every value lies between the smallest and the largest of the p+1 active control coefficients.", "quantifier": "all knot vectors, control points, x in the knot interval", "why_tests_cant": "continuum of inputs", "anchors": ["Bembel/src/Spline/DeBoor.hpp: DeBoor"]}
{"id": "C10", "title": "Matrix unrolling and patch data layout are lossless", "statement": "Unrolling a matrix puts entry (row j, column i) at position i*rows+j; with the four homogeneous components interleaved, position 4*(i*rows+j)+k of the patch data holds component k of that control point, and writing the data back to matrices reproduces them.", "quantifier": "all matrix sizes and contents", "why_tests_cant": "sizes unbounded, index arithmetic errors cancel for square matrices", "anchors": ["Bembel/src/Spline/Unroll.hpp: Unroll", "Bembel/src/Geometry/Patch.hpp: init_Patch", "Bembel/src/Geometry/GeometryIO.hpp: WriteDATFile"]}
{"id": "C11", "title": "Patch evaluation is the rational tensor-product Bezier surface", "statement": "For a patch and any parameter (u,v) in [0,1]^2 the evaluation returns (sum w-weighted control points)/(sum weights) over the span that contains (u,v), with all reads inside the data array; the returned point is in the convex hull of the control points when all weights are positive, and corner parameters return corner control points.", "quantifier": "all patches, all parameters", "why_tests_cant": "continuum of parameters, unbounded number of spans", "anchors": ["Bembel/src/Geometry/Patch.hpp: eval"]}
{"id": "C12", "title": "Combined surface point evaluation agrees with the separate evaluations", "statement": "The one-shot surface point update stores the reference point, the weight, the same position as eval and the same two tangent vectors as evalJacobian, for every patch and parameter.", "quantifier": "all patches, parameters, weights, prior buffer contents", "why_tests_cant": "two independent copies of the same algorithm must agree everywhere", "anchors": ["Bembel/src/Geometry/Patch.hpp: updateSurfacePoint, eval, evalJacobian", "Bembel/src/Geometry/SurfacePoint.hpp"]}
{"id": "C13", "title": "The patch Jacobian is the derivative of the patch map; the normal is orthogonal to the surface", "statement": "For a patch without interior knots, the two columns of the Jacobian are the partial derivatives of the evaluated position on the closed unit square (one-sided on its boundary), and the normal is orthogonal to both tangents with length equal to the surface measure and forms a right-handed frame with them. (For a patch with interior knots the returned Jacobian is, on every closed span, the derivative with respect to the span-local coordinate.)", "quantifier": "all single-span patches, all parameters", "why_tests_cant": "differentiation over a continuum", "anchors": ["Bembel/src/Geometry/Patch.hpp: evalJacobian, evalNormal"]}
{"id": "C14", "title": "Cutting a patch into single-span patches preserves the surface", "statement": "Shredding a geometry yields exactly (spans in u)*(spans in v) patches per input patch, each without interior knots, and evaluating the chip with index ix*spans_v+iy at local (s,t) equals evaluating the original at the corresponding point of span (ix,iy); concatenation order over patches is preserved.", "quantifier": "all patches, all span counts, all local parameters", "why_tests_cant": "sizes unbounded", "anchors": ["Bembel/src/Geometry/Patch.hpp: PatchShredder"]}
{"id": "C15", "title": "DAT geometry files round-trip", "statement": "Writing a list of single-span patches in the DAT format and loading that file gives back the same number of patches in the same order with identical control data and knot structure (numbers treated as exactly printed); the loader consumes exactly the written lines.", "quantifier": "all patch lists", "why_tests_cant": "unbounded number and size of patches", "anchors": ["Bembel/src/Geometry/GeometryIO.hpp: LoadGeometryFileDAT, WriteDATFile, WritePatch, MakeFile"]}
{"id": "C16", "title": "IGES parameter section round-trips and stays within its line width", "statement": "Splitting a list of entries into IGES lines never exceeds the line width (when each entry fits), never splits an entry, and reading the lines back yields the same entry list; the patch entry list written has the documented length and decodes to the same control data; no write goes outside a buffer.", "quantifier": "all entry lists, all patches", "why_tests_cant": "unbounded; line-boundary coincidences are rare", "anchors": ["Bembel/src/Geometry/GeometryIGS.hpp: makeSection, writePatchData, LoadGeometryFileIGS"]}
{"id": "C17", "title": "The geometry file type is decided by the file suffix", "statement": "A file name ending in .dat is loaded with the DAT reader and a file name ending in .igs with the IGES reader, regardless of what precedes the suffix.", "quantifier": "all file names", "why_tests_cant": "all strings", "anchors": ["Bembel/src/Geometry/Geometry.hpp: init_Geometry"]}
{"id": "C18", "title": "The enclosing ball contains both balls", "statement": "The ball computed from two balls contains both of them, its radius is at least each of the two radii and at most the optimal (r1+r2+d)/2 in the overlapping case, for all centres and radii including equal centres; no division by zero.", "quantifier": "all centres and non-negative radii", "why_tests_cant": "continuum; degenerate cases", "anchors": ["Bembel/src/util/GeometryHelper.hpp: computeEnclosingBall"]}
{"id": "C19", "title": "Generic matrix storage is a faithful 2D array", "statement": "After resize(r,c) the container has r rows and c columns; reading an entry after any sequence of in-range writes returns the last value written to that entry; resizing keeps entries that are inside both the old and the new shape.", "quantifier": "all sequences of resize/write/read operations", "why_tests_cant": "histories unbounded", "anchors": ["Bembel/src/util/GenericMatrix.hpp: GenericMatrix"]}
{"id": "C20", "title": "Uniform refinement produces exactly patches*4^M elements in a fixed order", "statement": "After refining P patches uniformly M times the mesh has P*4^M elements; iterating over the mesh visits each exactly once, grouped by patch, and the running element number 0..P*4^M-1 is the element id used in all assembled matrices.", "quantifier": "all P and M", "why_tests_cant": "M unbounded; iteration is pointer chasing through a list being spliced during refinement", "anchors": ["Bembel/src/ClusterTree/ElementTree.hpp: init_ElementTree, refineUniformly_recursion, refineLeaf, pbegin, pend"]}
{"id": "C21", "title": "The elements of a patch tile the unit square", "statement": "At every level the squares llc + [0,h]^2 of the elements of one patch cover [0,1]^2, are pairwise non-overlapping (half-open squares are disjoint), and the global-to-local map of an element is the inverse of the local-to-global map.", "quantifier": "all levels, all points of [0,1]^2", "why_tests_cant": "continuum of points and unbounded levels", "anchors": ["Bembel/src/ClusterTree/ElementTree.hpp: refineLeaf", "Bembel/src/ClusterTree/ElementTreeNode.hpp: get_h, mapToReferenceElement, referenceMidpoint", "Bembel/src/AnsatzSpace/SuperSpace.hpp: map2surface"]}
{"id": "C22", "title": "The mesh is conforming: touching elements share vertex numbers", "statement": "After any number of uniform refinements of a closed or open conforming patch collection (corners distinct, an edge belongs to at most two patches, two patches share at most one edge), two elements that are neighbours along an edge reference the same two vertex numbers on it, every edge midpoint created by refinement is created exactly once, and the number of vertices is V+E+F of the coarser mesh. On a surface that does not intersect itself the numbers are the points: two element corners have the same number exactly if they are the same point of space.", "quantifier": "all patch topologies, all refinement levels", "why_tests_cant": "combinatorial explosion of topologies, levels unbounded", "anchors": ["Bembel/src/ClusterTree/ElementTree.hpp: refineLeaf, updateTopology"]}
{"id": "C23", "title": "Element adjacency is symmetric and geometric", "statement": "If element b is recorded as neighbour of a across edge j, then a is recorded as neighbour of b across some edge k and the two edges have the same pair of vertices in opposite order.", "quantifier": "all patch collections, any sequence of topology updates", "why_tests_cant": "histories unbounded", "anchors": ["Bembel/src/ClusterTree/ElementTree.hpp: updateTopology", "Bembel/src/ClusterTree/ElementTreeNode.hpp: adjcents_"]}
{"id": "C24", "title": "Cluster bounding balls contain the clusters", "statement": "The bounding ball stored for any cluster contains all vertices of all elements below it; hence the distance of two clusters, of whatever levels, that share a mesh vertex is zero and the far-field criterion never accepts touching clusters.", "quantifier": "all trees, all vertex positions", "why_tests_cant": "continuum of positions, unbounded depth", "anchors": ["Bembel/src/ClusterTree/ElementTree.hpp: computeElementEnclosings", "Bembel/src/H2Matrix/BlockClusterTree.hpp: compareCluster"]}
{"id": "C25", "title": "A cluster owns a contiguous block of elements", "statement": "For every cluster at level l of a mesh with M levels, iterating from its begin to its end visits exactly the 4^(M-l) leaf elements below it and these have consecutive element numbers; sibling ranges are adjacent and in order.", "quantifier": "all clusters, all levels", "why_tests_cant": "unbounded depth", "anchors": ["Bembel/src/ClusterTree/ElementTreeNode.hpp: cbegin, cend, front, back", "Bembel/src/H2Matrix/BlockClusterTree.hpp: get_row_start_index"]}
{"id": "C26", "title": "The lexicographic reordering vector is a bijection that respects geometry", "statement": "The reordering vector maps the lexicographic (patch, y, x) index of a mesh cell to the element id of the element occupying that cell; it is a permutation of 0..P*4^M-1.", "quantifier": "all P, M", "why_tests_cant": "unbounded", "anchors": ["Bembel/src/ClusterTree/ElementTree.hpp: computeReorderingVector"]}
{"id": "C27", "title": "Global cluster ids are unique across the whole tree", "statement": "Cluster ids computed from level and index are pairwise different over all levels and patches and fill an initial segment of the integers, as long as they are representable.", "quantifier": "all pairs of clusters", "why_tests_cant": "unbounded; integer width", "anchors": ["Bembel/src/ClusterTree/ElementTree.hpp: compute_global_id, generateElementLabels"]}
{"id": "C28", "title": "Every patch interface is reported exactly once", "statement": "The patch topology list contains, for every pair of patches glued along an edge, exactly one entry naming both patches and the two local edges, and one entry for every boundary edge. (Patch collections in which two patches share at most one edge.)", "quantifier": "all patch collections", "why_tests_cant": "all topologies", "anchors": ["Bembel/src/ClusterTree/ElementTree.hpp: patchTopologyInfo"]}
{"id": "C29", "title": "Degrees of freedom on a patch edge are enumerated in order along the edge", "statement": "The dof indices returned for edge 0..3 of a dimX*dimY tensor-product dof grid are exactly the dofs whose y-index is 0, x-index is dimX-1, y-index is dimY-1, x-index is 0 respectively, in increasing parameter order, with the patch offset added; all indices are in range.", "quantifier": "all dimensions and offsets", "why_tests_cant": "unbounded", "anchors": ["Bembel/src/AnsatzSpace/Glue.hpp: getEdgeDofIndices"]}
{"id": "C30", "title": "Edge orientation and sign rules for gluing", "statement": "Two glued edges are traversed in reverse when and only when both run in the same direction of the counter-clockwise patch boundary, so that physically coincident dofs are paired; for divergence conforming spaces the coefficient is +1 when and only when outward flux of one patch is inward flux of the other, and only the component normal to the edge is glued.", "quantifier": "all pairs of local edges", "why_tests_cant": "small finite table, but the orientation claim must hold for every dof on the edge", "anchors": ["Bembel/src/AnsatzSpace/Glue.hpp: reverseParametrized, glueCoefficientDivergenceConforming, edgeToBeGluedInFirstComp, edgeIsForwardParametrized, normalComponentIsInwardDirected"]}
{"id": "C31", "title": "The glue matrix assigns every local dof to exactly one global dof", "statement": "The assembled glue matrix has one row per local dof and one column per equivalence class of identified dofs; each row has exactly one non-zero entry which is 1 for the representative and the glue coefficient for the partners; every column is hit.", "quantifier": "all lists of pairwise disjoint identification sets with the smallest dof listed first (which is what the identification makers hand over)", "why_tests_cant": "unbounded", "anchors": ["Bembel/src/AnsatzSpace/Glue.hpp: assembleGlueMatrix, GlueRoutines"]}
{"id": "C32", "title": "Continuous gluing identifies exactly the dofs that coincide geometrically", "statement": "For continuous spaces two local dofs end up in the same identification set if and only if they are linked by a chain of edge identifications (in particular all dofs meeting at a patch vertex form one set), each dof is in at most one set and no empty set survives.", "quantifier": "all edge identification sequences (all topologies, valences, degrees, levels)", "why_tests_cant": "valence and order of the edges unbounded", "anchors": ["Bembel/src/AnsatzSpace/Glue.hpp: glue_identificationmaker_<Derived,DifferentialForm::Continuous>::makeIdentification"]}
{"id": "C33", "title": "Divergence conforming gluing pairs the normal components", "statement": "For divergence conforming spaces every interior edge produces exactly dim pairs, one per normal dof on the edge, with the smaller index as representative; pairs of different edges are disjoint; indices refer to the component normal to the edge on each side.", "quantifier": "all topologies, degrees, levels", "why_tests_cant": "unbounded", "anchors": ["Bembel/src/AnsatzSpace/Glue.hpp: glue_identificationmaker_<Derived,DifferentialForm::DivConforming>::makeIdentification"]}
{"id": "C34", "title": "The projector assembles tensor product B-splines", "statement": "The projection matrix has one row per element and shape function and one column per patch and tensor product B-spline, where the one-dimensional spline space of order q has dimension q+r*(2^M-1) for knot repetition r. Its columns are the B-splines: on every element the combination of the shape functions with the entries of a column equals the B-spline on its own patch and zero elsewhere, exactly for polynomial degree at most 4 and up to the projector tolerance 1e-4 for every degree (from degree 5 on entries below the tolerance are lost). For divergence conforming spaces the matrix is block diagonal with orders (P+1,P) and (P,P+1). Consequently (P<=4) functions of the space are exactly the patchwise splines with the given coefficients. With assertions enabled, continuous and divergence conforming spaces of degree 0 or with more equal knots than the degree are rejected.", "quantifier": "all degrees up to 19, levels, repetitions >= 1, patch numbers, elements, evaluation points, linear solvers that solve uniquely solvable systems, contents of uninitialised memory", "why_tests_cant": "the claim ranges over all degrees, levels, elements and evaluation points; tests compare a few splines at sample points", "anchors": ["Bembel/src/AnsatzSpace/Projector.hpp: makeLocalProjectionTriplets", "Bembel/src/Spline/Bezierextraction.hpp: MakeProjection"]}
{"id": "C35", "title": "Evaluating a discrete function at a patch point uses the element that contains the point", "statement": "evaluateOnPatch with any reference point of [0,1]^2 evaluates on the element of that patch whose closed square contains the point, with the local coordinate of the point in [0,1]^2; also after the evaluator has been copied or assigned.", "quantifier": "all points, patches, levels", "why_tests_cant": "continuum of points incl. all element boundaries", "anchors": ["Bembel/src/AnsatzSpace/FunctionEvaluator.hpp: evaluateOnPatch, operator=", "Bembel/src/ClusterTree/ElementTree.hpp: computeReorderingVector"]}
{"id": "C36", "title": "The block cluster tree partitions the matrix", "statement": "The leaves of the block cluster tree cover every pair of elements exactly once: the index blocks of the leaves are pairwise disjoint and their union is the whole matrix.", "quantifier": "all meshes, positions, eta and minimal cluster levels >= 0", "why_tests_cant": "depends on all cluster geometries; unbounded depth", "anchors": ["Bembel/src/H2Matrix/BlockClusterTree.hpp: appendSubtree, init_BlockClusterTree, updateLeafPointers"]}
{"id": "C37", "title": "Compressed blocks are admissible, dense blocks are small or near", "statement": "Every low-rank leaf satisfies max radius < eta*distance with positive distance, has clusters of the same level which are deep enough for the interpolation levels; every dense leaf has clusters at the minimal level, i.e. the same level of at most min_cluster_level generations above the elements.", "quantifier": "all trees, all eta", "why_tests_cant": "unbounded depth", "anchors": ["Bembel/src/H2Matrix/BlockClusterTree.hpp: compareCluster, appendSubtree"]}
{"id": "C38", "title": "The H2 product does not depend on the thread schedule", "statement": "The result of multiplying an H2 matrix with a vector is the same for every distribution of leaf blocks over threads and every order of the per-thread reductions (exact arithmetic).", "quantifier": "all numbers of threads, all assignments of leaves to threads, all reduction orders", "why_tests_cant": "schedules are not controllable by tests", "anchors": ["Bembel/src/H2Matrix/EigenHelper/H2DenseProduct.hpp: generic_product_impl"]}
{"id": "C39", "title": "The H2 product is the product with the represented matrix", "statement": "The product equals the sum over leaves of (dense block or V^T K W) applied to the vector, i.e. it is linear in the vector and equals one fixed matrix, whatever the vector; and the transposed transformations used before and after are adjoint to each other.", "quantifier": "all block trees, coupling matrices and vectors", "why_tests_cant": "unbounded", "anchors": ["Bembel/src/H2Matrix/EigenHelper/H2DenseProduct.hpp", "Bembel/src/H2Matrix/H2Multipole.hpp: forwardTransformation, backwardTransformation"]}
{"id": "C40", "title": "Interpolation polynomials are the Lagrange polynomials", "statement": "For every number n of pairwise different interpolation points, the computed Newton-form coefficient columns evaluate to the Lagrange basis: value 1 at the own point, 0 at the others, and interpolation reproduces every polynomial of degree below n.", "quantifier": "all n, all point sets", "why_tests_cant": "unbounded n; floating tests use tolerance", "anchors": ["Bembel/src/H2Matrix/H2Multipole.hpp: computeLagrangePolynomials, evaluatePolynomial"]}
{"id": "C41", "title": "Transfer matrices re-expand father polynomials exactly on the sons", "statement": "Each column block of the transfer matrix contains the values of the father cluster Lagrange polynomials at the son cluster interpolation points, with son blocks in the order of the sons in the element tree; hence re-expansion on the sons represents exactly the father polynomial.", "quantifier": "all n, all point sets", "why_tests_cant": "unbounded", "anchors": ["Bembel/src/H2Matrix/H2Multipole.hpp: computeTransferMatrices, interpolationPoints2D"]}
{"id": "C42", "title": "Moment matrices enumerate the elements of a cluster in tree order", "statement": "For a cluster with 4^k elements the moment matrix column block of element number e (tree order) is computed from the position (ix,iy) of that element inside the cluster.", "quantifier": "all refinement depths k", "why_tests_cant": "unbounded; default configuration only exercises k=1", "anchors": ["Bembel/src/H2Matrix/H2Multipole.hpp: moment2DComputer"]}
{"id": "C43", "title": "Singular quadrature rotations are rotations of the unit square", "statement": "The reference square rotations used for singular integrals map [0,1]^2 bijectively to itself, preserve area and orientation, and map vertex 0 / edge 0 to the vertex / edge with the given number.", "quantifier": "all points, all rotation cases", "why_tests_cant": "continuum", "anchors": ["Bembel/src/DuffyTrick/tau.hpp: tau"]}
{"id": "C44", "title": "Element pairs are classified by their common vertices", "statement": "For two elements the classification returns: identical element, common edge with the two local edge numbers, common vertex with the two local vertex numbers, or distant; for conforming, consistently oriented meshes it is correct for all positions of the shared vertices, and touching elements are never classified distant. On a surface that does not intersect itself the classification is complete: two different elements have no common point outside of the common vertex or the common edge that it reports.", "quantifier": "all pairs of vertex numberings and element positions", "why_tests_cant": "many combinations; positions continuum", "anchors": ["Bembel/src/DuffyTrick/compareElements.hpp: compareElements"]}
{"id": "C45", "title": "Singular quadratures integrate the right integral, inside the elements and away from the singularity", "statement": "For every integrand the singular quadrature routines are tensor quadratures of a transformed integrand whose integral over the unit cube equals the double integral over the two elements; the transformed integrand stays bounded for kernels that blow up like 1/distance; all evaluated points are in the open unit square and the two points of a pair never coincide; for polynomial integrands of total degree d the result is exact once the one dimensional rule is exact to degree d+3, in particular the total weight is 1.", "quantifier": "all integrands, all quadrature rules with nodes in (0,1), all nodes, all rotations", "why_tests_cant": "continuum", "anchors": ["Bembel/src/DuffyTrick/integrate2.hpp", "Bembel/src/DuffyTrick/integrate3.hpp", "Bembel/src/DuffyTrick/integrate4.hpp", "Bembel/src/DuffyTrick/integrate0.hpp"]}
{"id": "C46", "title": "Tensor product quadrature integrates products exactly", "statement": "The two-dimensional rule of order n has n^2 points in the unit square and its quadrature of a product f(x)g(y) is the product of the one-dimensional quadratures; hence weights sum to one and polynomial exactness carries over in each variable.", "quantifier": "all orders, all integrands", "why_tests_cant": "unbounded", "anchors": ["Bembel/src/Quadrature/TensorProductQuadratureVector.hpp", "Bembel/src/Quadrature/QuadratureVector.hpp"]}
{"id": "C47", "title": "The Gauss-Legendre rules are accurate", "statement": "Each hard-coded Gauss-Legendre rule with n points has as many weights as nodes, nodes strictly increasing inside (0,1), positive symmetric weights, and integrates all monomials of degree up to 2n-1 on [0,1] with an error below 1e-39 (taking the printed decimals as exact rationals), hence every polynomial of degree up to 2n-1 with an error below 1e-39 times the sum of its coefficients. The rules computed from an eigenvalue problem for larger n are exact up to degree 2n-1 with nodes inside (0,1) and nonnegative weights, if the eigenvalue problem is solved exactly.", "quantifier": "all tabulated rules and all polynomials of admissible degree (by linearity)", "why_tests_cant": "each digit matters; tests with tolerance only see large typos", "anchors": ["Bembel/src/Quadrature/GaussLegendreRule.hpp", "Bembel/src/Quadrature/GaussSquare.hpp"]}
{"id": "C48", "title": "Dense assembly does not depend on the thread schedule", "statement": "In the assembly of a dense operator matrix every entry of the element-pair matrix is written by exactly one task, so that any interleaving of tasks gives the same matrix, equal to the mathematical double sum, and no entry is left unwritten.", "quantifier": "all task schedules", "why_tests_cant": "schedules are not controllable by tests", "anchors": ["Bembel/src/LinearOperator/DiscreteOperator.hpp: compute"]}
{"id": "C49", "title": "Symmetric kernels give symmetric Galerkin matrices", "statement": "If the integrand of a pair is transposed when the two arguments are exchanged, the geometry is regular on the unit square of every patch and the quadrature rule is symmetric about 1/2 (as every Gauss rule is), the assembled matrix is symmetric.", "quantifier": "all meshes, all symmetric integrands", "why_tests_cant": "unbounded", "anchors": ["Bembel/src/LinearOperator/DiscreteOperator.hpp", "Bembel/src/DuffyTrick/evaluateBilinearForm.hpp"]}
{"id": "C50", "title": "Kernels are symmetric resp. adjoint to each other", "statement": "The single layer kernels are symmetric in their two arguments, depend only on the distance, and the adjoint double layer kernel is the double layer kernel with exchanged arguments; for the Laplace and Helmholtz families.", "quantifier": "all points and normals, all wavenumbers", "why_tests_cant": "continuum", "anchors": ["Bembel/src/Laplace/SingleLayerOperator.hpp", "Bembel/src/Laplace/DoubleLayerOperator.hpp", "Bembel/src/Laplace/AdjointDoubleLayerOperator.hpp", "Bembel/src/Helmholtz/SingleLayerOperator.hpp", "Bembel/src/Helmholtz/DoubleLayerOperator.hpp", "Bembel/src/Helmholtz/AdjointDoubleLayerOperator.hpp"]}
{"id": "C51", "title": "Double layer and gradient kernels are derivatives of the fundamental solution", "statement": "The double layer kernel is the derivative of the fundamental solution in direction of the source normal, the adjoint kernel (up to the library sign convention) in direction of the target normal, and the potential gradient kernel is the gradient in the evaluation point, for all distinct points.", "quantifier": "all pairs of distinct points, all directions, all wavenumbers", "why_tests_cant": "differentiation over a continuum", "anchors": ["Bembel/src/Laplace/DoubleLayerOperator.hpp: evaluateKernelGrad", "Bembel/src/Laplace/SingleLayerPotentialGradient.hpp", "Bembel/src/Helmholtz/DoubleLayerOperator.hpp", "Bembel/src/Maxwell/SingleLayerPotential.hpp"]}
{"id": "C52", "title": "The far-field interpolant is consistent with the near-field integrand", "statement": "For every operator the kernel components used in the compressed (interpolated) far field, contracted with the basis functions / derivatives used for the moments, give the same integrand as the near-field evaluation.", "quantifier": "all surface points, tangents, basis values", "why_tests_cant": "continuum; sign/index errors in off-diagonal components are hard to see", "anchors": ["Bembel/src/Laplace/HypersingularOperator.hpp", "Bembel/src/Helmholtz/HypersingularOperator.hpp", "Bembel/src/Maxwell/SingleLayerOperator.hpp", "Bembel/src/AnsatzSpace/SuperSpace.hpp: addScaledSurfaceCurlInteraction"]}
{"id": "C53", "title": "Potential evaluation and load vectors do not depend on the thread schedule", "statement": "Potentials at a point and load vector entries are sums over elements and quadrature points, and give the same value for every distribution of the elements over threads and every order of the critical-section reductions; they are linear in the density / data function, for scalar and vector data.", "quantifier": "all schedules, thread counts", "why_tests_cant": "schedules are not controllable by tests", "anchors": ["Bembel/src/Potential/DiscretePotential.hpp: evaluate", "Bembel/src/LinearForm/DiscreteLinearForm.hpp: compute", "Bembel/src/LinearOperator/DiscreteLocalOperator.hpp"]}
{"id": "C54", "title": "Surface orientation check detects inconsistent normals", "statement": "The orientation test of the mesh accepts a geometry only if along every patch interface the normals of the two patches agree.", "quantifier": "all geometries", "why_tests_cant": "all interfaces, edge numbers", "anchors": ["Bembel/src/ClusterTree/ClusterTree.hpp: checkOrientation"]}
{"id": "C55", "title": "Spherical harmonics tables and sums follow their documented definition", "statement": "With deg^2 coefficients equal for the orders m and -m, evaluate_sphericals returns on the unit sphere the series of the coefficients times the spherical harmonics of degree below deg; evaluate_solid_sphericals returns the same series at x/|x| with every term of degree n scaled by |x|^n (by n|x|^(n-1) with grad), evaluate_dsphericals and evaluate_dsolid_sphericals the series of the gradients; spherical_harmonics_full, legendreFull and constant give the tables of the spherical harmonics, of the derivatives of the Legendre polynomials and of the norming factors, and Dsolid_harmonics_full the gradients of the solid harmonics, for every degree.", "quantifier": "all points, coefficient vectors, degrees and orders, all initial contents of the tables", "why_tests_cant": "continuum", "anchors": ["Bembel/src/util/Sphericals.hpp: evaluate_sphericals, evaluate_solid_sphericals, evaluate_dsphericals, evaluate_dsolid_sphericals, spherical_harmonics_full, Dsolid_harmonics_full, legendreFull, constant, pow_int"]}
{"id": "C56", "title": "Binary matrix files round-trip", "statement": "Writing a matrix in binary form and reading it back with the same scalar type returns the same matrix for row-major and column-major storage; a scalar size mismatch, a missing or an empty file is reported by a non-zero return value and leaves the target alone; a file cut off after its header is not reported; from 2 GiB on the byte count overflows.", "quantifier": "all matrices, both storage orders", "why_tests_cant": "sizes unbounded", "anchors": ["Bembel/src/IO/print2file.hpp: print2bin, bin2Mat"]}
{"id": "C57", "title": "Polynomial degree and quadrature degree bookkeeping", "statement": "Integer powers are computed exactly for all signs of the exponent; the number of spherical degrees is monotone in the requested precision; the far-field quadrature degree grows linearly with the ansatz degree; the quadrature degree chosen for a pair of elements is at least the far-field degree and, for every distance of the elements, at most the larger one of it and (p+2)*level/2, so that the assertion on the largest available degree cannot fail for (p+2)*level < 100.", "quantifier": "all bases, integer exponents, precisions, operator orders, ansatz degrees, levels and distances", "why_tests_cant": "all integers", "anchors": ["Bembel/src/util/Sphericals.hpp: pow_int", "Bembel/src/HomogenisedLaplace/Coefficients.hpp: getDegree", "Bembel/src/LinearOperator/LinearOperatorBase.hpp: get_FarfieldQuadratureDegree", "Bembel/src/LinearOperator/LinearOperatorBase.hpp: getNearfieldQuadratureDegree"]}
{"id": "C58", "title": "Boundary labels and patch indicators of elements", "statement": "The boundary label reported for an element is -1 exactly if one of its edges lies on an edge of the surface that belongs to one patch only; otherwise it is the number of its edges that lie on the boundary of its patch (so it is 0 exactly in the interior of a patch). The indicator vector of a patch is 1 exactly for the elements of this patch and 0 for all others.", "quantifier": "every conforming patch collection, every refinement level, every element", "why_tests_cant": "depends on the neighbour structure of arbitrary patch collections at every level", "anchors": ["Bembel/src/ClusterTree/ElementTree.hpp: ElementTree::generatePatchBoundaryLabels", "Bembel/src/ClusterTree/ElementTree.hpp: ElementTree::identifyPatch"]}
{"id": "C59", "title": "Kernels solve their partial differential equation", "statement": "Away from the singularity the Laplace kernel is harmonic and the Helmholtz and Maxwell kernel satisfies Laplace(G) = -k^2 G, in the evaluation point as well as in the source point.", "quantifier": "all pairs of distinct points, all complex wavenumbers", "why_tests_cant": "second derivatives over a continuum of points and wavenumbers", "anchors": ["Bembel/src/Laplace/SingleLayerOperator.hpp: evaluateKernel", "Bembel/src/Helmholtz/SingleLayerOperator.hpp: evaluateKernel", "Bembel/src/Maxwell/SingleLayerOperator.hpp: evaluateKernel"]}
{"id": "C60", "title": "Evaluated potentials solve their partial differential equation", "statement": "The function returned by potential evaluation is, at every point that is not a quadrature node of the surface, harmonic for the Laplace single and double layer potentials and a solution of Laplace(u) + k^2 u = 0 for the Helmholtz single and double layer potentials and for every Cartesian component of the Maxwell single layer potential; the gradient potential is the derivative of the single layer potential.", "quantifier": "all meshes, densities, wavenumbers, evaluation points away from the nodes", "why_tests_cant": "second derivatives at a continuum of points for every density and geometry", "anchors": ["Bembel/src/Potential/DiscretePotential.hpp: evaluate", "Bembel/src/Laplace/SingleLayerPotential.hpp", "Bembel/src/Laplace/DoubleLayerPotential.hpp", "Bembel/src/Helmholtz/SingleLayerPotential.hpp", "Bembel/src/Maxwell/SingleLayerPotential.hpp", "Bembel/src/Helmholtz/DoubleLayerPotential.hpp"]}
{"id": "C61", "title": "Load vectors pair the data with the ansatz functions", "statement": "Entry c of the assembled load vector is the surface quadrature of the data (Dirichlet trace, Neumann trace, tangential or rotated tangential trace) against the c-th ansatz function as it is evaluated by the function evaluator.", "quantifier": "all meshes, degrees, data functions, quadrature rules", "why_tests_cant": "every mesh, every data function, every entry", "anchors": ["Bembel/src/LinearForm/DiscreteLinearForm.hpp: compute", "Bembel/src/LinearForm/DirichletTrace.hpp", "Bembel/src/LinearForm/NeumannTrace.hpp", "Bembel/src/LinearForm/TangentialTrace.hpp", "Bembel/src/LinearForm/RotatedTangentialTrace.hpp"]}
{"id": "C62", "title": "Mass and Laplace-Beltrami matrices", "statement": "Entry (c,d) of the mass matrix is the surface quadrature of the product of the c-th and d-th ansatz functions, entry (c,d) of the Laplace-Beltrami matrix that of the product of their surface gradients. Both are symmetric and semidefinite (the Laplace-Beltrami form vanishes exactly if the surface gradient vanishes at all quadrature nodes, in particular for constants), and the mass matrix times a coefficient vector is the load vector of the function of that vector.", "quantifier": "all meshes, degrees, regular parametrisations, quadrature rules, coefficient vectors", "why_tests_cant": "every mesh and every pair of ansatz functions", "anchors": ["Bembel/src/LinearOperator/DiscreteLocalOperator.hpp: compute", "Bembel/src/Identity/IdentityOperatorBase.hpp", "Bembel/src/LaplaceBeltrami/LaplaceBeltramiOperator.hpp"]}
{"id": "C63", "title": "Assembly of compressed matrices", "statement": "For every order in which the parallel tasks of the assembly take effect the compressed matrix is the same: applying it gives T^t A T x, where an entry of A is the pair integral of the dense assembly if the block is stored densely, and otherwise the quadrature of the test and trial functions of the operator against its far field kernels interpolated on two separated clusters that contain the two elements. Whenever the interpolation reproduces the kernels at the quadrature points, the far field entry equals the quadrature of the dense assembly.", "quantifier": "all meshes, admissibility parameters, cluster levels, degrees, numbers of interpolation points, operators, task orders, right hand sides", "why_tests_cant": "every task order and every partition into blocks, for arbitrary meshes and kernels", "anchors": ["Bembel/src/H2Matrix/H2Matrix.hpp: init_H2Matrix", "Bembel/src/H2Matrix/H2Multipole.hpp: interpolateKernel, Moment2D", "Bembel/src/Laplace/SingleLayerOperator.hpp: evaluateFMMInterpolation", "Bembel/src/Maxwell/SingleLayerOperator.hpp: evaluateFMMInterpolation"]}
{"id": "C64", "title": "Conformity of the ansatz spaces", "statement": "Functions of the ansatz space built by the code are conforming: for a continuous form, the function of every coefficient vector takes the same value from both sides at every point shared by two neighbouring elements, inside a patch and across patch interfaces alike; for a divergence conforming form the outward fluxes through a shared edge cancel at every point of it; a discontinuous form applies no glueing. Conversely the glueing loses nothing: every spline function that satisfies the coupling conditions is represented by some coefficient vector. The divergence conforming and discontinuous transformation matrices always exist; the continuous one exists exactly if the glue set cleanup meets no two emptied sets in a row.", "quantifier": "all conforming oriented patch collections, refinement levels, degrees 1..19, knot repetitions up to the degree, real or complex coefficient vectors, pairs of facing elements, points of the shared edge", "why_tests_cant": "a universal statement over meshes, degrees, levels, coefficient vectors and every real point of each shared edge", "anchors": ["Bembel/src/AnsatzSpace/AnsatzSpace.hpp: init_AnsatzSpace", "Bembel/src/AnsatzSpace/Projector.hpp: init_Projector", "Bembel/src/AnsatzSpace/Glue.hpp: init_Glue, assembleGlueMatrix"]}
{"id": "C65", "title": "Kernel of the homogenised Laplace problem", "statement": "The kernel evaluated by the homogenised Laplace operator and potential with degree N and coefficients c is k(x-y) with k(z) = sum over the 27 centres m in {-1,0,1}^3 of 1/(4 pi |z-m|) + |z|^2/6 + sum_{n=0}^N sum_{m=-n}^n c_n^m |z|^n Y_n^m(z/|z|). Away from the centres its Laplacian is one, and so the Laplacian of an evaluated potential is the quadrature of its density. The operator's integrand and far field kernel are this kernel times the area elements.", "quantifier": "all degrees, coefficient vectors, pairs of points, densities and quadrature rules", "why_tests_cant": "an identity of functions of real points and coefficients, with a differential equation in every point", "anchors": ["Bembel/src/HomogenisedLaplace/Coefficients.hpp: k_mod, Dk_mod", "Bembel/src/HomogenisedLaplace/SingleLayerOperator.hpp: evaluateKernel, evaluateIntegrand_impl, evaluateFMMInterpolation_impl", "Bembel/src/HomogenisedLaplace/SingleLayerPotential.hpp: evaluateKernel", "Bembel/src/util/Sphericals.hpp: evaluate_solid_sphericals"]}
{"id": "C66", "title": "Coefficients of the homogenised kernel", "statement": "getCoefficients(precision) returns, for every precision and independently of uninitialised memory, (N+1)^2 coefficients with N = 4, 8, 12 according to the precision, equal for the orders m and -m, such that no other such coefficients give a smaller sum of squared jumps of the kernel and of its normal derivative between opposite faces of the unit cube at the points of the face quadrature; the mean of the kernel truncated at degree N-1 over the faces, computed by this quadrature, is -1/24. These coefficients are unique (apart from the additive constant fixed by the mean), so they do not depend on which exact least squares solver is used, and those of odd degree are zero.", "quantifier": "all precisions, contents of fresh memory, competing coefficient vectors, exact least squares solvers and eigenvalue solvers", "why_tests_cant": "optimality against all other coefficient vectors", "anchors": ["Bembel/src/HomogenisedLaplace/Coefficients.hpp: getCoefficients, getDegree, getDisplacement, calculateFirstCoefficient", "Bembel/src/util/Sphericals.hpp: spherical_harmonics_full, Dsolid_harmonics_full"]}
{"id": "C67", "title": "Patches from open knot vectors", "statement": "Constructing a Patch from four matrices of homogeneous control point coordinates and two open knot vectors on [0,1] (degrees up to 20, arbitrary interior knots and multiplicities, knots equal or more than 1e-6 apart) succeeds, and the patch is the NURBS surface of this net: in every point of the closed unit square the homogeneous coordinates it evaluates differ from those of the tensor product B-spline surface by at most 1e-15 times the sum of the absolute values of the control coordinates. For degrees up to 10 and knots on a uniform grid the evaluated point is exactly the NURBS point, and shredding the patch gives, for every pair of nonempty knot spans, a patch with one element whose points are those of the surface on that rectangle. On input that is already in Bezier form the control net is taken over.", "quantifier": "all degrees, open knot vectors, control nets and parameter points", "why_tests_cant": "an identity of two families of functions over all knot vectors, nets and points of the square", "anchors": ["Bembel/src/Geometry/Patch.hpp: init_Patch, eval", "Bembel/src/Spline/Bezierextraction.hpp: MakeProjection", "Bembel/src/Spline/DeBoorTP.hpp: DeBoorTP", "Bembel/src/Geometry/Patch.hpp: PatchShredder"]}
{"id": "C68", "title": "Products with expressions of H2-matrices", "statement": "Multiplying a linear expression of H2-matrices (sums, differences and multiples, nested in any way) by a dense vector or matrix gives the product of the sum, difference or multiple of the represented matrices with it: (A+B)*x = A*x + B*x, (A-B)*x = A*x - B*x, (c*A)*x = c*(A*x), and dst += alpha*(expression)*x adds exactly alpha times this product, for every number of threads and every schedule of each product. get_dense returns the represented matrix: its entry (i,j) is the (i,j) entry of transpose(T)*A*T, with every entry of the result written.", "quantifier": "all expressions, H2-matrices on all meshes, right hand sides, numbers of columns, scalars, thread counts, schedules and contents of fresh memory", "why_tests_cant": "expressions of any depth, all matrices and all interleavings of the threads", "anchors": ["Bembel/src/H2Matrix/EigenHelper/H2DenseProduct.hpp: generic_product_impl::scaleAndAddTo, product_evaluator", "Bembel/src/H2Matrix/H2Matrix.hpp: rows, cols, get_dense, operator*"]}
{"id": "C69", "title": "Surface files for VTK", "statement": "The file written by the surface export, read by an XML reader, contains the points of the refined mesh (each once), one polygon per element whose four vertex numbers refer to the points at the corners of the element on the surface in order, and for every polygon the number of its patch, the unit normal at the centre of the element, and the values at this centre of exactly the functions added since the last clearData, in the order of the addDataSet calls; complex functions appear as one array for the real and one for the imaginary part; functions in space are evaluated at the surface point.", "quantifier": "all conforming watertight geometries, refinement levels, sequences of addDataSet and clearData calls with functions of all eight types, names without angle brackets, formats of numbers and contents of fresh memory", "why_tests_cant": "all meshes and all histories of calls; the bookkeeping by element id must be right for every element", "anchors": ["Bembel/src/IO/VTKSurfaceExport.hpp: VTKSurfaceExport, addDataSet, clearData, writeToFile"]}
{"id": "C70", "title": "Grid and point files for VTK", "statement": "The file written by the grid export contains the nx*ny*nz points of the tensor grid with the first coordinate running fastest, the extents 0..nx-1, 0..ny-1, 0..nz-1, and for every function added since the last clearData its values at exactly these points in the same order, with one or three components. The file written by the point export contains the points, their consecutive numbers and the rows of exactly the matrices added since the last clearData, complex matrices split into real and imaginary part.", "quantifier": "all coordinate vectors (including empty ones), point sets, functions, matrices with one or three columns and sequences of calls", "why_tests_cant": "all grid sizes and histories of calls; the linear index of a grid point must agree with the order in which the points are written", "anchors": ["Bembel/src/IO/VTKDomainExport.hpp: VTKDomainExport, addDataSet, clearData, writeToFile", "Bembel/src/IO/VTKPointExport.hpp: VTKPointExport, addDataSet, addComplexDataSet, clearData, writeToFile"]}
{"id": "C71", "title": "Error measured on the surface", "statement": "surfaceL2error returns the square root of the surface quadrature of (f - u_h)^2. It is zero exactly if f and u_h agree at all quadrature nodes (positive weights, regular geometry); if f is itself a discrete function it is the mass-matrix norm of the difference of the coefficients; and the discrete function whose coefficients solve the mass-matrix system for the load vector of f (same quadrature) has the smallest error among all discrete functions, by Pythagoras.", "quantifier": "all geometries, meshes, degrees, quadrature rules, functions and coefficient vectors", "why_tests_cant": "the number reported in every convergence study; must be right for all functions, meshes and coefficients", "anchors": ["Bembel/src/util/surfaceL2error.hpp: surfaceL2error"]}
{"id": "C72", "title": "Text and Matlab output", "statement": "print2ascii replaces the file by one line per row with the entries as words. For every history of print2m calls (dense or sparse, modes w and a), executing the file as a Matlab script defines exactly the variables of the calls since the last w with the right entries, later calls overriding earlier ones of the same name; other files are untouched; a dense call with another mode changes nothing and returns 1. A sparse matrix should come back with its size, and the sparse overload should reject improper modes.", "quantifier": "all matrices with printable entries, names, file contents and histories of calls", "why_tests_cant": "all histories and matrices, including empty and sparse ones", "anchors": ["Bembel/src/IO/print2file.hpp: print2ascii, print2m"]}
{"id": "C73", "title": "Stopwatch", "statement": "For every history of calls lap and toc return the time since the last start, lap or tic (the time lap needs itself is excluded), get_data returns the lap times since the last start in order, and measurements can follow one another. stop returns the overall time since start and allows a new start.", "quantifier": "all histories of calls and all sequences of clock readings", "why_tests_cant": "all histories; real clocks are not reproducible", "anchors": ["Bembel/src/IO/Stopwatch.hpp: Stopwatch"]}
{"id": "C74", "title": "Log files", "statement": "For every history of calls of a new logger with a white-space separator, the log file read as a table of lines and words has exactly the rows passed to file and both, in order; the terminal output has the rows passed to term and both; nothing is written before the first call and other files are not changed. The opening mode given to the constructor decides whether old content is kept.", "quantifier": "all histories of calls, arguments, column widths, separators of blanks and tabs, file contents", "why_tests_cant": "all histories and argument lengths (longer than the column width)", "anchors": ["Bembel/src/IO/Logger.hpp: Logger"]}
{"id": "C75", "title": "Reference solutions of the examples", "statement": "The reference solutions are what they are used for: away from its source the electric dipole solves curl curl E = k^2 E and div E = 0 and satisfies the Silver-Mueller radiation condition; the harmonic function is harmonic and its gradient function is its gradient; the Helmholtz fundamental solution solves Laplace(u) + k^2 u = 0, its gradient function is its gradient and it satisfies the Sommerfeld radiation condition.", "quantifier": "all wavenumbers (radiation: with non-positive imaginary part), source positions, dipole moments and points different from the source", "why_tests_cant": "second derivatives and limits at infinity over a continuum of points and wavenumbers", "anchors": ["examples/Data.hpp: Dipole, HarmonicFunction, HarmonicFunctionGrad, HelmholtzFundamentalSolution, HelmholtzFundamentalSolutionGrad"]}
{"id": "C76", "title": "Evaluation grids and error measures", "statement": "The tensor product grid contains every combination of the given coordinates exactly once, with the first coordinate running fastest; the sphere grid has the requested number of different points, all on the sphere. The pointwise errors are the distances of the potential to the reference function at the grid points and the maximal error is their maximum, for scalar and for vector fields. The estimated rate of convergence is the least squares slope, and it is exactly the rate for a geometric sequence of errors.", "quantifier": "all coordinate lists, radii, centres, numbers of points, potentials, reference functions, error sequences", "why_tests_cant": "all sizes and values including empty grids and fields with few points", "anchors": ["examples/Grids.hpp: makeTensorProductGrid, makeSphereGrid", "examples/Error.hpp: errors, maxPointwiseError, estimateRateOfConvergence, checkRateOfConvergence"]}
{"id": "C77", "title": "Value semantics of geometries and spaces", "statement": "For every history of building, copying, moving, assigning, modifying and destroying geometries, meshes' ansatz spaces and super spaces, every live geometry has the patches last given to it, and every space keeps the geometry, level, degree and knot repetition it was built with; in particular the geometry may be destroyed after the space is built.", "quantifier": "all histories of operations on any number of geometries and spaces", "why_tests_cant": "all histories; lifetime and aliasing", "anchors": ["Bembel/src/Geometry/Geometry.hpp: Geometry", "Bembel/src/AnsatzSpace/AnsatzSpace.hpp: AnsatzSpace", "Bembel/src/AnsatzSpace/SuperSpace.hpp: SuperSpace", "Bembel/src/ClusterTree/ElementTree.hpp: init_ElementTree"]}
{"id": "C78", "title": "Value semantics of block cluster trees", "statement": "For every history of building, copying, moving, assigning, re-parametrising, re-building, writing and destroying block cluster trees, every tree keeps its own parameters and its own leaves: the leaf pointers of a variable give exactly the leaves of its own tree, in the order of the tree, with the values last written to them, and writing the leaves of one tree (as the assembly does for each component of a vector operator) never changes another tree. When all trees are destroyed, none of their nodes is left in memory.", "quantifier": "all histories of operations on any number of trees and meshes", "why_tests_cant": "all histories; lifetime and aliasing of leaves, sons and leaf pointers", "anchors": ["Bembel/src/H2Matrix/BlockClusterTree.hpp: BlockClusterTree, operator=, init_BlockClusterTree, updateLeafPointers", "Bembel/src/H2Matrix/TreeLeaf.hpp: TreeLeaf", "Bembel/src/util/GenericMatrix.hpp: GenericMatrix", "Bembel/src/H2Matrix/H2Matrix.hpp: init_H2Matrix"]}
{"id": "C79", "title": "Refinement enlarges the ansatz spaces", "statement": "For the same patches, degree and knot repetition, every function (or vector field) of the ansatz space of refinement level M is also a function of the ansatz space of every level M' >= M: for every coefficient vector of the coarse space there is one of the fine space with the same values at every point of every patch. This holds for discontinuous, continuous and divergence conforming spaces, so functions glued across patch interfaces stay representable.", "quantifier": "all conforming patch collections, levels M <= M', degrees up to 4 (where the projector is exact), knot repetitions, coefficient vectors and points", "why_tests_cant": "all levels, coefficient vectors and points; two different meshes, projectors and glue matrices are involved", "anchors": ["Bembel/src/AnsatzSpace/AnsatzSpace.hpp: init_AnsatzSpace", "Bembel/src/AnsatzSpace/Projector.hpp: Projector", "Bembel/src/AnsatzSpace/Glue.hpp: Glue", "Bembel/src/AnsatzSpace/FunctionEvaluator.hpp: evaluate"]}
{"id": "C80", "title": "The ansatz spaces consist of exactly the conforming patchwise splines", "statement": "For polynomial degree P <= 4, an ansatz space built on a conforming, consistently oriented geometry with refinement level M and knot repetition r contains every function that is a tensor product spline (uniform knots of multiplicity r, 2^M elements per direction) on each patch and satisfies the conformity condition of the space: no condition for the discontinuous space, equal values along common patch edges for the continuous space, cancelling normal flows along common patch edges for the divergence conforming space (components of the orders (P+1,P) and (P,P+1)). Conversely every coefficient vector gives such a function. In particular the polynomials on the patches are splines, and the constants lie in every continuous space, so a user can represent and reproduce them exactly.", "quantifier": "all geometries (numbers of patches, corner configurations) with conforming oriented patches, all levels M, degrees P<=4, knot repetitions, all families of splines, all coefficient vectors, all evaluation points in the elements", "why_tests_cant": "Completeness of the spaces quantifies over all spline functions, all geometries and all levels; tests evaluate finitely many functions at finitely many points on a few geometries, and a glueing that ties too many degrees of freedom together still passes every continuity test.", "anchors": ["Bembel/src/AnsatzSpace/AnsatzSpace.hpp: AnsatzSpace::init_AnsatzSpace", "Bembel/src/AnsatzSpace/Projector.hpp: Projector::makeMatrix, proj_::makeSystem/makeProjection", "Bembel/src/AnsatzSpace/Glue.hpp: Glue, makeDofIdentificationList, assembleGlueMatrix"]}
{"id": "C81", "title": "IGES files are well formed and round-trip as a whole", "statement": "The file written by writeIGSFile consists of the sections S, G, D, P, T in this order; every line has 80 columns, the letter of its section in column 72 and its number within the section in the last seven columns; the directory entry of each patch holds the number of its first parameter line and the number of its parameter lines, and exactly those lines hold its data and point back to the directory entry; the last line holds the numbers of lines of the other sections. Loading the file returns the patches that were written, for every non-empty geometry and every file name.", "quantifier": "all geometries (lists of patches), file names, dates and number formats whose conversion is exact, as long as the line numbers have seven digits", "why_tests_cant": "all file names and geometries: whether the file can be read depends on a single character of a long path and on the widths of numbers in fixed columns; tests use a few short names", "anchors": ["Bembel/src/Geometry/GeometryIGS.hpp: writeIGSFile, writeSection, writeIGSHeader, writeGlobalSection, writeDirectory, writeParameterSection, LoadGeometryFileIGS"]}
{"id": "C82", "title": "Interpolation in the Bernstein basis is exact", "statement": "For p+1 different mask points, p at most 20, GetCoefficients returns for every increment the Bernstein coefficients of a polynomial of degree p that takes the given values at the mask points; values taken from a Bernstein polynomial return exactly its coefficients, so the result is unique; with the mask and the interpolation points of the library, the values of a function that is a polynomial of degree p on every knot interval give its coefficients on every interval. The pointer variant writes exactly increments*(p+1) entries. No mask makes the code read outside its buffers.", "quantifier": "all degrees, all numbers of increments, all masks of different points (also outside [0,1]), all values in any real vector space, all contents of uninitialised memory", "why_tests_cant": "the matrix has to be invertible for every set of different points and every degree, and no finite set of values determines that the coefficients are reproduced", "anchors": ["Bembel/src/Spline/Localize.hpp: GetInterpolationMatrix, GetCoefficients, MakeInterpolationMask, MakeInterpolationPoints"]}
{"id": "C83", "title": "Ansatz functions are linearly independent; mass and Laplace-Beltrami systems are well posed", "statement": "No degree of freedom is redundant: if the function of a coefficient vector vanishes inside all elements, the vector is zero, for the discontinuous, continuous and divergence conforming spaces. Hence, on regular surfaces, the mass matrix is symmetric positive definite, the system of the L2 projection with a Dirichlet linear form has exactly one solution for all data, and data from the space are reproduced. On connected closed or open surfaces the Laplace-Beltrami matrix of a continuous space maps exactly the constants to zero, and its system is solvable exactly if the surface quadrature of the data vanishes, uniquely up to constants.", "quantifier": "all conforming oriented patch collections, regular parametrisations, refinement levels, knot repetitions, polynomial degrees up to 4 (beyond, the projector's threshold may drop entries), quadrature degrees between the polynomial degree and 19, all data and coefficient vectors", "why_tests_cant": "definiteness and solvability concern all coefficient vectors, geometries and data; a test solves a few systems", "anchors": ["Bembel/src/AnsatzSpace/AnsatzSpace.hpp: get_transformation_matrix", "Bembel/src/AnsatzSpace/Projector.hpp", "Bembel/src/AnsatzSpace/Glue.hpp", "Bembel/src/LinearOperator/DiscreteLocalOperator.hpp: compute", "Bembel/src/Identity/IdentityOperatorBase.hpp", "Bembel/src/LaplaceBeltrami/LaplaceBeltramiOperatorBase.hpp", "Bembel/src/LinearForm/DiscreteLinearForm.hpp: compute", "Bembel/src/LinearForm/DirichletTrace.hpp"]}
{"id": "C84", "title": "Results do not depend on the position of the surface in space", "statement": "Rotating and translating all patches of a geometry changes nothing but positions: the mesh, its numbering and its block cluster tree are the same, bounding balls are moved, the matrix of every boundary integral operator (dense or H2) and the mass and Laplace-Beltrami matrices are the same, linear forms of moved data are the same, scalar potentials at moved points are the same and vector potentials are rotated. An affine map of the control points maps the points of a patch by the map and the tangents by its linear part.", "quantifier": "all rotations and translations, parametrisations, refinement levels, polynomial and quadrature degrees, operators, coefficient vectors, evaluation points and schedules; all affine maps and patches with positive weights", "why_tests_cant": "a test compares two positions of one surface; the claim ranges over all motions, geometries and discretisations", "anchors": ["Bembel/src/Geometry/Patch.hpp: eval, evalJacobian", "Bembel/src/ClusterTree/ElementTree.hpp: init_ElementTree, computeElementEnclosings", "Bembel/src/H2Matrix/BlockClusterTree.hpp: init_BlockClusterTree", "Bembel/src/DuffyTrick/evaluateBilinearForm.hpp", "Bembel/src/LinearOperator/DiscreteOperator.hpp", "Bembel/src/H2Matrix/H2Matrix.hpp: init_H2Matrix", "Bembel/src/Laplace", "Bembel/src/Helmholtz", "Bembel/src/Maxwell", "Bembel/src/LinearForm", "Bembel/src/Potential/DiscretePotential.hpp: evaluate"]}
{"id": "C85", "title": "Charge conservation in the divergence conforming space", "statement": "For every coefficient vector of the divergence conforming ansatz space the integral of the surface divergence over one element is the flux through its four edges, the integral over the whole surface is the flux through the boundary of the surface, and on a surface without boundary it is zero; the same holds for the sum of the values returned by the evaluator's divergence, weighted with a tensor quadrature rule that is exact for the polynomial degree.", "quantifier": "all conforming, consistently oriented patch collections (closed ones for the zero), refinement levels, degrees 1 to 19, knot repetitions, coefficient vectors (real and complex) and exact quadrature rules", "why_tests_cant": "a test evaluates one current on one geometry; the cancellation of the fluxes has to hold for every basis function on every interface and for all numbers of patches and elements", "anchors": ["Bembel/src/AnsatzSpace/AnsatzSpace.hpp: init_AnsatzSpace", "Bembel/src/AnsatzSpace/Glue.hpp: Glue", "Bembel/src/AnsatzSpace/Projector.hpp: Projector", "Bembel/src/AnsatzSpace/FunctionEvaluator.hpp: evaluateDiv", "Bembel/src/AnsatzSpace/SuperSpace.hpp: addScaledBasisDx, addScaledBasisDy"]}
{"id": "C86", "title": "The ansatz spaces form a discrete de Rham sequence", "statement": "The surface curl of every function of the continuous space of degree P is a field of the divergence conforming space of degree P on the same mesh with the same knot repetition, and its divergence vanishes; the divergence of every field of the divergence conforming space of degree P is a function of the discontinuous space of degree P-1; on a connected surface the curl of a continuous function vanishes exactly for the constant functions.", "quantifier": "all conforming, consistently oriented patch collections, refinement levels, degrees 1 to 4, knot repetitions and coefficient vectors", "why_tests_cant": "a test checks one function in one space; the inclusion of spaces ranges over all coefficient vectors, meshes and degrees, and the kernel statement over all paths of elements on the surface", "anchors": ["Bembel/src/AnsatzSpace/AnsatzSpace.hpp: init_AnsatzSpace", "Bembel/src/AnsatzSpace/Glue.hpp: Glue", "Bembel/src/AnsatzSpace/Projector.hpp: Projector", "Bembel/src/AnsatzSpace/FunctionEvaluatorEval.hpp", "Bembel/src/LinearOperator/DifferentialFormEnum.hpp"]}
{"id": "C87", "title": "Accuracy of the compression", "statement": "The entries of the compressed matrix differ from those of the quadrature of the integrand by a controlled amount: with n interpolation points per direction the interpolant of a kernel whose n-th derivatives in each of the four coordinates of a pair of clusters are at most C n! g^n differs from the kernel by at most 2C(1+2n+4n^2+8n^3)(g/4)^n, and an entry by at most that times the size of the test and trial functions; so the error decays exponentially if g < 4. For the single layer operator of the Laplace equation on a surface of parallelograms with sides at most S the admissibility condition with parameter eta implies an entrywise error of at most S^3 eta/pi/2^M (n+1)(1+2n+4n^2+8n^3)(eta/2)^n, for every order of the assembly tasks and every schedule of the product; it tends to zero for every eta < 2, in particular for the default 1.6. On such surfaces the bounding balls are the smallest ones. On the same surfaces the far-field entries of every Laplace, Helmholtz and Maxwell operator converge: for every rate gamma > eta/2 there is a constant, independent of the number n of interpolation points, such that every entry of every admissible block is within constant times gamma^n of the quadrature of the integrand.", "quantifier": "all numbers of interpolation points, all kernels with bounded derivatives, all meshes, refinement levels and cluster pairs that satisfy the admissibility condition, all orders of the assembly tasks", "why_tests_cant": "a test compares one compressed matrix with one dense matrix; the bound must hold for every block of every mesh and every number of interpolation points, and a wrong node, a wrong admissibility test or a wrong ball shows only as a slower decay", "anchors": ["Bembel/src/H2Matrix/H2Multipole.hpp: ChebychevRoots, interpolateKernel", "Bembel/src/H2Matrix/BlockClusterTree.hpp: compareCluster", "Bembel/src/ClusterTree/ElementTree.hpp: computeElementEnclosings", "Bembel/src/H2Matrix/H2Matrix.hpp: init_H2Matrix", "Bembel/src/util/GeometryHelper.hpp: computeEnclosingBall"]}
{"id": "C88", "title": "Accuracy of quadrature and compression on smooth surfaces", "statement": "On every regular surface with smooth patch parametrisations, curved or not, the entries of the system matrices of all Laplace, Helmholtz and Maxwell operators are computed accurately for elements without common points: for every power kappa there is a constant such that the tensor Gauss rule number i of the library approximates the exact integral of the integrand over both elements up to constant/(i+1)^kappa, and with n interpolation points every far-field entry of clusters without common points, computed with the quadrature rule that the moment matrices use, differs from the exact integral by at most constant/n^kappa; so the compressed matrix, for every order of the assembly tasks and all schedules of the product, has in every position the entry of the dense assembly or one with that error. On a conforming surface that does not intersect itself clusters accepted by the admissibility condition never have common points, although the bounding balls of curved clusters need not contain them. More generally a positive rule that is exact up to degree d integrates a function with m <= d bounded derivatives D up to 2D/(2 sqrt(d+1-m))^m, and interpolation with n > m points has error at most (1+2n)(1+2n+4n^2+8n^3) D/(2 sqrt(n-m))^m.", "quantifier": "all regular smooth surfaces, meshes, refinement levels, polynomial degrees, wave numbers, numbers of quadrature and interpolation points and powers kappa", "why_tests_cant": "limits over the number of points and a continuum of surfaces; a test compares two approximations on one surface and never sees the exact integral", "anchors": ["Bembel/src/H2Matrix/H2Multipole.hpp: ChebychevRoots, interpolateKernel, Moment1D", "Bembel/src/H2Matrix/H2Matrix.hpp: init_H2Matrix", "Bembel/src/Quadrature/GaussLegendre.hpp", "Bembel/src/Laplace", "Bembel/src/Helmholtz", "Bembel/src/Maxwell", "Bembel/src/H2Matrix/BlockClusterTree.hpp: compareCluster"]}
{"id": "C89", "title": "Accuracy of all matrix entries, singular integrals included", "statement": "On every smooth regular conforming surface that does not intersect itself and whose patches do not form cusps, every entry that the library computes for every Laplace, Helmholtz and Maxwell operator is accurate, for identical elements, elements with a common edge, elements with a common vertex and distant elements alike: the exact entry, an integral over two elements with a kernel that is singular at common points, is the integral of an integrable function, and for every power kappa there is a constant such that the value computed with the Gauss rule number i (the degree selected for the pair) differs from it by at most constant/(i+1)^kappa. The regularising transformations that the library applies to touching elements are therefore right for these kernels, not only for smooth integrands. Together with C88 every entry of the compressed matrix that the product uses has this error or the error constant/n^kappa of the interpolation with n points.", "quantifier": "all smooth regular embedded conforming surfaces without cusps, refinement levels at least one, all pairs of elements, polynomial degrees, wave numbers, quadrature rules and powers kappa", "why_tests_cant": "singular integrals over a continuum of surfaces and a limit over the number of points; tests compare a few numbers on one sphere and cannot see a transformation that is only wrong for one relative position", "anchors": ["Bembel/src/DuffyTrick/integrate0.hpp", "Bembel/src/DuffyTrick/integrate1.hpp", "Bembel/src/DuffyTrick/integrate2.hpp", "Bembel/src/DuffyTrick/integrate3.hpp", "Bembel/src/DuffyTrick/integrate4.hpp", "Bembel/src/DuffyTrick/tau.hpp", "Bembel/src/DuffyTrick/compareElements.hpp", "Bembel/src/DuffyTrick/evaluateBilinearForm.hpp", "Bembel/src/Laplace", "Bembel/src/Helmholtz", "Bembel/src/Maxwell"]}
{"id": "C90", "title": "Accuracy of potentials, right-hand sides and local matrices on smooth surfaces", "statement": "On every smooth regular surface the values that the library computes by element-wise quadrature converge to the surface integrals they stand for, faster than any power of the number of Gauss points: for every vector of degrees of freedom and every compact set of evaluation points away from the surface, every Laplace, Helmholtz and Maxwell potential (and every single layer potential with a smooth kernel) evaluated with Gauss rule number i differs from the exact potential integral by at most constant/(i+1)^kappa, uniformly for all points of the set and for all schedules of the threads; every entry of the load vectors of Dirichlet, Neumann, tangential and rotated tangential traces of smooth data has the same accuracy; so have the entries of the mass matrix and of the Laplace-Beltrami stiffness matrix.", "quantifier": "all smooth regular surfaces, refinement levels, ansatz spaces (transformation matrices), vectors of degrees of freedom, compact sets of evaluation points off the surface, wave numbers, smooth data, powers kappa, quadrature rules and thread schedules", "why_tests_cant": "uniform convergence over a continuum of surfaces, points and data; tests compare a potential at a few points with a manufactured solution up to the discretisation error, which hides quadrature and scaling errors", "anchors": ["Bembel/src/Potential/DiscretePotential.hpp", "Bembel/src/LinearForm/DiscreteLinearForm.hpp", "Bembel/src/LinearForm/DirichletTrace.hpp", "Bembel/src/LinearForm/NeumannTrace.hpp", "Bembel/src/LinearForm/TangentialTrace.hpp", "Bembel/src/LinearForm/RotatedTangentialTrace.hpp", "Bembel/src/LinearOperator/DiscreteLocalOperator.hpp", "Bembel/src/Identity/IdentityOperatorBase.hpp", "Bembel/src/LaplaceBeltrami", "Bembel/src/Quadrature/GaussSquare.hpp", "Bembel/src/Laplace", "Bembel/src/Helmholtz", "Bembel/src/Maxwell"]}
{"id": "C91", "title": "The dense and the compressed Galerkin system of the single layer operator are positive definite and uniquely solvable; the computed solution and its potential converge", "statement": "On every smooth embedded surface without cusps the Galerkin matrix of the Laplace single layer operator, whose entries are the exact double surface integrals of the ansatz functions against 1/(4 pi |x-y|), is symmetric and positive definite for the discontinuous and the continuous ansatz spaces, so that the Galerkin system of the Dirichlet problem has exactly one solution for every right-hand side. If the quadrature rules have enough points, the matrix that the library assembles, whatever the schedules of the threads, is positive definite as well, the computed system has exactly one solution, and for every power kappa this solution differs from the exact Galerkin solution by at most constant/(i+1)^kappa if all rules have at least i+1 points per direction; the values that the library computes for the potential of the computed solution converge at the same rate to the potential of the exact Galerkin solution, uniformly on every compact set of evaluation points away from the surface. The same holds for the compressed matrix: if the rules and the number of interpolation points are large enough, the product with the H2-matrix, for all orders of the assembly tasks and all schedules, is the product with one positive definite matrix, and the solution of this system and its potential have the same accuracy.", "quantifier": "all smooth embedded surfaces without cusps, refinement levels, polynomial degrees up to 4, knot repetitions, smooth Dirichlet data, compact sets of evaluation points, powers kappa, quadrature tables, thread schedules and initial contents of the memory, admissibility parameters, levels of the block cluster tree, orders of assembly tasks", "why_tests_cant": "positive definiteness and solvability are statements about all vectors of degrees of freedom on all surfaces; a test solves a few systems on one sphere and would not see a matrix that is singular or indefinite on other surfaces, degrees or levels", "anchors": ["Bembel/src/Laplace/SingleLayerOperator.hpp", "Bembel/src/Laplace/SingleLayerPotential.hpp", "Bembel/src/LinearOperator/DiscreteOperator.hpp", "Bembel/src/LinearForm/DirichletTrace.hpp", "Bembel/src/LinearForm/DiscreteLinearForm.hpp", "Bembel/src/Potential/DiscretePotential.hpp", "Bembel/src/DuffyTrick/evaluateBilinearForm.hpp", "Bembel/src/AnsatzSpace/AnsatzSpace.hpp", "Bembel/src/H2Matrix/H2Matrix.hpp", "Bembel/src/H2Matrix/H2Multipole.hpp"]}
{"id": "C92", "title": "The Galerkin matrix of the hypersingular operator has exactly the constants in its kernel; the stabilised Neumann system is uniquely solvable and its computed solution converges", "statement": "On every smooth embedded surface without cusps the Galerkin matrix of the Laplace hypersingular operator, whose exact entries are the double surface integrals of the products of the surface curls of the ansatz functions against 1/(4 pi |x-y|), is symmetric and positive semidefinite for every ansatz space; its quadratic form is zero exactly for the functions that are constant on every element, and those functions are in its kernel. With the continuous ansatz functions on a connected surface the kernel is one-dimensional: it consists of the multiples of the constant function, which is a member of the space. The matrix that the library assembles converges to it faster than every power of the number of quadrature points, whatever the schedules of the threads. If the matrix is stabilised with a positive multiple of the products of the mean values of the ansatz functions, it is positive definite; if the total flux of the Neumann data vanishes, the solution of the stabilised system is the solution with mean value zero of the system without the stabilisation; and with enough quadrature points the computed stabilised system (matrix, mean values and right-hand side as the library computes them) is positive definite, has exactly one solution, and this solution differs from the exact one by at most constant/(i+1)^kappa for every power kappa. The same holds with the compressed matrix: with enough interpolation points its product, for all orders of the assembly tasks and all schedules, is the product with one matrix, which together with the stabilisation is positive definite, and the solution of this system has the same accuracy.", "quantifier": "all smooth embedded surfaces without cusps (connected ones for the kernel and the Neumann problem), refinement levels, polynomial degrees (up to 4 for the kernel and the Neumann problem), knot repetitions, transformation matrices, smooth Neumann data, stabilisation parameters, powers kappa, quadrature tables, thread schedules and initial contents of the memory, admissibility parameters, levels of the block cluster tree, orders of assembly tasks", "why_tests_cant": "the dimension of the kernel and definiteness are statements about all functions on all surfaces; a test on one surface cannot exclude spurious kernel functions, e.g. on other meshes, degrees or with a wrongly scaled surface curl", "anchors": ["Bembel/src/Laplace/HypersingularOperator.hpp", "Bembel/src/AnsatzSpace/SuperSpace.hpp", "Bembel/src/LinearOperator/DiscreteOperator.hpp", "Bembel/src/LinearForm/NeumannTrace.hpp", "Bembel/src/LinearForm/DirichletTrace.hpp", "Bembel/src/LinearForm/DiscreteLinearForm.hpp", "Bembel/src/DuffyTrick/evaluateBilinearForm.hpp", "Bembel/src/AnsatzSpace/AnsatzSpace.hpp"]}
{"id": "C93", "title": "The L2 projection and the equation -beta Laplace u + alpha u = g on surfaces are uniquely solvable and the computed solutions converge", "statement": "On every surface of regular smooth patches (closed or not) the matrix of the integrals of alpha u v + beta grad u . grad v of the ansatz functions, with alpha > 0 and beta >= 0, is positive definite for the continuous ansatz spaces. The Galerkin system with the integrals of the smooth data g against the ansatz functions has exactly one solution, which is the unique minimiser of the energy (the integral of alpha u^2 + beta |grad u|^2 - 2 g u) in the ansatz space. With enough points of the Gauss rules, which may differ between the parts of the system, alpha times the mass matrix plus beta times the matrix of the Laplace-Beltrami operator as the library computes them is positive definite, the system with the computed right-hand side has exactly one solution, and its degrees of freedom and the values of its function everywhere on the surface differ from those of the exact solution by at most constant/(i+1)^kappa for every power kappa. With beta = 0 and alpha = 1, also for the discontinuous ansatz spaces, the solution is the L2 projection: the unique function of the ansatz space with the smallest L2 distance to the data.", "quantifier": "all surfaces of regular smooth patches, refinement levels, polynomial degrees up to 4, knot repetitions, alpha > 0, beta >= 0, smooth data, powers kappa, quadrature tables and rules, initial contents of the memory", "why_tests_cant": "definiteness, the minimum over all functions and the convergence for all data, surfaces and powers are universal statements; a test compares one projection on one surface with one tolerance", "anchors": ["Bembel/src/Identity/MassMatrixScalarDisc.hpp", "Bembel/src/LaplaceBeltrami/LaplaceBeltramiOperatorBase.hpp", "Bembel/src/LinearOperator/DiscreteLocalOperator.hpp", "Bembel/src/LinearForm/DirichletTrace.hpp", "Bembel/src/LinearForm/DiscreteLinearForm.hpp", "Bembel/src/AnsatzSpace/AnsatzSpace.hpp", "Bembel/src/AnsatzSpace/SuperSpace.hpp"]}
{"id": "C94", "title": "The Laplace-Beltrami equation on connected surfaces, stabilised by the mean values, is uniquely solvable and the computed solution converges", "statement": "On every connected surface of regular smooth patches (closed or not) the integrals of grad u . grad v of the continuous ansatz functions form a positive semidefinite form whose energy vanishes exactly for the constant functions. For every gamma > 0 the matrix plus gamma times the products of the mean values of the ansatz functions (the matrix that the example LaplaceBeltrami forms, with gamma = 1) is positive definite, and the system with the integrals of the smooth data g against the ansatz functions has exactly one solution. If the integral of g vanishes this solution is the one solution with mean value zero of the system without the stabilisation, and the only function with mean value zero that minimises the integral of |grad u|^2 - 2 g u over the ansatz space. With enough points of the Gauss rules the matrix of the Laplace-Beltrami operator and the mean values that the library computes give a positive definite stabilised matrix, the system with the computed right-hand side has exactly one solution, and its degrees of freedom and the values of its function everywhere on the surface differ from those of the exact solution by at most constant/(i+1)^kappa for every power kappa.", "quantifier": "all connected surfaces of regular smooth patches, refinement levels, polynomial degrees up to 4, knot repetitions, gamma > 0, smooth data, powers kappa, quadrature tables and rules, initial contents of the memory", "why_tests_cant": "the kernel of the operator, the minimum over all functions and the convergence for all data, surfaces and powers are universal statements; the test solves one equation on the sphere and checks an error with a tolerance", "anchors": ["examples/LaplaceBeltrami.cpp", "Bembel/src/LaplaceBeltrami/LaplaceBeltramiOperatorBase.hpp", "Bembel/src/LaplaceBeltrami/LaplaceBeltramiOperator.hpp", "Bembel/src/LinearOperator/DiscreteLocalOperator.hpp", "Bembel/src/LinearForm/DirichletTrace.hpp", "Bembel/src/LinearForm/DiscreteLinearForm.hpp", "Bembel/src/AnsatzSpace/AnsatzSpace.hpp", "Bembel/src/AnsatzSpace/SuperSpace.hpp"]}
{"id": "C95", "title": "Reported L2 errors converge to the L2 distance, and for the computed L2 projection to the best possible error", "statement": "For smooth data g and regular smooth patches, the error that surfaceL2error reports for any vector of degrees of freedom with entries between -B and B differs from the exact L2 distance on the surface between g and the function of the vector by at most constant*(1+B)/(i+1)^kappa for every power kappa if Gauss rule i is used, with a constant that does not depend on the vector. If the vector is the solution of the system with the computed mass matrix and the computed right-hand side (the computed L2 projection), which exists once all Gauss rules have enough points, the reported error differs from the smallest L2 distance between g and any function of the ansatz space by at most constant/(i+1)^kappa, for continuous and discontinuous ansatz functions and different rules for matrix, right-hand side and error. The error with respect to a smooth reference that is reported for the computed solution of the stabilised Laplace-Beltrami equation on a connected surface (the example LaplaceBeltrami) differs from the L2 distance between the reference and the exact Galerkin solution by at most constant/(i+1)^kappa.", "quantifier": "all surfaces of regular smooth patches, refinement levels, polynomial degrees up to 4, knot repetitions, smooth data, vectors of degrees of freedom, powers kappa, quadrature tables and rules, initial contents of the memory and of the evaluator", "why_tests_cant": "the number is the yardstick of the convergence studies; that it approximates the exact distance for every vector and the best possible error for the projection is a limit statement over all data, vectors, surfaces and rules", "anchors": ["Bembel/src/util/surfaceL2error.hpp: surfaceL2error", "Bembel/src/AnsatzSpace/FunctionEvaluator.hpp", "Bembel/src/Identity/IdentityOperatorBase.hpp", "Bembel/src/LinearOperator/DiscreteLocalOperator.hpp", "Bembel/src/LinearForm/DirichletTrace.hpp", "Bembel/src/Quadrature/GaussSquare.hpp", "examples/MassMatrix.cpp", "examples/LaplaceBeltrami.cpp"]}
