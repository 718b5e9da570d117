# Formal model of temf/bembel in Lean 4 — design

Source: `/repo` (read as text only).  Lean 4.33.0 + Mathlib (single modules).

## Trusted base

* Lean's kernel.  Theorems may use `propext`, `Classical.choice`, `Quot.sound`; no other axioms.
* The hand translation C++ -> Lean.  Each definition cites the file and lines it models and says
  where it simplifies.
* Numbers.  `double` is modelled by an arbitrary (ordered) field `K` or by `ℝ`/`ℂ`:
  **rounding is not modelled**; statements are statements "in exact arithmetic".  Dyadic corner
  coordinates `llc_` and `h` are exact in `double` as long as levels are < 50.
  `int` is `Nat`/`Int` except where a property is about representability (C27).
* Undefined behaviour (out-of-range access, iterator past end, null dereference, failed `assert`)
  is a distinct outcome: the model returns `none`.
* Threads.  OpenMP work sharing is modelled as an arbitrary distribution of tasks over threads with an arbitrary
  order, each task atomic on its thread-private data or on disjoint blocks; data races inside Eigen are
  not modelled.
* Not modelled: Eigen's dense/sparse solvers (`PartialPivLU`, `colPivHouseholderQr`), file system
  (except file contents) and number formatting (numbers are tokens), timing, performance, memory allocation.

## Layout

* `lean/Verif/Model/*.lean`  — the model (definitions only, cited).
* `lean/Verif/Lemmas/*.lean` — helper lemmas.
* `lean/Verif/Spec/*.lean`   — small independent specifications.
* `lean/Verif/Props/*.lean`  — property theorems + non-vacuity examples + counterexamples.

## Plan per property

| id | what is modelled | how it is proved |
|----|------------------|------------------|
| C01 | `Binomial`, `Bernstein`, `HiddenBernsteinClass` recursion on functions `Nat → K` as buffers | induction on the template parameter `N`; spec: `Nat.choose` formula |
| C02 | same + run-time handler | binomial theorem (`add_pow`), positivity |
| C03 | derivative evaluators | polynomial derivative of the spec (`Polynomial.derivative`, `HasDerivAt`) |
| C04 | `PSpecific…Handler` recursion with `MaxP = 20` | induction on the recursion; counterexample for p > 20 |
| C05 | `phiphi_`, `Phi_times_Phi_` double loops | fold lemma over product of ranges |
| C06 | `MakeBezierKnotVector`, `MakeUniformKnotVector`, degree query as lists | list lemmas; the mesh-width condition of the degree query is shown sharp |
| C07 | `FindLocationInKnotVector`, `ExtractUniqueKnotVector` | induction over scan |
| C08,C09 | `DeBoor` triangular loop with explicit index checks, `DeBoorTP`, `DeBoorDer`, `DeBoorTPDer` | loop invariant against Cox–de Boor recursion; derivative of the polar form by its symmetry, summation by parts |
| C10 | `Unroll`, data layout | index arithmetic |
| C11–C14 | `Patch` record, `eval`, `evalJacobian`, `updateSurfacePoint`, `PatchShredder` | algebra, `HasDerivAt` quotient rule, index arithmetic |
| C15 | DAT writer/reader on lines of tokens | structural induction |
| C16 | IGES `makeSection`, line reader, `writePatchData` on tokens | induction; buffer overflow exhibited |
| C17 | suffix computation on `List Char` | counterexample + partial |
| C18 | `computeEnclosingBall` in an inner product space | triangle inequality |
| C19 | `GenericMatrix` as list of columns with op sequences | induction over histories |
| C20–C27 | pointer heap of tree nodes, `refineLeaf`, linked leaf list, topology map | invariants over refinement, induction on level |
| C28 | `patchTopologyInfo` over adjacency table | list lemmas, counterexample for double adjacency |
| C29,C30 | edge index functions, orientation tables | arithmetic; whole finite tables |
| C31–C33 | identification lists, set merging, matrix assembly | loop invariants (partition), counterexamples |
| C34 | `makeLocalProjectionTriplets`, the three `makeMatrix` (triplets, tolerance, interpolation system, de Boor values; LU solver is a parameter) | polar forms: Bernstein coefficients of a uniform B-spline on an element are 0 or ≥ 1/P!, unisolvence of the interpolation, degree elevation; hence equality for P ≤ 4, error ≤ 1e-4 for all P; witness of inexactness for P ≥ 5; the assertions (`Props/ProjectorReject.lean`) |
| C35 | clamped floor lookup + reordering vector | `Int.floor` lemmas |
| C36,C37 | block tree recursion on abstract cluster trees | structural induction |
| C38 | schedules as permutations + partitions of task lists | commutative monoid sums |
| C39 | product as sums over leaves, forward/backward transformation | linear algebra over finite sums; adjointness of the forward and backward transformation by induction on the levels |
| C40,C41 | Newton-form divided differences, Horner | induction, Lagrange uniqueness |
| C42 | in-place Morton index loop on an array, 1D and 2D moment matrices | induction on the loop; matrix entries equal quadrature of ansatz × Lagrange |
| C43–C45 | `tau`, `compareElements`, Duffy substitution points/weights | algebra, case analysis |
| C46,C47 | tensor rule; tables as rationals | finite sums; `decide +kernel` over entire table |
| C48,C49 | task = write of one block; symmetry only needs the geometry on the closed unit squares of the patches and a rule symmetric about 1/2 | disjointness; congruence of the pair quadrature in the values at its nodes; an n-point rule exact to degree 2n−1 is symmetric (`C49_gauss`). The tabulated rules of the code are such rules up to the rounding of their decimals (`C47`); only the common-edge transformation uses the symmetry |
| C50–C52 | kernels over ℝ / ℂ | algebra, `HasDerivAt` |
| C53 | `DiscretePotential::evaluate` as OpenMP region, potentials of the Laplace, Helmholtz and Maxwell families; load vectors of scalar and vector data | equals the surface quadrature for every schedule; linearity of the load in the data |
| C54 | `checkOrientation` | counterexample + partial |
| C55 | all loops of Sphericals.hpp over the reals, Legendre polynomials by Rodrigues' formula | closed forms of the loop states, recursions of the Legendre functions, chain rule; counterexample for the last term |
| C56 | byte/element layout | list lemmas |
| C57 | integer functions | arithmetic |
| C58 | `generatePatchBoundaryLabels` | topology of the refined mesh (C22, C23) |
| C59 | kernels over ℝ / ℂ | Laplacian of radial functions |
| C60 | the evaluated potential as a function of the point | finite sums of C59 |
| C61 | `DiscreteLinearForm::compute`, four traces | loop lemma; transformation matrix against unit vectors |
| C62 | `DiscreteLocalOperator::compute`, identity and Laplace–Beltrami | triplet sums; Lagrange identity for the curl form of the gradient product |
| C63 | `init_H2Matrix` with one task per leaf, `interpolateKernel`, moment matrices of the operators | consistent writes in any order; nested cluster bases (C42); Lagrange interpolation; contraction property C52 |
| C64 | transformation matrix = projector * glue for the three forms | traces of B-splines at element edges via polar forms (end coefficients, reversal, continuity at knots); glue classes C32/C33 |
| C65 | `HomogenisedLaplace/*`, kernel and potential | solid harmonics as harmonic polynomials (Euler's identity, product rule of the Laplacian); values from C55; with the computed coefficients the odd degrees vanish (C66), which gives the unconditional `C65_computed` |
| C66 | `getCoefficients` with tables of C55, solver as parameter | system matrix = jumps of the solid harmonics and their derivatives; residual = periodicity error; uniqueness: a harmonic polynomial without jumps is constant (Green's identity on the cube by the divergence theorem, jumps of polynomials determined by the Gauss points), oddness by reflection |
| C67 | `init_Patch` (both branches), `MakeProjection`, `DeBoorTP`; matrix inverse as parameter | collocation matrix = Kronecker product of two block diagonal Bernstein matrices (unisolvent), so the extraction coefficients are the Bezier coefficients of the B-splines (blossoms, `Lemmas/BSpline`); pruning bounded, and void on grids |
| C68 | `generic_product_impl::scaleAndAddTo` for sums, differences, multiples and H2-matrices, `product_evaluator`, `get_dense`; Eigen's dense assignment by its meaning | induction over the expression, leaves by C39; `get_dense` by induction over the columns |
| C69 | `VTKSurfaceExport`: construction, `addDataSet` (8 overloads), `clearData`, `writeToFile`, Eigen's matrix output; files as character sequences, number formats as parameter | mesh by C20/C22; the text is a rendering of tags and plain texts, which the reader `Text.scan` inverts; loop invariant over the rows; induction over the calls |
| C70 | `VTKDomainExport`, `VTKPointExport` | as C69; the linear index runs through the grid in the order of the loops |
| C71 | `surfaceL2error` | sum over elements = surface quadrature; positivity; bilinearity of the quadrature (Pythagoras) |
| C72 | `print2ascii`, `print2m` (dense, sparse); file system as map from names to contents | a small reader for Matlab scripts; invariant: the file is complete and defines the variables; induction over the calls |
| C73 | `Stopwatch`; clock as sequence of readings, assertions as failure | invariants of the members over all histories |
| C74 | `Logger`: `file`, `term`, `both` | induction over arguments and calls; reader of lines and words |
| C75 | reference solutions of `examples/Data.hpp` as functions on `V3` | Fréchet derivatives of radial functions; curl, div, grad by partial derivatives (`Spec/VectorCalculus`); limits along the cobounded filter |
| C76 | `examples/Grids.hpp`, `examples/Error.hpp`; the least squares solver is a parameter with its defining property | loops to index formulas; normal equations |
| C77 | memory with cells for shared geometry data, variables as pointers (`shared_ptr`) | simulation: abstract values ↔ memory, over all histories |
| C78 | memory of meshes, parameter objects, leaf-pointer vectors, leaves and son matrices; copy/move constructors, `operator=`, `set_parameters`, `init_BlockClusterTree`, `updateLeafPointers` as operations on it | simulation with ghost ownership of the leaf cells, over all histories; ownership invariant of the son arrays for `C78_no_leak` |
| C79 | the ansatz spaces of two meshes of the same patches (projector, glue, evaluation; no new model) | knot insertion via polar forms (blossoms): reproduction of symmetric multi-affine functions, coefficients on patch edges are refined by themselves, so gluing and flux balance are preserved; induction on the number of refinements |
| C80 | Same model as C64/C79; `Spec/PatchSpline.lean` (spline on a patch = linear combination of Cox–de Boor B-splines, `MatchAcross`, `FlowAcross`). | `Lemmas/Blossom.lean`: a multi-affine function that vanishes on the diagonal of an interval vanishes (so the B-spline coefficients of a trace are determined by its values inside the elements), traces on the four edges, monomials as splines (elementary symmetric polynomials of the knots, Marsden). With these, functions which match have matching coefficients, and C64's completeness gives the coefficient vector; the converse evaluates the glued coefficients on the edges. |
| C81 | `Model/IGSFile.lean`: the whole writer (`writeSection`, header, global, directory, parameter and terminate section, column by column) and the whole loader (`row[72]`, directory loops, `std::stoi`, words); numbers of the parameter section are converted by parameters as in C16 | `Spec/IGSFile.lean` (columns of a line); decimal representation proved equal to `Nat.repr`, words of padded fields, induction over the patches; C16 for the parameter data. Violations for long names and empty geometries are proved |
| C82 | `Model/Interpolation.lean`: `GetInterpolationMatrix` and both `GetCoefficients` with the 21-entry stack buffer; `Eigen::MatrixXd::inverse` is a parameter that inverts matrices with trivial kernel (`InvertsMatrices`, Spec/Nurbs) | unisolvence of Bernstein polynomials at arbitrary different points (degree argument), left inverse = right inverse, loop invariants. Reading past the buffer for more than 21 points is proved (`C82_degree_violated`) |
| C83 | existing models of the projector, glue, local operators, linear forms and Gauss tables; `Spec/Connected.lean`: chains of patches with common edges | `Props/WellPosed.lean`, `Props/SurfaceLaplacian.lean`: B-spline independence (C80 lemmas) patch by patch, every glued dof is the dof of some patch; the quadrature has more nodes per direction than the degree and positive weights (exact tables), so a vanishing quadratic form makes the function (its gradient) vanish by Bernstein unisolvence; constants propagate over common edges by C64; solvability by linear algebra (rank one update for the singular matrix) |
| C84 | `Spec/Motion.lean`: rotations (orthogonal, determinant 1) with translations, moved parametrisation and moved surface points; all else existing models | `Lemmas/Motion*.lean`: norms, inner and cross products under rotations (adjugate), then every model function by congruence; `exec_sim`: the parallel region commutes with a homomorphism of the results. `Props/Motion.lean` (mesh, balls, pairs, dense, H2), `Props/MotionForms.lean` (operators, linear forms, potentials), `Props/MotionPatch.lean` (affine images of patches). The homogenised operator is excluded (its kernel is periodic along the coordinate axes). Scalings are not covered: `C84_not_scaling` |
| C85 | `Spec/Divergence.lean`: closed surfaces, boundary edges, `totalDiv`, `edgeFlux`; existing models of spaces and evaluators | `Props/Divergence.lean`: Gauss' theorem per element from exactness of the rule and the fundamental theorem of calculus for the Bernstein basis; the fluxes through an inner edge cancel by C64_divergence and the pairing of facing edges (C22) |
| C86 | nothing new: the three ansatz spaces of the existing model | `Lemmas/DeRham.lean`: derivatives of splines as splines of lower degree, differentiated interface conditions; `Props/DeRham.lean`: by the exact characterisation of the spaces (C80) and connectivity (C83). P ≤ 4 as in C80 |
| C87 | nothing new: interpolation points, balls, admissibility test and assembly of the existing model | `Lemmas/InterpError.lean` (remainder of Lagrange interpolation by Rolle, tensor products), `ChebyshevBound.lean` (node polynomial ≤ 2/4ⁿ, Lagrange polynomials ≤ 2), `NewtonKernel.lean` (derivatives of 1/‖a+sb‖), `BallEquations.lean` (recursion of the balls); `Props/Compression.lean`. General operators under derivative bounds of the pulled back kernel; an explicit constant for the Laplace single layer kernel on parallelograms; `Lemmas/AnalyticLine.lean`, `Props/CompressionFlat.lean`: on parallelograms the pulled back kernels of all Laplace, Helmholtz and Maxwell operators continue analytically into discs (square root of a quadratic polynomial), Cauchy's estimates bound the derivatives, rate γ > η/2 with a constant that is not explicit. Curved patches and the homogenised operator: general theorems only |
| C88 | nothing new: Gauss rules, interpolation points, operators, moments and assembly of the existing model | `Lemmas/Jackson.lean`, `SmoothApprox.lean` (polynomial approximation of functions with `m` bounded derivatives by iterated Bernstein operators; hence errors of positive exact rules and of interpolation), `SmoothSlice.lean`, `SmoothRate.lean` (functions smooth on a neighbourhood of the square, four coordinates), `SmoothKernel.lean` (kernels are smooth where the points differ); `Spec/Smooth.lean`, `Props/SmoothSurface.lean`, `Props/Separation.lean` (admissible clusters of a surface without self-intersections are disjoint: dyadic cells that meet have common corners, which are in both balls). Constants are not explicit; the tabulated rules (≤ 20 points, exact up to 1e-39) are only finitely many and enter the constant; the homogenised operator is not covered; elements with common points: C89 |
| C89 | nothing new: `evaluateBilinearForm`, the Duffy rules, `compareElements` and the operators of the existing model | `Spec/Singular.lean` (smooth surface, no cusps, `AllEntriesAccurate`); `Lemmas/Hadamard.lean` (smooth functions divided by a coordinate are smooth), `DuffyIntegral.lean` (the transformed integrand has the same integral, for integrable functions), `SingularPiece.lean`, `SingularRate.lean`, `SingularCases.lean`, `SingularOperator.lean` (after the transformation the kernels, multiplied by the determinants, are smooth up to the boundary, given a lower bound for the distance of the points; the double layer kernels need the cancellation of the normal component), `SingularGap.lean`, `SingularElement.lean`; `Props/Coincidence.lean` (vertex numbers are points, contact sets of elements: C22_numbers_are_points, C44_contact), `Props/Singular.lean`, `Props/NoCusps.lean` (the lower bounds by compactness), `Props/AllEntries.lean`. Constants are not explicit; the homogenised operator is not covered |
| C90 | nothing new: potentials, load vectors and local operators of the existing model with `gaussSquare` | `Spec/SurfaceIntegral.lean` (surface integrals, `PotentialAccurate`, `LoadAccurate`, `MatrixAccurate`); `Lemmas/SurfaceRate.lean` (`surface_rate`: quadrature of integrands that are smooth functions of the evaluation point, the local coordinates, the point and the tangents converges faster than any power, uniformly on compact sets of parameters; Jackson approximation from C88); `Props/SurfaceRate.lean` combines it with C53, C61, C62. Constants are not explicit |
| C91 | nothing new: the dense operator, Dirichlet trace and single layer potential of the existing model, solved by an exact solver | `Spec/SingleLayer.lean` (`singleLayerForm` by iterated integrals, `PositiveDefinite`, `Solves`), `Spec/DirichletProblem.lean` (`SolvesDirichlet` for the dense matrix, `SolvesCompressed` for the H2-matrix); `Lemmas/Energy.lean` (the energy of a continuous density on finitely many parameter squares is a square: `1/r` is an integral of convolutions of Gaussians; zero energy forces zero Gaussian moments, hence a zero density), `Lemmas/Galerkin.lean` (positive definite matrices are coercive by compactness; small perturbations stay positive definite, solutions depend Lipschitz continuously on the data); `Props/SingleLayer.lean` (the energy of the ansatz functions, the entries through C89, the assembled matrix through C48), `Props/SingleLayerSystem.lean` (C83 linear independence, C90 right-hand sides and potentials; `compressed`: C88 gives one matrix whose products the H2-matrix computes, its entries converge). The linear solver itself (Eigen) is outside: the theorem is about the solution of the computed system. Constants and the number of points that suffice are not explicit; the table of rules is a parameter (`RulesFrom`), the library fixes rule `k` at index `k` |
| C92 | nothing new: the dense operator with `addScaledSurfaceCurlInteraction`, the Neumann and the Dirichlet trace of the existing model | `Spec/Hypersingular.lean` (`hypersingularForm` by iterated integrals of surface curls, `ElementwiseConstant`, `PatchesConnected`), `Spec/NeumannProblem.lean` (`HypersingularAccurate`, `SolvesNeumann`); `Props/Hypersingular.lean` (the form is the sum of the energies of the three components of the curl, `Lemmas/Energy.lean`; zero curl on a regular patch means zero gradient, hence constant), `Props/HypersingularKernel.lean` (C64 continuity and connectedness of the grids make elementwise constants constant, C09 partition of unity and C80 put the constant function into the space), `Props/NeumannSystem.lean` (positive definiteness of the stabilised matrix from the positive area, C89/C90 rates, `Galerkin.stable`). The stabilisation is formed by the user from the computed matrix and vectors, the library does not offer it; the linear solver is outside. `Props/NeumannCompressed.lean`: the same for the compressed matrix (`C88_surface` with the gradient moments of C42). `Props/NeumannExample.lean` shows a surface that meets the hypotheses |
| C93 | nothing new: local operators (mass matrix, Laplace–Beltrami) and the Dirichlet trace of the existing model | `Spec/ReactionDiffusion.lean` (`reactionForm`, `reactionEnergy`, `squaredDistance` as surface integrals with the surface gradient characterised by its products with the tangents, `SolvesReaction`, `ProjectsData`); `Props/ReactionDiffusion.lean` (the surface gradient is unique and linear in the degrees of freedom; a continuous nonnegative density with integral zero vanishes, hence C83 independence gives definiteness; the energy is a quadratic function of the degrees of freedom with the minimum at the Galerkin solution; rates of C90 and `Galerkin.stable`; the values are bounded by compactness of the elements). The user combines the matrices and solves the system. `Props/ReactionExample.lean` shows a surface that meets the hypotheses |
| C94 | nothing new: the Laplace–Beltrami matrix and the Dirichlet trace of the existing model | `Spec/BeltramiProblem.lean` (`SolvesBeltrami`, `ComputesBeltrami` from `reactionForm`, `stabilised`, `EqualsConstant`); `Props/BeltramiSystem.lean` (zero Dirichlet integral gives zero gradients, hence elementwise constants, and with continuity and connectedness constants; mean values and positive area give definiteness; testing with the constant function removes the stabilisation for data with integral zero; the C90 rates of the matrix and of both vectors and `Galerkin.stable` give the convergence). `Props/BeltramiExample.lean` shows a surface that meets the hypotheses |
| C95 | nothing new: `surfaceL2error`, the mass matrix and the Dirichlet trace of the existing model | `Spec/ErrorReport.lean` (`ReportsErrors`, `ReportsBestError`, `ReportsReference` from `squaredDistance`); `Props/ErrorReport.lean` (C71 gives the reported number as the root of a quadrature; the square of the error is a quadratic form in the coefficients whose entries are integrated with the rate of C90, which makes the constant uniform in the vector; the root is Hölder continuous; C93 gives the projection, C94 the Laplace–Beltrami solution). `Props/ErrorExample.lean` shows a surface that meets the hypotheses |

Properties that turn out to be false of the code are kept with their full statement, the negation is
proved with a concrete witness, and the provable part is named `…_partial`.

## Code coverage

Modelled (all of the file unless restricted): `Spline/{Bernstein,ShapeFunctions,Basis,Knots,DeBoor,DeBoorTP,Unroll,Localize,Bezierextraction}`,
`Geometry/{Patch,PatchShredder,Geometry (reader dispatch),GeometryDAT/IGES}`,
`ClusterTree/{ElementTree,ElementTreeNode,ClusterTree}`, `AnsatzSpace/{SuperSpace,Projector,Glue,AnsatzSpace,FunctionEvaluator}`,
`H2Matrix/{BlockClusterTree,H2Multipole,TransferMatrices,H2Matrix, EigenHelper/H2DenseProduct}`,
`DuffyTrick/*`, `Quadrature/*` (tables as rationals), `LinearOperator/*`, `Potential/*`, `LinearForm/*`, `LocalOperator`, kernels of
Laplace, Helmholtz, Maxwell, homogenised Laplace, `util/{Constants,GenericMatrix,Sphericals,...}`, `IO/{print2bin,bin2Mat,VTKSurfaceExport,VTKDomainExport,VTKPointExport}`.

Not modelled: Eigen itself (sparse/dense products and sums are
their mathematical meaning; solvers are parameters with their defining property as hypothesis), `AugmentedEFIE` examples.

## Findings

Deviations between the documentation (or the evident intention) and the code, found while proving.  Those marked with a theorem are
proved about the model.

| # | where | finding | theorem |
|---|-------|---------|---------|
| 1 | `Glue::makeDofIdentificationList` (continuous) | `erase(x)` followed by `++x` skips the successor: duplicated identifications may survive; with an exact criterion when this matters | `C32_violated`, `C32_cleanup`, `C64_continuous_exists` |
| 2 | `Glue::assembleGlueMatrix` | sorts a copy; minimality of the master dof is needed and holds | `C31_needs_min`, `C32_sets` |
| 3 | `checkOrientation` | skips edge 0 of the element and tests the product of the points instead of the normals | `C54_violated`, `C54_rejects` |
| 4 | `FunctionEvaluator::operator=` | does not copy the reordering vector | `C35_assign_violated` |
| 5 | `ElementTree` | two patches sharing two edges, or a patch glued to itself, lose an adjacency | `C22_needs_single_edge` |
| 6 | `compareElements` | needs consistently oriented patches | `C44_needs_orientation` |
| 7 | DAT reader | header line without trailing white space is misread | `C15_header_violated` |
| 8 | `BlockClusterTree` | a minimal cluster level below 0 loses blocks | `C36_needs_level` |
| 9 | `compute_global_id` | `int` overflow from level 16 | `C27_int_range` |
| 10 | `ElementTreeNode` | move constructor drops fields; re-initialisation keeps old sons; refinement of 0 patches is undefined | — |
| 11 | `Geometry` | suffix taken after the first `.` of the path | `C17_violated` |
| 12 | run-time basis handlers | degrees above 20 silently evaluate degree 0 | `C04_violated` |
| 13 | IGES writer | `writePatchData` writes out of bounds | `C16_write_violated` |
| 14 | `evaluate_solid_sphericals`, `evaluate_dsphericals`, `evaluate_dsolid_sphericals` | last term: wrong exponent and factor, additional imaginary part; degree `deg` of the documented sum is not evaluated | `C55_solid`, `C55_solid_violated`, `C55_dsphericals`, `C55_dsolid` |
| 15 | `ExtractUniqueKnotVector` | drops knots closer than the tolerance | `C07_unique_violated` |
| 16 | `legendreFull` | degree 0 writes out of bounds | `C55_legendre_zero` |
| 17 | `Patch::evalJacobian` | on multi-span patches the derivative is with respect to the coordinate of the span | `C13_jacobian_span` |
| 18 | `generatePatchBoundaryLabels` | counts neighbours | `C58` |
| 19 | enclosing balls | contain the vertices of the element, not the element | `C24` |
| 20 | `H2Matrix::get_dense` | real unit vectors, does not compile for complex scalars | — |
| 21 | quadrature vectors | order out of range gives the one point rule | `C46_out_of_range` |
| 22 | `TangentialTrace` with complex data | Eigen's `cross` conjugates | `C61_tangential` |
| 23 | `Projector` | drops coefficients at most `1e-4`; exact for P ≤ 4, conformity not affected | `C34_inexact`, `C64` |
| 24 | `print2bin`, `bin2Mat` | byte count overflows from 2 GiB; truncated files are not reported | `C56_limit`, `C56_truncated` |
| 25 | quadrature degree | assertion fails for `(p+2)*level ≥ 100` | `C57_bound`, `C57_attained` |
| 26 | IGES global section | a file name longer than 72 characters breaks the section | — |
| 27 | homogenised kernel | the coefficients are fitted for degree `deg`, the evaluation leaves out the harmonics of degree `deg` (and has the error of 14) | `C65_evaluated`, `C65_kernel_violated` |
| 28 | `init_Patch`, `MakeProjection` | `pruned(0.001)` keeps entries above `1e-15`, not above `0.001` as the name `sparseTol` suggests; a single-span patch with more than `p+1` equal end knots writes out of bounds | `C67_surface` |
| 29 | `VTKPointExport::addDataSet` | no check that the matrix has one row per point; `std::to_string` keeps six decimals only, so small values become 0 | `C70_points` |
| 30 | `VTKSurfaceExport::init_VTKSurfaceExport` | a second initialisation keeps the data sets of the old mesh | — |
| 31 | `print2m` (sparse) | the size is not written, so a matrix whose last row or column is empty is read back smaller; an invalid mode is not rejected: the index vectors `cols_`, `values_` and the `sparse` line are appended without `rows_` and 0 is returned; complex matrices are printed as `(re,im)`, which is not Matlab syntax | `C72_size_violated`, `C72_mode_violated` |
| 32 | `Stopwatch::stop` | with laps it returns the sum of the laps, not "the overall time since start"; without laps it does not reset the started flag, so the next `start` fails its assertion | `C73_stop_violated` |
| 33 | `Logger` | the opening mode of the constructors is ignored: files are always truncated | `C74_mode_violated` |
| 34 | `makeTensorProductGrid` | an empty coordinate list is read out of bounds (no check) | `C76_tensor_violated` |
| 35 | `errors`, `maxPointwiseError` for vector fields | the columns of the field are indexed by the number of points: undefined unless there are exactly three points (`errors`), at least three (`maxPointwiseError`); the real overload silently compares only the first column of a matrix | `C76_field_violated` |
| 36 | `AnsatzSpace`, `ElementTree` | a space shares the patch data with the `Geometry` it was built from: changing the geometry in place changes the space; a moved-from `Geometry` dereferences null when copied | `C77_share_violated`, `C77_moved` |
| 37 | H2 product | `x = H * x` returns zero (products are declared alias free) | — |
| 38 | `BlockClusterTree` copy/move | a copy shares the parameter object: building the copy again on another mesh changes the parameters (root pointer, level, degree) of the original | `C78_parameters_violated` |
| 39 | `BlockClusterTree` move | the moved-from tree keeps sharing the leaf pointers (and extents) of the new owner; copying it reads out of range | `C78_moved_violated`, `C78_moved_copy_violated` |
| 40 | `BlockClusterTree` | copying or moving a default constructed tree dereferences a null pointer (`cluster1_->id_`) | `C78_default_violated` |
| 41 | `BlockClusterTree::init_BlockClusterTree` | building a tree again on a mesh with more patches looks at clusters of the old mesh, dangling if that mesh is gone | `C78_rebuild_violated` |
| 42 | `writeGlobalSection` / `LoadGeometryFileIGS` | the path is written into a line of its own without limit; if its character 72 is `D`, the loader takes the line for the directory section and dies in `std::stoi` (noexcept) | `C81_name_violated` |
| 43 | `LoadGeometryFileIGS` | a geometry without patches is written without directory section; the loader runs past the end of the file (assertion, or undefined behaviour without) | `C81_empty_violated` |
| 44 | `GetInterpolationMatrix` | for a mask with more than 21 points the 21-entry stack buffer is read out of bounds (and the basis is that of degree 0); the vector overload of `GetCoefficients` declares `std::vector<double>` whatever `T` is and compiles for `T = double` only | `C82_degree_violated` |
| 45 | `getNearfieldQuadratureDegree` | the quadrature degree depends on the absolute distance of the elements: the same surface in other units (metres, millimetres) is integrated with other degrees, so results are invariant under motions but not under scalings | `C84_not_scaling` |
| 46 | `BlockClusterTree` copy constructor | dereferences the clusters of the tree: a tree must not be copied after its mesh is destroyed | `C78_mesh_lifetime_violated` |
| 47 | `EvalBernstein`, `EvalBernsteinDer` with a vector of points | the overloads that return a `std::vector<T>` fill a `std::vector<double>` and return it: they compile only for `T = double` (Bernstein.hpp l.180-188, 220-229) | a matter of types, outside the model |
