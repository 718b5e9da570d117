import Verif.Props.Bernstein
import Verif.Props.Knots
import Verif.Props.Patch
import Verif.Props.GeometryIO
import Verif.Props.GeometryIGS
import Verif.Props.Util
import Verif.Props.Mesh
import Verif.Props.MeshGeom
import Verif.Props.MeshTopo
import Verif.Props.MeshSurface
import Verif.Props.MeshGrid
import Verif.Props.Glue
import Verif.Props.BlockCluster
import Verif.Props.H2
import Verif.Props.H2Adjoint
import Verif.Props.Multipole
import Verif.Props.Moments
import Verif.Props.Quadrature
import Verif.Props.Duffy
import Verif.Props.PairClass
import Verif.Props.Kernels
import Verif.Props.Operators
import Verif.Props.Dense
import Verif.Props.FunctionEvaluator
import Verif.Props.Potential
import Verif.Props.PotentialPDE
import Verif.Props.LinearForm
import Verif.Props.LocalOperator
import Verif.Props.MomentOperators
import Verif.Props.H2Init
import Verif.Props.Projector
import Verif.Props.AnsatzSpace
import Verif.Props.Degrees
import Verif.Props.BinaryIO
import Verif.Props.Orientation
import Verif.Props.Sphericals
import Verif.Props.SphericalGradients
import Verif.Props.SphericalTables
import Verif.Props.Homogenised
import Verif.Props.HomogenisedFit
import Verif.Props.HomogenisedKernel
import Verif.Props.HomogenisedEval
import Verif.Props.HomogenisedUnique
import Verif.Props.BezierExtraction
import Verif.Props.SplineDerivative
import Verif.Props.H2Expression
import Verif.Props.VTKExport
import Verif.Props.L2Error
import Verif.Props.LaplaceBeltrami
import Verif.Props.TextIO
import Verif.Props.Stopwatch
import Verif.Props.Logger
import Verif.Props.ExampleData
import Verif.Props.ExampleTools
import Verif.Props.GeometryHandle
import Verif.Props.LoadLinear
import Verif.Props.BlockTreeHandle
import Verif.Props.Refinement
import Verif.Props.SpaceExact
import Verif.Props.IGSFile
import Verif.Props.Interpolation
import Verif.Props.WellPosed
import Verif.Props.SurfaceLaplacian
import Verif.Props.BlockTreeLeak
import Verif.Props.Motion
import Verif.Props.MotionForms
import Verif.Props.MotionPatch
import Verif.Props.Divergence
import Verif.Props.DeRham
import Verif.Props.Compression
import Verif.Props.CompressionFlat
import Verif.Props.SmoothSurface
import Verif.Props.Separation
import Verif.Props.Coincidence
import Verif.Props.Singular
import Verif.Props.NoCusps
import Verif.Props.AllEntries
import Verif.Spec.SurfaceIntegral
import Verif.Lemmas.SurfaceRate
import Verif.Props.SurfaceRate
import Verif.Spec.SingleLayer
import Verif.Spec.DirichletProblem
import Verif.Lemmas.Energy
import Verif.Lemmas.Galerkin
import Verif.Props.SingleLayer
import Verif.Props.SingleLayerSystem
import Verif.Spec.NeumannProblem
import Verif.Props.Hypersingular
import Verif.Props.HypersingularKernel
import Verif.Props.NeumannSystem
import Verif.Props.NeumannCompressed
import Verif.Props.NeumannExample
import Verif.Spec.ReactionDiffusion
import Verif.Props.ReactionDiffusion
import Verif.Props.ReactionExample
import Verif.Spec.BeltramiProblem
import Verif.Props.BeltramiSystem
import Verif.Props.BeltramiExample
import Verif.Spec.ErrorReport
import Verif.Props.ErrorReport
import Verif.Props.ErrorExample
import Verif.Props.ProjectorReject
