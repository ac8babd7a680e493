import Verif.Props.Combinatorial
import Verif.Props.Simplicial
import Verif.Props.Orientation
import Verif.Props.Boundary
import Verif.Props.Dual
import Verif.Props.Subdivide
import Verif.Props.Loop
import Verif.Props.Euler
import Verif.Props.LoopTransfer
import Verif.Props.CubicalSub
import Verif.Props.Linalg
import Verif.Props.Iter
import Verif.Props.CG
import Verif.Props.Sampling
import Verif.Props.Block
import Verif.Props.Multigrid
import Verif.Props.StencilOp
import Verif.Props.Stencil
import Verif.Props.StencilTransfer
import Verif.Model.StencilBlock
import Verif.Lemmas.StencilBlock
import Verif.Props.StencilBlock
import Verif.Props.StencilSystem
import Verif.Model.StencilSmooth
import Verif.Props.StencilSmooth
import Verif.Props.StencilDiagonal
import Verif.Model.Triangles
import Verif.Spec.Triangles
import Verif.Props.Triangles
import Verif.Model.Clip
import Verif.Spec.Clip
import Verif.Lemmas.Clip
import Verif.Props.Clip
import Verif.Model.Averaging
import Verif.Spec.Averaging
import Verif.Lemmas.Averaging
import Verif.Props.Averaging
import Verif.Model.Cubical
import Verif.Spec.Cubical
import Verif.Lemmas.CubeAlt
import Verif.Lemmas.CubeSym
import Verif.Lemmas.CubeTable
import Verif.Lemmas.CubeConstruct
import Verif.Lemmas.CubeChain
import Verif.Props.Cubical
import Verif.Model.Grid
import Verif.Spec.Grid
import Verif.Lemmas.Grid
import Verif.Lemmas.GridOrient
import Verif.Props.Grid
import Verif.Spec.Product
import Verif.Lemmas.Product
import Verif.Lemmas.ProductTopo
import Verif.Lemmas.ProductChain
import Verif.Props.Product
import Verif.Model.Euclid
import Verif.Spec.Euclid
import Verif.Lemmas.SimplexMeasure
import Verif.Lemmas.Spectral
import Verif.Props.Volume
import Verif.Props.Normals
import Verif.Model.Circumcenter
import Verif.Spec.Circumcenter
import Verif.Lemmas.Circumcenter
import Verif.Props.Circumcenter
import Verif.Props.Pinv
import Verif.Lemmas.SimplexVolume
import Verif.Lemmas.FlagVolume
import Verif.Lemmas.Metric
import Verif.Lemmas.MetricEval
import Verif.Lemmas.MetricCenters
import Verif.Lemmas.MetricValues
import Verif.Lemmas.Diamond
import Verif.Lemmas.MetricExists
import Verif.Model.Metric
import Verif.Spec.Metric
import Verif.Props.Metric
import Verif.Model.Angles
import Verif.Spec.Angles
import Verif.Lemmas.Angles
import Verif.Props.Angles
import Verif.Model.Delaunay
import Verif.Spec.Delaunay
import Verif.Lemmas.PowerCenters
import Verif.Lemmas.Height
import Verif.Lemmas.Excess
import Verif.Props.Delaunay
import Verif.Props.WellCentered
import Verif.Model.Picking
import Verif.Spec.Picking
import Verif.Lemmas.Picking
import Verif.Lemmas.PickSystem
import Verif.Lemmas.PickCoords
import Verif.Props.Picking
import Verif.Props.PickingInstances
import Verif.Model.Spherical
import Verif.Spec.Spherical
import Verif.Lemmas.Wedge
import Verif.Lemmas.Girard
import Verif.Lemmas.Spherical
import Verif.Lemmas.SphericalParts
import Verif.Props.Spherical
import Verif.Model.SphericalMetric
import Verif.Spec.SphericalMetric
import Verif.Lemmas.SphericalMetric
import Verif.Lemmas.SphericalCells
import Verif.Props.SphericalMetric
import Verif.Props.SphericalDual
import Verif.Props.SphericalTotal
import Verif.Props.Octahedron
import Verif.Model.Components
import Verif.Spec.Components
import Verif.Lemmas.Components
import Verif.Lemmas.ComponentsLinks
import Verif.Props.Components
import Verif.Props.ComponentsExamples
import Verif.Model.Cone
import Verif.Lemmas.Cone
import Verif.Lemmas.ConeMesh
import Verif.Props.Cone
import Verif.Model.CubicalDomains
import Verif.Spec.CubicalDomains
import Verif.Lemmas.CubeGrid
import Verif.Lemmas.CubeCells
import Verif.Lemmas.CubeStored
import Verif.Lemmas.CubeTables
import Verif.Lemmas.CubeFine
import Verif.Lemmas.CubeCount
import Verif.Lemmas.CubeTransfer
import Verif.Lemmas.CubeCoarsen
import Verif.Lemmas.CubeTwoScale
import Verif.Lemmas.CubeFirst
import Verif.Props.CubicalDomains
import Verif.Model.CubicalComplex
import Verif.Props.CubicalComplex
import Verif.Spec.CubeAround
import Verif.Lemmas.CubeFaces
import Verif.Lemmas.CubeAveraging
import Verif.Props.CubeAveraging
import Verif.Model.Smooth
import Verif.Spec.Smooth
import Verif.Lemmas.Smooth
import Verif.Lemmas.SmoothOperator
import Verif.Props.Smooth
import Verif.Model.RegularMetric
import Verif.Spec.RegularMetric
import Verif.Lemmas.RegularMetric
import Verif.Lemmas.RegularBox
import Verif.Lemmas.RegularEval
import Verif.Props.RegularMetric
import Verif.Props.RegularTotal
import Verif.Props.RegularGrid
import Verif.Model.Extrude
import Verif.Spec.Extrude
import Verif.Lemmas.Extrude
import Verif.Props.Extrude
import Verif.Model.Mass
import Verif.Spec.Mass
import Verif.Props.Mass
import Verif.Model.Synthetic
import Verif.Props.Synthetic
import Verif.Model.Stl
import Verif.Spec.Stl
import Verif.Props.Stl
import Verif.Spec.Icosphere
import Verif.Model.Icosphere
import Verif.Lemmas.LoopSurface
import Verif.Lemmas.UnitCenters
import Verif.Lemmas.SphereLoop
import Verif.Lemmas.SphereTiling
import Verif.Lemmas.Reorient
import Verif.Lemmas.Icosahedron
import Verif.Lemmas.IcoTopology
import Verif.Lemmas.IcoGeometry
import Verif.Lemmas.SphereMesh
import Verif.Props.Icosphere
import Verif.Model.CubicalBoundary
import Verif.Spec.CubicalBoundary
import Verif.Lemmas.CubicalBoundary
import Verif.Lemmas.CubicalOrient
import Verif.Props.CubicalBoundary
import Verif.Model.Circle
import Verif.Spec.Circle
import Verif.Lemmas.Polygon
import Verif.Lemmas.PolygonOrient
import Verif.Lemmas.PolygonStep
import Verif.Lemmas.CircleStep
import Verif.Lemmas.CircleStart
import Verif.Lemmas.Cylinder
import Verif.Props.Circle
import Verif.Model.Velocity
import Verif.Spec.Velocity
import Verif.Lemmas.Gradients
import Verif.Lemmas.Velocity
import Verif.Lemmas.BaseHeight
import Verif.Lemmas.Svd
import Verif.Lemmas.Flow
import Verif.Props.Velocity
import Verif.Props.Gradients
import Verif.Model.Rotation
import Verif.Spec.Rotation
import Verif.Props.Orthonormalize
import Verif.Props.Power
import Verif.Model.RegularPicking
import Verif.Spec.RegularPicking
import Verif.Lemmas.RegularPicking
import Verif.Props.RegularPicking
import Verif.Props.RegularFundamental
import Verif.Props.RegularPickingGrid
import Verif.Model.StencilSample
import Verif.Props.StencilSample
import Verif.Spec.SimplexCubes
import Verif.Model.SimplexCubes
import Verif.Model.SimplexCubesComplex
import Verif.Lemmas.CornerCubes
import Verif.Lemmas.SimplexCubes
import Verif.Lemmas.SimplexCubesModel
import Verif.Lemmas.SimplexCubesOrient
import Verif.Lemmas.SimplexCubesCount
import Verif.Props.SimplexCubes
import Verif.Spec.DualAveraging
import Verif.Model.DualAveraging
import Verif.Lemmas.DualAveraging
import Verif.Lemmas.DualMeans
import Verif.Lemmas.DualSimplicial
import Verif.Lemmas.DualCubical
import Verif.Lemmas.DualOrder
import Verif.Props.DualAveraging
import Verif.Spec.RegularDualSample
import Verif.Model.RegularDualSample
import Verif.Lemmas.RegularCells
import Verif.Lemmas.RegularAround
import Verif.Lemmas.RegularDualSample
import Verif.Props.RegularDualSample
import Verif.Props.RegularDualSampleGrid
import Verif.Spec.StencilCoarsen
import Verif.Model.StencilCoarsen
import Verif.Lemmas.StencilCoarsen
import Verif.Props.StencilCoarsen
import Verif.Spec.Diffusion
import Verif.Model.Diffusion
import Verif.Lemmas.Diffusion
import Verif.Props.Diffusion
import Verif.Model.FundamentalPick
import Verif.Lemmas.Orthoscheme
import Verif.Props.FundamentalPick
import Verif.Props.FundamentalSample
import Verif.Props.FundamentalInstances
import Verif.Model.WeightedAveraging
import Verif.Spec.WeightedAveraging
import Verif.Lemmas.WeightedAveraging
import Verif.Props.WeightedAveraging
import Verif.Props.WeightedForms
import Verif.Props.WeightedSample
import Verif.Props.WeightedInstances
import Verif.Model.CheckChain
import Verif.Spec.CheckChain
import Verif.Props.CheckChain
import Verif.Lemmas.CrossPolytope
import Verif.Model.CubeDual
import Verif.Spec.CubeDual
import Verif.Props.CubeDual
import Verif.Model.DualPosition
import Verif.Props.DualPosition
import Verif.Model.DualSelectors
import Verif.Spec.DualSelectors
import Verif.Props.DualSelectors
import Verif.Model.DualTransfer
import Verif.Props.DualTransfer
import Verif.Model.BlockNorm
import Verif.Props.BlockNorm
import Verif.Model.BlockShape
import Verif.Props.BlockShape
import Verif.Model.StencilBlockAdd
import Verif.Props.StencilBlockAdd
import Verif.Model.Checkerboard
import Verif.Props.Checkerboard
import Verif.Model.Smoother
import Verif.Props.Smoother
