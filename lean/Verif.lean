import Verif.Geom
import Verif.Lemmas.AffineNets
import Verif.Lemmas.AffineSuperD
import Verif.Lemmas.Agree
import Verif.Lemmas.Agreed
import Verif.Lemmas.BCurve
import Verif.Lemmas.BaryBranch
import Verif.Lemmas.Barycentric
import Verif.Lemmas.Bernstein
import Verif.Lemmas.Biharmonic
import Verif.Lemmas.BiharmonicFlux
import Verif.Lemmas.BiharmonicLib
import Verif.Lemmas.BiharmonicSolve
import Verif.Lemmas.BiharmonicState
import Verif.Lemmas.Bilinear
import Verif.Lemmas.Blend
import Verif.Lemmas.Centre
import Verif.Lemmas.Circle
import Verif.Lemmas.CircularParam
import Verif.Lemmas.ClassA
import Verif.Lemmas.ConvexDomain
import Verif.Lemmas.Demo
import Verif.Lemmas.DemoTangent
import Verif.Lemmas.Dirichlet
import Verif.Lemmas.DomainUpdate
import Verif.Lemmas.Elastic
import Verif.Lemmas.Enumeration
import Verif.Lemmas.FileIO
import Verif.Lemmas.FileIOPatch
import Verif.Lemmas.Flat
import Verif.Lemmas.GBFit
import Verif.Lemmas.GBFitSmooth
import Verif.Lemmas.GBFitSystem
import Verif.Lemmas.GenBezier
import Verif.Lemmas.GenBezierBuilt
import Verif.Lemmas.GenBezierEval
import Verif.Lemmas.GenBezierGroup
import Verif.Lemmas.GenBezierSets
import Verif.Lemmas.GenBezierState
import Verif.Lemmas.Harmonic
import Verif.Lemmas.HarmonicState
import Verif.Lemmas.Hull
import Verif.Lemmas.Hybrid
import Verif.Lemmas.Interp
import Verif.Lemmas.InterpSurf
import Verif.Lemmas.Lists
import Verif.Lemmas.Loop
import Verif.Lemmas.Mesh3
import Verif.Lemmas.Mesh4
import Verif.Lemmas.MeshAll
import Verif.Lemmas.MeshBase
import Verif.Lemmas.MeshN
import Verif.Lemmas.MeshN2
import Verif.Lemmas.MeshParams
import Verif.Lemmas.Motion
import Verif.Lemmas.MotionHybrid
import Verif.Lemmas.MotionPatch
import Verif.Lemmas.MotionSides
import Verif.Lemmas.NelderMead
import Verif.Lemmas.Net
import Verif.Lemmas.ParamFresh
import Verif.Lemmas.PatchRun
import Verif.Lemmas.PatchSide
import Verif.Lemmas.PatchTotal
import Verif.Lemmas.PatchUpdate
import Verif.Lemmas.Polar
import Verif.Lemmas.PolarRibbon
import Verif.Lemmas.Polygon
import Verif.Lemmas.RMF
import Verif.Lemmas.Ready
import Verif.Lemmas.Regular
import Verif.Lemmas.RegularBilinear
import Verif.Lemmas.Ribbon
import Verif.Lemmas.SPatch
import Verif.Lemmas.SPatchState
import Verif.Lemmas.Sharing
import Verif.Lemmas.SharingReach
import Verif.Lemmas.Shift
import Verif.Lemmas.ShiftParam
import Verif.Lemmas.ShiftPatch
import Verif.Lemmas.ShiftSurf
import Verif.Lemmas.SideParams
import Verif.Lemmas.Smooth
import Verif.Lemmas.Square
import Verif.Lemmas.Statistics
import Verif.Lemmas.SuperD
import Verif.Lemmas.SuperDState
import Verif.Lemmas.SurfaceMesh
import Verif.Lemmas.Sync
import Verif.Lemmas.Tangent
import Verif.Lemmas.TangentBary
import Verif.Lemmas.TangentBlend
import Verif.Lemmas.TangentComposite
import Verif.Lemmas.TangentConstrained
import Verif.Lemmas.TangentCorner
import Verif.Lemmas.TangentFence
import Verif.Lemmas.TangentGB
import Verif.Lemmas.TangentHybrid
import Verif.Lemmas.TangentParallel
import Verif.Lemmas.TangentParams
import Verif.Lemmas.TangentPatch
import Verif.Lemmas.TangentSuperD
import Verif.Lemmas.TangentSurf
import Verif.Lemmas.TangentSurfaces
import Verif.Lemmas.TensorElevate
import Verif.Lemmas.Total
import Verif.Lemmas.Voronoi
import Verif.Model.BCurve
import Verif.Model.Barycentric
import Verif.Model.Biharmonic
import Verif.Model.BiharmonicLib
import Verif.Model.Curve
import Verif.Model.Demo
import Verif.Model.DemoTangent
import Verif.Model.Domain
import Verif.Model.DomainCache
import Verif.Model.DomainKinds
import Verif.Model.Elastic
import Verif.Model.Enumeration
import Verif.Model.FileIO
import Verif.Model.GBFit
import Verif.Model.GBIO
import Verif.Model.GenBezier
import Verif.Model.Harmonic
import Verif.Model.Hybrid
import Verif.Model.NSided
import Verif.Model.NelderMead
import Verif.Model.OBJ
import Verif.Model.ParamCache
import Verif.Model.ParamPoints
import Verif.Model.Parameterization
import Verif.Model.Patch
import Verif.Model.Polar
import Verif.Model.RMF
import Verif.Model.Ribbon
import Verif.Model.SPatch
import Verif.Model.Sharing
import Verif.Model.Statistics
import Verif.Model.SuperD
import Verif.Model.Surface
import Verif.Model.SurfaceMesh
import Verif.Model.Threads
import Verif.Model.Utilities
import Verif.Prelude
import Verif.Props.Affine
import Verif.Props.BCurve
import Verif.Props.BaryBranch
import Verif.Props.Barycentric
import Verif.Props.Biharmonic
import Verif.Props.BiharmonicLib
import Verif.Props.Bilinear
import Verif.Props.Blend
import Verif.Props.BlendTol
import Verif.Props.BlendTolSurf
import Verif.Props.CircleCurves
import Verif.Props.Circular
import Verif.Props.ClassA
import Verif.Props.CoonsSquare
import Verif.Props.CornerMesh
import Verif.Props.Defaults
import Verif.Props.Demo
import Verif.Props.Deviation
import Verif.Props.DiscMesh
import Verif.Props.Domain
import Verif.Props.DomainAngular
import Verif.Props.DomainCache
import Verif.Props.DomainNormal
import Verif.Props.Elastic
import Verif.Props.Fences
import Verif.Props.FileIO
import Verif.Props.Flat
import Verif.Props.GenBezier
import Verif.Props.GenBezierCorner
import Verif.Props.GenBezierDegreeOne
import Verif.Props.GenBezierElevate
import Verif.Props.GenBezierEnum
import Verif.Props.GenBezierExport
import Verif.Props.GenBezierFit
import Verif.Props.GenBezierIO
import Verif.Props.GenBezierNet
import Verif.Props.GenBezierTangent
import Verif.Props.Harmonic
import Verif.Props.HarmonicPrecision
import Verif.Props.Hull
import Verif.Props.Hybrid
import Verif.Props.HybridCentral
import Verif.Props.HybridTangent
import Verif.Props.Interpolation
import Verif.Props.Loop
import Verif.Props.Mesh
import Verif.Props.MeshEval
import Verif.Props.Midpoint
import Verif.Props.Motion
import Verif.Props.MotionHybrid
import Verif.Props.NSided
import Verif.Props.NelderMead
import Verif.Props.OBJ
import Verif.Props.ParamCache
import Verif.Props.ParamPoints
import Verif.Props.Parameterization
import Verif.Props.PartialUpdate
import Verif.Props.Polar
import Verif.Props.PolarInverse
import Verif.Props.PolarPatch
import Verif.Props.RMF
import Verif.Props.Ribbon
import Verif.Props.SPatch
import Verif.Props.Scale
import Verif.Props.Sharing
import Verif.Props.Shift
import Verif.Props.ShiftNet
import Verif.Props.SideBand
import Verif.Props.Smooth
import Verif.Props.Stale
import Verif.Props.Statistics
import Verif.Props.SuperD
import Verif.Props.SuperDTangent
import Verif.Props.SurfaceMesh
import Verif.Props.Tangent
import Verif.Props.TangentTest
import Verif.Props.Tensor
import Verif.Props.TensorElevate
import Verif.Props.Threads
import Verif.Props.Total
import Verif.Props.Utilities
import Verif.Props.Voronoi
import Verif.Spec.Bezier
import Verif.Spec.Biharmonic
import Verif.Spec.Coons
import Verif.Spec.Copies
import Verif.Spec.Curve
import Verif.Spec.Demo
import Verif.Spec.DemoTangent
import Verif.Spec.Dirichlet
import Verif.Spec.Elastic
import Verif.Spec.ExactBlend
import Verif.Spec.FileIO
import Verif.Spec.Flat
import Verif.Spec.GBTangent
import Verif.Spec.Mesh
import Verif.Spec.Motion
import Verif.Spec.MotionHybrid
import Verif.Spec.NelderMead
import Verif.Spec.Net
import Verif.Spec.Patch
import Verif.Spec.Polar
import Verif.Spec.Polygon
import Verif.Spec.SPatch
import Verif.Spec.Shift
import Verif.Spec.SideRatio
import Verif.Spec.Smooth
import Verif.Spec.Statistics
import Verif.Spec.SuperD
import Verif.Spec.SuperDTangent
import Verif.Spec.Tangent
import Verif.Spec.Tensor
import Verif.Spec.Triangulation
