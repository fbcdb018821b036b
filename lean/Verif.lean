import Verif.Base.PyNum
import Verif.Base.Loop
import Verif.Base.Num
import Verif.Opt.Model.Common
import Verif.Opt.Model.LineSearch
import Verif.Opt.Model.SD
import Verif.Opt.Model.CG
import Verif.Opt.Model.NM
import Verif.Opt.Model.PSO
import Verif.Opt.Model.TR
import Verif.Opt.Lemmas
import Verif.Opt.Witness
import Verif.Opt.Props.Stop
import Verif.Opt.Props.Progress
import Verif.Opt.Props.TRProgress
import Verif.Opt.Props.TCGTangent
import Verif.Opt.Props.TRRate
import Verif.Opt.Props.LineSearch
import Verif.Opt.Props.Descent
import Verif.Opt.Props.CG
import Verif.Opt.Props.NM
import Verif.Opt.Props.PSO
import Verif.Opt.Props.Counts
import Verif.Opt.Props.TR
import Verif.Opt.Props.TCG
import Verif.Opt.Props.Krylov
import Verif.Opt.Props.TCGRate
import Verif.Opt.Props.TRNewton
import Verif.Opt.Props.SDLinear
import Verif.Opt.Props.Restart
import Verif.Opt.Props.Resume
import Verif.Opt.Props.SDConvex
import Verif.Opt.Props.CGLinear
import Verif.Opt.Props.CostUnits
import Verif.Opt.Props.CostUnitsTR
import Verif.Opt.Props.CostOrder
import Verif.Opt.Props.CostUnitsCases
import Verif.Opt.Props.CauchyPoint
import Verif.Opt.Props.Verbosity
import Verif.Opt.Model.Centroid
import Verif.Opt.Props.OnManifold
import Verif.Core.Model.Value
import Verif.Core.Model.Problem
import Verif.Core.Model.Autodiff
import Verif.Core.Model.Product
import Verif.Core.Model.Tools
import Verif.Core.Witness
import Verif.Core.Props.Problem
import Verif.Core.Props.Autodiff
import Verif.Core.Props.Backends
import Verif.Core.Props.Product
import Verif.Core.Props.Tools
import Verif.Core.Model.Diagnostics
import Verif.Core.Model.DiagnosticsText
import Verif.Core.Model.DiagnosticsPlot
import Verif.Core.Props.Diagnostics
import Verif.Core.Props.DiagnosticsText
import Verif.Core.Props.DiagnosticsPlot
import Verif.Geo.Props.Sphere
import Verif.Geo.Props.SphereSubspace
import Verif.Geo.Props.Multi
import Verif.Geo.Props.Euclidean
import Verif.Geo.Props.Oblique
import Verif.Geo.Props.ComplexCircle
import Verif.Geo.Props.Stiefel
import Verif.Geo.Props.Grassmann
import Verif.Geo.Props.Positive
import Verif.Geo.Props.PositiveDefinite
import Verif.Geo.Props.SpecialPD
import Verif.Geo.Props.Psd
import Verif.Geo.Props.Elliptope
import Verif.Geo.Props.Hyperbolic
import Verif.Geo.Props.FixedRank
import Verif.Geo.Props.Group
import Verif.Geo.Props.GroupLog
import Verif.Geo.Props.Dim
import Verif.Geo.Model.OptMfd
import Verif.Geo.Props.Gradient
import Verif.Geo.Props.OptMfd
import Verif.Geo.Props.Progress
import Verif.Geo.Props.TRProgress
import Verif.Geo.Props.TCGSound
import Verif.Geo.Props.TCGProduct
import Verif.Geo.Props.Diagnostics
import Verif.Geo.Props.Metric
import Verif.Geo.Model.TypicalDist
import Verif.Geo.Props.TypicalDist
import Verif.Geo.Lemmas.TraceDeriv
import Verif.Geo.Lemmas.DistDeriv
import Verif.Geo.Props.DistGrad
import Verif.Geo.Props.DistGradGroup
import Verif.Geo.Props.DistGradPsd
import Verif.Geo.Props.DistGradGrassmann
import Verif.Geo.Props.DistGradProduct
import Verif.Geo.Props.Centroid
import Verif.Geo.Model.Backends
import Verif.Geo.Props.Backends
import Verif.Geo.Model.Testing
import Verif.Geo.Props.Testing
import Verif.Geo.Lemmas.Jet
import Verif.Geo.Lemmas.PolarJet
import Verif.Geo.Props.SecondOrder
import Verif.Geo.Props.SecondOrderMat
import Verif.Geo.Props.SecondOrderProduct
import Verif.Geo.Lemmas.Smooth
import Verif.Geo.Lemmas.RetractBounds
import Verif.Geo.Props.Rates
import Verif.Geo.Model.Examples
import Verif.Geo.Lemmas.KyFan
import Verif.Geo.Props.Examples
import Verif.Geo.Props.ExampleBackends
import Verif.Geo.Props.ExampleSolutions
import Verif.Opt.Props.SDRate
import Verif.Geo.Props.ExampleRuns
import Verif.Opt.Props.Equivariance
import Verif.Opt.Props.EquivarianceFree
import Verif.Geo.Props.Equivariance
import Verif.Geo.Props.EquivarianceMat
import Verif.Geo.Props.EquivarianceSpecial
import Verif.Geo.Props.EquivarianceCases
import Verif.Geo.Props.EquivarianceFixedRank
import Verif.Geo.Props.EquivarianceArr
import Verif.Geo.Props.Representation
import Verif.Opt.Props.Work
import Verif.Geo.Props.Mixture
import Verif.Geo.Props.MixtureConvex
import Verif.Opt.Props.LineSearchMoG
import Verif.Opt.Model.Output
import Verif.Opt.Props.Output
import Verif.Opt.Model.RandomStart
import Verif.Opt.Props.RandomStart
import Verif.Opt.Props.RadiusWarnings
import Verif.Base.Binary64
import Verif.Geo.Model.Rounding
import Verif.Geo.Props.Rounding
import Verif.Geo.Props.Drift
import Verif.Geo.Lemmas.Rayleigh
import Verif.Geo.Props.Newton
import Verif.Geo.Props.NewtonEuclidean
import Verif.Geo.Props.LinearRate
import Verif.Geo.Props.ConvexRate
import Verif.Geo.Model.FixedRankMfd
import Verif.Geo.Props.Transport
import Verif.Geo.Props.Factors
import Verif.Geo.Props.Midpoint
import Verif.Geo.Props.MidpointGroup
import Verif.Geo.Props.GroupStack
import Verif.Geo.Lemmas.SpectralPoly
import Verif.Geo.Props.CGFinite
import Verif.Geo.Props.CGRate
import Verif.Geo.Props.CGDescent
import Verif.Geo.Props.CGStrong
import Verif.Geo.Props.CostUnits
import Verif.Geo.Props.CostUnitsPsd
import Verif.Geo.Props.NMFlat
import Verif.Opt.Props.Raise
import Verif.Core.Props.ProductOpt
import Verif.Core.Props.Classes
import Verif.Core.Props.ClassesProduct
import Verif.Base.Format
import Verif.Base.FormatLemmas
import Verif.Base.FormatGLemmas
import Verif.Opt.Model.Text
import Verif.Opt.Props.Text
import Verif.Opt.Props.TextSwarm
import Verif.Opt.Props.TextSimplex
import Verif.Opt.Props.TextRegions
import Verif.Opt.Props.Undefined
import Verif.Opt.Props.Budget
