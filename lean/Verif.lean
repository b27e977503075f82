import Verif.Lemmas.Arctan2
import Verif.Lemmas.ArctanDouble
import Verif.Lemmas.AutoDiff
import Verif.Lemmas.AutoDiffNested
import Verif.Lemmas.AutoDiffPrograms
import Verif.Lemmas.Bicubic
import Verif.Lemmas.BuildSim
import Verif.Lemmas.Chunk
import Verif.Lemmas.DiscIntegral
import Verif.Lemmas.EPL
import Verif.Lemmas.EPLGrad
import Verif.Lemmas.Ellipse
import Verif.Lemmas.FFT
import Verif.Lemmas.FieldOfView
import Verif.Lemmas.FirstImage
import Verif.Lemmas.Flt
import Verif.Lemmas.ForwardRaytrace
import Verif.Lemmas.FourImages
import Verif.Lemmas.GammaMedian
import Verif.Lemmas.Grad
import Verif.Lemmas.GridMean
import Verif.Lemmas.Halo
import Verif.Lemmas.Images
import Verif.Lemmas.Interp1d
import Verif.Lemmas.Interp2d
import Verif.Lemmas.JacSymm
import Verif.Lemmas.LMLocal
import Verif.Lemmas.LambdaCells
import Verif.Lemmas.LambdaHelper
import Verif.Lemmas.Lens
import Verif.Lemmas.LensSource
import Verif.Lemmas.Mesh
import Verif.Lemmas.MeshSearch
import Verif.Lemmas.Multiplane
import Verif.Lemmas.MultiplaneCont
import Verif.Lemmas.MultiplaneFermat
import Verif.Lemmas.MultiplaneJac
import Verif.Lemmas.MultiplaneNum
import Verif.Lemmas.NDArray
import Verif.Lemmas.OddImages
import Verif.Lemmas.PixConv
import Verif.Lemmas.PixFlux
import Verif.Lemmas.PlaneDegree
import Verif.Lemmas.Polar
import Verif.Lemmas.Projection
import Verif.Lemmas.QuadCount
import Verif.Lemmas.QuadSum
import Verif.Lemmas.RadialSmooth
import Verif.Lemmas.RiemannKernel
import Verif.Lemmas.Ring
import Verif.Lemmas.RingBounds
import Verif.Lemmas.RootFind
import Verif.Lemmas.RootFindSearch
import Verif.Lemmas.RoundSIE
import Verif.Lemmas.Rounding
import Verif.Lemmas.SIE
import Verif.Lemmas.SersicFlux
import Verif.Lemmas.SieCone
import Verif.Lemmas.SignCount
import Verif.Lemmas.SimDeriv
import Verif.Lemmas.SimSymm
import Verif.Lemmas.Softening
import Verif.Lemmas.StarField
import Verif.Lemmas.StarFirst
import Verif.Lemmas.StarMagSum
import Verif.Lemmas.StarParity
import Verif.Lemmas.TNFWLimit
import Verif.Lemmas.TNFWMono
import Verif.Lemmas.TNFWShape
import Verif.Lemmas.TNFWTotal
import Verif.Lemmas.TNFWTrunc
import Verif.Lemmas.TNFWWindow
import Verif.Lemmas.ToDevice
import Verif.Lemmas.Triangle
import Verif.Lemmas.WeakLens
import Verif.Lemmas.Winding
import Verif.Lemmas.WindingSum
import Verif.Model.AngleMixin
import Verif.Model.AutoDiff
import Verif.Model.AutoDiffNested
import Verif.Model.AutoDiffPrograms
import Verif.Model.BackendObj
import Verif.Model.BackendSwitch
import Verif.Model.Bicubic
import Verif.Model.BuildSim
import Verif.Model.Chunk
import Verif.Model.ClusterMeans
import Verif.Model.Coord
import Verif.Model.Cosmology
import Verif.Model.EPL
import Verif.Model.FFT
import Verif.Model.Flt
import Verif.Model.Gaussian
import Verif.Model.Grid
import Verif.Model.Images
import Verif.Model.InPlace
import Verif.Model.Interp
import Verif.Model.Jacobian
import Verif.Model.LM
import Verif.Model.LambdaTable
import Verif.Model.LensClass
import Verif.Model.LensSource
import Verif.Model.Lenses
import Verif.Model.Light
import Verif.Model.Microlens
import Verif.Model.MixedCosmo
import Verif.Model.Multiplane
import Verif.Model.MultiplaneNum
import Verif.Model.MultipoleInt
import Verif.Model.NDArray
import Verif.Model.PJaffeEnds
import Verif.Model.Parametrization
import Verif.Model.PixConv
import Verif.Model.PixLight
import Verif.Model.Plane
import Verif.Model.Py
import Verif.Model.RandomKey
import Verif.Model.RangeEnds
import Verif.Model.RangeNan
import Verif.Model.RedshiftLinks
import Verif.Model.RootFind
import Verif.Model.Rounding
import Verif.Model.SameRedshift
import Verif.Model.Softening
import Verif.Model.TNFWMass
import Verif.Model.ToDevice
import Verif.Model.Triangle
import Verif.Model.Vmap
import Verif.Model.WCS
import Verif.Model.ZeroStrength
import Verif.Props.Admissible
import Verif.Props.AngleMixin
import Verif.Props.AutoDiff
import Verif.Props.AutoDiffNested
import Verif.Props.BackendObj
import Verif.Props.BackendSwitch
import Verif.Props.BehindSource
import Verif.Props.Bicubic
import Verif.Props.BuildSim
import Verif.Props.ClusterMeans
import Verif.Props.Coord
import Verif.Props.Cosmology
import Verif.Props.Covariance
import Verif.Props.Critical
import Verif.Props.EPL
import Verif.Props.EnclosedMass2D
import Verif.Props.FarField
import Verif.Props.FieldOfView
import Verif.Props.FieldOfViewHalo
import Verif.Props.FieldOfViewMaps
import Verif.Props.FiniteDiff
import Verif.Props.FirstImage
import Verif.Props.FirstImageLenses
import Verif.Props.FltLimits
import Verif.Props.ForwardRaytrace
import Verif.Props.FourImages
import Verif.Props.GaussShear
import Verif.Props.Gaussian
import Verif.Props.Grid
import Verif.Props.HaloNan
import Verif.Props.Identify
import Verif.Props.Images
import Verif.Props.InPlace
import Verif.Props.Interp1d
import Verif.Props.Interp2d
import Verif.Props.Interp3d
import Verif.Props.IsothermalEllipsoid
import Verif.Props.Jacobian
import Verif.Props.JaffeLimits
import Verif.Props.LM
import Verif.Props.LMLocal
import Verif.Props.LambdaCDM
import Verif.Props.LensClass
import Verif.Props.LensHalo
import Verif.Props.LensImage
import Verif.Props.LensObjectMass
import Verif.Props.LensSimple
import Verif.Props.LensSource
import Verif.Props.Light
import Verif.Props.LittleH
import Verif.Props.MagSum
import Verif.Props.MassSheetDegeneracy
import Verif.Props.MeanFlux
import Verif.Props.MeanMag
import Verif.Props.Microlens
import Verif.Props.MicrolensConvergence
import Verif.Props.Mirror
import Verif.Props.MixedCosmo
import Verif.Props.Multiplane
import Verif.Props.MultiplaneCont
import Verif.Props.MultiplaneFermat
import Verif.Props.MultiplaneJac
import Verif.Props.MultiplaneNum
import Verif.Props.MultiplaneParity
import Verif.Props.Multipole
import Verif.Props.MultipoleInt
import Verif.Props.NDArray
import Verif.Props.NeverDims
import Verif.Props.ObservedFlux
import Verif.Props.OddImages
import Verif.Props.Parametrization
import Verif.Props.ParityAE
import Verif.Props.ParityCount
import Verif.Props.ParityEpl
import Verif.Props.ParityJaffe
import Verif.Props.ParityLenses
import Verif.Props.ParitySum
import Verif.Props.PixConv
import Verif.Props.PixFlux
import Verif.Props.PixLight
import Verif.Props.PixLimit
import Verif.Props.PixPad
import Verif.Props.PlaneParity
import Verif.Props.Planes
import Verif.Props.PotentialFrame
import Verif.Props.PotentialLimit
import Verif.Props.PowerLawImages
import Verif.Props.Projection
import Verif.Props.QuadLens
import Verif.Props.RandomKey
import Verif.Props.RangeEnds
import Verif.Props.RangeNan
import Verif.Props.RedshiftLinks
import Verif.Props.RegularImages
import Verif.Props.RootFind
import Verif.Props.RoundSIE
import Verif.Props.Rounding
import Verif.Props.SIE
import Verif.Props.SameRedshift
import Verif.Props.SersicFlux
import Verif.Props.SimDeriv
import Verif.Props.SimSymm
import Verif.Props.SipInverse
import Verif.Props.Softening
import Verif.Props.StarCount
import Verif.Props.StarField
import Verif.Props.StarMagSum
import Verif.Props.Supersampling
import Verif.Props.TNFWMass
import Verif.Props.TNFWPoint
import Verif.Props.TNFWWindow
import Verif.Props.Tabulated
import Verif.Props.TidalShear
import Verif.Props.ToDevice
import Verif.Props.Triangle
import Verif.Props.Truncation
import Verif.Props.Units
import Verif.Props.Vmap
import Verif.Props.WCS
import Verif.Props.WeakLens
import Verif.Props.ZeroStrength
import Verif.Spec.Batch
import Verif.Spec.BuildSim
import Verif.Spec.ForwardRaytrace
import Verif.Spec.Grad
import Verif.Spec.Interp
import Verif.Spec.Multiplane
import Verif.Spec.PixConv
import Verif.Spec.PixLimit
import Verif.Spec.Region
import Verif.Spec.RegularImages
import Verif.Spec.Softening
import Verif.Spec.Triangle
