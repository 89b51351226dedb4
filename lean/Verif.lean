import Verif.Model.BesselTables
import Verif.Model.Boundary
import Verif.Model.Broadcast
import Verif.Model.ContourIntegrate
import Verif.Model.Contours
import Verif.Model.Differentiated
import Verif.Model.ExtendedSource
import Verif.Model.FastLensNumpy
import Verif.Model.FftLog
import Verif.Model.FftLogNumpy
import Verif.Model.Jnp
import Verif.Model.Lightcurve
import Verif.Model.Likelihood
import Verif.Model.Limb
import Verif.Model.MagFft
import Verif.Model.MergeArea
import Verif.Model.Multipole
import Verif.Model.NonFinite
import Verif.Model.Parallax
import Verif.Model.PointSource
import Verif.Model.PointSourceJvp
import Verif.Model.PolySolver
import Verif.Model.Segments
import Verif.Model.Special
import Verif.Model.Tests
import Verif.Model.TripleDirect
import Verif.Model.Uncalled
import Verif.Model.Utils
import Verif.Spec.Arrays
import Verif.Spec.Bessel
import Verif.Spec.Blur
import Verif.Spec.Broadcast
import Verif.Spec.Calculus
import Verif.Spec.DiscTransform
import Verif.Spec.Elliptic
import Verif.Spec.ExtendedSource
import Verif.Spec.Hankel
import Verif.Spec.Lensing
import Verif.Spec.LimbImages
import Verif.Spec.LogMode
import Verif.Spec.Orbit
import Verif.Spec.Passes
import Verif.Spec.Polygon
import Verif.Spec.Profile
import Verif.Spec.Quadrature
import Verif.Spec.Regions
import Verif.Spec.Regression
import Verif.Spec.Runs
import Verif.Spec.Segments
import Verif.Spec.SoftDisc
import Verif.Spec.TripleDoc
import Verif.Lemmas.Agm
import Verif.Lemmas.AreaFormula
import Verif.Lemmas.BesselAccuracy
import Verif.Lemmas.BesselLarge
import Verif.Lemmas.BesselSeries
import Verif.Lemmas.Blur
import Verif.Lemmas.BlurInverse
import Verif.Lemmas.Cluster
import Verif.Lemmas.Coeffs
import Verif.Lemmas.ContourGreen
import Verif.Lemmas.DiffTangent
import Verif.Lemmas.DiffValue
import Verif.Lemmas.DigammaBound
import Verif.Lemmas.DiscMean
import Verif.Lemmas.DiscTransform
import Verif.Lemmas.DualSolutions
import Verif.Lemmas.EllipticDeriv
import Verif.Lemmas.FarField
import Verif.Lemmas.Fermat
import Verif.Lemmas.Germs
import Verif.Lemmas.GreenCone
import Verif.Lemmas.GreenDisc
import Verif.Lemmas.GreenTrapezoid
import Verif.Lemmas.GreenWeight
import Verif.Lemmas.ImageIndex
import Verif.Lemmas.ImagePersist
import Verif.Lemmas.ImageSections
import Verif.Lemmas.Interp
import Verif.Lemmas.J0Addition
import Verif.Lemmas.Jnp
import Verif.Lemmas.Jvp
import Verif.Lemmas.Kepler
import Verif.Lemmas.Landen
import Verif.Lemmas.Lensing
import Verif.Lemmas.Lightcurve
import Verif.Lemmas.LimbNull
import Verif.Lemmas.MellinBessel
import Verif.Lemmas.MultipoleAlg
import Verif.Lemmas.MultipoleLens
import Verif.Lemmas.MultipoleNumbers
import Verif.Lemmas.PaczynskiRadial
import Verif.Lemmas.PointMag
import Verif.Lemmas.PolyCert
import Verif.Lemmas.PolygonContour
import Verif.Lemmas.ProfileModulus
import Verif.Lemmas.QuadSums
import Verif.Lemmas.Quadrature
import Verif.Lemmas.RadialMean
import Verif.Lemmas.RayConvergence
import Verif.Lemmas.Riemann
import Verif.Lemmas.RootBranches
import Verif.Lemmas.RootLimit
import Verif.Lemmas.Sector
import Verif.Lemmas.SegmentLoop
import Verif.Lemmas.SegmentMerge
import Verif.Lemmas.Segments
import Verif.Lemmas.SingleGreen
import Verif.Lemmas.SmallSource
import Verif.Lemmas.Split
import Verif.Lemmas.Spurious
import Verif.Lemmas.StirlingBound
import Verif.Lemmas.TripleDirect
import Verif.Lemmas.Utils
import Verif.Lemmas.VanishingLens
import Verif.Props.Acceptance
import Verif.Props.AtLeastOne
import Verif.Props.Bessel
import Verif.Props.Boundary
import Verif.Props.Broadcast
import Verif.Props.Caustics
import Verif.Props.Certificate
import Verif.Props.Cluster
import Verif.Props.ConjugateRoots
import Verif.Props.ContourAccuracy
import Verif.Props.ContourArea
import Verif.Props.ContourClosed
import Verif.Props.ContourEndToEnd
import Verif.Props.ContourIntegral
import Verif.Props.ContourLimb
import Verif.Props.ContourLimbDark
import Verif.Props.ContourLimbEnd
import Verif.Props.ContourLimbSmall
import Verif.Props.ContourLocal
import Verif.Props.ContourQuadrature
import Verif.Props.ContourRegular
import Verif.Props.ContourSingleDark
import Verif.Props.ContourSingleDisc
import Verif.Props.ContourSingleLd
import Verif.Props.ContourSingleLens
import Verif.Props.ContourTracks
import Verif.Props.Critical
import Verif.Props.CriticalDense
import Verif.Props.CubicInterp
import Verif.Props.Differentiated
import Verif.Props.Digamma
import Verif.Props.DiscAverage
import Verif.Props.EaConvergence
import Verif.Props.Elliptic
import Verif.Props.ExtendedSource
import Verif.Props.FarField
import Verif.Props.FastLensCentre
import Verif.Props.FastLensLog
import Verif.Props.FastLensMag
import Verif.Props.FastLensNumpy
import Verif.Props.FftLimb
import Verif.Props.FftLimbSmall
import Verif.Props.FftLog
import Verif.Props.FftLogKernels
import Verif.Props.FftLogModes
import Verif.Props.FftLogNumpy
import Verif.Props.FftPipeline
import Verif.Props.FftSmall
import Verif.Props.GammaAccuracy
import Verif.Props.Gradient
import Verif.Props.HankelModes
import Verif.Props.HexSingle
import Verif.Props.HexSingleLd
import Verif.Props.ImageCount
import Verif.Props.InexactRoots
import Verif.Props.Interp
import Verif.Props.Lightcurve
import Verif.Props.LightcurveEnd
import Verif.Props.Likelihood
import Verif.Props.Limb
import Verif.Props.LimbDense
import Verif.Props.LimbDenseCase
import Verif.Props.LimbGradient
import Verif.Props.LimbGradientCase
import Verif.Props.LimbTangent
import Verif.Props.LimbTrace
import Verif.Props.MergeFinal
import Verif.Props.Multipole
import Verif.Props.NonFinite
import Verif.Props.NonFiniteRoots
import Verif.Props.Parallax
import Verif.Props.PointSource
import Verif.Props.PointSourceExamples
import Verif.Props.PolySolver
import Verif.Props.ProfileFT
import Verif.Props.RayShooting
import Verif.Props.RegionApart
import Verif.Props.RegionCover
import Verif.Props.RegionFill
import Verif.Props.RegionFillCase
import Verif.Props.RegionHole
import Verif.Props.RegionOnce
import Verif.Props.RegionPasses
import Verif.Props.RegionRing
import Verif.Props.RegionRingMag
import Verif.Props.RegionSeparate
import Verif.Props.RegionSet
import Verif.Props.RegionViolation
import Verif.Props.SegmentMerge
import Verif.Props.SmallSource
import Verif.Props.Split
import Verif.Props.StitchNearest
import Verif.Props.SubCell
import Verif.Props.Tangent
import Verif.Props.Tolerance
import Verif.Props.TrackOrder
import Verif.Props.Tracking
import Verif.Props.TripleDirect
import Verif.Props.TripleGeometry
import Verif.Props.TripleLightcurve
import Verif.Props.Uncalled
import Verif.Props.Utils
import Verif.Props.VanishingPlanet
import Verif.Props.VanishingThird
import Verif.Audit
