import Verif.Props.Xor
import Verif.Props.Fletcher
import Verif.Props.Multishuffle
import Verif.Props.Monotonic
import Verif.Props.ExMonotonic
import Verif.Props.Intersection
import Verif.Props.Modes
import Verif.Props.ConjPairs
import Verif.Props.Parity
import Verif.Props.Ladder
import Verif.Props.Slicing
import Verif.Props.Norm
import Verif.Props.History
import Verif.Props.Objects
import Verif.Props.Validity
import Verif.Props.Weights
import Verif.Props.DataTypes
import Verif.Props.Rotation
import Verif.Props.ModeCalc
import Verif.Props.Flux
import Verif.Props.Dominant
import Verif.Props.InnerProduct
import Verif.Props.Transition
import Verif.Props.Extrapolate
import Verif.Props.Markers
import Verif.Props.PairedXor
import Verif.Props.BumpRule
import Verif.Props.AbdTransform
import Verif.Props.AbdCompose
import Verif.Props.InitialValues
import Verif.Props.Charges
import Verif.Props.TransformKwargs
import Verif.Props.Bms
import Verif.Props.ComMotion
import Verif.Props.Superrest
import Verif.Props.SuperrestLoop
import Verif.Props.PnAmplitude
import Verif.Props.Truncate
import Verif.Props.GridMultiply
import Verif.Props.Allclose
import Verif.Props.Compare
import Verif.Props.GridModes
import Verif.Props.GridBoost
import Verif.Props.AbdModes
import Verif.Props.CreateAbd
import Verif.Props.FluxIntegral
import Verif.Props.FluxCovariance
import Verif.Props.AngMomCov
import Verif.Props.BoostFlux
import Verif.Props.SphereOps
import Verif.Props.AngMomIntegral
import Verif.Props.Balance
import Verif.Props.BmsFile
import Verif.Props.AbdHeap
import Verif.Props.TimeSeries
import Verif.Props.SpecFile
import Verif.Props.Align
import Verif.Props.Frames
import Verif.Props.Cwwy
import Verif.Props.Samples
import Verif.Props.Moreschi
import Verif.Props.AbdFrame
import Verif.Props.ChargeCov
import Verif.Props.FiniteRadius
import Verif.Props.OuterRadius
import Verif.Props.Violation
import Verif.Props.Exchange
import Verif.Props.MergerZoom
import Verif.Props.ComCorrection
import Verif.Props.Lvc
import Verif.Props.Overlap
import Verif.Props.Batch
import Verif.Props.BondiFrame
import Verif.Props.FourMomentum
import Verif.Props.Precessing
import Verif.Props.BoostTensor
import Verif.Props.Catalog
import Verif.Props.ComFrame
import Verif.Props.ComLoop
import Verif.Props.AbdCovariant
import Verif.Props.RandomSamples
import Verif.Props.Constraints
import Verif.Props.WaveSpline
import Verif.Props.TargetRotation
import Verif.Props.Phase
import Verif.Props.FrameErrors
import Verif.Props.SuperrestAny
import Verif.Props.SuperrestRadiating
import Verif.Props.SuperrestMap
import Verif.Props.TargetError
import Verif.Props.TiltedSpin
import Verif.Props.Displaced
import Verif.Props.DisplacedDown
import Verif.Props.ComMotionRest
import Verif.Props.BatchFields
import Verif.Props.MarkersNewer
import Verif.Props.KeywordsFiles
import Verif.Props.PairedBits
import Verif.Props.SpecNames
import Verif.Props.CatalogWindow
import Verif.Props.SamplesTimes
import Verif.Props.PrecessingFrame
import Verif.Props.ValidityRepair
import Verif.Props.Warped
import Verif.Props.Keywords
import Verif.Props.CopyConstruct
import Verif.Props.Rpxmb
