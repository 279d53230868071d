import Verif.Lemmas.BoxLsq
import Verif.Lemmas.Cocoercive
import Verif.Lemmas.Cut
import Verif.Lemmas.DataTerms
import Verif.Lemmas.DecimatedWavelets
import Verif.Lemmas.DualAverage
import Verif.Lemmas.Operators
import Verif.Lemmas.PixelFunctional
import Verif.Lemmas.PrimalDual
import Verif.Lemmas.Prox
import Verif.Lemmas.ProxGrad
import Verif.Lemmas.Saddle
import Verif.Lemmas.Scaling
import Verif.Lemmas.Solvers
import Verif.Lemmas.StationaryWavelets
import Verif.Model.AlignImages
import Verif.Model.AlignPre
import Verif.Model.AlignVertical
import Verif.Model.AlignVolumes
import Verif.Model.Alignment
import Verif.Model.Analysis
import Verif.Model.AstraLifecycle
import Verif.Model.AstraShapes
import Verif.Model.Basic
import Verif.Model.ConeSetup
import Verif.Model.CrossCorrelation
import Verif.Model.DataFormats
import Verif.Model.DataTerms
import Verif.Model.DecimatedWavelets
import Verif.Model.Denoise
import Verif.Model.Destripe
import Verif.Model.DwlReg
import Verif.Model.FilterObjs
import Verif.Model.Filters
import Verif.Model.FuncOps
import Verif.Model.Geometry
import Verif.Model.GeometrySetters
import Verif.Model.GhostMasks
import Verif.Model.Inits
import Verif.Model.IntegerData
import Verif.Model.Labels
import Verif.Model.Masks
import Verif.Model.Nuclear
import Verif.Model.Operators
import Verif.Model.ParamTuning
import Verif.Model.Physics
import Verif.Model.PreProc
import Verif.Model.PreTypes
import Verif.Model.Processing
import Verif.Model.Projectors
import Verif.Model.Regularizers
import Verif.Model.Skimage
import Verif.Model.SolverInit
import Verif.Model.Solvers
import Verif.Model.Spectra
import Verif.Model.StationaryWavelets
import Verif.Model.StructIllum
import Verif.Model.SvdAxes
import Verif.Model.Testing
import Verif.Model.TransformRegs
import Verif.Model.TuningHelpers
import Verif.Model.VectorSvd
import Verif.Model.WaveletBasis
import Verif.Model.WaveletMulti
import Verif.Model.Wavelets
import Verif.Model.XrfLifecycle
import Verif.Props.AlignImages
import Verif.Props.AlignPre
import Verif.Props.AlignVertical
import Verif.Props.AlignVolumes
import Verif.Props.Analysis
import Verif.Props.AstraLifecycle
import Verif.Props.AstraShapes
import Verif.Props.Azimuthal
import Verif.Props.Binning
import Verif.Props.ConeCalibration
import Verif.Props.ConeSetup
import Verif.Props.ConeStorage
import Verif.Props.CrossCorrelation
import Verif.Props.CrossValidation
import Verif.Props.CvAverages
import Verif.Props.CvTestTerm
import Verif.Props.DataFormats
import Verif.Props.DataTerms
import Verif.Props.DecimatedWavelets
import Verif.Props.Denoise
import Verif.Props.DenoiseCv
import Verif.Props.Destripe
import Verif.Props.DwlCycle
import Verif.Props.DwlReg
import Verif.Props.Ellipses
import Verif.Props.ExactRecovery
import Verif.Props.FilterBases
import Verif.Props.FilterObjs
import Verif.Props.Filters
import Verif.Props.FiltersEdge
import Verif.Props.FistaLimit
import Verif.Props.FistaMomentum
import Verif.Props.FistaObjective
import Verif.Props.Fits
import Verif.Props.FreshTerms
import Verif.Props.FuncOps
import Verif.Props.Gaps
import Verif.Props.Geometry
import Verif.Props.GeometrySetters
import Verif.Props.Ghost
import Verif.Props.GhostMasks
import Verif.Props.GhostOps
import Verif.Props.Inits
import Verif.Props.IntegerData
import Verif.Props.L2bResidual
import Verif.Props.Labels
import Verif.Props.LimitOption
import Verif.Props.MaskShifts
import Verif.Props.Masks
import Verif.Props.Mlem
import Verif.Props.MlemConv
import Verif.Props.Mura
import Verif.Props.Neutral
import Verif.Props.Noise
import Verif.Props.NormSharing
import Verif.Props.Nuclear
import Verif.Props.Operators
import Verif.Props.ParamTuning
import Verif.Props.PdhgConv
import Verif.Props.PdhgDefault
import Verif.Props.PdhgL2
import Verif.Props.PdhgRate
import Verif.Props.PdhgRegs
import Verif.Props.PdhgStability
import Verif.Props.PencilBeam
import Verif.Props.Phase
import Verif.Props.Physics
import Verif.Props.PowerMethod
import Verif.Props.PowerSpectrum
import Verif.Props.PreProc
import Verif.Props.PreProcCorr
import Verif.Props.PreTypes
import Verif.Props.Projectors
import Verif.Props.Ranges
import Verif.Props.Recentring
import Verif.Props.RegOrder
import Verif.Props.Regularizers
import Verif.Props.Restart
import Verif.Props.Sart
import Verif.Props.SartConv
import Verif.Props.SartLinear
import Verif.Props.SartNumbering
import Verif.Props.SartStability
import Verif.Props.SartTolerance
import Verif.Props.Scaling
import Verif.Props.ShiftOrder
import Verif.Props.SirtConv
import Verif.Props.SirtGeometric
import Verif.Props.SirtRegs
import Verif.Props.SirtStability
import Verif.Props.Skimage
import Verif.Props.Slices
import Verif.Props.Snip
import Verif.Props.SolverInit
import Verif.Props.SolversAccounting
import Verif.Props.SolversBasic
import Verif.Props.SolversConv
import Verif.Props.SolversFixed
import Verif.Props.SolversRuns
import Verif.Props.Spectra
import Verif.Props.StationaryWavelets
import Verif.Props.Superposition
import Verif.Props.SvdAxes
import Verif.Props.Testing
import Verif.Props.TestingNoise
import Verif.Props.TnvConv
import Verif.Props.TransformRegs
import Verif.Props.Transposes
import Verif.Props.TuningHelpers
import Verif.Props.Units
import Verif.Props.UpdateMask
import Verif.Props.Values
import Verif.Props.VectorSvd
import Verif.Props.Vtv
import Verif.Props.VtvConv
import Verif.Props.WaveletBasis
import Verif.Props.WaveletMulti
import Verif.Props.Wavelets
import Verif.Props.XrfInit
import Verif.Props.XrfLifecycle
import Verif.Spec.Convex
import Verif.Spec.Operators
import Verif.Spec.Prox
import Verif.Spec.Solvers
