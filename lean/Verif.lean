import Verif.Spec.Adi
import Verif.Spec.AndersenLake
import Verif.Spec.AsianPrices
import Verif.Spec.Barrier
import Verif.Spec.BitPolynomial
import Verif.Spec.BlackScholesEquation
import Verif.Spec.BrownianBridge
import Verif.Spec.Calendar
import Verif.Spec.Cir
import Verif.Spec.CmsSwap
import Verif.Spec.Dupire
import Verif.Spec.Gregorian
import Verif.Spec.Heston
import Verif.Spec.HestonAsian
import Verif.Spec.HestonOption
import Verif.Spec.Hjm
import Verif.Spec.HullWhite
import Verif.Spec.HwBermudan
import Verif.Spec.Instruments
import Verif.Spec.LegacyBrownian
import Verif.Spec.LocalStochVol
import Verif.Spec.Lsm
import Verif.Spec.NestedDict
import Verif.Spec.Net
import Verif.Spec.Normal
import Verif.Spec.Overnight
import Verif.Spec.Parabolic
import Verif.Spec.Payoffs
import Verif.Spec.PlatformAmerican
import Verif.Spec.RandomOps
import Verif.Spec.Sabr
import Verif.Spec.SabrPaths
import Verif.Spec.Sampling
import Verif.Spec.Schedule
import Verif.Spec.Segments
import Verif.Spec.ShapeUtils
import Verif.Spec.SwapCurve
import Verif.Spec.TensorWrapper
import Verif.Spec.VectorHullWhite
import Verif.Model.Adi
import Verif.Model.AmericanApprox
import Verif.Model.AndersenLake
import Verif.Model.ArrayIo
import Verif.Model.AsianPrices
import Verif.Model.Barrier
import Verif.Model.BondCurve
import Verif.Model.BoundaryConditions
import Verif.Model.BoundedCalendar
import Verif.Model.Brent
import Verif.Model.BrownianBridge
import Verif.Model.CalendarFactory
import Verif.Model.Cir
import Verif.Model.CmsSwap
import Verif.Model.ConjugateGradient
import Verif.Model.ConstantForward
import Verif.Model.Crr
import Verif.Model.CubicSpline
import Verif.Model.CustomLoops
import Verif.Model.DateInputs
import Verif.Model.DateTensor
import Verif.Model.DateUtils
import Verif.Model.Daycounts
import Verif.Model.DemoPricer
import Verif.Model.DigitalNet
import Verif.Model.FiniteDifference
import Verif.Model.Gauss
import Verif.Model.GaussConstants
import Verif.Model.Gbm
import Verif.Model.Gradient
import Verif.Model.Grids
import Verif.Model.Halton
import Verif.Model.Heston
import Verif.Model.HestonAsian
import Verif.Model.HestonCalibration
import Verif.Model.HestonOption
import Verif.Model.Hjm
import Verif.Model.HjmOptions
import Verif.Model.HullWhite
import Verif.Model.HullWhiteSimulation
import Verif.Model.HwBermudan
import Verif.Model.ImpliedVol
import Verif.Model.ImpliedVolLib
import Verif.Model.InstrumentOptions
import Verif.Model.Instruments
import Verif.Model.Interpolation2D
import Verif.Model.ItoProcess
import Verif.Model.LatticeRule
import Verif.Model.LegacyBrownian
import Verif.Model.LinearInterpolation
import Verif.Model.LocalStochVol
import Verif.Model.LocalVolatility
import Verif.Model.Lsm
import Verif.Model.LsmBatch
import Verif.Model.McDraws
import Verif.Model.MonotoneConvex
import Verif.Model.NdArray
import Verif.Model.NestedDict
import Verif.Model.Newton
import Verif.Model.NormalCdf
import Verif.Model.OptionDemo
import Verif.Model.OscillationDamped
import Verif.Model.Pad
import Verif.Model.Parabolic
import Verif.Model.PathDiscount
import Verif.Model.Piecewise
import Verif.Model.PlatformAmerican
import Verif.Model.PlatformFra
import Verif.Model.PlatformMarket
import Verif.Model.PlatformStreams
import Verif.Model.PlatformSwap
import Verif.Model.PlatformSwaption
import Verif.Model.PrepareGrid
import Verif.Model.QmcUtils
import Verif.Model.RandomOps
import Verif.Model.RateCalibration
import Verif.Model.RateCurve
import Verif.Model.RealizedVolatility
import Verif.Model.Sabr
import Verif.Model.SabrCalibration
import Verif.Model.SabrPaths
import Verif.Model.Sampling
import Verif.Model.Schedules
import Verif.Model.SchemeSteps
import Verif.Model.SearchSorted
import Verif.Model.Segments
import Verif.Model.ShapeUtils
import Verif.Model.Simpson
import Verif.Model.SobolData
import Verif.Model.Svensson
import Verif.Model.Svi
import Verif.Model.SviCalibration
import Verif.Model.Swap
import Verif.Model.SwapCurve
import Verif.Model.TensorWrapper
import Verif.Model.UnboundedCalendar
import Verif.Model.Validation
import Verif.Model.VanillaPrices
import Verif.Model.VarianceSwaps
import Verif.Model.VectorHullWhite
import Verif.Model.Yields
import Verif.Lemmas.Adi
import Verif.Lemmas.AndersenLake
import Verif.Lemmas.Attari
import Verif.Lemmas.Barrier
import Verif.Lemmas.BinomialLimit
import Verif.Lemmas.Bivariate
import Verif.Lemmas.BizSpace
import Verif.Lemmas.BlackScholesEquation
import Verif.Lemmas.BoundedCalendar
import Verif.Lemmas.BoundedRoll
import Verif.Lemmas.Brent
import Verif.Lemmas.BrentBound
import Verif.Lemmas.BusinessSchedule
import Verif.Lemmas.CmsSwap
import Verif.Lemmas.CommutingContraction
import Verif.Lemmas.Crr
import Verif.Lemmas.CubicSpline
import Verif.Lemmas.DampedNewton
import Verif.Lemmas.DateTensor
import Verif.Lemmas.DateUtils
import Verif.Lemmas.DigitalNet
import Verif.Lemmas.Dirichlet
import Verif.Lemmas.DirichletGrid
import Verif.Lemmas.Dupire
import Verif.Lemmas.EnergyStep
import Verif.Lemmas.Gauss
import Verif.Lemmas.GbmSchemes
import Verif.Lemmas.GridDifferences
import Verif.Lemmas.Halton
import Verif.Lemmas.HaltonBoxes
import Verif.Lemmas.Heston
import Verif.Lemmas.HestonTrap
import Verif.Lemmas.HullWhite
import Verif.Lemmas.HwBermudan
import Verif.Lemmas.ImpliedVol
import Verif.Lemmas.Instruments
import Verif.Lemmas.LeapCount
import Verif.Lemmas.LegacyBrownian
import Verif.Lemmas.LsmBatch
import Verif.Lemmas.LsmDegree
import Verif.Lemmas.LsmLimit
import Verif.Lemmas.LsmOptimal
import Verif.Lemmas.MonotoneConvex
import Verif.Lemmas.NdArray
import Verif.Lemmas.NetIntegral
import Verif.Lemmas.Normal
import Verif.Lemmas.Parabolic
import Verif.Lemmas.ParabolicMatrix
import Verif.Lemmas.Piecewise
import Verif.Lemmas.QuasiLimit
import Verif.Lemmas.QuasiNormal
import Verif.Lemmas.QuasiPoints
import Verif.Lemmas.RankSelect
import Verif.Lemmas.SabrPaths
import Verif.Lemmas.SameMonth
import Verif.Lemmas.Schedules
import Verif.Lemmas.SearchSorted
import Verif.Lemmas.Segments
import Verif.Lemmas.Shift
import Verif.Lemmas.ShiftSequences
import Verif.Lemmas.SimpsonBound
import Verif.Lemmas.Sobol
import Verif.Lemmas.SobolNet
import Verif.Lemmas.SplineError
import Verif.Lemmas.TaylorBound
import Verif.Lemmas.TreeAmerican
import Verif.Lemmas.TreeLimit
import Verif.Lemmas.UnboundedCalendar
import Verif.Lemmas.VanillaPrices
import Verif.Lemmas.VectorHullWhite
import Verif.Lemmas.WeakScheme
import Verif.Props.AdesiWhaley
import Verif.Props.Adi
import Verif.Props.AdiConvergence
import Verif.Props.AmericanApprox
import Verif.Props.Amplification
import Verif.Props.AndersenLake
import Verif.Props.ArrayIo
import Verif.Props.AsianPrices
import Verif.Props.Barrier
import Verif.Props.BinaryPrices
import Verif.Props.BlackSwaption
import Verif.Props.BondCurve
import Verif.Props.BoundedCalendar
import Verif.Props.Brent
import Verif.Props.BrentBound
import Verif.Props.BrownianBridge
import Verif.Props.BusinessSchedules
import Verif.Props.CalendarFactory
import Verif.Props.CapFloor
import Verif.Props.Cbnd
import Verif.Props.Cir
import Verif.Props.CmsReplication
import Verif.Props.CmsSwap
import Verif.Props.ConjugateGradient
import Verif.Props.ConstantForward
import Verif.Props.CrankNicolson
import Verif.Props.Crr
import Verif.Props.CrrLimit
import Verif.Props.CubicSpline
import Verif.Props.CustomLoops
import Verif.Props.DateInputs
import Verif.Props.Dates
import Verif.Props.Daycounts
import Verif.Props.DemoPricer
import Verif.Props.DigitalNet
import Verif.Props.EulerGbm
import Verif.Props.FdConvergence
import Verif.Props.FdSolvers
import Verif.Props.FiniteDifference
import Verif.Props.Floating
import Verif.Props.Gauss
import Verif.Props.Gbm
import Verif.Props.Gradient
import Verif.Props.Grids
import Verif.Props.Halton
import Verif.Props.HaltonNet
import Verif.Props.Heston
import Verif.Props.HestonAsian
import Verif.Props.HestonAsianPrice
import Verif.Props.HestonAsianSingle
import Verif.Props.HestonCalibration
import Verif.Props.HestonOption
import Verif.Props.HestonPaths
import Verif.Props.HestonPrice
import Verif.Props.Hjm
import Verif.Props.HjmOptions
import Verif.Props.HullWhite
import Verif.Props.HullWhiteBonds
import Verif.Props.HullWhiteOptions
import Verif.Props.HullWhiteSimulation
import Verif.Props.HullWhiteSwaptionSimulation
import Verif.Props.HwBermudan
import Verif.Props.HwBermudanFd
import Verif.Props.ImpliedVol
import Verif.Props.ImpliedVolApprox
import Verif.Props.ImpliedVolConvergence
import Verif.Props.ImpliedVolLib
import Verif.Props.Instability
import Verif.Props.Instruments
import Verif.Props.Interpolation2D
import Verif.Props.InterpolationError
import Verif.Props.ItoProcess
import Verif.Props.LatticeRule
import Verif.Props.LeapCount
import Verif.Props.LegacyBrownian
import Verif.Props.LegacyEuler
import Verif.Props.LegacyQuasi
import Verif.Props.LinearInterpolation
import Verif.Props.LocalStochVol
import Verif.Props.LocalVolSimulation
import Verif.Props.LocalVolatility
import Verif.Props.Lsm
import Verif.Props.LsmBatch
import Verif.Props.LsmDegree
import Verif.Props.LsmLimit
import Verif.Props.LsmPolynomial
import Verif.Props.LsmPut
import Verif.Props.MaximumPrinciple
import Verif.Props.McDraws
import Verif.Props.Milstein
import Verif.Props.MonotoneConvex
import Verif.Props.MonteCarloLimit
import Verif.Props.NestedDict
import Verif.Props.Newton
import Verif.Props.NewtonConvergence
import Verif.Props.OptionDemo
import Verif.Props.OscillationDamped
import Verif.Props.Overnight
import Verif.Props.Pad
import Verif.Props.Parabolic
import Verif.Props.PathDiscount
import Verif.Props.Piecewise
import Verif.Props.PlatformAmerican
import Verif.Props.PlatformFra
import Verif.Props.PlatformMarket
import Verif.Props.PlatformStreams
import Verif.Props.PlatformSwap
import Verif.Props.PlatformSwaption
import Verif.Props.PrepareGrid
import Verif.Props.QmcUtils
import Verif.Props.QuadratureError
import Verif.Props.QuasiMonteCarlo
import Verif.Props.RandomOps
import Verif.Props.RandomOpsQuasi
import Verif.Props.RandomOpsShuffle
import Verif.Props.RateCalibration
import Verif.Props.RateCurve
import Verif.Props.RealizedVolatility
import Verif.Props.Sabr
import Verif.Props.SabrCalibration
import Verif.Props.SabrPaths
import Verif.Props.Sampling
import Verif.Props.Schedules
import Verif.Props.SchemesGbm
import Verif.Props.Scrambling
import Verif.Props.Segments
import Verif.Props.ShapeUtils
import Verif.Props.Simpson
import Verif.Props.SimulationStep
import Verif.Props.SobolNet
import Verif.Props.SplineUnique
import Verif.Props.Svensson
import Verif.Props.Svi
import Verif.Props.SviCalibration
import Verif.Props.Swap
import Verif.Props.SwapCurve
import Verif.Props.SwapCurveFit
import Verif.Props.Swaps
import Verif.Props.Swaptions
import Verif.Props.TensorWrapper
import Verif.Props.TreeAmerican
import Verif.Props.TreeCall
import Verif.Props.UnboundedCalendar
import Verif.Props.Validation
import Verif.Props.VanillaPrices
import Verif.Props.VarianceReplication
import Verif.Props.VarianceSwaps
import Verif.Props.VectorHullWhite
import Verif.Props.VectorHullWhiteLaw
import Verif.Props.WeakEuler
import Verif.Props.Yields
import Verif.Axioms
