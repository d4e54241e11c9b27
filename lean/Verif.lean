import Verif.Lemmas.Interval
import Verif.Props.PointsQuery
import Verif.Props.PointsEdit
import Verif.Props.Observer
import Verif.Props.Observer2
import Verif.Props.Graph
import Verif.Props.Arith
import Verif.Props.Combinators
import Verif.Props.Line
import Verif.Props.Sampling
import Verif.Props.Optimise
import Verif.Props.Accumulator
import Verif.Props.Averages
import Verif.Props.Util
import Verif.Props.Extension
import Verif.Props.Sin
import Verif.Props.Quotes
import Verif.Props.ExtremasScan
import Verif.Props.Trend
import Verif.Props.TrendLine
import Verif.Props.TrendPrediction
import Verif.Props.TrendScan
import Verif.Props.TrendHull
import Verif.Props.TrendLevels
import Verif.Props.TrendFit
import Verif.Props.Descriptor
import Verif.Props.Sma
import Verif.Props.TrendPoints
import Verif.Props.TrendChoice
import Verif.Model.TrendScan
import Verif.Lemmas.TrendLines
import Verif.Spec.TrendHistory
import Verif.Props.TrendHistory
import Verif.Model.CurveScan
import Verif.Spec.CurveScan
import Verif.Lemmas.CurveScan
import Verif.Lemmas.CurveScanSteps
import Verif.Props.CurveScan
import Verif.Props.Rsi
import Verif.Model.TrendExtras
import Verif.Props.TrendExtent
import Verif.Props.TrendExtended
import Verif.Props.AccumulatorSteps
import Verif.Model.OffsetDuration
import Verif.Props.OffsetDuration
import Verif.Model.Smma
import Verif.Lemmas.ScanOwn
import Verif.Props.Smma
import Verif.Model.Harmonic
import Verif.Spec.Lucas
import Verif.Props.Harmonic
import Verif.Model.PowLog
import Verif.Props.PowLog
import Verif.Model.AccumEvents
import Verif.Props.AccumEvents
import Verif.Props.Algebra
import Verif.Model.Machine
import Verif.Lemmas.Machine
import Verif.Spec.AccumCurve
import Verif.Props.AccumSample
import Verif.Model.TangentRegression
import Verif.Spec.TangentRegression
import Verif.Props.Infinite
import Verif.Props.ExtensionSteps
import Verif.Props.TangentRegression
import Verif.Spec.Call
import Verif.Model.Arity
import Verif.Props.Arity
import Verif.Model.Compose
import Verif.Spec.Compose
import Verif.Lemmas.Compose
import Verif.Props.Compose
import Verif.Props.AccumDiff
import Verif.Model.Tower
import Verif.Spec.Tower
import Verif.Lemmas.Tower
import Verif.Lemmas.TowerSteps
import Verif.Lemmas.TowerHistory
import Verif.Props.Tower
import Verif.Props.LineSampling
import Verif.Props.ExtremasZero
import Verif.Model.Indicators
import Verif.Props.Indicators
import Verif.Model.Net
import Verif.Spec.Net
import Verif.Lemmas.Net
import Verif.Lemmas.NetEdits
import Verif.Props.Net
import Verif.Model.SinHeld
import Verif.Props.SinHeld
import Verif.Props.EmptyCurve
import Verif.Model.TrendFitTol
import Verif.Props.TrendFitTol
import Verif.Model.ExtremasIndex
import Verif.Props.ExtremasIndex
import Verif.Model.Web
import Verif.Spec.Web
import Verif.Lemmas.WebKnots
import Verif.Lemmas.Web
import Verif.Lemmas.WebEdits
import Verif.Props.Web
import Verif.Model.QuotesSampling
import Verif.Spec.QuotesSampling
import Verif.Props.QuotesSampling
import Verif.Props.MetKnots
import Verif.Props.MetHistory
import Verif.Props.PastHistory
import Verif.Props.PointsSampling
import Verif.Props.WindowSampling
import Verif.Props.Forecast
import Verif.Props.ExtremasSampling
import Verif.Props.TrendLinesGrown
import Verif.Spec.Rounding
import Verif.Model.Float
import Verif.Lemmas.Rounding
import Verif.Props.Float
import Verif.Model.RoundedPoints
import Verif.Props.RoundedPoints
import Verif.Props.RoundedUniform
import Verif.Props.RoundedNext
import Verif.Model.RoundedSampling
import Verif.Props.RoundedSampling
import Verif.Model.RoundedAverages
import Verif.Props.RoundedEma
import Verif.Props.RoundedIntegral
import Verif.Model.Ends
import Verif.Props.Ends
import Verif.Spec.TrendTermination
import Verif.Lemmas.TrendTermination
import Verif.Props.TrendTermination
import Verif.Model.RoundedLine
import Verif.Model.RoundedCombine
import Verif.Spec.RoundedLine
import Verif.Spec.RoundedCombine
import Verif.Props.RoundedLine
import Verif.Props.RoundedRsi
import Verif.Props.RoundedCombine
import Verif.Model.RoundedCurve
import Verif.Spec.RoundedCurve
import Verif.Props.RoundedOffset
import Verif.Props.RoundedSlope
import Verif.Model.Parse
import Verif.Props.Parse
import Verif.Conformance.Points
import Verif.Conformance.Curve
import Verif.Conformance.Scan
import Verif.Model.CurveIntegral
import Verif.Spec.CurveIntegral
import Verif.Lemmas.CurveIntegral
import Verif.Props.CurveIntegral
import Verif.Model.WindowArgs
import Verif.Props.WindowArgs
import Verif.Spec.CombinedIntegral
import Verif.Lemmas.CombinedIntegral
import Verif.Lemmas.CombinedKnots
import Verif.Props.CombinedIntegral
import Verif.Props.Gates
import Verif.Spec.Readme
import Verif.Props.Readme
import Verif.Spec.Holes
import Verif.Props.Holes
import Verif.Props.SmmaHoles
import Verif.Model.EmaInit
import Verif.Spec.EmaInit
import Verif.Props.EmaInit
import Verif.Model.Reset
import Verif.Spec.Reset
import Verif.Props.Reset
import Verif.Props.ResetTrend
import Verif.Props.TowerPrevious
import Verif.Model.RoundedSma
import Verif.Spec.RoundedSma
import Verif.Lemmas.RoundedSma
import Verif.Props.RoundedSma
import Verif.Props.RoundedSmaBetween
import Verif.Spec.SmaLength
import Verif.Props.SmaLength
import Verif.Model.RoundedSmma
import Verif.Spec.RoundedSmma
import Verif.Props.RoundedSmma
import Verif.Props.HolesLength
import Verif.Props.SmaLengthBetween
import Verif.Props.RoundedSmaLength
import Verif.Model.Representation
import Verif.Spec.Representation
import Verif.Props.Representation
