import Verif.Lemmas.ApproxLemmas
import Verif.Lemmas.Autocov
import Verif.Lemmas.BuiltLemmas
import Verif.Lemmas.CholCont
import Verif.Lemmas.Converge
import Verif.Lemmas.DataLimit
import Verif.Lemmas.Doeblin
import Verif.Lemmas.ESSChain
import Verif.Lemmas.ESSFail
import Verif.Lemmas.ESSInv
import Verif.Lemmas.ESSKernel
import Verif.Lemmas.ESSLaw
import Verif.Lemmas.ESSLemmas
import Verif.Lemmas.ESSNull
import Verif.Lemmas.ESSRing
import Verif.Lemmas.ESSRuns
import Verif.Lemmas.ESSTape
import Verif.Lemmas.ExprPoly
import Verif.Lemmas.ExprTotal
import Verif.Lemmas.FarLemmas
import Verif.Lemmas.FftLemmas
import Verif.Lemmas.Fisher
import Verif.Lemmas.Gauss
import Verif.Lemmas.GaussDense
import Verif.Lemmas.GaussGap
import Verif.Lemmas.GaussMulti
import Verif.Lemmas.GibbsChain
import Verif.Lemmas.GibbsConv
import Verif.Lemmas.GibbsLemmas
import Verif.Lemmas.GibbsMoments
import Verif.Lemmas.GibbsRate
import Verif.Lemmas.GpcmGrid
import Verif.Lemmas.GpcmInt
import Verif.Lemmas.GpcmLemmas
import Verif.Lemmas.GpcmPsd
import Verif.Lemmas.GpcmValid
import Verif.Lemmas.GramLemmas
import Verif.Lemmas.IntBox
import Verif.Lemmas.IntLemmas
import Verif.Lemmas.IntTotal
import Verif.Lemmas.JointLemmas
import Verif.Lemmas.KernelPsd
import Verif.Lemmas.MarkovLLN
import Verif.Lemmas.MarkovLemmas
import Verif.Lemmas.MarkovMse
import Verif.Lemmas.MarkovPaths
import Verif.Lemmas.MarkovRev
import Verif.Lemmas.MseLemmas
import Verif.Lemmas.NearIid
import Verif.Lemmas.NestedLemmas
import Verif.Lemmas.NormalLemmas
import Verif.Lemmas.PaperLemmas
import Verif.Lemmas.ParamLimit
import Verif.Lemmas.Periodogram
import Verif.Lemmas.Pinsker
import Verif.Lemmas.PolyC1
import Verif.Lemmas.PolyCanon
import Verif.Lemmas.PolyComplete
import Verif.Lemmas.PolyDegree
import Verif.Lemmas.PolyLemmas
import Verif.Lemmas.PolyQuery
import Verif.Lemmas.PriorLemmas
import Verif.Lemmas.PsdLemmas
import Verif.Lemmas.PyLemmas
import Verif.Lemmas.RegularisedLemmas
import Verif.Lemmas.RegularisedLimit
import Verif.Lemmas.ResidualPos
import Verif.Lemmas.RgpcmInt
import Verif.Lemmas.RgpcmKernel
import Verif.Lemmas.RgpcmParamLimit
import Verif.Lemmas.RgpcmSort
import Verif.Lemmas.RgpcmValid
import Verif.Lemmas.RotateLemmas
import Verif.Lemmas.Roughness
import Verif.Lemmas.SignalLemmas
import Verif.Lemmas.StationaryLemmas
import Verif.Lemmas.SubDensity
import Verif.Lemmas.TermLemmas
import Verif.Lemmas.UtilLemmas
import Verif.Model.AnalyseElbos
import Verif.Model.Approx
import Verif.Model.Built
import Verif.Model.ClosestPsd
import Verif.Model.CompareFigures
import Verif.Model.CompareInference
import Verif.Model.CompareStart
import Verif.Model.ESS
import Verif.Model.EssTrace
import Verif.Model.ExpPoly
import Verif.Model.ExpPolyInt
import Verif.Model.Experiments
import Verif.Model.ExprRun
import Verif.Model.Filter
import Verif.Model.Fit
import Verif.Model.FitBound
import Verif.Model.Forecast
import Verif.Model.FunctionPanel
import Verif.Model.GPCM
import Verif.Model.Gibbs
import Verif.Model.GibbsGrad
import Verif.Model.GlobalState
import Verif.Model.Instance
import Verif.Model.JitObjective
import Verif.Model.Kernel
import Verif.Model.KernelPred
import Verif.Model.Normal
import Verif.Model.Objects
import Verif.Model.Optimise
import Verif.Model.OtherScripts
import Verif.Model.Paper
import Verif.Model.Plots
import Verif.Model.Prior
import Verif.Model.PriorFigure
import Verif.Model.Py
import Verif.Model.RGPCM
import Verif.Model.Regularised
import Verif.Model.Reproduce
import Verif.Model.RgpcmInstance
import Verif.Model.RgpcmSample
import Verif.Model.Rounding
import Verif.Model.RunExp
import Verif.Model.Sample
import Verif.Model.SaveSession
import Verif.Model.Scripts
import Verif.Model.SeededRun
import Verif.Model.Session
import Verif.Model.Significance
import Verif.Model.SummaryCurves
import Verif.Model.Util
import Verif.Model.Vars
import Verif.Props.AggregateProps
import Verif.Props.AnalyseElboProps
import Verif.Props.ApproxProps
import Verif.Props.AutocovProps
import Verif.Props.BestPredictionProps
import Verif.Props.BestProps
import Verif.Props.CalibrationProps
import Verif.Props.CertainProps
import Verif.Props.CompareBoundsProps
import Verif.Props.CompareFigureProps
import Verif.Props.CompareProps
import Verif.Props.CompareStartProps
import Verif.Props.ConstructorProps
import Verif.Props.ContinuityProps
import Verif.Props.ConvergeProps
import Verif.Props.DataContModelProps
import Verif.Props.DataContProps
import Verif.Props.DataPsdProps
import Verif.Props.DenseProps
import Verif.Props.DenseRgpcmProps
import Verif.Props.ESSFreshProps
import Verif.Props.ESSInvProps
import Verif.Props.ESSLimitProps
import Verif.Props.ESSProps
import Verif.Props.EssTraceProps
import Verif.Props.EvidenceProps
import Verif.Props.ExperimentProps
import Verif.Props.FactorProps
import Verif.Props.FarProps
import Verif.Props.FftProps
import Verif.Props.FilterPinProps
import Verif.Props.FilterProps
import Verif.Props.FitBoundProps
import Verif.Props.FitProps
import Verif.Props.ForecastProps
import Verif.Props.FourierProps
import Verif.Props.FunctionPanelProps
import Verif.Props.GPCMGridProps
import Verif.Props.GPCMIntProps
import Verif.Props.GapProps
import Verif.Props.GibbsConvProps
import Verif.Props.GibbsLimitProps
import Verif.Props.GibbsProps
import Verif.Props.GibbsRateProps
import Verif.Props.GivenProps
import Verif.Props.GlobalStateProps
import Verif.Props.GradientProps
import Verif.Props.IntegralProps
import Verif.Props.JitObjectiveProps
import Verif.Props.KernelPredProps
import Verif.Props.KernelProps
import Verif.Props.LaterGradientProps
import Verif.Props.LearnedNoiseProps
import Verif.Props.LearnsProps
import Verif.Props.LessNoiseProps
import Verif.Props.LimitCalibrationProps
import Verif.Props.MonteCarloProps
import Verif.Props.MoreDataProps
import Verif.Props.MseProps
import Verif.Props.NearIidProps
import Verif.Props.NestedProps
import Verif.Props.NoiseFloorProps
import Verif.Props.NoisyProps
import Verif.Props.NormalProps
import Verif.Props.ObjectsProps
import Verif.Props.ObserveProps
import Verif.Props.OptimiseProps
import Verif.Props.OrderProps
import Verif.Props.PaperProps
import Verif.Props.ParamContProps
import Verif.Props.PlotsProps
import Verif.Props.PointProps
import Verif.Props.PolyProps
import Verif.Props.PredictProps
import Verif.Props.PriorFigureProps
import Verif.Props.PriorPredProps
import Verif.Props.PriorProps
import Verif.Props.PsdProps
import Verif.Props.RGPCMGramProps
import Verif.Props.RGPCMIntProps
import Verif.Props.RGPCMKernelProps
import Verif.Props.RGPCMParamProps
import Verif.Props.RedrawProps
import Verif.Props.RefitProps
import Verif.Props.RegularisedProps
import Verif.Props.RelabelProps
import Verif.Props.ReportProps
import Verif.Props.ReproduceProps
import Verif.Props.RgpcmSampleProps
import Verif.Props.RgpcmValidProps
import Verif.Props.RoughnessProps
import Verif.Props.RoundingProps
import Verif.Props.RunExpProps
import Verif.Props.SameOptimumProps
import Verif.Props.SampleProps
import Verif.Props.SampleScriptProps
import Verif.Props.SaveSessionProps
import Verif.Props.ScaleProps
import Verif.Props.ScriptsProps
import Verif.Props.SeededRunProps
import Verif.Props.SequentialProps
import Verif.Props.SessionProps
import Verif.Props.ShrinkProps
import Verif.Props.SignalProps
import Verif.Props.SignificanceProps
import Verif.Props.StationaryProps
import Verif.Props.StoreProps
import Verif.Props.SubDensityProps
import Verif.Props.SummaryCurvesProps
import Verif.Props.TimeProps
import Verif.Props.UnitProps
import Verif.Props.UtilProps
import Verif.Props.ValidProps
import Verif.Props.VanishingNoiseProps
import Verif.Props.WindowProps
import Verif.Spec.Approx
import Verif.Spec.Dataset
import Verif.Spec.ESS
import Verif.Spec.ESSLaw
import Verif.Spec.ESSLimit
import Verif.Spec.Effective
import Verif.Spec.Expr
import Verif.Spec.Filter
import Verif.Spec.Fourier
import Verif.Spec.GPCM
import Verif.Spec.Integrals
import Verif.Spec.Kernel
import Verif.Spec.Noise
import Verif.Spec.Paper
import Verif.Spec.RGPCM
import Verif.Spec.Series
import Verif.Spec.Signal
