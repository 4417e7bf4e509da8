import Verif.Lemmas.AlignLemmas
import Verif.Lemmas.AncestralLemmas
import Verif.Lemmas.ArmLemmas
import Verif.Lemmas.ArmRun
import Verif.Lemmas.BaselineLemmas
import Verif.Lemmas.BroadcastLemmas
import Verif.Lemmas.CallLemmas
import Verif.Lemmas.CleanLemmas
import Verif.Lemmas.ConditionalLaw
import Verif.Lemmas.ContribLemmas
import Verif.Lemmas.ControlNetLemmas
import Verif.Lemmas.DecodeLemmas
import Verif.Lemmas.DecodeMissingLemmas
import Verif.Lemmas.DecodePlatesLemmas
import Verif.Lemmas.DecodePlatesReturns
import Verif.Lemmas.DecodeRun
import Verif.Lemmas.DenoteLemmas
import Verif.Lemmas.DimsLemmas
import Verif.Lemmas.EntmaxGrad
import Verif.Lemmas.EntmaxLemmas
import Verif.Lemmas.EnumerateLemmas
import Verif.Lemmas.EstimatorLemmas
import Verif.Lemmas.ExecLemmas
import Verif.Lemmas.ExpectLemmas
import Verif.Lemmas.FitLemmas
import Verif.Lemmas.GradGraphLemmas
import Verif.Lemmas.GumbelIntegrable
import Verif.Lemmas.GumbelMax
import Verif.Lemmas.GumbelRegular
import Verif.Lemmas.GumbelRunLemmas
import Verif.Lemmas.GumbelTop
import Verif.Lemmas.GumbelWorLemmas
import Verif.Lemmas.GumbelWorMean
import Verif.Lemmas.ImportanceLemmas
import Verif.Lemmas.ImportanceRun
import Verif.Lemmas.IndependenceLemmas
import Verif.Lemmas.ListLemmas
import Verif.Lemmas.MirrorLemmas
import Verif.Lemmas.MixedExpect
import Verif.Lemmas.MixedRun
import Verif.Lemmas.NoiseAverage
import Verif.Lemmas.NoisyLemmas
import Verif.Lemmas.OnesLemmas
import Verif.Lemmas.OnesLossLemmas
import Verif.Lemmas.OrderInv
import Verif.Lemmas.OrderPlatesLemmas
import Verif.Lemmas.PlateLemmas
import Verif.Lemmas.ProgramLemmas
import Verif.Lemmas.ProposalLemmas
import Verif.Lemmas.RaoBlackwellLemmas
import Verif.Lemmas.RavelLemmas
import Verif.Lemmas.RbLossLemmas
import Verif.Lemmas.RebarContribLemmas
import Verif.Lemmas.RebarLemmas
import Verif.Lemmas.RebarRunLemmas
import Verif.Lemmas.ReduceAll
import Verif.Lemmas.ReduceLemmas
import Verif.Lemmas.ReduceReq
import Verif.Lemmas.ReduceStep
import Verif.Lemmas.RelaxBias
import Verif.Lemmas.RelaxExpect
import Verif.Lemmas.RelaxLemmas
import Verif.Lemmas.RelaxRegular
import Verif.Lemmas.RelaxRunLemmas
import Verif.Lemmas.RiemannLemmas
import Verif.Lemmas.SamplersLemmas
import Verif.Lemmas.ScoreLemmas
import Verif.Lemmas.SeqBatchLemmas
import Verif.Lemmas.SeqLossLemmas
import Verif.Lemmas.SeqMethodLemmas
import Verif.Lemmas.SeqMovingLemmas
import Verif.Lemmas.SeqProb
import Verif.Lemmas.SetLaw
import Verif.Lemmas.SurrogateLemmas
import Verif.Lemmas.TopoLemmas
import Verif.Lemmas.UnorderedCode
import Verif.Lemmas.UnorderedLemmas
import Verif.Lemmas.UnorderedLimit
import Verif.Lemmas.UnorderedLoss
import Verif.Lemmas.UnorderedSecond
import Verif.Lemmas.WalkLemmas
import Verif.Lemmas.WeightedLemmas
import Verif.Lemmas.WorLossLemmas
import Verif.Lemmas.WorldLemmas
import Verif.Model.AD
import Verif.Model.Ancestral
import Verif.Model.Arm
import Verif.Model.Base
import Verif.Model.Cat
import Verif.Model.ControlNet
import Verif.Model.Decode
import Verif.Model.DecodeMissing
import Verif.Model.DecodePlates
import Verif.Model.Dims
import Verif.Model.Disarm
import Verif.Model.Distr
import Verif.Model.Dual
import Verif.Model.Entmax
import Verif.Model.Enumerate
import Verif.Model.Expectation
import Verif.Model.Expose
import Verif.Model.Finished
import Verif.Model.FinishedPlates
import Verif.Model.Gather
import Verif.Model.GradGraph
import Verif.Model.Graph
import Verif.Model.Gumbel
import Verif.Model.GumbelRun
import Verif.Model.GumbelWor
import Verif.Model.Hooks
import Verif.Model.Importance
import Verif.Model.Losses
import Verif.Model.Methods
import Verif.Model.Mixed
import Verif.Model.Operators
import Verif.Model.OrderPlates
import Verif.Model.Plate
import Verif.Model.PlatePresent
import Verif.Model.RaoBlackwell
import Verif.Model.RebarRun
import Verif.Model.Reduce
import Verif.Model.Relax
import Verif.Model.RelaxRun
import Verif.Model.RelaxUpdate
import Verif.Model.Relaxed
import Verif.Model.Samplers
import Verif.Model.Sampling
import Verif.Model.SeqMethod
import Verif.Model.SumSample
import Verif.Model.Surrogate
import Verif.Model.SworWeight
import Verif.Model.Torch
import Verif.Model.Unique
import Verif.Model.UniqueReduce
import Verif.Model.UnorderedMethod
import Verif.Model.UnorderedSet
import Verif.Model.World
import Verif.Model.Wrap
import Verif.Props.AncestralProps
import Verif.Props.ArmProps
import Verif.Props.BaselineProps
import Verif.Props.BceProps
import Verif.Props.BroadcastProps
import Verif.Props.CallProps
import Verif.Props.CatProps
import Verif.Props.CollectProps
import Verif.Props.ContextProps
import Verif.Props.ControlNetProps
import Verif.Props.CostProps
import Verif.Props.DecodeMissingProps
import Verif.Props.DecodePlatesProps
import Verif.Props.DecodeProps
import Verif.Props.DecodeWeightProps
import Verif.Props.DenoteNameProps
import Verif.Props.DenoteProps
import Verif.Props.DetachProps
import Verif.Props.DimsProps
import Verif.Props.DisarmProps
import Verif.Props.DistrProps
import Verif.Props.EntmaxGradProps
import Verif.Props.EntmaxProps
import Verif.Props.EnumerateProps
import Verif.Props.EosProps
import Verif.Props.ExposeProps
import Verif.Props.FinishedPlatesProps
import Verif.Props.FinishedProps
import Verif.Props.FlattenProps
import Verif.Props.GatherProps
import Verif.Props.GradGraphProps
import Verif.Props.GradProps
import Verif.Props.GraphProps
import Verif.Props.GumbelProps
import Verif.Props.GumbelSoftmaxProps
import Verif.Props.GumbelWorProps
import Verif.Props.HigherOrderProps
import Verif.Props.HookProps
import Verif.Props.ImportanceProps
import Verif.Props.IndepProps
import Verif.Props.InferProps
import Verif.Props.LossProps
import Verif.Props.MixedProgramProps
import Verif.Props.MixedProps
import Verif.Props.MixedWeightCase
import Verif.Props.MonteCarloProps
import Verif.Props.NoisyProps
import Verif.Props.OperatorProps
import Verif.Props.OrderProps
import Verif.Props.PlateHistoryProps
import Verif.Props.PlatePresentProps
import Verif.Props.PlateProps
import Verif.Props.ProposalProps
import Verif.Props.RaoBlackwellProps
import Verif.Props.RebarBiasProps
import Verif.Props.ReduceProps
import Verif.Props.RelaxBiasProps
import Verif.Props.RelaxLawProps
import Verif.Props.RelaxProps
import Verif.Props.RelaxTrainProps
import Verif.Props.RelaxUpdateProps
import Verif.Props.ReparamProps
import Verif.Props.SampledSeqProps
import Verif.Props.SamplersMakeProps
import Verif.Props.SamplersProps
import Verif.Props.ScoreProps
import Verif.Props.SeqBatchProps
import Verif.Props.SeqLossProps
import Verif.Props.SeqMethodProps
import Verif.Props.SeqMovingProps
import Verif.Props.SumSampleProps
import Verif.Props.SurrogateCases
import Verif.Props.SurrogateProps
import Verif.Props.SworBiasProps
import Verif.Props.SworWeightProps
import Verif.Props.TopoProps
import Verif.Props.TowerProps
import Verif.Props.UniqueMixProps
import Verif.Props.UniqueProps
import Verif.Props.UniqueReduceProps
import Verif.Props.UnorderedMethodProps
import Verif.Props.UnorderedProps
import Verif.Props.VarianceProps
import Verif.Props.WalkProps
import Verif.Props.WorldFitProps
import Verif.Props.WorldPlatesProps
