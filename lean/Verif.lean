import Verif.Block.BsblFails
import Verif.Block.BsblLemmas
import Verif.Block.BsblModel
import Verif.Block.BsblNpModel
import Verif.Block.BsblNpProps
import Verif.Block.BsblProps
import Verif.Block.BsblRoot
import Verif.Block.BsblSymProps
import Verif.Block.EvidenceLemmas
import Verif.Block.EvidenceProps
import Verif.Block.UtilModel
import Verif.Block.UtilProps
import Verif.Cluster.AnglesModel
import Verif.Cluster.AnglesProps
import Verif.Cluster.ErrorProps
import Verif.Cluster.FastSpectralModel
import Verif.Cluster.FastSpectralProps
import Verif.Cluster.KmeansConv
import Verif.Cluster.KmeansModel
import Verif.Cluster.KmeansProps
import Verif.Cluster.KmeansStableProps
import Verif.Cluster.LabelsModel
import Verif.Cluster.LabelsProps
import Verif.Cluster.MotionProps
import Verif.Cluster.SpectralClusterModel
import Verif.Cluster.SpectralClusterProps
import Verif.Cluster.SpectralModel
import Verif.Cluster.SpectralProps
import Verif.Cluster.SpectralReport
import Verif.Cluster.SscModel
import Verif.Cluster.SscNoiseProps
import Verif.Cluster.SscOmpProps
import Verif.Cluster.SscPreserveProps
import Verif.Cluster.SscProps
import Verif.Cs1bit.BihtSymProps
import Verif.Cs1bit.ContinuityProps
import Verif.Cs1bit.Model
import Verif.Cs1bit.PerceptronProps
import Verif.Cs1bit.Props
import Verif.Cs1bit.RfpContinuityProps
import Verif.Cs1bit.RfpSymProps
import Verif.Cvx.BpModel
import Verif.Cvx.BpProps
import Verif.Cvx.BpicProps
import Verif.Cvx.DataStabilityProps
import Verif.Cvx.FocussBoundProps
import Verif.Cvx.FocussContinuityProps
import Verif.Cvx.FocussConv
import Verif.Cvx.FocussConvProps
import Verif.Cvx.FocussDefaultProps
import Verif.Cvx.FocussModel
import Verif.Cvx.FocussProps
import Verif.Cvx.L1AgreeProps
import Verif.Cvx.L1lsConv
import Verif.Cvx.L1lsConvProps
import Verif.Cvx.L1lsLemmas
import Verif.Cvx.L1lsModel
import Verif.Cvx.L1lsProps
import Verif.Cvx.L1lsStep
import Verif.Cvx.LpDuality
import Verif.Cvx.NoiseRecovery
import Verif.Cvx.NonmonoConv
import Verif.Cvx.RipLemmas
import Verif.Cvx.RipRecovery
import Verif.Cvx.ShrinkProps
import Verif.Cvx.SpgConvCProps
import Verif.Cvx.SpgConvProps
import Verif.Cvx.SpgStepProps
import Verif.Cvx.SpgSymCProps
import Verif.Cvx.SpgSymProps
import Verif.Cvx.Spgl1CModel
import Verif.Cvx.Spgl1CProps
import Verif.Cvx.Spgl1Model
import Verif.Cvx.Spgl1Props
import Verif.Cvx.Spgl1RealProps
import Verif.Cvx.UnitsProps
import Verif.Cvx.YallContinuityProps
import Verif.Cvx.YallExist
import Verif.Cvx.YallGamma
import Verif.Cvx.YallLemmas
import Verif.Cvx.YallModel
import Verif.Cvx.YallNonneg
import Verif.Cvx.YallProps
import Verif.Cvx.YallRecovery
import Verif.Cvx.YallStopProps
import Verif.Cvx.YallTermProps
import Verif.Data.RandomModel
import Verif.Data.RandomProps
import Verif.Data.SubspaceModel
import Verif.Data.SubspaceProps
import Verif.Dict.BasesModel
import Verif.Dict.BasesProps
import Verif.Dict.GrassModel
import Verif.Dict.GrassProps
import Verif.Dict.MutualProps
import Verif.Dict.PropsModel
import Verif.Dict.PropsProps
import Verif.Dict.SimpleModel
import Verif.Dict.SimpleProps
import Verif.Dict.SvdExists
import Verif.Geo.RickerModel
import Verif.Geo.RickerProps
import Verif.Loop
import Verif.LoopMap
import Verif.LoopPrefix
import Verif.Lop.AlgebraLemmas
import Verif.Lop.AlgebraProps
import Verif.Lop.AlgebraRefine
import Verif.Lop.AxisModel
import Verif.Lop.AxisProps
import Verif.Lop.BasicModel
import Verif.Lop.BasicProps
import Verif.Lop.ConvNdModel
import Verif.Lop.ConvNdProps
import Verif.Lop.CosineProps
import Verif.Lop.DotModel
import Verif.Lop.DotProps
import Verif.Lop.Dwt2Model
import Verif.Lop.Dwt2Props
import Verif.Lop.FourierModel
import Verif.Lop.FourierProps
import Verif.Lop.HeavisideProps
import Verif.Lop.MatSpec
import Verif.Lop.Model
import Verif.Lop.Np
import Verif.Lop.RandomModel
import Verif.Lop.RandomProps
import Verif.Lop.RdotProps
import Verif.Lop.ReshapeModel
import Verif.Lop.ReshapeProps
import Verif.Lop.RewriteProps
import Verif.Lop.Spec
import Verif.Lop.SpreadModel
import Verif.Lop.SpreadProps
import Verif.Lop.StencilModel
import Verif.Lop.StencilProps
import Verif.Lop.StructModel
import Verif.Lop.StructProps
import Verif.Lop.TwoDModel
import Verif.Lop.TwoDProps
import Verif.Lop.UtilModel
import Verif.Lop.Vec
import Verif.Lop.WindowProps
import Verif.Opt.CgContinuityProps
import Verif.Opt.CgModel
import Verif.Opt.CgProps
import Verif.Opt.CgRateProps
import Verif.Opt.FomModel
import Verif.Opt.FomProps
import Verif.Opt.FomRateLemmas
import Verif.Opt.FomRateProps
import Verif.Opt.LogdetModel
import Verif.Opt.LogdetProps
import Verif.Opt.OwlModel
import Verif.Opt.OwlProps
import Verif.Opt.PercentileModel
import Verif.Opt.PercentileProps
import Verif.Opt.ProjModel
import Verif.Opt.ProjProps
import Verif.Opt.ProxCModel
import Verif.Opt.ProxCalcProps
import Verif.Opt.ProxModel
import Verif.Opt.ProxProps
import Verif.Opt.ScdProps
import Verif.Opt.ScdSolveProps
import Verif.Opt.SmoothProps
import Verif.Opt.Spec
import Verif.Opt.SpgConvProps
import Verif.Opt.SpgModel
import Verif.Opt.SpgProps
import Verif.Opt.SpgRateProps
import Verif.Opt.ThreshProps
import Verif.Problems.AudioModel
import Verif.Problems.AudioProps
import Verif.Problems.Model
import Verif.Problems.PiecewiseModel
import Verif.Problems.PiecewiseProps
import Verif.Problems.Props
import Verif.Problems.SolveLemmas
import Verif.Problems.SolveProps
import Verif.Problems.SparseProps
import Verif.Pursuit.CoherenceRip
import Verif.Pursuit.ContinuityProps
import Verif.Pursuit.GreedyFails
import Verif.Pursuit.GreedyLemmas
import Verif.Pursuit.GreedyModel
import Verif.Pursuit.GreedyProps
import Verif.Pursuit.GreedyRateProps
import Verif.Pursuit.IhtConvProps
import Verif.Pursuit.IhtRecoveryProps
import Verif.Pursuit.JointContinuityProps
import Verif.Pursuit.MpConvProps
import Verif.Pursuit.MpModel
import Verif.Pursuit.MpProps
import Verif.Pursuit.NormalizedModel
import Verif.Pursuit.NormalizedProps
import Verif.Pursuit.OmpComplexModel
import Verif.Pursuit.OmpComplexPartial
import Verif.Pursuit.OmpComplexProps
import Verif.Pursuit.OmpDictProps
import Verif.Pursuit.OmpModel
import Verif.Pursuit.OmpNoiseProps
import Verif.Pursuit.OmpProps
import Verif.Pursuit.OrthoProps
import Verif.Pursuit.PhaseModel
import Verif.Pursuit.PhaseProps
import Verif.Pursuit.PhaseSymProps
import Verif.Pursuit.RecoveryProps
import Verif.Pursuit.RipOmpProps
import Verif.Pursuit.RipProps
import Verif.Pursuit.SimilarityProps
import Verif.Pursuit.SolutionProps
import Verif.Pursuit.SpRecoveryProps
import Verif.Pursuit.SparseMinProps
import Verif.Pursuit.StabilityFails
import Verif.Pursuit.StableRunProps
import Verif.Pursuit.TwoVersionsProps
import Verif.Pursuit.UtilModel
import Verif.Pursuit.UtilProps
import Verif.Sls.ComplexProps
import Verif.Sls.EquivariantProps
import Verif.Sls.IstaContinuityProps
import Verif.Sls.IstaDataProps
import Verif.Sls.IstaModel
import Verif.Sls.IstaProps
import Verif.Sls.IstaRateProps
import Verif.Sls.IstaRecovery
import Verif.Sls.IstaResult
import Verif.Sls.LanLemmas
import Verif.Sls.LanModel
import Verif.Sls.LanProps
import Verif.Sls.LansvdModel
import Verif.Sls.LansvdProps
import Verif.Sls.LsqrLemmas
import Verif.Sls.LsqrModel
import Verif.Sls.LsqrProps
import Verif.Sls.LsqrRateProps
import Verif.Sls.PowerGapProps
import Verif.Sls.PowerModel
import Verif.Sls.PowerProps
import Verif.Sls.PowerRate
import Verif.Sls.PowerRateProps
import Verif.Tools.PerfMeas
import Verif.Tools.PerfModel
import Verif.Tools.PerfProps
import Verif.Tools.PrefixProps
import Verif.Tools.TrackRunModel
import Verif.Tools.TrackRunProps
import Verif.Tools.TrackerModel
import Verif.Tools.TrackerProps
import Verif.Tools.TrialsModel
import Verif.Tools.TrialsProps
import Verif.Vision.KernelModel
import Verif.Vision.KernelProps
