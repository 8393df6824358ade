import Verif.Common.Lists
import Verif.Quant.Model
import Verif.Quant.Spec
import Verif.Quant.Lemmas
import Verif.Quant.Props
import Verif.Search.Model
import Verif.Search.Spec
import Verif.Search.Lemmas
import Verif.Search.Props
import Verif.Collect.Model
import Verif.Collect.Spec
import Verif.Collect.Lemmas
import Verif.Collect.Affine
import Verif.Collect.Props
import Verif.MP.Model
import Verif.MP.Spec
import Verif.MP.Lemmas
import Verif.MP.LPLemmas
import Verif.MP.Cands
import Verif.MP.Least
import Verif.MP.Solver
import Verif.MP.RULemmas
import Verif.MP.Refine
import Verif.MP.Props
import Verif.MP.Virtual
import Verif.MP.VirtualLemmas
import Verif.MP.VirtualRecon
import Verif.MP.VirtualAdd
import Verif.MP.VirtualProps
import Verif.Pruning.Model
import Verif.Pruning.Spec
import Verif.Pruning.Lemmas
import Verif.Pruning.Props
import Verif.Pruning.Sections
import Verif.Pruning.Weights
import Verif.Pruning.SectionSpec
import Verif.Pruning.SectionLemmas
import Verif.Pruning.WeightLemmas
import Verif.Pruning.SectionProps
import Verif.MaxCut.Model
import Verif.MaxCut.Spec
import Verif.MaxCut.Lemmas
import Verif.MaxCut.Search
import Verif.MaxCut.Bridge
import Verif.MaxCut.Props
import Verif.Graph.Model
import Verif.Graph.Spec
import Verif.Graph.Lemmas
import Verif.Graph.Identity
import Verif.Graph.Rewrites
import Verif.Graph.Replace
import Verif.Graph.Insert
import Verif.Graph.Between
import Verif.Graph.Residual
import Verif.Graph.Witness
import Verif.Graph.Props
import Verif.Graph.PropsSubst
import Verif.Graph.InPlace
import Verif.Subst.Spec
import Verif.Subst.Model
import Verif.Subst.Lemmas
import Verif.Subst.Props
import Verif.Subst.ReconModel
import Verif.Subst.ReconLemmas
import Verif.Subst.ReconProps
import Verif.Subst.EqualizeModel
import Verif.Subst.EqualizeLemmas
import Verif.Subst.EqualizeProps
import Verif.Subst.CollapseModel
import Verif.Subst.CollapseLemmas
import Verif.Subst.CollapseProps
import Verif.Graph.ChainInsert
import Verif.Subst.ShiftModel
import Verif.Subst.ShiftLemmas
import Verif.Subst.ShiftProps
import Verif.Subst.CorrectionModel
import Verif.Subst.CorrectionLemmas
import Verif.Subst.CorrectionProps
import Verif.Graph.Walk
import Verif.Fusing.Model
import Verif.Fusing.Spec
import Verif.Fusing.Lemmas
import Verif.Fusing.Generate
import Verif.Fusing.Records
import Verif.Fusing.Update
import Verif.Fusing.Fuser
import Verif.Fusing.Contract
import Verif.Tpc.Dict
import Verif.Tpc.Model
import Verif.Tpc.Options
import Verif.Tpc.Filters
import Verif.Tpc.Attach
import Verif.Tpc.Context
import Verif.Candidates.Model
import Verif.Candidates.Consumers
import Verif.Candidates.Load
import Verif.Candidates.Accept
import Verif.Candidates.Fused
import Verif.Candidates.Filtered
import Verif.Candidates.Manual
import Verif.Train.Model
import Verif.Train.Lemmas
import Verif.Train.Soft
import Verif.Train.Ste
import Verif.Train.Export
import Verif.Train.Schedule
import Verif.Train.LossWeights
import Verif.Train.Optimizers
import Verif.Hessian.Model
import Verif.Hessian.Lemmas
import Verif.Hessian.Service
import Verif.Hessian.Fetch
import Verif.Hessian.Samples
import Verif.Hessian.Collector
import Verif.Torch.Model
import Verif.Torch.Lemmas
import Verif.Torch.Node
import Verif.Torch.Edges
import Verif.Torch.Broken
import Verif.Torch.Step
import Verif.Torch.RoundTrip
import Verif.Torch.Dead
import Verif.Torch.Witness
import Verif.Torch.Reuse
import Verif.Torch.Functional
import Verif.Sens.Model
import Verif.Sens.Lemmas
import Verif.Sens.Spec
import Verif.Sens.Props
import Verif.Sens.Search
import Verif.Sens.MetricModel
import Verif.Sens.MetricProps
import Verif.Sens.PointProps
import Verif.Decomp.Tensor
import Verif.Decomp.Lemmas
import Verif.Decomp.MatMul
import Verif.Decomp.MatMulProps
import Verif.Decomp.Mha
import Verif.Decomp.MhaSpec
import Verif.Decomp.MhaProps
import Verif.Decomp.Sdpa
import Verif.Decomp.SdpaProps
import Verif.KReader.Model
import Verif.KReader.Spec
import Verif.KReader.Merge
import Verif.KReader.MergeProps
import Verif.KReader.Flat
import Verif.KReader.Props
import Verif.KReader.Violations
import Verif.KReader.Call
import Verif.KReader.CallProps
import Verif.KReader.CallConst
import Verif.KReader.CallPlain
import Verif.KReader.CallViolations
import Verif.Editor.Model
import Verif.Editor.Spec
import Verif.Editor.Lemmas
import Verif.Editor.Evolve
import Verif.Editor.Reject
import Verif.Editor.Props
import Verif.Editor.Violations
import Verif.ActQ.Model
import Verif.ActQ.Props
import Verif.ActQ.Keras
import Verif.XQuant.Model
import Verif.XQuant.Spec
import Verif.XQuant.Lemmas
import Verif.XQuant.Gather
import Verif.XQuant.Props
import Verif.XQuant.Metrics
import Verif.XQuant.Violations
import Verif.DataGen.Model
import Verif.DataGen.Spec
import Verif.DataGen.Lemmas
import Verif.DataGen.Props
import Verif.DataGen.Stats
import Verif.DataGen.StatsProps
import Verif.DataGen.Scheduler
import Verif.Build.Model
import Verif.Build.Spec
import Verif.Build.Props
import Verif.Hutch.Model
import Verif.Hutch.Props
import Verif.Loss.Model
import Verif.Loss.Data
import Verif.Loss.Props
import Verif.Decomp.KMha
import Verif.Decomp.KMhaProps
import Verif.KFunc.Model
import Verif.KFunc.Props
import Verif.Export.Int8
import Verif.Export.Int8Props
import Verif.Export.Fq
import Verif.Export.FqProps
import Verif.Export.Torch
import Verif.Export.TorchProps
import Verif.PerChan.Tensor
import Verif.PerChan.Model
import Verif.PerChan.Props
import Verif.PerChan.Hmse
import Verif.PerChan.HmseProps
import Verif.Train.QatUniform
import Verif.Params.Model
import Verif.Params.Props
import Verif.Prior.Analysis
import Verif.Prior.Spec
import Verif.Prior.Model
import Verif.Prior.Props
import Verif.Runs.Model
import Verif.Runs.Props
import Verif.Moment.Model
import Verif.Moment.Spec
import Verif.Moment.Lemmas
import Verif.Moment.Props
import Verif.Tpc.Json
import Verif.Tpc.JsonProps
import Verif.Reshape.Model
import Verif.Reshape.Spec
import Verif.Reshape.Lemmas
import Verif.Reshape.Props
import Verif.Torch.Conv
import Verif.Concat.Model
import Verif.Concat.Props
import Verif.Qat.Model
import Verif.Qat.Props
import Verif.Train.Reg
import Verif.DataGen.Rates
import Verif.DataGen.Outputs
import Verif.DataGen.Last
import Verif.Fusing.Manual
import Verif.Editor.Choose
import Verif.Qat.Saved
import Verif.MP.Bits
import Verif.PerChan.Schedule
import Verif.Search.Scaled
import Verif.MP.Modes
import Verif.Tpc.Tables
import Verif.Graph.Passes
import Verif.Subst.Passes
import Verif.Candidates.Prepared
import Verif.Candidates.Order
import Verif.Search.Divergence
import Verif.Params.Names
import Verif.Subst.Rectified
import Verif.Collect.Attach
import Verif.Subst.Route
import Verif.Train.Loop
import Verif.Subst.Shared
import Verif.Subst.FoldShared
import Verif.Runs.Reference
import Verif.Pruning.Importance
import Verif.Subst.NormAxis
import Verif.Hutch.Stopping
import Verif.Hutch.Detached
