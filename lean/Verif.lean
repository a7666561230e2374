import Verif.Quant.AffineProps
import Verif.Quant.Dtype
import Verif.Quant.GradProps
import Verif.Tiling.Props
import Verif.Tiling.QuantProps
import Verif.Granularity.Props
import Verif.TensorOps.Props
import Verif.TensorOps.ChannelProps
import Verif.TensorOps.GetitemProps
import Verif.TensorOps.TopkProps
import Verif.Orch.TopoProps
import Verif.Orch.CycleProps
import Verif.Orch.AncestorProps
import Verif.Orch.BroadcastProps
import Verif.Orch.BindProps
import Verif.Orch.LifetimeProps
import Verif.Orch.ContextProps
import Verif.Orch.CallProps
import Verif.Orch.ExecProps
import Verif.Orch.ExecTotal
import Verif.Orch.ExecCases
import Verif.Orch.OptOnlyProps
import Verif.Orch.Offload
import Verif.Orch.OffloadCases
import Verif.Orch.Natural
import Verif.Orch.OffloadSim
import Verif.Orch.OffloadRaw
import Verif.Orch.OffloadCancel
import Verif.Orch.OffloadMoves
import Verif.Orch.OffloadRun
import Verif.Orch.OffloadProps
import Verif.Runtime.Flags
import Verif.Runtime.DispatcherProps
import Verif.Runtime.OverridesProps
import Verif.Runtime.DisableProps
import Verif.Runtime.Swap
import Verif.Runtime.Strict
import Verif.MPath.SearchProps
import Verif.MPath.AltProps
import Verif.MPath.Collection
import Verif.MPath.PrintProps
import Verif.Config.Tags
import Verif.Config.QuantConfig
import Verif.Util.Dict
import Verif.SaveLoad.Dedupe
import Verif.SaveLoad.RoundTrip
import Verif.SaveLoad.Serialize
import Verif.RangeSetting.MinMax
import Verif.RangeSetting.MinError
import Verif.RangeSetting.Estimate
import Verif.Quantops.Operator
import Verif.Quantops.OpTable
import Verif.Quantops.Symtypes
import Verif.Export.Pipeline
import Verif.Export.PipelineProps
import Verif.Export.PipelineEdits
import Verif.Export.Half
import Verif.Export.Gguf
import Verif.Export.Lpbq
import Verif.Export.Encodings
import Verif.Export.Naming
import Verif.Export.Propagate
import Verif.Export.Qdq
import Verif.Export.Annotate
import Verif.Autoquant.Annotator
import Verif.Autoquant.Dotted
import Verif.Autoquant.Imports
import Verif.Autoquant.Names
import Verif.Autoquant.Pattern
import Verif.Algo.GptqSolver
import Verif.Algo.GptqColumns
import Verif.Algo.GptqHessian
import Verif.Util.Cache
import Verif.Orch.Subgraph
import Verif.Orch.SubgraphProps
import Verif.Orch.Extract
import Verif.Orch.ExtractProps
import Verif.Orch.BatchProps
import Verif.Orch.ReduceProps
import Verif.Orch.ReduceCases
import Verif.Orch.BindFlows
import Verif.Orch.Registry
import Verif.Orch.Generators
import Verif.Orch.Module
import Verif.Orch.Inputs
import Verif.Orch.Trace
import Verif.Orch.TraceGraph
import Verif.Orch.TraceBuild
import Verif.Orch.TraceProps
import Verif.Orch.TraceTotal
import Verif.Autoquant.Python
import Verif.Autoquant.Preprocess
import Verif.Autoquant.PreprocessProps
import Verif.Autoquant.PreprocessMore
import Verif.Nn.Convert
import Verif.Nn.Metadata
import Verif.Quant.Freeze
import Verif.Quant.OpTags
import Verif.Nn.Attention
import Verif.Nn.Upcast
import Verif.Quant.Fuse
import Verif.Autoquant.Assign
import Verif.Nn.LinearQuantizer
import Verif.Autoquant.Dedup
import Verif.Export.ModuleIO
import Verif.Export.OnnxNames
import Verif.Quantops.Generate
import Verif.Autoquant.Hoist
import Verif.Autoquant.Thread
import Verif.Autoquant.Replace
import Verif.Autoquant.Worklist
import Verif.Autoquant.HelperNames
import Verif.Autoquant.ImportSymbols
import Verif.Nn.Layers
import Verif.Quant.EntryPoints
import Verif.Autoquant.SuperCalls
import Verif.Export.Requests
import Verif.Export.GgufFile
import Verif.Quant.CreateFunction
import Verif.Autoquant.SourceContext
import Verif.Export.Cleanup
import Verif.MPath.Context
import Verif.Runtime.TorchFunction
import Verif.Nn.Lazy
import Verif.Export.OnnxMetadata
import Verif.Export.GgufMeta
import Verif.Autoquant.PatternMatch
import Verif.Autoquant.Placement
import Verif.Autoquant.Comprehension
import Verif.Autoquant.Parens
import Verif.Autoquant.Candidates
import Verif.Autoquant.Emit
import Verif.Nn.Listing
import Verif.Nn.Registry
import Verif.SaveLoad.Files
import Verif.Quantops.Spec
import Verif.Autoquant.PassManager
import Verif.Testing.PackageMock
import Verif.Autoquant.FoldTemps
import Verif.Autoquant.Warnings
import Verif.Autoquant.MarkerNodes
import Verif.Nn.DeepCopy
import Verif.Algo.GptqInputs
import Verif.Util.LogFilter
import Verif.Autoquant.FilterNodes
import Verif.Autoquant.Bypass
import Verif.Export.MetadataCopy
import Verif.Export.Allowzero
import Verif.Runtime.Attach
import Verif.Util.Chunks
import Verif.Orch.DeviceStrip
import Verif.Util.Metrics
import Verif.Runtime.CopyTensor
import Verif.Autoquant.Insertions
import Verif.Config.Collections
import Verif.Autoquant.Output
import Verif.Export.Files
import Verif.Quant.Compile
import Verif.Nn.RangeOperator
import Verif.Quant.Ste
import Verif.Quant.Random
import Verif.Quant.Contexts
