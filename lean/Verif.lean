import Verif.Serde.Props
import Verif.Serde.BinaryProps
import Verif.Interp.Props
import Verif.Interp.FingerprintProps
import Verif.Interp.LiftProps
import Verif.Graph.Props
import Verif.Trace.FuncUtils
import Verif.Trace.TracerProps
import Verif.Trace.Align
import Verif.Trace.Context
import Verif.Comm.Barrier
import Verif.Simp.Props
import Verif.Comm.Scope
import Verif.Comm.Mailbox
import Verif.Store.Props
import Verif.Worker.Props
import Verif.Driver.Props
import Verif.Device.Cluster
import Verif.Simp.Collective
import Verif.Device.TransferProps
import Verif.Device.Infer
import Verif.Tool.ProgramProps
import Verif.Kern.Gf128Field
import Verif.Kern.OkvsSolve
import Verif.Kern.OkvsOptProps
import Verif.Kern.Expand
import Verif.Mpc.Ec
import Verif.Mpc.BaseOt
import Verif.Mpc.Iknp
import Verif.Mpc.Vole
import Verif.Mpc.Silent
import Verif.Mpc.Silver
import Verif.Mpc.Oprf
import Verif.Mpc.Psi
import Verif.Mpc.PsiSound
import Verif.Mpc.Cuckoo
import Verif.Mpc.Bitonic
import Verif.Mpc.Permute
import Verif.Mpc.Aggregate
import Verif.Mpc.Groupby
import Verif.Tensor.Elementwise
import Verif.Tensor.Concat
import Verif.Tensor.Slice
import Verif.Tensor.Reshape
import Verif.Tensor.Transpose
import Verif.Table.Multi
import Verif.Serde.Accept
import Verif.Crypto.Tee
import Verif.Serde.WireProps
import Verif.Graph.Wire
import Verif.Comm.Http
import Verif.Crypto.KemProps
import Verif.Crypto.Session
import Verif.Device.Real
import Verif.Phe.Props
import Verif.Phe.Error
import Verif.Tensor.Dtypes
import Verif.Sgb.Predict
import Verif.Sgb.Train
import Verif.Sgb.Split
import Verif.Sgb.Hist
import Verif.Sgb.End
import Verif.Graph.Foreign
import Verif.Store.More
import Verif.Simp.More
import Verif.Tool.More
import Verif.Serde.JsonNumber
import Verif.Spu.Config
import Verif.Spu.Link
import Verif.Spu.Channel
import Verif.Arrow.Vector
import Verif.Arrow.VectorProps
import Verif.Arrow.TableProps
import Verif.Arrow.Types
import Verif.Arrow.Convert
import Verif.Table.Sql
import Verif.Table.SqlProps
import Verif.Store.Transfer
import Verif.Store.TransferProps
import Verif.Trace.Func
import Verif.Table.Files
import Verif.Table.FilesProps
import Verif.Jax.Run
import Verif.Jax.RunProps
import Verif.Jax.RunMain
import Verif.Jax.RunToy
import Verif.Jax.Constant
import Verif.Bfv.Model
import Verif.Bfv.Sound
import Verif.Bfv.Props
import Verif.Bfv.Keygen
import Verif.Phe.Typed
import Verif.Phe.TypedRun
import Verif.Bfv.Keys
import Verif.Crypto.CurveProps
import Verif.Crypto.Hash
import Verif.Crypto.Random
import Verif.Kern.NativeProps
import Verif.Kern.NativeSafe
import Verif.Kern.Wrap
import Verif.Kern.WrapProps
import Verif.Sgb.Boost
import Verif.Sgb.Bins
import Verif.Sgb.Pack
import Verif.Driver.Spmd
import Verif.Driver.Concurrent
import Verif.Driver.Api
import Verif.Device.Program
import Verif.Interp.Scopes
import Verif.Trace.Bind
import Verif.Simp.Chor
import Verif.Simp.ChorLogic
import Verif.Sgb.Protocol
import Verif.Sgb.ProtocolProps
import Verif.Sgb.ProtocolMain
import Verif.Simp.ChorArgs
import Verif.Mpc.Net
import Verif.Mpc.NetProps
import Verif.Mpc.NetMain
import Verif.Comm.Sends
import Verif.Comm.SendsProps
import Verif.Comm.SendsMain
import Verif.Simp.ChorViews
import Verif.Mpc.NetShuffle
import Verif.Mpc.NetShuffleProps
import Verif.Mpc.NetShuffleMain
import Verif.Sgb.Kernels
import Verif.Sgb.KernelsProps
import Verif.Sgb.KernelsMain
import Verif.Mpc.NetGroupBfv
import Verif.Mpc.NetGroupBfvProps
import Verif.Mpc.NetGroupBfvMain
import Verif.Driver.Chor
import Verif.Tool.Cli
import Verif.Tool.CliProps
import Verif.Tool.CliMain
import Verif.Tool.Trace
import Verif.Tool.TraceProps
import Verif.Comm.Poll
import Verif.Mpc.LdpcRef
import Verif.Serde.TypeText
import Verif.Interp.FingerprintTypes
import Verif.Graph.Printer
import Verif.Driver.Lifecycle
import Verif.Spu.RunJax
import Verif.Driver.Environment
import Verif.Trace.Threads
import Verif.Tool.Profiler
import Verif.Table.Constant
import Verif.Sgb.Skew
import Verif.Arrow.OneHotFn
import Verif.Sgb.Pipeline
import Verif.Spu.HostPut
import Verif.Graph.ToStr
import Verif.Table.Parquet
import Verif.Simp.PartyScope
import Verif.Simp.Traffic
import Verif.Mpc.Traffic
import Verif.Mpc.TrafficMain
import Verif.Mpc.SeedBlock
import Verif.Mpc.Separation
import Verif.Serde.Registry
import Verif.Mpc.TrafficShuffle
import Verif.Mpc.TrafficGroupBfv
import Verif.Simp.Route
import Verif.Sgb.Route
import Verif.Tool.Logging
import Verif.Kern.ExpandMixed
import Verif.Spu.Env
import Verif.Driver.Workers
import Verif.Tool.Run
import Verif.Driver.Stop
