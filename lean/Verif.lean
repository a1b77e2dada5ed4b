import Verif.MemPlan.Sizes
import Verif.MemPlan.Tight
import Verif.Threads.Props
import Verif.OpSplit.Props
import Verif.OpSplit.Rewrite
import Verif.OpSplit.Mean
import Verif.OpSplit.Placeholder
import Verif.Move.Concat
import Verif.Weights.Props
import Verif.TFL.Props
import Verif.Host.Flash
import Verif.Host.Usb
import Verif.Host.Config
import Verif.Host.Search
import Verif.Host.Interp
import Verif.Host.Convert
import Verif.Host.Driver
import Verif.Host.Subgraphs
import Verif.Conv.Split
import Verif.Conv.Same
import Verif.Conv.Transpose
import Verif.Transpose.Props
import Verif.Conv.Pool
import Verif.XC.Reduce
import Verif.XC.AddSub
import Verif.Conv.LowerProps
import Verif.Conv.BConv
import Verif.Conv.MaxPool
import Verif.Conv.Revert
import Verif.Conv.RevertPass
import Verif.XC.Patterns
import Verif.XC.Options
import Verif.Shape.Dynamic
import Verif.Conv.Threaded
import Verif.Full
import Verif.Conv.Compile
import Verif.Conv.CompileProps
import Verif.Conv.CompileMore
import Verif.Net.Model
import Verif.Net.Lemmas
import Verif.Net.Lemmas2
import Verif.Net.Run
import Verif.Net.Rewrite
import Verif.Net.Props
import Verif.Net.QModel
import Verif.Net.QExpand
import Verif.Net.QArith
import Verif.Net.QShape
import Verif.Net.QConv
import Verif.Net.QOps
import Verif.Net.QTconv
import Verif.Net.QProps
import Verif.Net.WModel
import Verif.Net.WProps
import Verif.Net.RewriteLemmas
import Verif.Net.RewriteProps
import Verif.Net.RewriteTerm
import Verif.Audio.LogModel
import Verif.Audio.Log
import Verif.Audio.HypotModel
import Verif.Audio.Hypot
import Verif.Audio.MelModel
import Verif.Audio.Mel
import Verif.Audio.Masks
import Verif.Audio.CompressMel
import Verif.Audio.OverlapModel
import Verif.Audio.Overlap
import Verif.Audio.Predict
import Verif.Audio.DataPath
import Verif.FullAudio
import Verif.Host.Accept
import Verif.FullHost
import Verif.Conv.TransposeCompile
import Verif.FullTranspose
import Verif.Shipped.AudioData
import Verif.Shipped.Runtime
import Verif.Shipped.Audio
import Verif.Shipped.App
import Verif.Shipped.Shared
import Verif.Shipped.Image
import Verif.Shipped.Classify
import Verif.MemPlan.InputPlace
import Verif.Net.QRewrite
import Verif.Net.Split
import Verif.Net.SplitLemmas
import Verif.Net.SplitProps
import Verif.Net.SplitProps2
import Verif.Net.SplitNet
import Verif.Net.SplitOrder
import Verif.MemPlan.Concurrent
import Verif.MemPlan.ConcurrentProps
import Verif.MemPlan.ConcurrentSeq
import Verif.Net.Concurrent
import Verif.Net.Whole
import Verif.Net.Fuse
import Verif.Net.FuseLemmas
import Verif.Net.FuseProps
import Verif.Net.FuseCompile
import Verif.Net.FuseMain
import Verif.MemPlan.ReportMain
import Verif.Net.Blob
import Verif.Net.BlobLemmas
import Verif.Net.QBlob
import Verif.Net.BlobExample
import Verif.Net.QWide
import Verif.Conv.Wide
import Verif.Conv.WideProps
import Verif.Conv.WideMore
import Verif.Net.QConv16
import Verif.Net.QConv16Props
import Verif.Net.Drift
import Verif.Net.DriftLemmas
import Verif.Net.DriftNode
import Verif.Net.DriftOps
import Verif.Net.DriftProps
import Verif.Net.DriftRef
import Verif.Net.DriftMain
import Verif.Net.DriftExample
import Verif.Net.Bin
import Verif.Net.BinProps
import Verif.Net.BinBits
import Verif.Net.BinNet
import Verif.Conv.MarkWhole
import Verif.Net.MergeRef
import Verif.Net.Merge
import Verif.Net.MergeNet
import Verif.Net.MergeMain
import Verif.Net.MergeExample
import Verif.Net.DriftMore
import Verif.Net.SplitQ
import Verif.Net.SplitQNet
import Verif.Net.SplitQStep
import Verif.Net.SplitQConv
import Verif.Net.SplitQProps
import Verif.Net.SplitQMain
import Verif.Net.SplitQExample
import Verif.Net.EndToEnd
import Verif.Shipped.ControlProps
import Verif.Shipped.IoServer
import Verif.Host.Details
import Verif.Host.Lifetime
import Verif.XC.BetaFloat
import Verif.Shipped.Agree
import Verif.Host.UsbSession
import Verif.Host.Runner
import Verif.Host.RunModel
import Verif.Host.UsbNet
import Verif.Host.UsbQuant
import Verif.Host.TestRunner
import Verif.Host.CompileTest
import Verif.Host.DeviceTest
import Verif.Host.QuantTest
